import Verif.Proofs.SeedTree2

/-
/repo/tree.c: Merkle trees, the set of opened nodes.
-/

namespace Picnic

open Spec.Tree

theorem present_atDepth {D n : ℕ} {l : List ℕ} (hn : n ≤ 2 ^ D) : AtDepth D (Present D n l) := fun y h => leaf_atDepth hn y h.1

open Classical in
/-- Node i is marked as missing. -/
noncomputable def msn (D n : ℕ) (l : List ℕ) (i : ℕ) : Bool := decide (i ≠ 0 ∧ Node D n (i + 1) ∧ ¬ Up D (Present D n l) (i + 1))

theorem msn_iff {D n : ℕ} {l : List ℕ} {i : ℕ} : msn D n l i = true ↔ i ≠ 0 ∧ Node D n (i + 1) ∧ ¬ Up D (Present D n l) (i + 1) := by
  simp [msn]

theorem msn_leaf {D n : ℕ} {l : List ℕ} (hn : n ≤ 2 ^ D) (hD : 1 ≤ D) {i : ℕ} (hi : 2 ^ D - 1 ≤ i) (h2 : i < 2 ^ D - 1 + n) :
    msn D n l i = true ↔ Picked D l (i + 1) := by
  have : 2 ^ 1 ≤ 2 ^ D := Nat.pow_le_pow_right (by omega) hD
  rw [msn_iff, up_leaf (present_atDepth hn) (by omega), Node, up_leaf (leaf_atDepth hn) (by omega)]
  unfold Present Leaf
  constructor
  · rintro ⟨_, a, b⟩
    by_contra h
    exact b ⟨a, h⟩
  · intro h
    exact ⟨by omega, ⟨by omega, by omega⟩, fun b => b.2 h⟩

theorem msn_inner {D n : ℕ} {l : List ℕ} (hn : n ≤ 2 ^ D) {i : ℕ} (h0 : i ≠ 0) (hi : i < 2 ^ D - 1) (hx : exb D n i = true) :
    msn D n l i = (msn D n l (2 * i + 1) && (!exb D n (2 * i + 2) || msn D n l (2 * i + 2))) := by
  have hc := exb_child hn hi hx
  rw [exb_iff] at hx hc
  rw [Bool.eq_iff_iff, Bool.and_eq_true, Bool.or_eq_true, msn_iff, msn_iff, msn_iff, Bool.not_eq_true', ← Bool.not_eq_true, exb_iff,
    up_inner (present_atDepth hn) (by omega) (by omega), show 2 * (i + 1) = 2 * i + 1 + 1 by ring]
  have hr : Up D (Present D n l) (2 * i + 2 + 1) → Node D n (2 * i + 2 + 1) := fun h => up_mono (fun y h => h.1) h
  constructor
  · rintro ⟨_, _, h⟩
    refine ⟨⟨by omega, hc, fun h2 => h (Or.inl h2)⟩, ?_⟩
    by_cases hn2 : Node D n (2 * i + 2 + 1)
    · exact Or.inr ⟨by omega, hn2, fun h2 => h (Or.inr h2)⟩
    · exact Or.inl hn2
  · rintro ⟨⟨_, _, a⟩, b⟩
    refine ⟨h0, hx, ?_⟩
    rintro (h | h)
    · exact a h
    · rcases b with b | b
      · exact b (hr h)
      · exact b.2.2 h

theorem missingNodesOf_ok {D n ds : ℕ} {hv : ℕ → Bool} {vl : ℕ → Buf} {l : List ℕ} (hn2 : 2 ≤ n) (hn : n ≤ 2 ^ D) (hl : ∀ h ∈ l, h < n) :
    missingNodesOf (mkTree D n ds hv vl) l l.length = Outcome.ok (arrN (2 ^ D - 1 + n) (msn D n l)) := by
  have hp : 1 ≤ 2 ^ D := Nat.one_le_two_pow
  have hD1 : 1 ≤ D := by
    by_contra h
    rw [show D = 0 by omega] at hn
    omega
  unfold missingNodesOf
  simp only [mkTree, Nat.add_sub_cancel]
  have s1 := loop_seq (fun k => arrN (2 ^ D - 1 + n) fun i => decide (∃ j < k, i = 2 ^ D - 1 + l.getD j 0))
    (f := fun i missing => do
      let m ← rd l i
      wr missing (2 ^ D - 1 + m) true) (n := l.length) (s := List.replicate (2 ^ D - 1 + n) false) (by
        rw [arrN_const]; exact arrN_congr fun i hi => by simp) (by
        intro i hi
        have e0 : l[i] = l.getD i 0 := by rw [List.getD_eq_getElem?_getD, List.getElem?_eq_getElem hi]; rfl
        have hli := hl _ (List.getElem_mem hi)
        rw [rd_ok hi, ok_bind, wr_arrN (by omega), e0]
        congr 1
        refine arrN_congr fun x hx => ?_
        rw [Function.update_apply]
        split_ifs with h
        · rw [eq_comm, decide_eq_true_eq]; exact ⟨i, by omega, h⟩
        · rw [decide_eq_decide]
          constructor
          · rintro ⟨j, hj, e⟩; exact ⟨j, by omega, e⟩
          · rintro ⟨j, hj, e⟩
            refine ⟨j, ?_, e⟩
            by_contra hji
            exact h (by rw [e, show j = i by omega]))
  refine bind_of s1 ?_
  rw [getParent_ok (by omega), ok_bind]
  have hpk : ∀ i, (∃ j < l.length, i = 2 ^ D - 1 + l.getD j 0) ↔ Picked D l (i + 1) := by
    intro i
    constructor
    · rintro ⟨j, hj, e⟩
      refine ⟨l.getD j 0, ?_, by omega⟩
      rw [List.getD_eq_getElem?_getD, List.getElem?_eq_getElem hj]; exact List.getElem_mem _
    · rintro ⟨h, hh, e⟩
      obtain ⟨j, hj, rfl⟩ := List.getElem_of_mem hh
      refine ⟨j, hj, ?_⟩
      rw [List.getD_eq_getElem?_getD, List.getElem?_eq_getElem hj]
      simp only [Option.getD_some]
      omega
  set N := 2 ^ D - 1 + n with hN
  have hleaf : ∀ i, 2 ^ D - 1 ≤ i → i < N → decide (∃ j < l.length, i = 2 ^ D - 1 + l.getD j 0) = msn D n l i := by
    intro i h1 h2
    rw [Bool.eq_iff_iff, decide_eq_true_eq, hpk, msn_leaf hn hD1 h1 h2]
  have hin : ∀ i, i < 2 ^ D - 1 → decide (∃ j < l.length, i = 2 ^ D - 1 + l.getD j 0) = false := by
    intro i h1
    rw [decide_eq_false_iff_not]
    rintro ⟨j, _, e⟩
    omega
  have hbig : ∀ i, (N - 1 - 1) / 2 < i → i < N → decide (∃ j < l.length, i = 2 ^ D - 1 + l.getD j 0) = msn D n l i := by
    intro i h1 h2
    by_cases hi : 2 ^ D - 1 ≤ i
    · exact hleaf i hi h2
    · rw [hin i (by omega)]
      symm
      rw [← Bool.not_eq_true, msn_iff]
      rintro ⟨_, hnode, _⟩
      have := exb_lt (exb_child hn (by omega) (exb_iff.2 hnode))
      omega
  have key := loopDown_inv (fun j (m : List Bool) => m = arrN N fun i => if j < i then msn D n l i else
      decide (∃ j < l.length, i = 2 ^ D - 1 + l.getD j 0))
    (f := fun i missing => do
      let e ← treeExists (mkTree D n ds hv vl) i
      if !e then pure missing
      else do
        let er ← treeExists (mkTree D n ds hv vl) (2 * i + 2)
        if er then do
          let l ← rd missing (2 * i + 1)
          if l then do
            let r ← rd missing (2 * i + 2)
            if r then wr missing i true else pure missing
          else pure missing
        else do
          let l ← rd missing (2 * i + 1)
          if l then wr missing i true else pure missing) (n := (N - 1 - 1) / 2)
    (s := arrN N fun i => decide (∃ j < l.length, i = 2 ^ D - 1 + l.getD j 0)) ?_ ?_
  · obtain ⟨m, e, hm⟩ := key
    refine Eq.trans e ?_
    rw [hm]
    congr 1
    refine arrN_congr fun i hi => ?_
    split_ifs with h
    · rfl
    · rw [show i = 0 by omega, hin 0 (by have : 2 ^ 1 ≤ 2 ^ D := Nat.pow_le_pow_right (by omega) hD1
                                         omega)]
      symm
      rw [← Bool.not_eq_true, msn_iff]
      simp
  · refine arrN_congr fun i hi => ?_
    split_ifs with h
    · exact hbig i h hi
    · rfl
  · rintro j hj m rfl
    refine ⟨_, ?_, rfl⟩
    have hj1 : j + 1 < 2 ^ D - 1 := by omega
    have goal_of : ∀ m' : ℕ → Bool, (m' (j + 1) = msn D n l (j + 1)) → (∀ i, i ≠ j + 1 → m' i = if j + 1 < i then msn D n l i else
        decide (∃ j < l.length, i = 2 ^ D - 1 + l.getD j 0)) →
        arrN N m' = arrN N fun i => if j < i then msn D n l i else decide (∃ j < l.length, i = 2 ^ D - 1 + l.getD j 0) := by
      intro m' h1 h2
      refine arrN_congr fun i hi => ?_
      by_cases hij : i = j + 1
      · rw [hij, h1, if_pos (by omega)]
      · rw [h2 i hij]
        by_cases h3 : j + 1 < i
        · rw [if_pos h3, if_pos (by omega)]
        · rw [if_neg h3, if_neg (by omega)]
    have hset : ∀ m' : ℕ → Bool, m' = (fun i => if j + 1 < i then msn D n l i else decide (∃ j < l.length, i = 2 ^ D - 1 + l.getD j 0)) →
        msn D n l (j + 1) = true → wr (arrN N m') (j + 1) true = Outcome.ok (arrN N fun i => if j < i then msn D n l i else decide (∃ j < l.length, i = 2 ^ D - 1 + l.getD j 0)) := by
      rintro m' rfl hm
      rw [wr_arrN (by omega)]
      congr 1
      refine goal_of _ (by rw [Function.update_self, hm]) fun i hi => by rw [Function.update_of_ne hi]
    have hkeep : ∀ m' : ℕ → Bool, m' = (fun i => if j + 1 < i then msn D n l i else decide (∃ j < l.length, i = 2 ^ D - 1 + l.getD j 0)) →
        msn D n l (j + 1) = false → (pure (arrN N m') : M (List Bool)) = Outcome.ok (arrN N fun i => if j < i then msn D n l i else decide (∃ j < l.length, i = 2 ^ D - 1 + l.getD j 0)) := by
      rintro m' rfl hm
      rw [pure_eq_ok]
      congr 1
      refine goal_of _ (by rw [if_neg (by omega), hm, hin _ hj1]) fun i hi => rfl
    rw [treeExists_mk, ok_bind]
    by_cases hx : exb D n (j + 1) = true
    · have hin2 := msn_inner (l := l) hn (by omega) hj1 hx
      have hcx := exb_lt (exb_child hn hj1 hx)
      rw [hx, if_neg (by simp), treeExists_mk, ok_bind]
      by_cases hr : exb D n (2 * (j + 1) + 2) = true
      · have hrx := exb_lt hr
        rw [hr] at hin2 ⊢
        rw [if_pos rfl, rd_arrN hcx, ok_bind, if_pos (by omega : j + 1 < 2 * (j + 1) + 1)]
        rw [Bool.not_true, Bool.false_or] at hin2
        by_cases h1 : msn D n l (2 * (j + 1) + 1) = true
        · rw [if_pos h1, rd_arrN hrx, ok_bind, if_pos (by omega : j + 1 < 2 * (j + 1) + 2)]
          by_cases h2 : msn D n l (2 * (j + 1) + 2) = true
          · rw [if_pos h2]
            exact hset _ rfl (by rw [hin2, h1, h2]; rfl)
          · rw [if_neg h2]
            exact hkeep _ rfl (by rw [hin2, h1]; simpa using h2)
        · rw [if_neg h1]
          exact hkeep _ rfl (by rw [hin2]; simp [h1])
      · rw [Bool.not_eq_true] at hr
        rw [hr] at hin2 ⊢
        rw [if_neg (by simp), rd_arrN hcx, ok_bind, if_pos (by omega : j + 1 < 2 * (j + 1) + 1)]
        rw [Bool.not_false, Bool.true_or, Bool.and_true] at hin2
        by_cases h1 : msn D n l (2 * (j + 1) + 1) = true
        · rw [if_pos h1]
          exact hset _ rfl (by rw [hin2, h1])
        · rw [if_neg h1]
          exact hkeep _ rfl (by rw [hin2]; simpa using h1)
    · rw [Bool.not_eq_true] at hx
      rw [hx, if_pos (by simp)]
      refine hkeep _ rfl ?_
      rw [← Bool.not_eq_true, msn_iff]
      rintro ⟨_, h, _⟩
      rw [exb_iff.2 h] at hx
      simp at hx

theorem climbLoop_ok {D n : ℕ} {l : List ℕ} (hn : n ≤ 2 ^ D) (hne : ∃ y, Present D n l y) :
    ∀ (fuel i : ℕ), i < fuel → msn D n l i = true → ∃ r k, climbLoop (arrN (2 ^ D - 1 + n) (msn D n l)) fuel i = Outcome.ok (some r) ∧
      r + 1 = (i + 1) / 2 ^ k ∧ Top D n (Present D n l) (r + 1) := by
  intro fuel
  induction fuel with
  | zero => intro i hi; omega
  | succ fuel ih =>
    intro i hi hm
    obtain ⟨h0, hnode, hnu⟩ := msn_iff.1 hm
    have hlt := exb_lt (exb_iff.2 hnode)
    rw [climbLoop, getParent_ok h0, ok_bind, rd_arrN (by omega), ok_bind]
    by_cases hp : msn D n l ((i - 1) / 2) = true
    · have hp0 := (msn_iff.1 hp).1
      obtain ⟨r, k, e, e2, ht⟩ := ih _ (by omega) hp
      refine ⟨r, k + 1, ?_, ?_, ht⟩
      · rw [hp, if_neg (by simp), if_pos (by rw [bne_iff_ne]; exact hp0), e]
      · rw [e2, pow_succ', ← Nat.div_div_eq_div_mul]
        congr 1; omega
    · refine ⟨i, 0, ?_, by simp, hnode, by omega, hnu, ?_⟩
      · rw [Bool.not_eq_true] at hp; rw [hp, if_pos (by simp), pure_eq_ok]
      · rw [show (i + 1) / 2 = (i - 1) / 2 + 1 by omega]
        by_contra hnup
        by_cases h1 : (i - 1) / 2 = 0
        · rw [h1] at hnup
          exact hnup ((up_root (present_atDepth hn)).2 hne)
        · refine hp (msn_iff.2 ⟨h1, ?_, hnup⟩)
          have := exb_parent hn h0 (exb_iff.2 hnode)
          exact exb_iff.1 this

/-- The nodes that are opened for a list of missing leaves. -/
theorem getRevealedMerkleNodes_ok {D n : ℕ} {l : List ℕ} (hn2 : 2 ≤ n) (hn : n ≤ 2 ^ D) (hl : ∀ h ∈ l, h < n) (hne : ∃ y, Present D n l y) :
    ∃ rv : List ℕ, (∀ ds hv vl, getRevealedMerkleNodes (mkTree D n ds hv vl) l l.length = Outcome.ok rv) ∧ rv.Nodup ∧
      ∀ r, r ∈ rv ↔ Top D n (Present D n l) (r + 1) := by
  classical
  have hS := present_atDepth (l := l) hn
  have hp : 1 ≤ 2 ^ D := Nat.one_le_two_pow
  have hD1 : 1 ≤ D := by
    by_contra h
    rw [show D = 0 by omega] at hn
    omega
  have hpm : ∀ h ∈ l, msn D n l (h + (2 ^ D - 1)) = true := by
    intro h hh
    have := hl h hh
    rw [msn_leaf hn hD1 (by omega) (by omega)]
    exact ⟨h, hh, by omega⟩
  obtain ⟨rv, hrun, hnd, hR, hall⟩ := loop_inv_fam (τ := ℕ × (ℕ → Bool) × (ℕ → Buf))
    (fun i (rv : List ℕ) => rv.Nodup ∧ (∀ r ∈ rv, Top D n (Present D n l) (r + 1)) ∧
      ∀ j < i, ∃ r ∈ rv, ∃ k, r + 1 = (2 ^ D + l.getD j 0) / 2 ^ k)
    (f := fun t i revealed => do
      let m ← rd l i
      let node := m + (2 ^ D - 1)
      let r ← climbLoop (arrN (2 ^ D - 1 + n) (msn D n l)) (node + 1) node
      match r with
      | some node => addRevealed (mkTree D n t.1 t.2.1 t.2.2) revealed node
      | none => pure revealed)
    (n := l.length) (s := []) ⟨List.nodup_nil, by simp, by omega⟩ (by
      rintro i hi rv ⟨a, b, c⟩
      have e0 : l[i] = l.getD i 0 := by rw [List.getD_eq_getElem?_getD, List.getElem?_eq_getElem hi]; rfl
      have hmem : l[i] ∈ l := List.getElem_mem hi
      obtain ⟨r, k, e, e2, ht⟩ := climbLoop_ok hn hne (l[i] + (2 ^ D - 1) + 1) _ (by omega) (hpm _ hmem)
      have e3 : r + 1 = (2 ^ D + l.getD i 0) / 2 ^ k := by rw [e2, ← e0]; congr 1; omega
      by_cases hm : r ∈ rv
      · refine ⟨rv, fun t => ?_, a, b, fun j hj => ?_⟩
        · rw [rd_ok hi, ok_bind]
          dsimp only
          rw [e, ok_bind]
          dsimp only
          rw [addRevealed, if_pos (by simpa [containsNode] using hm), pure_eq_ok]
        · by_cases hji : j = i
          · subst hji; exact ⟨r, hm, k, e3⟩
          · exact c j (by omega)
      · have hnd : (rv ++ [r]).Nodup := by
          rw [List.nodup_append]
          refine ⟨a, by simp, fun x hx y hy => ?_⟩
          simp only [List.mem_singleton] at hy
          rintro rfl
          exact hm (hy ▸ hx)
        have hR' : ∀ x ∈ rv ++ [r], Top D n (Present D n l) (x + 1) := by
          intro x hx
          rw [List.mem_append, List.mem_singleton] at hx
          rcases hx with hx | hx
          · exact b x hx
          · rw [hx]; exact ht
        have hlen : rv.length < n := by
          have hcard := antichain_card (D := D) (n := n) ((rv ++ [r]).toFinset.image (· + 1)) (by
            intro y hy
            rw [Finset.mem_image] at hy
            obtain ⟨x, hx, rfl⟩ := hy
            exact (hR' x (List.mem_toFinset.1 hx)).1) (by
            intro x hx x' hx' y p q e e'
            rw [Finset.mem_image] at hx hx'
            obtain ⟨x, hx, rfl⟩ := hx
            obtain ⟨x', hx', rfl⟩ := hx'
            have hx := hR' x (List.mem_toFinset.1 hx)
            have hx' := hR' x' (List.mem_toFinset.1 hx')
            rw [← e] at hx
            rw [← e'] at hx'
            have := top_unique hS hx hx'
            rw [← e, ← e', this])
          rw [Finset.card_image_of_injective _ (add_left_injective 1), List.toFinset_card_of_nodup hnd, List.length_append] at hcard
          simpa using hcard
        refine ⟨rv ++ [r], fun t => ?_, hnd, hR', fun j hj => ?_⟩
        · rw [rd_ok hi, ok_bind]
          dsimp only
          rw [e, ok_bind]
          dsimp only
          rw [addRevealed, if_neg (by simpa [containsNode] using hm), if_pos hlen, pure_eq_ok]
        · by_cases hji : j = i
          · subst hji; exact ⟨r, by simp, k, e3⟩
          · obtain ⟨x, hx, q⟩ := c j (by omega)
            exact ⟨x, by simp [hx], q⟩)
  refine ⟨rv, fun ds hv vl => ?_, hnd, fun r => ⟨hR r, fun ht => ?_⟩⟩
  · unfold getRevealedMerkleNodes
    rw [missingNodesOf_ok hn2 hn hl, ok_bind]
    have := hrun (ds, hv, vl)
    simp only [mkTree, Nat.add_sub_cancel]
    exact this
  · obtain ⟨y, k, hy, hk, e⟩ := ht.1
    have hnp : Picked D l y := by
      by_contra h
      exact ht.2.2.1 ⟨y, k, ⟨hy, h⟩, hk, e⟩
    obtain ⟨h, hh, rfl⟩ := hnp
    obtain ⟨j, hj, rfl⟩ := List.getElem_of_mem hh
    obtain ⟨r', hr', k', e'⟩ := hall j hj
    rw [List.getD_eq_getElem?_getD, List.getElem?_eq_getElem hj, Option.getD_some] at e'
    have h1 := hR r' hr'
    rw [e'] at h1
    have h2 := ht
    rw [← e] at h2
    have := top_unique hS h1 h2
    rw [this, e] at e'
    rwa [show r = r' by omega]

end Picnic
