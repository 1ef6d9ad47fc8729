import Verif.Proofs.P3Tree
import Verif.Spec.Picnic3

/-
The nodes of a seed tree that are revealed, and the nodes of a Merkle tree that are opened, in the order in which the library
puts them into a signature.
-/

namespace Picnic

open Spec.Tree Spec.Challenge Spec.Picnic3

/-- Append an element unless it is there already. -/
def addNew (acc : List ℕ) (x : ℕ) : List ℕ := if x ∈ acc then acc else acc ++ [x]

theorem firsts_eq (L : List ℕ) : firsts L = L.foldl addNew [] := rfl

theorem foldl_addNew_pred : ∀ (L acc : List ℕ), (∀ x ∈ L, 1 ≤ x) → (∀ x ∈ acc, 1 ≤ x) →
    (L.map (· - 1)).foldl addNew (acc.map (· - 1)) = (L.foldl addNew acc).map (· - 1) := by
  intro L
  induction L with
  | nil => intro acc _ _; rfl
  | cons x L ih =>
    intro acc hL ha
    have hx := hL x (by simp)
    have e : addNew (acc.map (· - 1)) (x - 1) = (addNew acc x).map (· - 1) := by
      unfold addNew
      by_cases hm : x ∈ acc
      · rw [if_pos hm, if_pos (List.mem_map.2 ⟨x, hm, rfl⟩)]
      · rw [if_neg hm, if_neg, List.map_append]; · rfl
        intro h
        obtain ⟨y, hy, e⟩ := List.mem_map.1 h
        have := ha y hy
        exact hm ((by omega : y = x) ▸ hy)
    rw [List.map_cons, List.foldl_cons, List.foldl_cons, e]
    refine ih _ (fun y hy => hL y (by simp [hy])) fun y hy => ?_
    unfold addNew at hy
    split_ifs at hy
    · exact ha y hy
    · rw [List.mem_append, List.mem_singleton] at hy
      rcases hy with h | h
      · exact ha y h
      · omega

theorem firsts_pred {L : List ℕ} (h : ∀ x ∈ L, 1 ≤ x) : (firsts L).map (· - 1) = firsts (L.map (· - 1)) := by
  rw [firsts_eq, firsts_eq, ← foldl_addNew_pred L [] h (by simp)]; rfl

open Classical in
theorem dsc_eq {D n x : ℕ} (hn : 1 ≤ n) : dsc D n x = if Leaf D n (2 * x) ∧ ¬ Leaf D n (2 * x + 1) then 2 * x else x := by
  unfold dsc
  have e : (2 * x < 2 ^ D + n ∧ 2 ^ D + n ≤ 2 * x + 1) ↔ (Leaf D n (2 * x) ∧ ¬ Leaf D n (2 * x + 1)) := by
    unfold Leaf; omega
  by_cases h : Leaf D n (2 * x) ∧ ¬ Leaf D n (2 * x + 1)
  · rw [if_pos h, if_pos (e.2 h)]
  · rw [if_neg h, if_neg (fun h2 => h (e.1 h2))]

/-! ### seed trees -/

open Classical in
/-- What level `d` of the path of leaf `h` contributes. -/
noncomputable def contrib (D n : ℕ) (l : List ℕ) (d h : ℕ) : Option ℕ :=
  if Node D n (sib ((2 ^ D + h) / 2 ^ d)) ∧ ¬ Up D (Picked D l) (sib ((2 ^ D + h) / 2 ^ d)) then some (dsc D n (sib ((2 ^ D + h) / 2 ^ d))) else none

open Classical in
theorem getRevealedNodes_order {D n : ℕ} {l : List ℕ} (h1 : 1 ≤ D) (hn1 : 1 ≤ n) (hn : n ≤ 2 ^ D) (hl : ∀ h ∈ l, h < n) (ds : ℕ) (hv : ℕ → Bool) (vl : ℕ → Buf) :
    getRevealedNodes (mkTree D n ds hv vl) l l.length =
      Outcome.ok (firsts (((List.range D).flatMap fun d => l.filterMap (contrib D n l d)).map (· - 1))) := by
  have hstep : ∀ d < D, ∀ i < l.length, ∀ rv : List ℕ, rv.Nodup → (∀ r ∈ rv, Rev D n (Picked D l) (r + 1)) →
      ∃ rv', (∀ t : ℕ × (ℕ → Bool) × (ℕ → Buf), revealStep (mkTree D n t.1 t.2.1 t.2.2) (psAll D l) l.length d i rv = Outcome.ok rv') ∧ rv'.Nodup ∧ (∀ r ∈ rv', Rev D n (Picked D l) (r + 1)) ∧
        rv' = ((contrib D n l d (l.getD i 0)).toList.map (· - 1)).foldl addNew rv := by
    intro d hd i hi rv a b
    obtain ⟨rv2, e2, a2, b2, -, -, e⟩ := revealStep_ok hn1 hn hl hd hi a b
    refine ⟨rv2, e2, a2, b2, ?_⟩
    rw [e]
    unfold contrib
    by_cases hc : Node D n (sib ((2 ^ D + l.getD i 0) / 2 ^ d)) ∧ ¬ Up D (Picked D l) (sib ((2 ^ D + l.getD i 0) / 2 ^ d))
    · rw [if_pos hc, if_pos hc]; rfl
    · rw [if_neg hc, if_neg hc]; rfl
  obtain ⟨rv, hrun, -, -, e⟩ := loop_inv_fam (τ := ℕ × (ℕ → Bool) × (ℕ → Buf))
    (fun d (rv : List ℕ) => rv.Nodup ∧ (∀ r ∈ rv, Rev D n (Picked D l) (r + 1)) ∧
      rv = (((List.range d).flatMap fun d => l.filterMap (contrib D n l d)).map (· - 1)).foldl addNew [])
    (f := fun t d revealed => loop (fun i revealed => revealStep (mkTree D n t.1 t.2.1 t.2.2) (psAll D l) l.length d i revealed) l.length revealed)
    (n := D) (s := []) ⟨List.nodup_nil, by simp, by simp⟩ (by
      rintro d hd rv ⟨a, b, c⟩
      obtain ⟨rv', e, a', b', c'⟩ := loop_inv_fam (τ := ℕ × (ℕ → Bool) × (ℕ → Buf))
        (fun i (rv' : List ℕ) => rv'.Nodup ∧ (∀ r ∈ rv', Rev D n (Picked D l) (r + 1)) ∧
          rv' = (((l.take i).filterMap (contrib D n l d)).map (· - 1)).foldl addNew rv)
        (f := fun t i revealed => revealStep (mkTree D n t.1 t.2.1 t.2.2) (psAll D l) l.length d i revealed)
        (n := l.length) (s := rv) ⟨a, b, by simp⟩ (by
          rintro i hi rv1 ⟨a1, b1, c1⟩
          obtain ⟨rv2, e2, a2, b2, c2⟩ := hstep d hd i hi rv1 a1 b1
          refine ⟨rv2, e2, a2, b2, ?_⟩
          rw [c2, c1, List.take_succ_eq_append_getElem hi, List.filterMap_append, List.map_append, List.foldl_append,
            List.getD_eq_getElem _ _ hi]
          cases hc : contrib D n l d l[i] <;> simp [hc])
      refine ⟨rv', e, a', b', ?_⟩
      rw [c', List.take_length, c, List.range_succ, List.flatMap_append, List.map_append, List.foldl_append]
      simp)
  unfold getRevealedNodes
  rw [getPathSets_ok h1 hn hl, ok_bind, firsts_eq, ← e]
  exact hrun (ds, hv, vl)

/-- The nodes that the library reveals. -/
theorem revN_eq {D n : ℕ} {l : List ℕ} (h1 : 1 ≤ D) (hn1 : 1 ≤ n) (hn : n ≤ 2 ^ D) (hl : ∀ h ∈ l, h < n) :
    revN D n l = (revealed D n l).map (· - 1) := by
  classical
  have e : revealed D n l = firsts ((List.range D).flatMap fun d => l.filterMap (contrib D n l d)) := by
    unfold revealed
    congr 2
    funext d
    congr 1
    funext h
    unfold contrib
    dsimp only
    rw [dsc_eq hn1]
    rfl
  rw [e, firsts_pred]
  · unfold revN
    rw [getRevealedNodes_order h1 hn1 hn hl]
  · intro x hx
    obtain ⟨d, hd, hx⟩ := List.mem_flatMap.1 hx
    obtain ⟨h, hh, e⟩ := List.mem_filterMap.1 hx
    unfold contrib at e
    split_ifs at e with hc
    injection e with e
    have := up_pos (leaf_atDepth hn) hc.1
    unfold dsc at e
    split_ifs at e <;> omega

theorem revealed_mem {D n : ℕ} {l : List ℕ} (h1 : 1 ≤ D) (hn1 : 1 ≤ n) (hn : n ≤ 2 ^ D) (hl : ∀ h ∈ l, h < n) {x : ℕ} :
    x ∈ revealed D n l ↔ 1 ≤ x ∧ x - 1 ∈ revN D n l := by
  classical
  have hpos : ∀ x ∈ revealed D n l, 1 ≤ x := by
    intro x hx
    have : ∀ (L acc : List ℕ), (∀ x ∈ L, 1 ≤ x) → (∀ x ∈ acc, 1 ≤ x) → ∀ x ∈ L.foldl addNew acc, 1 ≤ x := by
      intro L
      induction L with
      | nil => intro acc _ h; exact h
      | cons y L ih =>
        intro acc hL ha
        rw [List.foldl_cons]
        refine ih _ (fun z hz => hL z (by simp [hz])) fun z hz => ?_
        unfold addNew at hz
        split_ifs at hz
        · exact ha z hz
        · rw [List.mem_append, List.mem_singleton] at hz
          rcases hz with h | h
          · exact ha z h
          · rw [h]; exact hL y (by simp)
    refine this _ [] (fun y hy => ?_) (by simp) x hx
    obtain ⟨d, hd, hy⟩ := List.mem_flatMap.1 hy
    obtain ⟨h, hh, e⟩ := List.mem_filterMap.1 hy
    dsimp only at e
    split_ifs at e with hc
    all_goals
      have := up_pos (leaf_atDepth hn) hc.1
      injection e with e
      omega
  rw [revN_eq h1 hn1 hn hl, List.mem_map]
  constructor
  · intro h; exact ⟨hpos x h, x, h, rfl⟩
  · rintro ⟨h, y, hy, e⟩
    have := hpos y hy
    rwa [show x = y by omega]

/-! ### Merkle trees -/

open Classical in
/-- The highest node above leaf `h` without leaves that are present. -/
theorem findGreatest_top {D n : ℕ} {l : List ℕ} (hn : n ≤ 2 ^ D) (hl : ∀ h ∈ l, h < n) (hne : ∃ y, Present D n l y) {h : ℕ} (hh : h ∈ l) :
    Top D n (Present D n l) ((2 ^ D + h) / 2 ^ Nat.findGreatest (fun k => ¬ Up D (Present D n l) ((2 ^ D + h) / 2 ^ k)) D) := by
  have hS := present_atDepth (l := l) hn
  have hlt := hl h hh
  set p := fun k => ¬ Up D (Present D n l) ((2 ^ D + h) / 2 ^ k) with hp
  have hp0 : p 0 := by
    change ¬ Up D (Present D n l) ((2 ^ D + h) / 2 ^ 0)
    rw [pow_zero, Nat.div_one, up_leaf hS (by omega)]
    exact fun h2 => h2.2 ⟨h, hh, rfl⟩
  have hpk : p (Nat.findGreatest p D) := Nat.findGreatest_spec (Nat.zero_le D) hp0
  have hle : Nat.findGreatest p D ≤ D := Nat.findGreatest_le D
  have hroot : ¬ p D := by
    intro h2
    apply h2
    have hr := div_pow_range (D := D) (k := D) (y := 2 ^ D + h) le_rfl (by omega) (by rw [pow_succ]; omega)
    have e1 : (2 ^ D + h) / 2 ^ D = 1 := by rw [Nat.sub_self] at hr; omega
    rw [e1]
    exact (up_root hS).2 hne
  have hltD : Nat.findGreatest p D < D := by
    rcases Nat.lt_or_ge (Nat.findGreatest p D) D with h2 | h2
    · exact h2
    · rw [show Nat.findGreatest p D = D by omega] at hpk
      exact absurd hpk hroot
  have hnext : ¬ p (Nat.findGreatest p D + 1) := by
    intro h2
    have := Nat.le_findGreatest (m := Nat.findGreatest p D + 1) (n := D) (by omega) h2
    omega
  have hr := div_pow_range (D := D) (k := Nat.findGreatest p D) (y := 2 ^ D + h) hle (by omega) (by rw [pow_succ]; omega)
  refine ⟨⟨2 ^ D + h, _, ⟨by omega, by omega⟩, hle, rfl⟩, ?_, hpk, ?_⟩
  · have : 2 ^ 1 ≤ 2 ^ (D - Nat.findGreatest p D) := Nat.pow_le_pow_right (by omega) (by omega)
    change 2 ≤ (2 ^ D + h) / 2 ^ Nat.findGreatest p D
    omega
  · have h3 : Up D (Present D n l) ((2 ^ D + h) / 2 ^ (Nat.findGreatest p D + 1)) := not_not.1 hnext
    rwa [pow_succ, ← Nat.div_div_eq_div_mul] at h3

open Classical in
theorem getRevealedMerkleNodes_order {D n : ℕ} {l : List ℕ} (hn2 : 2 ≤ n) (hn : n ≤ 2 ^ D) (hl : ∀ h ∈ l, h < n) (hne : ∃ y, Present D n l y)
    (ds : ℕ) (hv : ℕ → Bool) (vl : ℕ → Buf) :
    getRevealedMerkleNodes (mkTree D n ds hv vl) l l.length = Outcome.ok (firsts ((l.map fun h =>
      (2 ^ D + h) / 2 ^ Nat.findGreatest (fun k => ¬ Up D (Present D n l) ((2 ^ D + h) / 2 ^ k)) D).map (· - 1))) := by
  have hS := present_atDepth (l := l) hn
  have hp : 1 ≤ 2 ^ D := Nat.one_le_two_pow
  have hD1 : 1 ≤ D := by
    by_contra h
    rw [show D = 0 by omega] at hn
    omega
  have hpm : ∀ h ∈ l, msn D n l (h + (2 ^ D - 1)) = true := by
    intro h hh
    have := hl h hh
    rw [msn_leaf hn hD1 (by omega) (by omega)]
    exact ⟨h, hh, by omega⟩
  obtain ⟨F, hF⟩ : ∃ F : ℕ → ℕ, F = fun h => (2 ^ D + h) / 2 ^ Nat.findGreatest (fun k => ¬ Up D (Present D n l) ((2 ^ D + h) / 2 ^ k)) D := ⟨_, rfl⟩
  rw [← hF]
  obtain ⟨rv, hrun, -, -, e⟩ := loop_inv_fam (τ := ℕ × (ℕ → Bool) × (ℕ → Buf))
    (fun i (rv : List ℕ) => rv.Nodup ∧ (∀ r ∈ rv, Top D n (Present D n l) (r + 1)) ∧
      rv = (((l.take i).map F).map (· - 1)).foldl addNew [])
    (f := fun t i revealed => do
      let m ← rd l i
      let node := m + (2 ^ D - 1)
      let r ← climbLoop (arrN (2 ^ D - 1 + n) (msn D n l)) (node + 1) node
      match r with
      | some node => addRevealed (mkTree D n t.1 t.2.1 t.2.2) revealed node
      | none => pure revealed)
    (n := l.length) (s := []) ⟨List.nodup_nil, by simp, by simp⟩ (by
      rintro i hi rv ⟨a, b, c⟩
      have hmem : l[i] ∈ l := List.getElem_mem hi
      obtain ⟨r, k, e, e2, ht⟩ := climbLoop_ok hn hne (l[i] + (2 ^ D - 1) + 1) _ (by omega) (hpm _ hmem)
      have er : r = F l[i] - 1 := by
        have h1 := findGreatest_top hn hl hne hmem
        rw [e2, show l[i] + (2 ^ D - 1) + 1 = 2 ^ D + l[i] by omega] at ht
        have := top_unique hS ht h1
        rw [show l[i] + (2 ^ D - 1) + 1 = 2 ^ D + l[i] by omega, this] at e2
        rw [hF]
        dsimp only
        omega
      have ef : (((l.take (i + 1)).map F).map (· - 1)).foldl addNew [] = addNew rv r := by
        rw [List.take_succ_eq_append_getElem hi, List.map_append, List.map_append, List.foldl_append, ← c, er]; rfl
      rw [ef]
      by_cases hm : r ∈ rv
      · refine ⟨rv, fun t => ?_, a, b, by unfold addNew; rw [if_pos hm]⟩
        rw [rd_ok hi, ok_bind]
        dsimp only
        rw [e, ok_bind]
        dsimp only
        rw [addRevealed, if_pos (by simpa [containsNode] using hm), pure_eq_ok]
      · have hnd : (rv ++ [r]).Nodup := by
          rw [List.nodup_append]
          refine ⟨a, by simp, fun x hx y hy => ?_⟩
          simp only [List.mem_singleton] at hy
          rintro rfl
          exact hm (hy ▸ hx)
        have hR' : ∀ x ∈ rv ++ [r], Top D n (Present D n l) (x + 1) := by
          intro x hx
          rw [List.mem_append, List.mem_singleton] at hx
          rcases hx with hx | hx
          · exact b x hx
          · rw [hx]; exact ht
        have hlen : rv.length < n := by
          have hcard := antichain_card (D := D) (n := n) ((rv ++ [r]).toFinset.image (· + 1)) (by
            intro y hy
            rw [Finset.mem_image] at hy
            obtain ⟨x, hx, rfl⟩ := hy
            exact (hR' x (List.mem_toFinset.1 hx)).1) (by
            intro x hx x' hx' y p q e e'
            rw [Finset.mem_image] at hx hx'
            obtain ⟨x, hx, rfl⟩ := hx
            obtain ⟨x', hx', rfl⟩ := hx'
            have hx := hR' x (List.mem_toFinset.1 hx)
            have hx' := hR' x' (List.mem_toFinset.1 hx')
            rw [← e] at hx
            rw [← e'] at hx'
            have := top_unique hS hx hx'
            rw [← e, ← e', this])
          rw [Finset.card_image_of_injective _ (add_left_injective 1), List.toFinset_card_of_nodup hnd, List.length_append] at hcard
          simpa using hcard
        refine ⟨rv ++ [r], fun t => ?_, hnd, hR', by unfold addNew; rw [if_neg hm]⟩
        rw [rd_ok hi, ok_bind]
        dsimp only
        rw [e, ok_bind]
        dsimp only
        rw [addRevealed, if_neg (by simpa [containsNode] using hm), if_pos hlen, pure_eq_ok])
  unfold getRevealedMerkleNodes
  rw [missingNodesOf_ok hn2 hn hl, ok_bind]
  have := hrun (ds, hv, vl)
  rw [List.take_length] at e
  rw [firsts_eq, ← e]
  simp only [mkTree, Nat.add_sub_cancel]
  exact this

/-- The nodes that the library opens. -/
theorem mrevN_eq {D n : ℕ} {l : List ℕ} (h2 : 2 ≤ n) (hn : n ≤ 2 ^ D) (hl : ∀ h ∈ l, h < n) (hne : ∃ y, Present D n l y) :
    mrevN D n l = (opened D n l).map (· - 1) := by
  classical
  unfold opened
  rw [firsts_pred]
  · unfold mrevN
    rw [getRevealedMerkleNodes_order h2 hn hl hne]
  · intro x hx
    obtain ⟨h, hh, rfl⟩ := List.mem_map.1 hx
    have := (findGreatest_top hn hl hne hh).2.1
    omega

theorem opened_pos {D n : ℕ} {l : List ℕ} (hn : n ≤ 2 ^ D) (hl : ∀ h ∈ l, h < n) (hne : ∃ y, Present D n l y) {x : ℕ} (hx : x ∈ opened D n l) : 1 ≤ x := by
  classical
  have : ∀ (L acc : List ℕ), (∀ x ∈ L, 1 ≤ x) → (∀ x ∈ acc, 1 ≤ x) → ∀ x ∈ L.foldl addNew acc, 1 ≤ x := by
    intro L
    induction L with
    | nil => intro acc _ h; exact h
    | cons y L ih =>
      intro acc hL ha
      rw [List.foldl_cons]
      refine ih _ (fun z hz => hL z (by simp [hz])) fun z hz => ?_
      unfold addNew at hz
      split_ifs at hz
      · exact ha z hz
      · rw [List.mem_append, List.mem_singleton] at hz
        rcases hz with h | h
        · exact ha z h
        · rw [h]; exact hL y (by simp)
  refine this _ [] (fun y hy => ?_) (by simp) x hx
  obtain ⟨h, hh, rfl⟩ := List.mem_map.1 hy
  have := (findGreatest_top hn hl hne hh).2.1
  omega

end Picnic
