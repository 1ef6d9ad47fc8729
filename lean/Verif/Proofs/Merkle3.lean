import Verif.Proofs.Merkle2

/-
/repo/tree.c: buildMerkleTree, openMerkleTree, addMerkleNodes, verifyMerkleTree.
-/

namespace Picnic

open Spec.Tree

theorem leafVl_length {D ds m i : ℕ} {vl : ℕ → Buf} {ld : ℕ → Option Buf} (hvl : ∀ i, (vl i).length = ds)
    (hld : ∀ j < m, ∀ d, ld j = some d → ds ≤ d.length) : (leafVl D ds vl ld m i).length = ds := by
  unfold leafVl
  split_ifs with h
  · cases hd : ld (i - (2 ^ D - 1)) with
    | none => simpa using hvl i
    | some d =>
      have := hld _ (by omega) d hd
      simp; omega
  · exact hvl i

/-- Flags and contents of a freshly built tree. -/
noncomputable def bHv (D n : ℕ) (ld : ℕ → Option Buf) : ℕ → Bool := mhv D n (leafHv D (fun _ => false) ld n)

noncomputable def bVl (E : Env) (P : Params) (salt : Buf) (D n : ℕ) (ld : ℕ → Option Buf) : ℕ → Buf :=
  mvl E P salt D n (leafHv D (fun _ => false) ld n) (leafVl D P.digestSizeBytes (fun _ => zeros P.digestSizeBytes) ld n)

theorem buildMerkleTree_ok {E : Env} {P : Params} {D n : ℕ} {salt : Buf} {ld : ℕ → Option Buf} (hE : PermWF E) (hP : MerkleWF P)
    (hn : n ≤ 2 ^ D) (hsalt : salt.length = P.saltSizeBytes) (hld : ∀ j < n, ∀ d, ld j = some d → P.digestSizeBytes ≤ d.length) :
    buildMerkleTree E P (mkTree D n P.digestSizeBytes (fun _ => false) fun _ => zeros P.digestSizeBytes) (arrN n ld) salt =
      Outcome.ok (mkTree D n P.digestSizeBytes (bHv D n ld) (bVl E P salt D n ld)) := by
  unfold buildMerkleTree
  refine bind_of (setLeaves_ok (by simp) fun j hj d hd => ⟨hld j hj d hd, by simp⟩) ?_
  dsimp only
  rw [hashUp_ok hE hP hn hsalt fun i => leafVl_length (by simp) hld]
  rfl

theorem foldlM_open {D n ds : ℕ} {hv : ℕ → Bool} {vl : ℕ → Buf} :
    ∀ (rv : List ℕ) (out : Buf) (off : ℕ), (∀ r ∈ rv, r < 2 ^ D - 1 + n) → (∀ r ∈ rv, (vl r).length = ds) →
      off + rv.length * ds ≤ out.length →
      rv.foldlM (fun (st : Buf × Nat) node => do
        let src ← rd (mkTree D n ds hv vl).nodes node
        let out ← memcpy st.1 st.2 src 0 (mkTree D n ds hv vl).dataSize
        pure (out, st.2 + (mkTree D n ds hv vl).dataSize)) (out, off) =
        (Outcome.ok (out.take off ++ rv.flatMap vl ++ out.drop (off + rv.length * ds), off + rv.length * ds) : M (Buf × Nat)) := by
  intro rv
  induction rv with
  | nil => intro out off _ _ _; simp [pure_eq_ok]
  | cons r rv ih =>
    intro out off h1 h2 h4
    have hr := h1 r (by simp)
    have hl := h2 r (by simp)
    rw [List.length_cons, Nat.add_mul, Nat.one_mul] at h4
    rw [List.foldlM_cons]
    dsimp only
    rw [rd_arrN hr, ok_bind, memcpy_ok (by omega) (by omega), ok_bind, pure_eq_ok, ok_bind, List.drop_zero, List.take_of_length_le hl.le]
    have hlen : (List.take off out ++ vl r ++ List.drop (off + ds) out).length = out.length := by
      simp only [List.length_append, List.length_take, List.length_drop, hl]; omega
    have ih2 := ih (out.take off ++ vl r ++ out.drop (off + ds)) (off + ds)
      (fun x hx => h1 x (by simp [hx])) (fun x hx => h2 x (by simp [hx])) (by rw [hlen]; omega)
    refine Eq.trans ih2 ?_
    have e1 : (out.take off ++ vl r).length = off + ds := by
      rw [List.length_append, List.length_take, hl]; omega
    have e2 : List.take (off + ds) (out.take off ++ vl r ++ out.drop (off + ds)) = out.take off ++ vl r := by
      rw [← e1, List.take_left]
    have e3 : List.drop (off + ds + rv.length * ds) (out.take off ++ vl r ++ out.drop (off + ds)) =
        out.drop (off + ds + rv.length * ds) := by
      rw [List.drop_append, e1, List.drop_eq_nil_of_le (by omega), List.nil_append, List.drop_drop]
      congr 1; omega
    rw [e2, e3, List.length_cons, Nat.add_mul, Nat.one_mul]
    congr 2
    · rw [List.flatMap_cons]
      simp only [List.append_assoc]
      congr 4
      omega
    · omega

theorem openMerkleTree_ok {E : Env} {D n ds : ℕ} {hv : ℕ → Bool} {vl : ℕ → Buf} {l rv : List ℕ}
    (hrun : getRevealedMerkleNodes (mkTree D n ds hv vl) l l.length = Outcome.ok rv) (h1 : ∀ r ∈ rv, r < 2 ^ D - 1 + n)
    (h2 : ∀ r ∈ rv, (vl r).length = ds) :
    openMerkleTree E (mkTree D n ds hv vl) l l.length = Outcome.ok (rv.flatMap vl, rv.length * ds) := by
  unfold openMerkleTree
  rw [hrun, ok_bind]
  refine bind_of (foldlM_open rv _ 0 h1 h2 (by simp)) ?_
  dsimp only
  rw [pure_eq_ok, List.take_zero, List.nil_append, List.drop_eq_nil_of_le (by simp), List.append_nil]

theorem openMerkleTreeSize_ok {P : Params} {n : ℕ} {l rv : List ℕ} (h1 : 1 ≤ n) (h2 : n < 2 ^ 32)
    (hrun : ∀ ds hv vl, getRevealedMerkleNodes (mkTree (ceilLog2 n) n ds hv vl) l l.length = Outcome.ok rv) :
    openMerkleTreeSize P n l l.length = Outcome.ok (rv.length * P.digestSizeBytes) := by
  unfold openMerkleTreeSize
  rw [createTree_ok h1 h2, ok_bind, hrun, ok_bind, pure_eq_ok]

/-- The contents of the opened nodes. -/
def inVl (ds : ℕ) (rv : List ℕ) (input : Buf) (i : ℕ) : Buf :=
  if i ∈ rv then (input.drop (rv.idxOf i * ds)).take ds else zeros ds

theorem inVl_length {ds : ℕ} {rv : List ℕ} {input : Buf} (h : rv.length * ds ≤ input.length) (i : ℕ) : (inVl ds rv input i).length = ds := by
  unfold inVl
  split_ifs with hi
  · have h5 := List.idxOf_lt_length_iff.2 hi
    have h6 : (rv.idxOf i + 1) * ds ≤ rv.length * ds := Nat.mul_le_mul_right _ h5
    rw [Nat.add_mul, Nat.one_mul] at h6
    rw [List.length_take, List.length_drop]; omega
  · simp

theorem addMerkleNodes_ok {D n ds : ℕ} {l rv : List ℕ} {input : Buf} (hlen : l.length < n)
    (hrun : getRevealedMerkleNodes (mkTree D n ds (fun _ => false) fun _ => zeros ds) l l.length = Outcome.ok rv)
    (hnd : rv.Nodup) (hex : ∀ r ∈ rv, exb D n r = true) (h0 : 0 ∉ rv)
    (hs : input.length = rv.length * ds) (hs3 : rv.length * ds ≤ INT_MAX) :
    addMerkleNodes (mkTree D n ds (fun _ => false) fun _ => zeros ds) l l.length input (rv.length * ds) =
      Outcome.ok (true, mkTree D n ds (fun i => decide (i ∈ rv)) (inVl ds rv input)) := by
  unfold addMerkleNodes assertM
  rw [if_pos (by simpa using hlen), pure_eq_ok, ok_bind, if_neg (by omega), hrun, ok_bind, if_pos (by simp [containsNode]; intro x hx h; exact h0 (h ▸ hx)), ok_bind]
  refine bind_of (foldlM_set (ds := ds) rv (rv.length * ds : ℕ) 0 _ _ hnd (fun r hr => exb_lt (hex r hr)) (by simp) le_rfl (by omega)) ?_
  dsimp only
  rw [if_neg (by simp), sub_self, if_neg (by simp), pure_eq_ok]
  congr 2
  exact mkTree_congr (fun i _ => by simp) fun i _ => by simp [inVl]

/-- Flags and contents of a tree verified from opened nodes. -/
noncomputable def vHv (D n : ℕ) (rv : List ℕ) (ld : ℕ → Option Buf) : ℕ → Bool := mhv D n (leafHv D (fun i => decide (i ∈ rv)) ld n)

noncomputable def vVl (E : Env) (P : Params) (salt : Buf) (D n : ℕ) (rv : List ℕ) (input : Buf) (ld : ℕ → Option Buf) : ℕ → Buf :=
  mvl E P salt D n (leafHv D (fun i => decide (i ∈ rv)) ld n) (leafVl D P.digestSizeBytes (inVl P.digestSizeBytes rv input) ld n)

theorem verifyMerkleTree_ok {E : Env} {P : Params} {D n : ℕ} {salt : Buf} {rv : List ℕ} {input : Buf} {ld : ℕ → Option Buf} (hE : PermWF E)
    (hP : MerkleWF P) (hn1 : 1 ≤ n) (hn : n ≤ 2 ^ D) (hsalt : salt.length = P.saltSizeBytes)
    (hld : ∀ j < n, ∀ d, ld j = some d → P.digestSizeBytes ≤ d.length ∧ 2 ^ D - 1 + j ∉ rv)
    (hs : input.length = rv.length * P.digestSizeBytes) :
    verifyMerkleTree E P (mkTree D n P.digestSizeBytes (fun i => decide (i ∈ rv)) (inVl P.digestSizeBytes rv input)) (arrN n ld) salt =
      Outcome.ok (vHv D n rv ld 0, mkTree D n P.digestSizeBytes (vHv D n rv ld) (vVl E P salt D n rv input ld)) := by
  have hp : 1 ≤ 2 ^ D := Nat.one_le_two_pow
  unfold verifyMerkleTree
  refine bind_of (setLeaves_ok (fun i => inVl_length hs.ge i) fun j hj d hd => ⟨(hld j hj d hd).1, fun _ => decide_eq_false (hld j hj d hd).2⟩) ?_
  dsimp only
  rw [if_neg (by simp), hashUp_ok hE hP hn hsalt fun i => leafVl_length (fun i => inVl_length hs.ge i) fun j hj d hd => (hld j hj d hd).1, ok_bind]
  change (do
    let h ← rd (arrN _ _) 0
    pure (h, _)) = _
  rw [rd_arrN (by omega), ok_bind, pure_eq_ok]
  rfl

/-! ### completeness -/

theorem bHv_ex {D n : ℕ} {ld : ℕ → Option Buf} (hn : n ≤ 2 ^ D) (hld : ∀ j < n, (ld j).isSome = true) (i : ℕ) (hi : exb D n i = true) :
    bHv D n ld i = true := by
  unfold bHv
  induction hk : 2 ^ D - 1 - i using Nat.strong_induction_on generalizing i with
  | _ k ih =>
    by_cases h : i < 2 ^ D - 1
    · rw [mhv_inner h, hi, ih _ (by omega) (2 * i + 1) (exb_child hn h hi) rfl]
      by_cases hr : exb D n (2 * i + 2) = true
      · rw [ih _ (by omega) (2 * i + 2) hr rfl]; simp
      · simp [hr]
    · have := exb_lt hi
      rw [mhv_leaf h, leafHv, hld _ (by omega), decide_eq_true (by omega)]; simp

/-- The inner nodes of a freshly built tree are hashes. -/
theorem bVl_inner {E : Env} {P : Params} {salt : Buf} {D n : ℕ} {ld : ℕ → Option Buf} (hn : n ≤ 2 ^ D) (hld : ∀ j < n, (ld j).isSome = true) {i : ℕ}
    (h : i < 2 ^ D - 1) (hi : exb D n i = true) : bVl E P salt D n ld i =
      H E P HASH_PREFIX_3 (nodeInput D n salt i (bVl E P salt D n ld (2 * i + 1)) (bVl E P salt D n ld (2 * i + 2))) P.digestSizeBytes := by
  have h1 := bHv_ex hn hld _ (exb_child hn h hi)
  have h2 : exb D n (2 * i + 2) = true → bHv D n ld (2 * i + 2) = true := bHv_ex hn hld _
  unfold bHv at h1 h2
  conv_lhs => rw [bVl, mvl_inner h]
  rw [if_neg (by unfold leafHv; rw [decide_eq_false (by omega)]; simp), if_pos (by
    rw [hi, h1]
    by_cases hr : exb D n (2 * i + 2) = true
    · rw [h2 hr]; simp
    · simp [hr])]
  rfl

/-- Nodes outside of the tree are zero. -/
theorem mvl_out {E : Env} {P : Params} {salt : Buf} {D n : ℕ} {hv : ℕ → Bool} {vl : ℕ → Buf} {i : ℕ} (hi : exb D n i = false) :
    mvl E P salt D n hv vl i = vl i := by
  by_cases h : i < 2 ^ D - 1
  · rw [mvl_inner h, hi]; simp
  · exact mvl_leaf h

theorem leafVl_out {D ds n i : ℕ} {vl : ℕ → Buf} {ld : ℕ → Option Buf} (hn : n ≤ 2 ^ D) (hi : exb D n i = false) :
    leafVl D ds vl ld n i = vl i := by
  unfold leafVl
  rw [if_neg]
  rintro ⟨h1, h2⟩
  rw [exb_leaf hn h1 h2] at hi
  simp at hi

/-- Verification recomputes every node above a present leaf, and knows every opened node. -/
theorem verify_complete {E : Env} {P : Params} {salt : Buf} {D n : ℕ} {l rv : List ℕ} {ld ld' : ℕ → Option Buf} (hn2 : 2 ≤ n) (hn : n ≤ 2 ^ D)
    (hld : ∀ j < n, ∃ d, ld j = some d ∧ P.digestSizeBytes ≤ d.length) (hld' : ∀ j < n, ld' j = if j ∈ l then none else ld j)
    (hrv : ∀ r, r ∈ rv ↔ Top D n (Present D n l) (r + 1)) (i : ℕ) (hi : exb D n i = true) (h : Up D (Present D n l) (i + 1) ∨ i ∈ rv) :
    vHv D n rv ld' i = true ∧ vVl E P salt D n rv (rv.flatMap (bVl E P salt D n ld)) ld' i = bVl E P salt D n ld i := by
  have hS := present_atDepth (l := l) hn
  have hlds : ∀ j < n, (ld j).isSome = true := fun j hj => by obtain ⟨d, e, _⟩ := hld j hj; rw [e]; rfl
  have hbl : ∀ r ∈ rv, (bVl E P salt D n ld r).length = P.digestSizeBytes := fun r _ => mvl_length (fun i => leafVl_length (by simp) fun j hj d hd => by
    obtain ⟨d', e, h⟩ := hld j hj
    rw [hd] at e
    injection e with e
    rw [e]; exact h) r
  have hin : ∀ i ∈ rv, inVl P.digestSizeBytes rv (rv.flatMap (bVl E P salt D n ld)) i = bVl E P salt D n ld i := by
    intro i hi
    have := flatMap_block hbl hi []
    rw [List.append_nil] at this
    rw [inVl, if_pos hi, this]
  induction hk : 2 ^ D - 1 - i using Nat.strong_induction_on generalizing i with
  | _ k ih =>
    unfold vHv vVl
    by_cases hin2 : i < 2 ^ D - 1
    · by_cases hr : i ∈ rv
      · have : leafHv D (fun i => decide (i ∈ rv)) ld' n i = true := by
          unfold leafHv; simp [hr]
        rw [mhv_inner hin2, mvl_inner hin2, this, if_pos rfl]
        refine ⟨by simp, ?_⟩
        rw [leafVl, if_neg (by omega), hin i hr]
      · have hu : Up D (Present D n l) (i + 1) := h.resolve_right hr
        have hleafHv : leafHv D (fun i => decide (i ∈ rv)) ld' n i = false := by
          unfold leafHv
          beta_reduce
          rw [decide_eq_false hr, decide_eq_false (by omega)]; rfl
        have child : ∀ c, (c + 1) / 2 = i + 1 → exb D n c = true → Up D (Present D n l) (c + 1) ∨ c ∈ rv := by
          intro c hc hx
          by_cases hcu : Up D (Present D n l) (c + 1)
          · exact Or.inl hcu
          · right
            rw [hrv]
            exact ⟨exb_iff.1 hx, by omega, hcu, by rw [hc]; exact hu⟩
        have hl := exb_child hn hin2 hi
        have il := ih _ (by omega) (2 * i + 1) hl (child _ (by omega) hl) rfl
        unfold vHv vVl at il
        rw [mhv_inner hin2, mvl_inner hin2, hleafHv, hi, il.1, il.2, bVl_inner hn hlds hin2 hi]
        by_cases hr2 : exb D n (2 * i + 2) = true
        · have ir := ih _ (by omega) (2 * i + 2) hr2 (child _ (by omega) hr2) rfl
          unfold vHv vVl at ir
          rw [ir.1, ir.2, hr2]
          simp
        · rw [Bool.not_eq_true] at hr2
          rw [hr2]
          refine ⟨by simp, ?_⟩
          rw [if_neg (by simp), if_pos (by simp), mvl_out hr2, leafVl_out hn hr2]
          congr 2
          rw [bVl, mvl_out hr2, leafVl_out hn hr2, inVl, if_neg]
          intro h
          have := ((hrv _).1 h).1
          rw [← exb_iff, hr2] at this
          simp at this
    · have hlt := exb_lt hi
      rw [mhv_leaf hin2, mvl_leaf hin2]
      have hb : bVl E P salt D n ld i = leafVl D P.digestSizeBytes (fun _ => zeros P.digestSizeBytes) ld n i := by
        rw [bVl, mvl_leaf hin2]
      have hleaf : 2 ^ D - 1 ≤ i ∧ i < 2 ^ D - 1 + n := ⟨by omega, hlt⟩
      obtain ⟨d, hd, hdl⟩ := hld (i - (2 ^ D - 1)) (by omega)
      by_cases hr : i ∈ rv
      · have hnp : i - (2 ^ D - 1) ∈ l := by
          have ht := (hrv i).1 hr
          by_contra hnl
          refine ht.2.2.1 (up_self ⟨⟨by omega, by omega⟩, ?_⟩)
          rintro ⟨h, hh, e⟩
          have hp : 1 ≤ 2 ^ D := Nat.one_le_two_pow
          exact hnl (by rwa [show i - (2 ^ D - 1) = h by omega])
        refine ⟨by unfold leafHv; simp [hr], ?_⟩
        rw [leafVl, if_pos hleaf, hld' _ (by omega), if_pos hnp]
        simp only [Option.map_none, Option.getD_none]
        rw [hin i hr]
      · have hu : Up D (Present D n l) (i + 1) := h.resolve_right hr
        rw [up_leaf hS (by omega)] at hu
        have hnl : i - (2 ^ D - 1) ∉ l := by
          intro hl
          have hp : 1 ≤ 2 ^ D := Nat.one_le_two_pow
          exact hu.2 ⟨_, hl, by omega⟩
        have e : ld' (i - (2 ^ D - 1)) = some d := by rw [hld' _ (by omega), if_neg hnl, hd]
        refine ⟨?_, ?_⟩
        · unfold leafHv
          rw [e, decide_eq_true hleaf]; simp
        · rw [hb, leafVl, leafVl, if_pos hleaf, if_pos hleaf, e, hd]
          rfl

/-! ### binding -/

/-- Going down from the root towards a present leaf: either the two trees agree at the leaf, or two different inputs of the
hash of some inner node have the same digest. -/
theorem verify_binding {E : Env} {P : Params} {salt input : Buf} {D n : ℕ} {l rv : List ℕ} {ld ld' : ℕ → Option Buf} (hn : n ≤ 2 ^ D)
    (hld : ∀ j < n, ∃ d, ld j = some d ∧ P.digestSizeBytes ≤ d.length)
    (hld' : ∀ j < n, ∀ d, ld' j = some d → P.digestSizeBytes ≤ d.length)
    (hrv : ∀ r, r ∈ rv ↔ Top D n (Present D n l) (r + 1)) (hs : input.length = rv.length * P.digestSizeBytes)
    {j : ℕ} (hj : j < n) (hjl : j ∉ l) (k : ℕ) (hk : k ≤ D)
    (hv : vHv D n rv ld' ((2 ^ D + j) / 2 ^ k - 1) = true)
    (he : vVl E P salt D n rv input ld' ((2 ^ D + j) / 2 ^ k - 1) = bVl E P salt D n ld ((2 ^ D + j) / 2 ^ k - 1)) :
    (vVl E P salt D n rv input ld' (2 ^ D + j - 1) = bVl E P salt D n ld (2 ^ D + j - 1)) ∨
    ∃ i, i < 2 ^ D - 1 ∧ exb D n i = true ∧
      nodeInput D n salt i (vVl E P salt D n rv input ld' (2 * i + 1)) (vVl E P salt D n rv input ld' (2 * i + 2)) ≠
        nodeInput D n salt i (bVl E P salt D n ld (2 * i + 1)) (bVl E P salt D n ld (2 * i + 2)) ∧
      H E P HASH_PREFIX_3 (nodeInput D n salt i (vVl E P salt D n rv input ld' (2 * i + 1)) (vVl E P salt D n rv input ld' (2 * i + 2))) P.digestSizeBytes =
        H E P HASH_PREFIX_3 (nodeInput D n salt i (bVl E P salt D n ld (2 * i + 1)) (bVl E P salt D n ld (2 * i + 2))) P.digestSizeBytes := by
  have hS := present_atDepth (l := l) hn
  have hp : 1 ≤ 2 ^ D := Nat.one_le_two_pow
  have hpres : Present D n l (2 ^ D + j) := ⟨⟨by omega, by omega⟩, fun ⟨h, hh, e⟩ => hjl (by rwa [show j = h by omega])⟩
  have hlds : ∀ j < n, (ld j).isSome = true := fun j hj => by obtain ⟨d, e, _⟩ := hld j hj; rw [e]; rfl
  have hbl : ∀ i, (bVl E P salt D n ld i).length = P.digestSizeBytes := mvl_length (fun i => leafVl_length (by simp) fun j hj d hd => by
    obtain ⟨d', e, h⟩ := hld j hj
    rw [hd] at e
    injection e with e
    rw [e]; exact h)
  have hvll : ∀ i, (vVl E P salt D n rv input ld' i).length = P.digestSizeBytes := mvl_length (fun i => leafVl_length (fun i => inVl_length hs.ge i) hld')
  induction k with
  | zero => left; simpa using he
  | succ k ih =>
    have hr := div_pow_range (D := D) (k := k) (y := 2 ^ D + j) (by omega) (by omega) (by rw [pow_succ]; omega)
    have hr1 := div_pow_range (D := D) (k := k + 1) (y := 2 ^ D + j) hk (by omega) (by rw [pow_succ]; omega)
    have ep : (2 ^ D + j) / 2 ^ (k + 1) = (2 ^ D + j) / 2 ^ k / 2 := by rw [pow_succ, Nat.div_div_eq_div_mul]
    set c := (2 ^ D + j) / 2 ^ k with hc
    set i := (2 ^ D + j) / 2 ^ (k + 1) - 1 with hi
    have h1 : 1 ≤ 2 ^ (D - (k + 1)) := Nat.one_le_two_pow
    have hin : i < 2 ^ D - 1 := by
      have : 2 ^ (D - (k + 1) + 1) ≤ 2 ^ D := Nat.pow_le_pow_right (by omega) (by omega)
      omega
    have hup : Up D (Present D n l) (i + 1) := ⟨_, k + 1, hpres, hk, by omega⟩
    have hx : exb D n i = true := exb_iff.2 (up_mono (fun y h => h.1) hup)
    have hnr : i ∉ rv := fun h => ((hrv i).1 h).2.2.1 hup
    have hleafHv : leafHv D (fun i => decide (i ∈ rv)) ld' n i = false := by
      unfold leafHv
      beta_reduce
      rw [decide_eq_false hnr, decide_eq_false (by omega)]; rfl
    have hv2 := hv
    unfold vHv at hv2
    rw [mhv_inner hin, hleafHv, hx, Bool.false_or, Bool.true_and] at hv2
    have hve : vVl E P salt D n rv input ld' i = H E P HASH_PREFIX_3 (nodeInput D n salt i (vVl E P salt D n rv input ld' (2 * i + 1)) (vVl E P salt D n rv input ld' (2 * i + 2))) P.digestSizeBytes := by
      conv_lhs => rw [vVl, mvl_inner hin]
      rw [hleafHv, if_neg (by simp), hx, hv2, if_pos (by simp)]
      rfl
    rw [hve, bVl_inner hn hlds hin hx] at he
    by_cases hne : nodeInput D n salt i (vVl E P salt D n rv input ld' (2 * i + 1)) (vVl E P salt D n rv input ld' (2 * i + 2)) =
        nodeInput D n salt i (bVl E P salt D n ld (2 * i + 1)) (bVl E P salt D n ld (2 * i + 2))
    · have hinj := List.append_inj_left (List.append_inj_left hne (by
          unfold nodeInput at hne
          have := congrArg List.length hne
          simp only [List.length_append] at this ⊢
          split_ifs at this ⊢ <;> simp [hbl, hvll])) (by
          split_ifs <;> simp [hbl, hvll])
      have hl := List.append_inj hinj (by rw [hbl, hvll])
      rw [Bool.and_eq_true, Bool.or_eq_true] at hv2
      have hcu : Up D (Present D n l) c := ⟨_, k, hpres, by omega, rfl⟩
      have hcx : exb D n (c - 1) = true := exb_iff.2 (by rw [Nat.sub_add_cancel (by omega)]; exact up_mono (fun y h => h.1) hcu)
      by_cases hpar : c % 2 = 0
      · refine ih (by omega) ?_ ?_
        · rw [show c - 1 = 2 * i + 1 by omega]; exact hv2.1
        · rw [show c - 1 = 2 * i + 1 by omega]; exact hl.1
      · have hc2 : c - 1 = 2 * i + 2 := by omega
        rw [hc2] at hcx
        have hlt := exb_lt hcx
        refine ih (by omega) ?_ ?_
        · rw [hc2]
          rcases hv2.2 with h | h
          · rw [hcx] at h; simp at h
          · exact h
        · rw [hc2]
          have := hl.2
          rwa [if_pos hlt, if_pos hlt] at this
    · exact Or.inr ⟨i, hin, hx, hne, he⟩

end Picnic
