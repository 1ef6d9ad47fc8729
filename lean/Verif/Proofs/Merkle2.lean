import Verif.Proofs.Merkle

/-
/repo/tree.c: building, opening and verifying Merkle trees.
-/

namespace Picnic

open Spec.Tree

/-! ### the leaves -/

/-- Flags after copying the leaf data `ld`. -/
def leafHv (D : ℕ) (hv : ℕ → Bool) (ld : ℕ → Option Buf) (m i : ℕ) : Bool :=
  hv i || (decide (2 ^ D - 1 ≤ i ∧ i < 2 ^ D - 1 + m) && (ld (i - (2 ^ D - 1))).isSome)

/-- Contents after copying the leaf data `ld`. -/
def leafVl (D ds : ℕ) (vl : ℕ → Buf) (ld : ℕ → Option Buf) (m i : ℕ) : Buf :=
  if 2 ^ D - 1 ≤ i ∧ i < 2 ^ D - 1 + m then ((ld (i - (2 ^ D - 1))).map (·.take ds)).getD (vl i) else vl i

theorem setLeaves_ok {D n ds : ℕ} {hv : ℕ → Bool} {vl : ℕ → Buf} {ld : ℕ → Option Buf} {check : Bool} (hvl : ∀ i, (vl i).length = ds)
    (hld : ∀ j < n, ∀ d, ld j = some d → ds ≤ d.length ∧ (check = true → hv (2 ^ D - 1 + j) = false)) :
    setLeaves (mkTree D n ds hv vl) (arrN n ld) check =
      Outcome.ok (true, mkTree D n ds (leafHv D hv ld n) (leafVl D ds vl ld n)) := by
  unfold setLeaves
  refine loop_seq (fun m => (true, mkTree D n ds (leafHv D hv ld m) (leafVl D ds vl ld m))) ?_ ?_
  · congr 1
    refine mkTree_congr (fun i _ => ?_) (fun i _ => ?_)
    · unfold leafHv
      rw [decide_eq_false (by omega)]; simp
    · unfold leafVl
      rw [if_neg (by omega)]
  · intro m hm
    have hmn : m < n := hm
    dsimp only
    rw [if_neg (by simp), rd_arrN hmn, ok_bind]
    have hstep : ∀ i, i ≠ 2 ^ D - 1 + m → leafHv D hv ld m i = leafHv D hv ld (m + 1) i ∧ leafVl D ds vl ld m i = leafVl D ds vl ld (m + 1) i := by
      intro i hi
      unfold leafHv leafVl
      by_cases h : 2 ^ D - 1 ≤ i ∧ i < 2 ^ D - 1 + m
      · rw [decide_eq_true h, decide_eq_true (by omega : 2 ^ D - 1 ≤ i ∧ i < 2 ^ D - 1 + (m + 1)), if_pos h, if_pos (by omega)]; exact ⟨rfl, rfl⟩
      · rw [decide_eq_false h, decide_eq_false (by omega : ¬ (2 ^ D - 1 ≤ i ∧ i < 2 ^ D - 1 + (m + 1))), if_neg h, if_neg (by omega)]; exact ⟨rfl, rfl⟩
    have hcur : leafHv D hv ld m (2 ^ D - 1 + m) = hv (2 ^ D - 1 + m) ∧ leafVl D ds vl ld m (2 ^ D - 1 + m) = vl (2 ^ D - 1 + m) := by
      unfold leafHv leafVl
      rw [decide_eq_false (by omega), if_neg (by omega)]; simp
    have hnxt : leafHv D hv ld (m + 1) (2 ^ D - 1 + m) = (hv (2 ^ D - 1 + m) || (ld m).isSome) ∧
        leafVl D ds vl ld (m + 1) (2 ^ D - 1 + m) = ((ld m).map (·.take ds)).getD (vl (2 ^ D - 1 + m)) := by
      unfold leafHv leafVl
      rw [decide_eq_true (by omega), if_pos (by omega), Nat.add_sub_cancel_left]; simp
    cases hd : ld m with
    | none =>
      dsimp only
      rw [pure_eq_ok]
      congr 2
      refine mkTree_congr (fun i _ => ?_) (fun i _ => ?_)
      · by_cases hi : i = 2 ^ D - 1 + m
        · rw [hi, hcur.1, hnxt.1, hd]; simp
        · exact (hstep i hi).1
      · by_cases hi : i = 2 ^ D - 1 + m
        · rw [hi, hcur.2, hnxt.2, hd]; simp
        · exact (hstep i hi).2
    | some d =>
      obtain ⟨h1, h2⟩ := hld m hmn d hd
      dsimp only
      have e1 : (if check = true then rd (arrN (2 ^ D - 1 + n) (leafHv D hv ld m)) (2 ^ D - 1 + n - n + m) else pure false) =
          Outcome.ok (false : Bool) := by
        split_ifs with hc
        · rw [Nat.add_sub_cancel, rd_arrN (by omega), hcur.1, h2 hc]
        · rfl
      have hlen : (leafVl D ds vl ld m (2 ^ D - 1 + m)).length = ds := by rw [hcur.2, hvl]
      have step2 : ∀ h : Bool, h = false → (if h = true then (pure (false, mkTree D n ds (leafHv D hv ld m) (leafVl D ds vl ld m)) : M (Bool × Tree)) else do
          let tree ← setNode (mkTree D n ds (leafHv D hv ld m) (leafVl D ds vl ld m)) (2 ^ D - 1 + n - n + m) d 0 ds
          pure (true, tree)) = Outcome.ok (true, mkTree D n ds (leafHv D hv ld (m + 1)) (leafVl D ds vl ld (m + 1))) := by
        rintro h rfl
        rw [if_neg (by simp), Nat.add_sub_cancel, setNode_ok (by omega) hlen (by omega), ok_bind, pure_eq_ok]
        congr 2
        refine mkTree_congr (fun i _ => ?_) (fun i _ => ?_)
        · rw [Function.update_apply]
          split_ifs with hi
          · rw [hi, hnxt.1, hd]; simp
          · exact (hstep i hi).1
        · rw [Function.update_apply]
          split_ifs with hi
          · rw [hi, hnxt.2, hd]; simp
          · exact (hstep i hi).2
      by_cases hc : check = true
      · rw [if_pos hc] at e1 ⊢
        rw [e1, ok_bind]
        exact step2 _ rfl
      · rw [if_neg hc]
        exact step2 _ rfl

/-! ### hashing -/

/-- The nodes with a hash after hashing upwards. -/
noncomputable def mhv (D n : ℕ) (hv : ℕ → Bool) (i : ℕ) : Bool :=
  if h : i < 2 ^ D - 1 then
    hv i || (exb D n i && (mhv D n hv (2 * i + 1) && (!exb D n (2 * i + 2) || mhv D n hv (2 * i + 2))))
  else hv i
termination_by 2 ^ D - 1 - i
decreasing_by all_goals omega

/-- The input of the hash of node i, given the contents of its children. -/
def nodeInput (D n : ℕ) (salt : Buf) (i : ℕ) (left right : Buf) : Buf :=
  left ++ (if 2 * i + 2 < 2 ^ D - 1 + n then right else []) ++ salt ++ le16 i

/-- The contents after hashing upwards. -/
noncomputable def mvl (E : Env) (P : Params) (salt : Buf) (D n : ℕ) (hv : ℕ → Bool) (vl : ℕ → Buf) (i : ℕ) : Buf :=
  if h : i < 2 ^ D - 1 then
    if hv i then vl i
    else if exb D n i && (mhv D n hv (2 * i + 1) && (!exb D n (2 * i + 2) || mhv D n hv (2 * i + 2))) then
      H E P HASH_PREFIX_3 (nodeInput D n salt i (mvl E P salt D n hv vl (2 * i + 1)) (mvl E P salt D n hv vl (2 * i + 2))) P.digestSizeBytes
    else vl i
  else vl i
termination_by 2 ^ D - 1 - i
decreasing_by all_goals omega

theorem mhv_inner {D n : ℕ} {hv : ℕ → Bool} {i : ℕ} (h : i < 2 ^ D - 1) : mhv D n hv i =
    (hv i || (exb D n i && (mhv D n hv (2 * i + 1) && (!exb D n (2 * i + 2) || mhv D n hv (2 * i + 2))))) := by
  conv_lhs => rw [mhv]
  rw [dif_pos h]

theorem mhv_leaf {D n : ℕ} {hv : ℕ → Bool} {i : ℕ} (h : ¬ i < 2 ^ D - 1) : mhv D n hv i = hv i := by
  conv_lhs => rw [mhv]
  rw [dif_neg h]

theorem mvl_inner {E : Env} {P : Params} {salt : Buf} {D n : ℕ} {hv : ℕ → Bool} {vl : ℕ → Buf} {i : ℕ} (h : i < 2 ^ D - 1) :
    mvl E P salt D n hv vl i = if hv i then vl i
    else if exb D n i && (mhv D n hv (2 * i + 1) && (!exb D n (2 * i + 2) || mhv D n hv (2 * i + 2))) then
      H E P HASH_PREFIX_3 (nodeInput D n salt i (mvl E P salt D n hv vl (2 * i + 1)) (mvl E P salt D n hv vl (2 * i + 2))) P.digestSizeBytes
    else vl i := by
  conv_lhs => rw [mvl]
  rw [dif_pos h]

theorem mvl_leaf {E : Env} {P : Params} {salt : Buf} {D n : ℕ} {hv : ℕ → Bool} {vl : ℕ → Buf} {i : ℕ} (h : ¬ i < 2 ^ D - 1) :
    mvl E P salt D n hv vl i = vl i := by
  conv_lhs => rw [mvl]
  rw [dif_neg h]

theorem mvl_length {E : Env} {P : Params} {salt : Buf} {D n : ℕ} {hv : ℕ → Bool} {vl : ℕ → Buf} (hvl : ∀ i, (vl i).length = P.digestSizeBytes) (i : ℕ) :
    (mvl E P salt D n hv vl i).length = P.digestSizeBytes := by
  by_cases h : i < 2 ^ D - 1
  · rw [mvl_inner h]
    split_ifs
    · exact hvl i
    · simp
    · exact hvl i
  · rw [mvl_leaf h, hvl]

/-- Sizes of digests and salts. -/
structure MerkleWF (P : Params) : Prop where
  digest : P.digestSizeBytes ≤ 64
  salt : P.saltSizeBytes = 32

theorem merkleWF_of {p : ℕ} {P : Params} (h : getParamSet p = some P) : MerkleWF P := by
  obtain ⟨h1, h2⟩ := getParamSet_bounds h
  interval_cases p <;> (injection h with h; subst h; constructor <;> decide)

theorem hasRightChild_ok {D n ds : ℕ} {hv : ℕ → Bool} {vl : ℕ → Buf} (z : ℕ) :
    hasRightChild (mkTree D n ds hv vl) z = Outcome.ok (decide (2 * z + 2 < 2 ^ D - 1 + n) && exb D n z) := by
  have hN : (mkTree D n ds hv vl).numNodes = 2 ^ D - 1 + n := rfl
  unfold hasRightChild
  rw [hN, treeExists_mk]
  by_cases hz : 2 * z + 2 < 2 ^ D - 1 + n
  · rw [if_pos hz, decide_eq_true hz, Bool.true_and]
  · rw [if_neg hz, decide_eq_false hz, Bool.false_and, pure_eq_ok]

/-- One call of `computeParentHash`. -/
theorem computeParentHash_ok {E : Env} {P : Params} {D n : ℕ} {salt : Buf} {hv : ℕ → Bool} {vl : ℕ → Buf} {c : ℕ} (hE : PermWF E) (hP : MerkleWF P)
    (hn : n ≤ 2 ^ D) (hc : c ≠ 0) (hsalt : salt.length = P.saltSizeBytes) (hvl : ∀ i, (vl i).length = P.digestSizeBytes) :
    computeParentHash E P (mkTree D n P.digestSizeBytes hv vl) c salt = Outcome.ok (
      if exb D n c && (!hv ((c - 1) / 2) && (hv (2 * ((c - 1) / 2) + 1) && (!exb D n (2 * ((c - 1) / 2) + 2) || hv (2 * ((c - 1) / 2) + 2)))) then
        mkTree D n P.digestSizeBytes (Function.update hv ((c - 1) / 2) true) (Function.update vl ((c - 1) / 2)
          (H E P HASH_PREFIX_3 (nodeInput D n salt ((c - 1) / 2) (vl (2 * ((c - 1) / 2) + 1)) (vl (2 * ((c - 1) / 2) + 2))) P.digestSizeBytes))
      else mkTree D n P.digestSizeBytes hv vl) := by
  have hN : (mkTree D n P.digestSizeBytes hv vl).haveNode = arrN (2 ^ D - 1 + n) hv := rfl
  have hV : (mkTree D n P.digestSizeBytes hv vl).nodes = arrN (2 ^ D - 1 + n) vl := rfl
  have hdig := hP.digest
  have hsl := hP.salt
  unfold computeParentHash
  rw [treeExists_mk, ok_bind]
  by_cases hx : exb D n c = true
  · have hxp := exb_parent hn hc hx
    set p := (c - 1) / 2 with hpdef
    have hclt := exb_lt hx
    have hp2 : p < 2 ^ D - 1 := by omega
    have hxl := exb_child hn hp2 hxp
    have hllt := exb_lt hxl
    rw [hx, if_neg (by simp), getParent_ok hc, ok_bind, ← hpdef, hN, rd_arrN (by omega), ok_bind]
    by_cases h1 : hv p = true
    · rw [h1, if_pos rfl, if_neg (by simp), pure_eq_ok]
    · rw [Bool.not_eq_true] at h1
      rw [h1, if_neg (by simp), rd_arrN hllt, ok_bind]
      by_cases h2 : hv (2 * p + 1) = true
      · rw [h2, if_neg (by simp), treeExists_mk, ok_bind]
        have fin : ∀ b : Bool, b = (exb D n (2 * p + 2) && !hv (2 * p + 2)) → (if b = true then pure (mkTree D n P.digestSizeBytes hv vl) else do
            let left ← rd (mkTree D n P.digestSizeBytes hv vl).nodes (2 * p + 1)
            let hasR ← hasRightChild (mkTree D n P.digestSizeBytes hv vl) p
            let right ← if hasR then do
                let r ← rd (mkTree D n P.digestSizeBytes hv vl).nodes (2 * p + 2)
                pure [(r, P.digestSizeBytes)]
              else pure []
            let d ← hashAll E P HASH_PREFIX_3
              ([(left, P.digestSizeBytes)] ++ right ++ [(salt, P.saltSizeBytes), intLE p]) P.digestSizeBytes
            setNode (mkTree D n P.digestSizeBytes hv vl) p d 0 P.digestSizeBytes) = Outcome.ok (
              if (true && (!false && (true && (!exb D n (2 * p + 2) || hv (2 * p + 2))))) = true then
              mkTree D n P.digestSizeBytes (Function.update hv p true) (Function.update vl p
                (H E P HASH_PREFIX_3 (nodeInput D n salt p (vl (2 * p + 1)) (vl (2 * p + 2))) P.digestSizeBytes))
            else mkTree D n P.digestSizeBytes hv vl) := by
          rintro b rfl
          by_cases hm : (exb D n (2 * p + 2) && !hv (2 * p + 2)) = true
          · rw [if_pos hm, if_neg (by simp at hm ⊢; exact hm), pure_eq_ok]
          · rw [if_neg hm, if_pos (by revert hm; cases exb D n (2 * p + 2) <;> cases hv (2 * p + 2) <;> simp), hV, rd_arrN hllt, ok_bind,
              hasRightChild_ok, ok_bind, hxp, Bool.and_true]
            by_cases hr : 2 * p + 2 < 2 ^ D - 1 + n
            · rw [if_pos (by simpa using hr), rd_arrN hr, ok_bind, pure_eq_ok, ok_bind]
              beta_reduce
              rw [hashAll_ok hE (by
                intro q hq
                simp only [List.cons_append, List.nil_append, List.mem_cons, List.not_mem_nil, or_false, intLE_eq] at hq
                rcases hq with rfl | rfl | rfl | rfl
                · exact ⟨(hvl _).ge, by dsimp only; omega⟩
                · exact ⟨(hvl _).ge, by dsimp only; omega⟩
                · exact ⟨hsalt.ge, by dsimp only; omega⟩
                · exact ⟨by simp, by dsimp only; omega⟩) (by omega), ok_bind, setNode_ok (by omega) (hvl _) (by simp)]
              simp only [List.cons_append, List.nil_append, List.flatMap_cons, List.flatMap_nil, intLE_eq, List.append_nil, List.drop_zero]
              rw [List.take_of_length_le (H_length ..).le, List.take_of_length_le (hvl _).le, List.take_of_length_le (hvl _).le,
                List.take_of_length_le hsalt.le, List.take_of_length_le (by simp), nodeInput, if_pos hr]
              simp only [List.append_assoc]
            · rw [if_neg (by simpa using hr)]
              rw [pure_eq_ok, ok_bind]
              beta_reduce
              rw [hashAll_ok hE (by
                intro q hq
                simp only [List.cons_append, List.nil_append, List.append_nil, List.mem_cons, List.not_mem_nil, or_false, intLE_eq] at hq
                rcases hq with rfl | rfl | rfl
                · exact ⟨(hvl _).ge, by dsimp only; omega⟩
                · exact ⟨hsalt.ge, by dsimp only; omega⟩
                · exact ⟨by simp, by dsimp only; omega⟩) (by omega), ok_bind, setNode_ok (by omega) (hvl _) (by simp)]
              simp only [List.cons_append, List.nil_append, List.flatMap_cons, List.flatMap_nil, intLE_eq, List.append_nil, List.drop_zero]
              rw [List.take_of_length_le (H_length ..).le, List.take_of_length_le (hvl _).le,
                List.take_of_length_le hsalt.le, List.take_of_length_le (by simp), nodeInput, if_neg hr]
              simp only [List.append_assoc, List.nil_append]
        by_cases hr : exb D n (2 * p + 2) = true
        · rw [hr] at fin ⊢
          rw [if_pos rfl, rd_arrN (exb_lt hr), ok_bind, pure_eq_ok, ok_bind]
          exact fin _ (by simp)
        · rw [Bool.not_eq_true] at hr
          rw [hr] at fin ⊢
          rw [if_neg (by simp)]
          exact fin false (by simp)
      · rw [Bool.not_eq_true] at h2
        rw [h2, if_pos (by simp), if_neg (by simp), pure_eq_ok]
  · rw [Bool.not_eq_true] at hx
    rw [hx, if_pos (by simp), if_neg (by simp), pure_eq_ok]

theorem hashUp_ok {E : Env} {P : Params} {D n : ℕ} {salt : Buf} {hv : ℕ → Bool} {vl : ℕ → Buf} (hE : PermWF E) (hP : MerkleWF P)
    (hn : n ≤ 2 ^ D) (hsalt : salt.length = P.saltSizeBytes) (hvl : ∀ i, (vl i).length = P.digestSizeBytes) :
    hashUp E P (mkTree D n P.digestSizeBytes hv vl) salt =
      Outcome.ok (mkTree D n P.digestSizeBytes (mhv D n hv) (mvl E P salt D n hv vl)) := by
  have hp : 1 ≤ 2 ^ D := Nat.one_le_two_pow
  set N := 2 ^ D - 1 + n with hN
  -- after the children > j have been processed
  let dn : ℕ → ℕ → Prop := fun j i => j < 2 * i + 1 ∨ (j < 2 * i + 2 ∧ exb D n (2 * i + 2) = true)
  have hdec : ∀ j i, Decidable (dn j i) := fun j i => by unfold dn; infer_instance
  let hvJ : ℕ → ℕ → Bool := fun j i => if dn j i then mhv D n hv i else hv i
  let vlJ : ℕ → ℕ → Buf := fun j i => if dn j i then mvl E P salt D n hv vl i else vl i
  have key := loopDown_inv (fun j (t : Tree) => t = mkTree D n P.digestSizeBytes (hvJ j) (vlJ j))
    (f := fun i tree => computeParentHash E P tree i salt) (n := N) (s := mkTree D n P.digestSizeBytes hv vl) ?_ ?_
  · obtain ⟨t, e, ht⟩ := key
    unfold hashUp
    rw [show (mkTree D n P.digestSizeBytes hv vl).numNodes = N from rfl]
    refine Eq.trans e ?_
    rw [ht]
    congr 1
    refine mkTree_congr (fun i _ => ?_) (fun i _ => ?_)
    · simp only [hvJ]; rw [if_pos (Or.inl (by omega))]
    · simp only [vlJ]; rw [if_pos (Or.inl (by omega))]
  · refine mkTree_congr (fun i hi => ?_) (fun i hi => ?_)
    · simp only [hvJ]
      split_ifs with h
      · have : ¬ i < 2 ^ D - 1 ∨ exb D n i = false := by
          by_cases hi2 : i < 2 ^ D - 1
          · right
            by_contra hx
            have h3 := exb_lt (exb_child hn hi2 (by simpa using hx))
            rcases h with h | h
            · omega
            · have := exb_lt h.2; omega
          · exact Or.inl hi2
        rcases this with h3 | h3
        · rw [mhv_leaf h3]
        · by_cases hi2 : i < 2 ^ D - 1
          · rw [mhv_inner hi2, h3]; simp
          · rw [mhv_leaf hi2]
      · rfl
    · simp only [vlJ]
      split_ifs with h
      · by_cases hi2 : i < 2 ^ D - 1
        · have h3 : exb D n i = false := by
            by_contra hx
            have h3 := exb_lt (exb_child hn hi2 (by simpa using hx))
            rcases h with h | h
            · omega
            · have := exb_lt h.2; omega
          rw [mvl_inner hi2, h3]; simp
        · rw [mvl_leaf hi2]
      · rfl
  · rintro j hj t rfl
    refine ⟨_, ?_, rfl⟩
    have hlenJ : ∀ i, (vlJ (j + 1) i).length = P.digestSizeBytes := by
      intro i
      simp only [vlJ]
      split_ifs
      · exact mvl_length hvl i
      · exact hvl i
    rw [computeParentHash_ok hE hP hn (by omega) hsalt hlenJ]
    simp only [Nat.add_sub_cancel]
    congr 1
    set p := j / 2 with hpd
    -- the children of p are final
    have hl : dn (j + 1) (2 * p + 1) := Or.inl (by omega)
    have hr : dn (j + 1) (2 * p + 2) := Or.inl (by omega)
    have hother : ∀ i, i ≠ p → (dn (j + 1) i ↔ dn j i) := by
      intro i hi
      unfold dn
      constructor
      · rintro (h | h)
        · exact Or.inl (by omega)
        · exact Or.inr ⟨by omega, h.2⟩
      · rintro (h | h)
        · exact Or.inl (by omega)
        · exact Or.inr ⟨by omega, h.2⟩
    have ohv : ∀ i, i ≠ p → hvJ (j + 1) i = hvJ j i := by
      intro i hi
      simp only [hvJ]
      by_cases h : dn j i
      · rw [if_pos h, if_pos ((hother i hi).2 h)]
      · rw [if_neg h, if_neg fun h2 => h ((hother i hi).1 h2)]
    have ovl : ∀ i, i ≠ p → vlJ (j + 1) i = vlJ j i := by
      intro i hi
      simp only [vlJ]
      by_cases h : dn j i
      · rw [if_pos h, if_pos ((hother i hi).2 h)]
      · rw [if_neg h, if_neg fun h2 => h ((hother i hi).1 h2)]
    have el : hvJ (j + 1) (2 * p + 1) = mhv D n hv (2 * p + 1) ∧ vlJ (j + 1) (2 * p + 1) = mvl E P salt D n hv vl (2 * p + 1) := by
      simp only [hvJ, vlJ]; rw [if_pos hl, if_pos hl]; exact ⟨rfl, rfl⟩
    have er : hvJ (j + 1) (2 * p + 2) = mhv D n hv (2 * p + 2) ∧ vlJ (j + 1) (2 * p + 2) = mvl E P salt D n hv vl (2 * p + 2) := by
      simp only [hvJ, vlJ]; rw [if_pos hr, if_pos hr]; exact ⟨rfl, rfl⟩
    rw [el.1, er.1, el.2, er.2]
    have keep : hvJ (j + 1) p = hvJ j p → vlJ (j + 1) p = vlJ j p →
        mkTree D n P.digestSizeBytes (hvJ (j + 1)) (vlJ (j + 1)) = mkTree D n P.digestSizeBytes (hvJ j) (vlJ j) := by
      intro h1 h2
      refine mkTree_congr (fun i _ => ?_) (fun i _ => ?_)
      · by_cases hi : i = p
        · rw [hi, h1]
        · exact ohv i hi
      · by_cases hi : i = p
        · rw [hi, h2]
        · exact ovl i hi
    by_cases hx : exb D n (j + 1) = true
    · have hxp : exb D n p = true := by
        have := exb_parent hn (by omega) hx
        rwa [Nat.add_sub_cancel] at this
      have hp2 : p < 2 ^ D - 1 := by have := exb_lt hx; omega
      have hjp : dn j p := by
        by_cases h : j + 1 = 2 * p + 1
        · exact Or.inl (by omega)
        · exact Or.inr ⟨by omega, by rw [show 2 * p + 2 = j + 1 by omega]; exact hx⟩
      have ej : hvJ j p = mhv D n hv p ∧ vlJ j p = mvl E P salt D n hv vl p := by
        simp only [hvJ, vlJ]; rw [if_pos hjp, if_pos hjp]; exact ⟨rfl, rfl⟩
      by_cases hd : dn (j + 1) p
      · -- already processed through the right child
        have e1 : hvJ (j + 1) p = mhv D n hv p ∧ vlJ (j + 1) p = mvl E P salt D n hv vl p := by
          simp only [hvJ, vlJ]; rw [if_pos hd, if_pos hd]; exact ⟨rfl, rfl⟩
        rw [if_neg, keep (by rw [e1.1, ej.1]) (by rw [e1.2, ej.2])]
        rw [e1.1, hx, mhv_inner hp2, hxp]
        cases hv p <;> cases mhv D n hv (2 * p + 1) <;> cases exb D n (2 * p + 2) <;> cases mhv D n hv (2 * p + 2) <;> simp
      · have e1 : hvJ (j + 1) p = hv p ∧ vlJ (j + 1) p = vl p := by
          simp only [hvJ, vlJ]; rw [if_neg hd, if_neg hd]; exact ⟨rfl, rfl⟩
        have m1 := mhv_inner (n := n) (hv := hv) hp2
        have m2 := mvl_inner (E := E) (P := P) (salt := salt) (n := n) (hv := hv) (vl := vl) hp2
        rw [hxp, Bool.true_and] at m1 m2
        rw [hx, e1.1, Bool.true_and]
        by_cases h1 : hv p = true
        · rw [if_neg (by simp [h1]), keep]
          · rw [e1.1, ej.1, m1, h1, Bool.true_or]
          · rw [e1.2, ej.2, m2, if_pos h1]
        · rw [Bool.not_eq_true] at h1
          rw [h1] at m1 m2 ⊢
          rw [Bool.false_or] at m1
          rw [if_neg (by simp)] at m2
          rw [Bool.not_false, Bool.true_and, ← m1]
          rw [← m1] at m2
          by_cases h2 : mhv D n hv p = true
          · rw [if_pos h2] at m2 ⊢
            refine mkTree_congr (fun i _ => ?_) (fun i _ => ?_)
            · rw [Function.update_apply]
              split_ifs with hi
              · rw [hi, ej.1, h2]
              · exact ohv i hi
            · rw [Function.update_apply]
              split_ifs with hi
              · rw [hi, ej.2, m2]
              · exact ovl i hi
          · rw [if_neg h2] at m2 ⊢
            rw [keep]
            · rw [e1.1, ej.1, h1]; simpa using h2
            · rw [e1.2, ej.2, m2]
    · rw [Bool.not_eq_true] at hx
      rw [hx, Bool.false_and, if_neg (by simp)]
      by_cases hjp : j + 1 = 2 * p + 1
      · have hh : mhv D n hv p = hv p ∧ mvl E P salt D n hv vl p = vl p := by
          by_cases hp2 : p < 2 ^ D - 1
          · have hxp : exb D n p = false := by
              by_contra h
              have := exb_child hn hp2 (by simpa using h)
              rw [← hjp, hx] at this
              simp at this
            rw [mhv_inner hp2, mvl_inner hp2, hxp]; simp
          · rw [mhv_leaf hp2, mvl_leaf hp2]; exact ⟨rfl, rfl⟩
        exact keep (by simp only [hvJ]; rw [hh.1, ite_self, ite_self]) (by simp only [vlJ]; rw [hh.2, ite_self, ite_self])
      · have hjp2 : 2 * p + 2 = j + 1 := by omega
        have d1 : ¬ dn (j + 1) p := by
          rintro (h | h)
          · omega
          · rw [hjp2, hx] at h; simp at h
        have d2 : ¬ dn j p := by
          rintro (h | h)
          · omega
          · rw [hjp2, hx] at h; simp at h
        exact keep (by simp only [hvJ]; rw [if_neg d1, if_neg d2]) (by simp only [vlJ]; rw [if_neg d1, if_neg d2])

end Picnic
