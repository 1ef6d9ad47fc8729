import Verif.Proofs.SeedTree

/-
/repo/tree.c: generateSeeds, revealSeeds, reconstructSeeds.
-/

namespace Picnic

open Spec.Tree

/-- The seed of node i (numbered from 0) of the tree grown from `root`. -/
def seedAt (E : Env) (P : Params) (salt : Buf) (rep : ℕ) (root : Buf) (i : ℕ) : Buf :=
  if h : i = 0 then root else fromParent E P salt rep i (seedAt E P salt rep root ((i - 1) / 2))
termination_by i
decreasing_by omega

theorem seedAt_zero (E : Env) (P : Params) (salt : Buf) (rep : ℕ) (root : Buf) : seedAt E P salt rep root 0 = root := by
  rw [seedAt]; simp

theorem seedAt_pos (E : Env) (P : Params) (salt : Buf) (rep : ℕ) (root : Buf) {i : ℕ} (h : i ≠ 0) :
    seedAt E P salt rep root i = fromParent E P salt rep i (seedAt E P salt rep root ((i - 1) / 2)) := by
  conv_lhs => rw [seedAt]
  rw [dif_neg h]

theorem seedAt_length {E : Env} {P : Params} {salt : Buf} {rep : ℕ} {root : Buf} (h : root.length = P.seedSizeBytes) (i : ℕ) :
    (seedAt E P salt rep root i).length = P.seedSizeBytes := by
  by_cases h0 : i = 0
  · subst h0; rw [seedAt_zero, h]
  · rw [seedAt_pos _ _ _ _ _ h0, fromParent_length]

/-- The contents of the whole tree. -/
noncomputable def seedVl (E : Env) (P : Params) (salt : Buf) (rep : ℕ) (root : Buf) (D n i : ℕ) : Buf :=
  if exb D n i then seedAt E P salt rep root i else zeros P.seedSizeBytes

theorem seedVl_length {E : Env} {P : Params} {salt : Buf} {rep : ℕ} {root : Buf} (h : root.length = P.seedSizeBytes) (D n i : ℕ) :
    (seedVl E P salt rep root D n i).length = P.seedSizeBytes := by
  unfold seedVl
  split_ifs
  · exact seedAt_length h i
  · simp

theorem mkTree_congr {D n ds : ℕ} {hv hv' : ℕ → Bool} {vl vl' : ℕ → Buf} (h1 : ∀ i < 2 ^ D - 1 + n, hv i = hv' i)
    (h2 : ∀ i < 2 ^ D - 1 + n, vl i = vl' i) : mkTree D n ds hv vl = mkTree D n ds hv' vl' := by
  unfold mkTree
  rw [arrN_congr h1, arrN_congr h2]

theorem generateSeeds_ok {E : Env} {P : Params} {n rep : ℕ} {root salt : Buf} (hE : PermWF E) (hP : SeedWF P) (h2 : 2 ≤ n) (h3 : n < 2 ^ 32)
    (hr : root.length = P.seedSizeBytes) (hsalt : salt.length = P.saltSizeBytes) :
    generateSeeds E P n root salt rep =
      Outcome.ok (mkTree (ceilLog2 n) n P.seedSizeBytes (exb (ceilLog2 n) n) (seedVl E P salt rep root (ceilLog2 n) n)) := by
  have hn := ceilLog2_le (by omega : 1 ≤ n) h3
  set D := ceilLog2 n with hD
  have hp : 1 ≤ 2 ^ D := Nat.one_le_two_pow
  unfold generateSeeds
  rw [createTree_ok (by omega) h3, ok_bind, ← hD, setNode_ok (by omega) (by simp) (by omega), ok_bind,
    expandSeeds_ok hE hP h2 hn hsalt]
  · congr 1
    set hv : ℕ → Bool := Function.update (fun _ => false) 0 true with hhv
    have hx : ∀ i, hvX (exb D n) hv i = exb D n i := by
      intro i
      induction i using Nat.strong_induction_on with
      | _ i ih =>
        by_cases h0 : i = 0
        · subst h0; rw [hvX_zero, exb_root (by omega) hn]; simp [hhv]
        · rw [hvX_pos _ _ h0, ih _ (by omega), show hv i = false by simp [hhv, h0], Bool.false_or]
          by_cases he : exb D n i = true
          · rw [he, exb_parent hn h0 he]; rfl
          · rw [Bool.not_eq_true] at he; rw [he, Bool.false_and]
    refine mkTree_congr (fun i _ => hx i) fun i _ => ?_
    induction i using Nat.strong_induction_on with
    | _ i ih =>
      by_cases h0 : i = 0
      · subst h0
        rw [vlX_zero, seedVl, if_pos (exb_root (by omega) hn), seedAt_zero, Function.update_self, List.drop_zero, List.take_of_length_le hr.le]
      · rw [vlX_pos _ _ _ _ _ _ _ h0, show hv i = false by simp [hhv, h0], if_neg (by simp), hx]
        by_cases he : exb D n i = true
        · have hep := exb_parent hn h0 he
          rw [he, hep, if_pos (by simp), seedVl, if_pos he, seedAt_pos _ _ _ _ _ h0]
          rw [ih _ (by omega) (by omega), seedVl, if_pos hep]
        · rw [Bool.not_eq_true] at he
          rw [he, Bool.false_and, if_neg (by simp), seedVl, he, if_neg (by simp), Function.update_of_ne h0]
  · intro i
    rw [Function.update_apply]
    split_ifs
    · rw [List.drop_zero, List.length_take]; omega
    · simp
  · intro i hi
    rw [Function.update_apply] at hi
    split_ifs at hi with h
    rw [h]; exact exb_root (by omega) hn

/-! ### revealing -/

theorem foldlM_reveal {P : Params} {D n ds : ℕ} {hv : ℕ → Bool} {vl : ℕ → Buf} :
    ∀ (rv : List ℕ) (k : Int) (out : Buf) (off : ℕ), (∀ r ∈ rv, r < 2 ^ D - 1 + n) → (∀ r ∈ rv, (vl r).length = P.seedSizeBytes) →
      ((rv.length * P.seedSizeBytes : ℕ) : Int) ≤ k → off + rv.length * P.seedSizeBytes ≤ out.length →
      rv.foldlM (fun (st : Int × Buf × Nat) node => do
        let outLen := st.1 - P.seedSizeBytes
        if outLen < 0 then .abort
        else do
          let src ← rd (mkTree D n ds hv vl).nodes node
          let output ← memcpy st.2.1 st.2.2 src 0 P.seedSizeBytes
          pure (outLen, output, st.2.2 + P.seedSizeBytes)) (k, out, off) =
        (Outcome.ok (k - (rv.length * P.seedSizeBytes : ℕ), out.take off ++ rv.flatMap vl ++ out.drop (off + rv.length * P.seedSizeBytes),
          off + rv.length * P.seedSizeBytes) : M (Int × Buf × Nat)) := by
  intro rv
  induction rv with
  | nil => intro k out off _ _ _ _; simp [pure_eq_ok]
  | cons r rv ih =>
    intro k out off h1 h2 h3 h4
    have hr := h1 r (by simp)
    have hl := h2 r (by simp)
    rw [List.length_cons, Nat.add_mul, Nat.one_mul] at h3 h4
    rw [List.foldlM_cons]
    dsimp only
    rw [if_neg (by push_cast at h3 ⊢; have : (0:Int) ≤ (rv.length : Int) * P.seedSizeBytes := by positivity
                   omega),
      rd_arrN hr, ok_bind, memcpy_ok (by omega) (by omega), ok_bind,
      pure_eq_ok, ok_bind, List.drop_zero, List.take_of_length_le hl.le]
    have hlen : (List.take off out ++ vl r ++ List.drop (off + P.seedSizeBytes) out).length = out.length := by
      simp only [List.length_append, List.length_take, List.length_drop, hl]; omega
    have ih2 := ih (k - P.seedSizeBytes) (out.take off ++ vl r ++ out.drop (off + P.seedSizeBytes)) (off + P.seedSizeBytes)
      (fun x hx => h1 x (by simp [hx])) (fun x hx => h2 x (by simp [hx])) (by push_cast at h3 ⊢; omega)
      (by rw [hlen]; omega)
    refine Eq.trans ih2 ?_
    have e1 : (out.take off ++ vl r).length = off + P.seedSizeBytes := by
      rw [List.length_append, List.length_take, hl]; omega
    have e2 : List.take (off + P.seedSizeBytes) (out.take off ++ vl r ++ out.drop (off + P.seedSizeBytes)) = out.take off ++ vl r := by
      rw [← e1, List.take_left]
    have e3 : List.drop (off + P.seedSizeBytes + rv.length * P.seedSizeBytes) (out.take off ++ vl r ++ out.drop (off + P.seedSizeBytes)) =
        out.drop (off + P.seedSizeBytes + rv.length * P.seedSizeBytes) := by
      rw [List.drop_append, e1, List.drop_eq_nil_of_le (by omega), List.nil_append, List.drop_drop]
      congr 1; omega
    rw [e2, e3, List.length_cons, Nat.add_mul, Nat.one_mul]
    congr 2
    · push_cast; ring
    · congr 1
      · rw [List.flatMap_cons]
        simp only [List.append_assoc]
        congr 4
        omega
      · omega

/-- `revealSeeds` outputs the seeds of the revealed nodes. -/
theorem revealSeeds_ok {P : Params} {D n size : ℕ} {hv : ℕ → Bool} {vl : ℕ → Buf} {l rv : List ℕ} {out : Buf}
    (hrun : getRevealedNodes (mkTree D n P.seedSizeBytes hv vl) l l.length = Outcome.ok rv) (h1 : ∀ r ∈ rv, r < 2 ^ D - 1 + n)
    (h2 : ∀ r ∈ rv, (vl r).length = P.seedSizeBytes) (hs : rv.length * P.seedSizeBytes ≤ size) (hs2 : size ≤ out.length) (hs3 : size ≤ INT_MAX) :
    revealSeeds P (mkTree D n P.seedSizeBytes hv vl) l l.length out size =
      Outcome.ok (rv.length * P.seedSizeBytes, rv.flatMap vl ++ out.drop (rv.length * P.seedSizeBytes)) := by
  unfold revealSeeds
  rw [if_neg (by omega), hrun, ok_bind]
  have := foldlM_reveal (P := P) (D := D) (n := n) (ds := P.seedSizeBytes) (hv := hv) (vl := vl) rv size out 0 h1 h2 (by exact_mod_cast hs) (by omega)
  refine bind_of this ?_
  dsimp only
  rw [pure_eq_ok]
  simp

theorem revealSeedsSize_ok {P : Params} {n : ℕ} {l rv : List ℕ} (h1 : 1 ≤ n) (h2 : n < 2 ^ 32)
    (hrun : ∀ ds hv vl, getRevealedNodes (mkTree (ceilLog2 n) n ds hv vl) l l.length = Outcome.ok rv) :
    revealSeedsSize P n l l.length = Outcome.ok (rv.length * P.seedSizeBytes) := by
  unfold revealSeedsSize
  rw [createTree_ok h1 h2, ok_bind, hrun, ok_bind, pure_eq_ok]

/-! ### reconstruction -/

theorem foldlM_set {D n ds : ℕ} {input : Buf} :
    ∀ (rv : List ℕ) (k : Int) (off : ℕ) (hv : ℕ → Bool) (vl : ℕ → Buf), rv.Nodup → (∀ r ∈ rv, r < 2 ^ D - 1 + n) →
      (∀ i, (vl i).length = ds) → ((rv.length * ds : ℕ) : Int) ≤ k → off + rv.length * ds ≤ input.length →
      rv.foldlM (fun (st : Bool × Tree × Int × Nat) node =>
        if !st.1 then pure st
        else do
          let inLen := st.2.2.1 - ds
          if inLen < 0 then pure (false, st.2.1, inLen, st.2.2.2)
          else do
            let tree ← setNode st.2.1 node input st.2.2.2 ds
            pure (true, tree, inLen, st.2.2.2 + ds)) (true, mkTree D n ds hv vl, k, off) =
        (Outcome.ok (true, mkTree D n ds (fun i => decide (i ∈ rv) || hv i)
            (fun i => if i ∈ rv then (input.drop (off + rv.idxOf i * ds)).take ds else vl i), k - (rv.length * ds : ℕ), off + rv.length * ds) :
          M (Bool × Tree × Int × Nat)) := by
  intro rv
  induction rv with
  | nil => intro k off hv vl _ _ _ _ _; simp [pure_eq_ok]
  | cons r rv ih =>
    intro k off hv vl hnd h1 h2 h3 h4
    have hr := h1 r (by simp)
    rw [List.nodup_cons] at hnd
    rw [List.length_cons, Nat.add_mul, Nat.one_mul] at h3 h4
    rw [List.foldlM_cons]
    dsimp only
    rw [if_neg (by simp), if_neg (by push_cast at h3 ⊢; have : (0:Int) ≤ (rv.length : Int) * ds := by positivity
                                     omega),
      setNode_ok hr (h2 r) (by omega), ok_bind, pure_eq_ok, ok_bind]
    refine Eq.trans (ih (k - ds) (off + ds) _ _ hnd.2 (fun x hx => h1 x (by simp [hx])) (fun i => ?_) (by push_cast at h3 ⊢; omega) (by omega)) ?_
    · rw [Function.update_apply]
      split_ifs
      · rw [List.length_take, List.length_drop]; omega
      · exact h2 i
    rw [List.length_cons, Nat.add_mul, Nat.one_mul]
    congr 2
    congr 1
    · refine mkTree_congr (fun i _ => ?_) (fun i _ => ?_)
      · rw [Function.update_apply]
        by_cases h : i = r
        · simp [h]
        · simp [h]
      · rw [Function.update_apply]
        by_cases h : i = r
        · subst h
          rw [if_neg hnd.1, if_pos rfl, if_pos (by simp), List.idxOf_cons_self]; simp
        · by_cases hi : i ∈ rv
          · rw [if_pos hi, if_pos (by simp [hi]), List.idxOf_cons_ne _ (Ne.symm h), Nat.succ_eq_add_one, Nat.add_mul, Nat.one_mul]
            congr 2; omega
          · rw [if_neg hi, if_neg h, if_neg (by simp [h, hi])]
    · congr 1
      · push_cast; ring
      · omega

/-- `reconstructSeeds` on a fresh tree. -/
theorem reconstructSeeds_ok {E : Env} {P : Params} {D n size rep : ℕ} {l rv : List ℕ} {input salt : Buf} (hE : PermWF E) (hP : SeedWF P)
    (hn2 : 2 ≤ n) (hn : n ≤ 2 ^ D) (hsalt : salt.length = P.saltSizeBytes)
    (hrun : getRevealedNodes (mkTree D n P.seedSizeBytes (fun _ => false) fun _ => zeros P.seedSizeBytes) l l.length = Outcome.ok rv)
    (hnd : rv.Nodup) (hex : ∀ r ∈ rv, exb D n r = true)
    (hs : rv.length * P.seedSizeBytes ≤ size) (hs2 : size ≤ input.length) (hs3 : size ≤ INT_MAX) :
    reconstructSeeds E P (mkTree D n P.seedSizeBytes (fun _ => false) fun _ => zeros P.seedSizeBytes) l l.length input size salt rep =
      Outcome.ok (true, mkTree D n P.seedSizeBytes (hvX (exb D n) fun i => decide (i ∈ rv))
        (vlX E P salt rep (exb D n) (fun i => decide (i ∈ rv))
          fun i => if i ∈ rv then (input.drop (rv.idxOf i * P.seedSizeBytes)).take P.seedSizeBytes else zeros P.seedSizeBytes)) := by
  unfold reconstructSeeds
  rw [if_neg (by omega), hrun, ok_bind]
  refine bind_of (foldlM_set rv size 0 _ _ hnd (fun r hr => exb_lt (hex r hr)) (by simp) (by exact_mod_cast hs) (by omega)) ?_
  dsimp only
  rw [if_neg (by simp)]
  simp only [Bool.or_false, Nat.zero_add]
  refine bind_of (expandSeeds_ok hE hP hn2 hn hsalt (fun i => ?_) (fun i hi => ?_)) rfl
  · split_ifs with h
    · have h5 := List.idxOf_lt_length_iff.2 h
      have h6 : (rv.idxOf i + 1) * P.seedSizeBytes ≤ rv.length * P.seedSizeBytes := Nat.mul_le_mul_right _ h5
      rw [Nat.add_mul, Nat.one_mul] at h6
      rw [List.length_take, List.length_drop]; omega
    · simp
  · exact hex i (by simpa using hi)

/-- Bytes `k` of the concatenation of equally long blocks. -/
theorem flatMap_block {α : Type} {rv : List ℕ} {vl : ℕ → List α} {s : ℕ} (h : ∀ r ∈ rv, (vl r).length = s) {i : ℕ} (hi : i ∈ rv) (rest : List α) :
    ((rv.flatMap vl ++ rest).drop (rv.idxOf i * s)).take s = vl i := by
  induction rv with
  | nil => simp at hi
  | cons r rv ih =>
    have hr := h r (by simp)
    by_cases hir : i = r
    · subst hir
      rw [List.idxOf_cons_self, Nat.zero_mul, List.drop_zero, List.flatMap_cons, List.append_assoc, ← hr, List.take_left]
    · rw [List.idxOf_cons_ne _ (Ne.symm hir), Nat.succ_eq_add_one, List.flatMap_cons, List.append_assoc, Nat.add_mul, Nat.one_mul,
        Nat.add_comm, ← List.drop_drop, show List.drop s (vl r ++ (rv.flatMap vl ++ rest)) = rv.flatMap vl ++ rest by rw [← hr, List.drop_left]]
      exact ih (fun x hx => h x (by simp [hx])) (by simpa [hir] using hi)

theorem flatMap_blocks_length {α : Type} {rv : List ℕ} {vl : ℕ → List α} {s : ℕ} (h : ∀ r ∈ rv, (vl r).length = s) :
    (rv.flatMap vl).length = rv.length * s := by
  induction rv with
  | nil => simp
  | cons r rv ih =>
    rw [List.flatMap_cons, List.length_append, h r (by simp), ih fun x hx => h x (by simp [hx]), List.length_cons]; ring

/-- No ancestor (or equal) of a hidden leaf is recovered. -/
theorem hvX_hidden {D n : ℕ} {S : ℕ → Prop} {rv : List ℕ} (h1 : 1 ≤ n) (hn : n ≤ 2 ^ D) (hS : AtDepth D S)
    (hrv : ∀ r, r ∈ rv ↔ Rev D n S (r + 1)) (i : ℕ) (h : hvX (exb D n) (fun i => decide (i ∈ rv)) i = true) : ¬ Up D S (i + 1) := by
  induction i using Nat.strong_induction_on with
  | _ i ih =>
    by_cases h0 : i = 0
    · subst h0
      rw [hvX_zero, decide_eq_true_eq, hrv] at h
      exact (rev_node h1 hn hS h).2.2
    · rw [hvX_pos _ _ h0, Bool.or_eq_true, decide_eq_true_eq, hrv, Bool.and_eq_true] at h
      rcases h with h | h
      · exact (rev_node h1 hn hS h).2.2
      · intro hu
        refine ih _ (by omega) h.2 ?_
        have := up_parent hS hu (by omega)
        rwa [show (i + 1) / 2 = (i - 1) / 2 + 1 by omega] at this

/-- A node below a revealed node is recovered. -/
theorem hvX_below {D n : ℕ} {rv : List ℕ} (hn : n ≤ 2 ^ D) (k i : ℕ) (hi : exb D n i = true) (h1 : 1 ≤ (i + 1) / 2 ^ k)
    (h : (i + 1) / 2 ^ k - 1 ∈ rv) : hvX (exb D n) (fun i => decide (i ∈ rv)) i = true := by
  induction k generalizing i with
  | zero =>
    rw [pow_zero, Nat.div_one, Nat.add_sub_cancel] at h
    by_cases h0 : i = 0
    · subst h0; rw [hvX_zero]; simpa using h
    · rw [hvX_pos _ _ h0]; simp [h]
  | succ k ih =>
    have h0 : i ≠ 0 := by
      rintro rfl
      have : (0 + 1) / 2 ^ (k + 1) = 0 := Nat.div_eq_of_lt (by rw [pow_succ]; have : 1 ≤ 2 ^ k := Nat.one_le_two_pow; omega)
      omega
    have e : (i + 1) / 2 ^ (k + 1) = ((i - 1) / 2 + 1) / 2 ^ k := by
      rw [pow_succ', ← Nat.div_div_eq_div_mul]; congr 1; omega
    rw [e] at h h1
    rw [hvX_pos _ _ h0, hi, ih _ (exb_parent hn h0 hi) h1 h]
    simp

/-- Recovered seeds have their original value. -/
theorem vlX_orig {E : Env} {P : Params} {salt root : Buf} {rep : ℕ} {ex : ℕ → Bool} {rv : List ℕ} {vl : ℕ → Buf}
    (h0 : 0 ∉ rv) (hvl : ∀ r ∈ rv, vl r = seedAt E P salt rep root r) (i : ℕ)
    (h : hvX ex (fun i => decide (i ∈ rv)) i = true) :
    vlX E P salt rep ex (fun i => decide (i ∈ rv)) vl i = seedAt E P salt rep root i := by
  induction i using Nat.strong_induction_on with
  | _ i ih =>
    by_cases hi : i = 0
    · subst hi
      rw [hvX_zero] at h
      exact absurd (by simpa using h) h0
    · rw [vlX_pos _ _ _ _ _ _ _ hi]
      by_cases hr : i ∈ rv
      · rw [if_pos (by simpa using hr), hvl i hr]
      · rw [hvX_pos _ _ hi] at h
        simp only [decide_eq_false hr, Bool.false_or] at h
        rw [if_neg (by simpa using hr), if_pos h, seedAt_pos _ _ _ _ _ hi, ih _ (by omega) (by simp at h; exact h.2)]

end Picnic
