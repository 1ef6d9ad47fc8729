import Verif.Proofs.SizesEnc
import Verif.Proofs.SizesMax

/-
An environment in which parameter set 8 has long signatures.
-/

namespace Picnic

open Spec Spec.Challenge Spec.Sizes Spec.Tree Finset

/-- Two states. -/
def wideState (j : ℕ) : Buf :=
  ((if j = 0 then [224, 122, 57, 93, 192, 56, 28, 14, 7, 3, 129, 192, 224, 126, 71, 203, 216, 7, 237, 126, 128, 224, 126, 199, 139, 205, 252, 232, 115, 0, 252, 47, 167,
      168, 15, 198, 240, 121, 62, 29, 64, 63, 16, 15, 210, 3, 254, 0]
    else [231, 126, 126, 32, 126, 152, 28, 14, 7, 235, 117, 123, 188, 158, 136, 28, 14, 7, 226, 129, 192, 224, 112, 56, 28, 14, 7, 239, 120, 255, 190, 158, 8, 31, 221,
      254, 250, 249, 121, 160, 127, 15, 103, 219, 195, 251, 124, 192]) : List ℕ).map (BitVec.ofNat 8) ++ List.replicate 152 0

/-- A stand-in for the permutation: the result is the second state if byte 1 of the input is byte 0 of the first state. -/
def widePerm (s : Buf) : Buf := wideState (if s.getD 1 0 = 224 then 1 else 0)

def wideEnv : Env := { perm := widePerm, lowmc := idConsts, junk := fun a b c => BitVec.ofNat 8 (a + b + c), fuel := 1000 }

theorem wideState_length (j : ℕ) : (wideState j).length = 200 := by
  unfold wideState
  rw [List.length_append, List.length_map, List.length_replicate]
  split_ifs <;> rfl

theorem wideEnv_wf : EnvWF wideEnv where
  perm := fun _ _ => wideState_length _
  lowmc := exEnv_wf.lowmc

theorem wideEnv_inv : InvWF wideEnv where
  len := fun p _ P _ => ⟨by simp [wideEnv, idConsts, idMatrix], fun r _ => by simp [wideEnv, idConsts, idMatrix]⟩
  inv := fun p _ P hP => ⟨idMatrix_inv (paramsWF_of hP), fun r _ => idMatrix_inv (paramsWF_of hP)⟩

/-- Every hash value is the beginning of one of the two states. -/
theorem wide_shake {r : ℕ} {m : Buf} {n : ℕ} (hr : 2 ≤ r) (hn : n ≤ r) (hn2 : n ≤ 200) :
    ∃ j < 2, shake widePerm r m n = (wideState j).take n := by
  have key : ∃ j < 2, absorbPadded widePerm r (padShake r m) = wideState j := by
    unfold absorbPadded
    have hpos : 0 < (padShake r m).length / r := by
      apply Nat.div_pos _ (by omega)
      unfold padShake
      have := Nat.mod_lt m.length (show 0 < r by omega)
      have := Nat.mod_le m.length r
      dsimp only
      split_ifs <;> simp only [List.length_append, List.length_replicate, List.length_cons, List.length_nil] at * <;> omega
    obtain ⟨k, hk⟩ : ∃ k, (padShake r m).length / r = k + 1 := ⟨_ - 1, (Nat.sub_add_cancel hpos).symm⟩
    rw [hk, List.range_succ, List.foldl_append]
    refine ⟨_, ?_, rfl⟩
    split_ifs <;> decide
  obtain ⟨j, hj, key⟩ := key
  refine ⟨j, hj, ?_⟩
  unfold shake
  rw [key]
  have hl := wideState_length j
  apply List.ext_getElem (by simp [hl]; omega)
  intro i h1 h2
  simp only [List.length_map, List.length_range] at h1
  rw [List.getElem_map, List.getElem_range, streamByte, Nat.div_eq_of_lt (by omega), Nat.mod_eq_of_lt (by omega), iter, List.getElem_take,
    List.getD_eq_getElem _ _ (by omega)]

/-- The digest after `d` in the chain. -/
def wideNext (d : Buf) : Buf := shake widePerm 136 ([1] ++ d) 48

def wideD (j : ℕ) : Buf := (wideState j).take 48

theorem wide_next (d : Buf) : ∃ j < 2, wideNext d = wideD j := wide_shake (by norm_num) (by norm_num) (by norm_num)

theorem wide_len2 : ∀ j < 2, (firsts (stream3 9 419 wideNext (wideD j) 2)).length = 52 := by decide +kernel
theorem wide_len1 : ∀ j < 2, (firsts (stream3 9 419 wideNext (wideD j) 1)).length < 52 := by decide +kernel
theorem wide_set : ∀ j < 2, ∀ t < 419, t ∈ firsts (stream3 9 419 wideNext (wideD j) 2) ↔ t % 8 = 7 ∧ t < 416 := by decide +kernel
theorem wide_party : ∀ j < 2, 52 ≤ ((chunks 4 (wideD j)).filter (· < 16)).length ∧ ∀ x ∈ ((chunks 4 (wideD j)).filter (· < 16)).take 52, x ≠ 15 := by decide +kernel

theorem wide_challenge (d : Buf) : ∃ C Q, IsChallenge3 419 16 52 wideNext d C Q := by
  classical
  have hlog : ∀ b T : ℕ, 2 ^ b < T → T ≤ 2 ^ (b + 1) → ∀ j, b + 1 ≤ j ↔ T ≤ 2 ^ j := by
    intro b T h1 h2 j
    constructor
    · intro h; exact h2.trans (Nat.pow_le_pow_right (by decide) h)
    · intro h
      by_contra hj
      have := Nat.pow_le_pow_right (n := 2) (by decide) (show j ≤ b by omega)
      omega
  have hex : ∃ k, 52 ≤ (firsts (stream3 9 419 wideNext d k)).length := by
    obtain ⟨j, hj, e⟩ := wide_next d
    refine ⟨3, (wide_len2 j hj).ge.trans ?_⟩
    rw [← e, firsts_length, firsts_length]
    refine card_le_card fun x hx => ?_
    rw [List.mem_toFinset] at hx ⊢
    rw [stream3]
    exact List.mem_append_right _ hx
  have hk := Nat.find_spec hex
  have hmin := fun k' (h : k' < Nat.find hex) => Nat.find_min hex h
  generalize Nat.find hex = k at hk hmin
  obtain ⟨k, rfl⟩ : ∃ i, k = i + 1 := by
    refine ⟨k - 1, ?_⟩
    rcases Nat.eq_zero_or_pos k with rfl | h
    · exfalso
      simp [stream3, firsts] at hk
    · omega
  have hst : 52 ≤ (stream3 4 16 wideNext (wideNext^[k + 1] d) 1).length := by
    rw [Function.iterate_succ_apply']
    obtain ⟨j, hj, e⟩ := wide_next (wideNext^[k] d)
    rw [e]
    simpa [stream3] using (wide_party j hj).1
  exact ⟨_, _, 9, 4, k + 1, 1, hlog 8 _ (by decide) (by decide), hlog 3 _ (by decide) (by decide), hk, fun k' h => not_le.1 (hmin k' h), rfl, hst, rfl⟩

/-- The challenge of both digests: every eighth repetition is opened, the last party is always opened. -/
theorem wide_is {j : ℕ} (hj : j < 2) {C Q : List ℕ} (h : IsChallenge3 419 16 52 wideNext (wideD j) C Q) :
    (∀ t < 419, t ∈ C ↔ t % 8 = 7 ∧ t < 416) ∧ ∀ x ∈ Q, x ≠ 15 := by
  obtain ⟨bC, bP, k, m, h1, h2, h3, h4, rfl, h6, rfl⟩ := h
  obtain rfl : bC = 9 := by
    have a := (h1 9).2 (by norm_num)
    by_contra hne
    have := (h1 8).1 (by omega)
    norm_num at this
  obtain rfl : bP = 4 := by
    have a := (h2 4).2 (by norm_num)
    by_contra hne
    have := (h2 3).1 (by omega)
    norm_num at this
  obtain rfl : k = 2 := by
    rcases Nat.lt_trichotomy k 2 with h | h | h
    · have hk : k = 0 ∨ k = 1 := by omega
      rcases hk with rfl | rfl
      · simp [stream3, firsts] at h3
      · have := wide_len1 j hj
        omega
    · exact h
    · have := h4 2 h
      have := wide_len2 j hj
      omega
  refine ⟨fun t ht => ?_, ?_⟩
  · rw [List.take_of_length_le (wide_len2 j hj).le]
    exact wide_set j hj t ht
  · obtain ⟨i, hi, e⟩ := wide_next (wideNext^[1] (wideD j))
    have e2 : wideNext^[2] (wideD j) = wideD i := (Function.iterate_succ_apply' wideNext 1 _).trans e
    rw [e2] at h6 ⊢
    cases m with
    | zero => simp [stream3] at h6
    | succ m =>
      rw [stream3, List.take_append_of_le_length (wide_party i hi).1]
      exact (wide_party i hi).2

/-- The length of a signature with such a challenge. -/
theorem wide_size {I : Picnic3.Inst} (hI : I.Is 8) {C Q : List ℕ} (hC : ∀ t < 419, t ∈ C ↔ t % 8 = 7 ∧ t < 416) (hQ : ∀ x ∈ Q, x ≠ 15) {e : I.Vector}
    (ha : Picnic3.Asks C Q e.1) : size I e = 30104 := by
  obtain ⟨h1, h2, h3, h4, h5, h6, h7⟩ : I.T = 419 ∧ I.u = 52 ∧ I.seed = 24 ∧ I.digest = 48 ∧ I.blk = 24 ∧ I.gate = 96 ∧ I.depth = 9 := by
    have := inst_numbers hI
    simpa using this
  have hl : lasts e.1 = 0 := by
    unfold lasts
    rw [card_eq_zero, filter_eq_empty_iff]
    intro t _ ht
    have := (ha t).2 15 ht
    unfold Picnic3.hid at this
    rw [List.getD_eq_getElem?_getD] at this
    cases hq : Q[C.idxOf t.1]? with
    | none => rw [hq] at this; simp at this
    | some x =>
      rw [hq] at this
      exact hQ x (List.mem_of_getElem? hq) this
  have hc : cut I.depth e.1 = 157 := by
    rw [← longest_cut_8, h7]
    have hop : OpenLeaf 9 e.1 = OpenLeaf 9 (opensOf 419 (longest 8)) := by
      funext y
      rw [eq_iff_iff]
      constructor
      · rintro ⟨t, ht, rfl⟩
        have hm := (hC t (by have := t.2; omega)).1 ((ha t).1.2 ht)
        refine ⟨⟨t, by have := t.2; omega⟩, ?_, rfl⟩
        unfold opensOf
        rw [if_pos ((longest_mem (by have := t.2; omega)).2 hm)]
        rfl
      · rintro ⟨t, ht, rfl⟩
        unfold opensOf at ht
        split_ifs at ht with hm
        · exact ⟨⟨t, by have := t.2; omega⟩, (ha _).1.1 ((hC t t.2).2 ((longest_mem t.2).1 hm)), rfl⟩
        · simp at ht
    unfold cut
    rw [hop, h1]
  unfold size
  rw [hc, hl, h2, h3, h4, h5, h6]

end Picnic
