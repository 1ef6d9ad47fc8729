import Verif.Proofs.LowMC
import Verif.Proofs.Hash
import Mathlib.Tactic.IntervalCases
import Mathlib.Data.Nat.Log

/-
Facts about the parameter table and the arithmetic helpers, and the well-formedness of the environment.
-/

namespace Picnic

theorem numBytes_eq (n : ℕ) : numBytes n = (n + 7) / 8 := by
  unfold numBytes
  by_cases h : n = 0
  · subst h; rfl
  · rw [if_neg (by simpa using h)]; omega

theorem getParamSet_isSome (p : ℕ) : (getParamSet p).isSome ↔ 1 ≤ p ∧ p ≤ 12 := by
  constructor
  · intro h
    by_contra hc
    have : paramTable p = none := by
      unfold paramTable
      split <;> first | rfl | (exfalso; omega)
    simp [getParamSet, this] at h
  · rintro ⟨h1, h2⟩
    interval_cases p <;> rfl

theorem getParamSet_bounds {p : ℕ} {P : Params} (h : getParamSet p = some P) : 1 ≤ p ∧ p ≤ 12 :=
  (getParamSet_isSome p).1 (by simp [h])

theorem paramsWF_of {p : ℕ} {P : Params} (h : getParamSet p = some P) : ParamsWF P := by
  obtain ⟨h1, h2⟩ := getParamSet_bounds h
  interval_cases p <;> (injection h with h; subst h; constructor <;> decide)

/-- What is assumed about the environment: the permutation maps states to states and the LowMC tables have the
documented sizes with zero padding in the round constants. -/
structure EnvWF (E : Env) : Prop where
  perm : PermWF E
  lowmc : ∀ p P, getParamSet p = some P → ConstsWF P (E.lowmc P)

/-! ### nlz, ceil_log2 -/

private theorem nlz_step (x n : U32) (k x0 e : ℕ) (hk : 2 * k ≤ 32) (hx : x.toNat = x0 * 2 ^ e)
    (hn : n.toNat = e + 1) (he : e + k < 2 ^ 31) (hlow : 2 ^ (32 - 2 * k) ≤ x.toNat)
    {r : U32 × U32} (hr : r = if (x >>> (32 - k)) == 0 then (n + BitVec.ofNat 32 k, x <<< k) else (n, x)) :
    ∃ e', e' ≤ e + k ∧ r.2.toNat = x0 * 2 ^ e' ∧ r.1.toNat = e' + 1 ∧ 2 ^ (32 - k) ≤ r.2.toNat := by
  subst hr
  by_cases h : (x >>> (32 - k)) == 0
  · simp only [h, if_true]
    have h' : x.toNat / 2 ^ (32 - k) = 0 := by
      have := congrArg BitVec.toNat (eq_of_beq h)
      simpa [BitVec.toNat_ushiftRight, Nat.shiftRight_eq_div_pow] using this
    have hlt : x.toNat < 2 ^ (32 - k) := by
      rcases Nat.div_eq_zero_iff.1 h' with h | h
      · exact absurd h (by positivity)
      · exact h
    have hsh : (x <<< k).toNat = x.toNat * 2 ^ k := by
      rw [BitVec.toNat_shiftLeft, Nat.shiftLeft_eq]
      apply Nat.mod_eq_of_lt
      calc x.toNat * 2 ^ k < 2 ^ (32 - k) * 2 ^ k := by
            apply Nat.mul_lt_mul_of_pos_right hlt (by positivity)
        _ = 2 ^ 32 := by rw [← pow_add]; congr 1; omega
    have hadd : (n + BitVec.ofNat 32 k).toNat = n.toNat + k := by
      rw [BitVec.toNat_add, BitVec.toNat_ofNat, Nat.mod_eq_of_lt (show k < 2 ^ 32 by omega),
        Nat.mod_eq_of_lt (by omega)]
    refine ⟨e + k, le_refl _, ?_, by omega, ?_⟩
    · rw [hsh, hx, pow_add]; ring
    · rw [hsh]
      calc 2 ^ (32 - k) = 2 ^ (32 - 2 * k) * 2 ^ k := by rw [← pow_add]; congr 1; omega
        _ ≤ _ := Nat.mul_le_mul_right _ hlow
  · simp only [h]
    refine ⟨e, by omega, hx, hn, ?_⟩
    by_contra hc
    apply h
    have : (x >>> (32 - k)).toNat = 0 := by
      rw [BitVec.toNat_ushiftRight, Nat.shiftRight_eq_div_pow]
      exact Nat.div_eq_of_lt (by simpa using hc)
    simpa using BitVec.eq_of_toNat_eq (y := 0#32) (by simpa using this)

/-- The number of leading zeros. -/
theorem nlz_spec (x : U32) (hx : x ≠ 0) :
    (nlz x).toNat ≤ 31 ∧ 2 ^ (31 - (nlz x).toNat) ≤ x.toNat ∧ x.toNat < 2 ^ (32 - (nlz x).toNat) := by
  have hx0 : 0 < x.toNat := by
    rcases Nat.eq_zero_or_pos x.toNat with h | h
    · exact absurd (BitVec.eq_of_toNat_eq (by simpa using h)) hx
    · exact h
  unfold nlz
  rw [if_neg (by simpa using hx)]
  simp only []
  set r1 : U32 × U32 := if (x >>> 16) == 0 then (1 + 16, x <<< 16) else (1, x) with hr1
  set r2 : U32 × U32 := if (r1.2 >>> 24) == 0 then (r1.1 + 8, r1.2 <<< 8) else (r1.1, r1.2) with hr2
  set r3 : U32 × U32 := if (r2.2 >>> 28) == 0 then (r2.1 + 4, r2.2 <<< 4) else (r2.1, r2.2) with hr3
  set r4 : U32 × U32 := if (r3.2 >>> 30) == 0 then (r3.1 + 2, r3.2 <<< 2) else (r3.1, r3.2) with hr4
  obtain ⟨e1, g1, h1, n1, l1⟩ := nlz_step x 1 16 x.toNat 0 (by omega) (by simp) (by rfl) (by omega) (by simp; omega)
    (r := r1) hr1
  obtain ⟨e2, g2, h2, n2, l2⟩ := nlz_step r1.2 r1.1 8 x.toNat e1 (by omega) h1 n1 (by omega) l1 (r := r2) hr2
  obtain ⟨e3, g3, h3, n3, l3⟩ := nlz_step r2.2 r2.1 4 x.toNat e2 (by omega) h2 n2 (by omega) l2 (r := r3) hr3
  obtain ⟨e4, g4, h4, n4, l4⟩ := nlz_step r3.2 r3.1 2 x.toNat e3 (by omega) h3 n3 (by omega) l3 (r := r4) hr4
  have hlt := r4.2.isLt
  have hsh : (r4.2 >>> 31).toNat = if 2 ^ 31 ≤ r4.2.toNat then 1 else 0 := by
    rw [BitVec.toNat_ushiftRight, Nat.shiftRight_eq_div_pow]
    split
    · omega
    · omega
  have hle : 2 ^ e4 ≤ r4.2.toNat := by
    rw [h4]; exact Nat.le_mul_of_pos_left _ hx0
  have he31 : e4 ≤ 31 := by
    by_contra hc
    have : 2 ^ 32 ≤ 2 ^ e4 := Nat.pow_le_pow_right (by omega) (by omega)
    omega
  have hsub : (r4.1 - r4.2 >>> 31).toNat = if 2 ^ 31 ≤ r4.2.toNat then e4 else e4 + 1 := by
    rw [BitVec.toNat_sub, hsh, n4]
    split <;> omega
  rw [hsub]
  have hp : 0 < 2 ^ e4 := by positivity
  by_cases hb : 2 ^ 31 ≤ r4.2.toNat
  · rw [if_pos hb]
    refine ⟨he31, ?_, ?_⟩
    · rw [h4] at hb
      have : 2 ^ (31 - e4) * 2 ^ e4 ≤ x.toNat * 2 ^ e4 := by rw [← pow_add, show 31 - e4 + e4 = 31 by omega]; exact hb
      exact Nat.le_of_mul_le_mul_right this hp
    · rw [h4] at hlt
      have : x.toNat * 2 ^ e4 < 2 ^ (32 - e4) * 2 ^ e4 := by rw [← pow_add, show 32 - e4 + e4 = 32 by omega]; exact hlt
      exact Nat.lt_of_mul_lt_mul_right this
  · rw [if_neg hb]
    have he30 : e4 ≤ 30 := by
      by_contra hc
      have : 2 ^ 31 ≤ 2 ^ e4 := Nat.pow_le_pow_right (by omega) (by omega)
      omega
    refine ⟨by omega, ?_, ?_⟩
    · have l4' : 2 ^ 30 ≤ x.toNat * 2 ^ e4 := by rw [← h4]; exact l4
      have : 2 ^ (31 - (e4 + 1)) * 2 ^ e4 ≤ x.toNat * 2 ^ e4 := by
        rw [← pow_add, show 31 - (e4 + 1) + e4 = 30 by omega]; exact l4'
      exact Nat.le_of_mul_le_mul_right this hp
    · have hb' : x.toNat * 2 ^ e4 < 2 ^ 31 := by rw [← h4]; omega
      have : x.toNat * 2 ^ e4 < 2 ^ (32 - (e4 + 1)) * 2 ^ e4 := by
        rw [← pow_add, show 32 - (e4 + 1) + e4 = 31 by omega]; exact hb'
      exact Nat.lt_of_mul_lt_mul_right this

theorem ceilLog2U32_spec (x : U32) (hx : x ≠ 0) (k : ℕ) : (ceilLog2U32 x).toNat ≤ k ↔ x.toNat ≤ 2 ^ k := by
  have hx0 : 0 < x.toNat := by
    rcases Nat.eq_zero_or_pos x.toNat with h | h
    · exact absurd (BitVec.eq_of_toNat_eq (by simpa using h)) hx
    · exact h
  have hlt := x.isLt
  have hsub : (x - 1).toNat = x.toNat - 1 := by
    rw [BitVec.toNat_sub]; simp; omega
  unfold ceilLog2U32
  rw [if_neg (by simpa using hx)]
  by_cases h1 : x - 1 = 0
  · have : x.toNat = 1 := by
      have := congrArg BitVec.toNat h1
      rw [hsub] at this; simp at this; omega
    rw [h1, this]
    have : (32 - nlz 0 : U32).toNat = 0 := by decide
    rw [this]
    exact ⟨fun _ => Nat.one_le_two_pow, fun _ => Nat.zero_le _⟩
  · obtain ⟨a, b, c⟩ := nlz_spec (x - 1) h1
    rw [hsub] at b c
    have hs : (32 - nlz (x - 1)).toNat = 32 - (nlz (x - 1)).toNat := by
      rw [BitVec.toNat_sub, show (32 : U32).toNat = 32 from rfl]; omega
    rw [hs]
    generalize (nlz (x - 1)).toNat = z at *
    constructor
    · intro h
      have : 2 ^ (32 - z) ≤ 2 ^ k := Nat.pow_le_pow_right (by omega) h
      omega
    · intro h
      by_contra hc
      have : 2 ^ k ≤ 2 ^ (31 - z) := Nat.pow_le_pow_right (by omega) (by omega)
      omega

end Picnic
