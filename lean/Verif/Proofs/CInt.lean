import Verif.Spec.CInt
import Mathlib.Tactic.Linarith
import Mathlib.Algebra.Order.Floor.Div
import Mathlib.Algebra.Order.Group.Int

/-
A checker of intervals for `Spec.CInt.Ex`, and its soundness: an accepted expression is faithful.
-/

namespace Spec.CInt

/-- `[lo, hi]` inside the range of `t`. -/
def fits (t : Ty) (lo hi : ℤ) : Bool := decide (t.min ≤ lo) && decide (hi ≤ t.max)

/-- Interval of the exact value of an expression whose evaluation is exact; `none`: not shown. -/
def Ex.check : Ex → Option (ℤ × ℤ)
  | val t v => if fits t v v then some (v, v) else none
  | var _ t lo hi => if fits t lo hi then some (lo, hi) else none
  | bin o a b =>
    match a.check, b.check with
    | some (al, ah), some (bl, bh) =>
      let t := Ty.usual a.ty b.ty
      if fits t al ah && fits t bl bh then
        match o with
        | .add => if fits t (al + bl) (ah + bh) then some (al + bl, ah + bh) else none
        | .sub => if fits t (al - bh) (ah - bl) then some (al - bh, ah - bl) else none
        | .mul => if decide (0 ≤ al) && decide (0 ≤ bl) && fits t (al * bl) (ah * bh) then some (al * bl, ah * bh) else none
        | .div => if decide (0 ≤ al) && decide (0 < bl) then some (0, ah / bl) else none
        | .mod => if decide (0 ≤ al) && decide (0 < bl) then some (0, bh - 1) else none
        | .lt => some (0, 1)
        | .le => some (0, 1)
        | .eq => some (0, 1)
      else none
    | _, _ => none
  | shl a b =>
    match a.check, b.check with
    | some (al, ah), some (bl, bh) =>
      if decide (0 ≤ al) && decide (0 ≤ bl) && decide (bh < a.ty.promote.width) && fits a.ty.promote 0 (ah * 2 ^ bh.toNat) then
        some (al * 2 ^ bl.toNat, ah * 2 ^ bh.toNat) else none
    | _, _ => none
  | shr a b =>
    match a.check, b.check with
    | some (al, ah), some (bl, bh) =>
      if decide (0 ≤ al) && decide (0 ≤ bl) && decide (bh < a.ty.promote.width) && fits a.ty.promote 0 ah then
        some (0, ah / 2 ^ bl.toNat) else none
    | _, _ => none
  | cast t a =>
    match a.check with
    | some (al, ah) => if fits t al ah then some (al, ah) else none
    | none => none

theorem holds_of_fits {t : Ty} {lo hi v : ℤ} (h : fits t lo hi = true) (hl : lo ≤ v) (hh : v ≤ hi) : t.Holds v := by
  simp only [fits, Bool.and_eq_true, decide_eq_true_eq] at h
  exact ⟨h.1.trans hl, hh.trans h.2⟩

theorem unsigned_mod {t : Ty} (ht : t.signed = false) {v : ℤ} (h : t.Holds v) : v % 2 ^ t.width = v := by
  obtain ⟨h1, h2⟩ := h
  simp only [Ty.min, Ty.max, ht, Bool.false_eq_true, if_false] at h1 h2
  exact Int.emod_eq_of_lt h1 (by omega)

theorem conv_of_holds {t : Ty} {v : ℤ} (h : t.Holds v) : conv t v = some v := by
  unfold conv
  by_cases hs : t.signed = true
  · simp [hs, h]
  · simp only [Bool.not_eq_true] at hs
    simp [hs, unsigned_mod hs h]

theorem result_of_holds {t : Ty} {v : ℤ} (h : t.Holds v) : result t v = some v := conv_of_holds h

theorem min_nonpos (t : Ty) : t.min ≤ 0 := by cases t <;> decide

/-- Nonnegative and below a value of the type: also a value of the type. -/
theorem holds_between {t : Ty} {v w : ℤ} (hv : 0 ≤ v) (hvw : v ≤ w) (hw : w ≤ t.max) : t.Holds v :=
  ⟨(min_nonpos t).trans hv, hvw.trans hw⟩

theorem fits_max {t : Ty} {lo hi : ℤ} (h : fits t lo hi = true) : hi ≤ t.max := by
  simp only [fits, Bool.and_eq_true, decide_eq_true_eq] at h; exact h.2

/-- Soundness: on an accepted expression the computed value is the exact one and lies in the interval. -/
theorem check_sound (ρ : String → ℤ) : ∀ (e : Ex) (lo hi : ℤ), e.check = some (lo, hi) → e.Within ρ →
    e.eval ρ = some (e.exact ρ) ∧ lo ≤ e.exact ρ ∧ e.exact ρ ≤ hi := by
  intro e
  induction e with
  | val t v =>
    intro lo hi h _
    simp only [Ex.check] at h
    split at h
    · next hf =>
      cases h
      exact ⟨by simp [Ex.eval, Ex.exact, holds_of_fits hf le_rfl le_rfl], le_rfl, le_rfl⟩
    · cases h
  | var x t lo' hi' =>
    intro lo hi h hw
    simp only [Ex.check] at h
    split at h
    · next hf =>
      cases h
      exact ⟨by simp [Ex.eval, Ex.exact, holds_of_fits hf hw.1 hw.2], hw.1, hw.2⟩
    · cases h
  | bin o a b iha ihb =>
    intro lo hi h hw
    simp only [Ex.check] at h
    split at h
    · next al ah bl bh ha hb =>
      obtain ⟨ea, la, ua⟩ := iha _ _ ha hw.1
      obtain ⟨eb, lb, ub⟩ := ihb _ _ hb hw.2
      split at h
      · next hf =>
        simp only [Bool.and_eq_true] at hf
        have hca := conv_of_holds (holds_of_fits hf.1 la ua)
        have hcb := conv_of_holds (holds_of_fits hf.2 lb ub)
        have ham := (fits_max hf.1)
        have hbm := (fits_max hf.2)
        cases o with
        | add =>
          simp only at h
          split at h
          · next hg =>
            cases h
            have h1 : al + bl ≤ a.exact ρ + b.exact ρ := by linarith
            have h2 : a.exact ρ + b.exact ρ ≤ ah + bh := by linarith
            exact ⟨by simp [Ex.eval, Ex.exact, ea, eb, hca, hcb, apply, result_of_holds (holds_of_fits hg h1 h2)], h1, h2⟩
          · cases h
        | sub =>
          simp only at h
          split at h
          · next hg =>
            cases h
            have h1 : al - bh ≤ a.exact ρ - b.exact ρ := by linarith
            have h2 : a.exact ρ - b.exact ρ ≤ ah - bl := by linarith
            exact ⟨by simp [Ex.eval, Ex.exact, ea, eb, hca, hcb, apply, result_of_holds (holds_of_fits hg h1 h2)], h1, h2⟩
          · cases h
        | mul =>
          simp only at h
          split at h
          · next hg =>
            cases h
            simp only [Bool.and_eq_true, decide_eq_true_eq] at hg
            obtain ⟨⟨ha0, hb0⟩, hg⟩ := hg
            have h1 : al * bl ≤ a.exact ρ * b.exact ρ := mul_le_mul la lb hb0 (ha0.trans la)
            have h2 : a.exact ρ * b.exact ρ ≤ ah * bh := mul_le_mul ua ub (hb0.trans lb) (ha0.trans (la.trans ua))
            exact ⟨by simp [Ex.eval, Ex.exact, ea, eb, hca, hcb, apply, result_of_holds (holds_of_fits hg h1 h2)], h1, h2⟩
          · cases h
        | div =>
          simp only at h
          split at h
          · next hg =>
            cases h
            simp only [Bool.and_eq_true, decide_eq_true_eq] at hg
            obtain ⟨ha0, hb0⟩ := hg
            have a0 : 0 ≤ a.exact ρ := ha0.trans la
            have b0 : 0 < b.exact ρ := lt_of_lt_of_le hb0 lb
            have h1 : 0 ≤ a.exact ρ / b.exact ρ := Int.ediv_nonneg a0 b0.le
            have h2 : a.exact ρ / b.exact ρ ≤ a.exact ρ := Int.ediv_le_self _ a0
            have h3 : a.exact ρ / b.exact ρ ≤ ah / bl := by
              rw [Int.le_ediv_iff_mul_le hb0]
              calc a.exact ρ / b.exact ρ * bl ≤ a.exact ρ / b.exact ρ * b.exact ρ := mul_le_mul_of_nonneg_left lb h1
                _ ≤ a.exact ρ := Int.ediv_mul_le _ b0.ne'
                _ ≤ ah := ua
            refine ⟨?_, h1, h3⟩
            have ht : (a.exact ρ).tdiv (b.exact ρ) = a.exact ρ / b.exact ρ := Int.tdiv_eq_ediv_of_nonneg a0
            simp [Ex.eval, Ex.exact, ea, eb, hca, hcb, apply, b0.ne', ht, result_of_holds (holds_between h1 (h2.trans ua) ham)]
          · cases h
        | mod =>
          simp only at h
          split at h
          · next hg =>
            cases h
            simp only [Bool.and_eq_true, decide_eq_true_eq] at hg
            obtain ⟨ha0, hb0⟩ := hg
            have a0 : 0 ≤ a.exact ρ := ha0.trans la
            have b0 : 0 < b.exact ρ := lt_of_lt_of_le hb0 lb
            have h1 : 0 ≤ a.exact ρ / b.exact ρ := Int.ediv_nonneg a0 b0.le
            have h2 : a.exact ρ / b.exact ρ ≤ a.exact ρ := Int.ediv_le_self _ a0
            have h4 : 0 ≤ a.exact ρ % b.exact ρ := Int.emod_nonneg _ b0.ne'
            have h5 : a.exact ρ % b.exact ρ < b.exact ρ := Int.emod_lt_of_pos _ b0
            refine ⟨?_, h4, by simp only [Ex.exact]; omega⟩
            have ht : (a.exact ρ).tdiv (b.exact ρ) = a.exact ρ / b.exact ρ := Int.tdiv_eq_ediv_of_nonneg a0
            have hm : (a.exact ρ).tmod (b.exact ρ) = a.exact ρ % b.exact ρ := Int.tmod_eq_emod_of_nonneg a0
            simp [Ex.eval, Ex.exact, ea, eb, hca, hcb, apply, b0.ne', ht, hm, holds_between h1 (h2.trans ua) ham,
              result_of_holds (holds_between h4 (h5.le.trans ub) hbm)]
          · cases h
        | lt =>
          cases h
          refine ⟨by simp [Ex.eval, Ex.exact, ea, eb, hca, hcb, apply], ?_, ?_⟩ <;> simp only [Ex.exact] <;> split <;> decide
        | le =>
          cases h
          refine ⟨by simp [Ex.eval, Ex.exact, ea, eb, hca, hcb, apply], ?_, ?_⟩ <;> simp only [Ex.exact] <;> split <;> decide
        | eq =>
          cases h
          refine ⟨by simp [Ex.eval, Ex.exact, ea, eb, hca, hcb, apply], ?_, ?_⟩ <;> simp only [Ex.exact] <;> split <;> decide
      · cases h
    · cases h
  | shl a b iha ihb =>
    intro lo hi h hw
    simp only [Ex.check] at h
    split at h
    · next al ah bl bh ha hb =>
      obtain ⟨ea, la, ua⟩ := iha _ _ ha hw.1
      obtain ⟨eb, lb, ub⟩ := ihb _ _ hb hw.2
      split at h
      · next hf =>
        cases h
        simp only [Bool.and_eq_true, decide_eq_true_eq] at hf
        obtain ⟨⟨⟨ha0, hb0⟩, hbw⟩, hf⟩ := hf
        have a0 : 0 ≤ a.exact ρ := ha0.trans la
        have b0 : 0 ≤ b.exact ρ := hb0.trans lb
        have hlo : al * 2 ^ bl.toNat ≤ a.exact ρ * 2 ^ (b.exact ρ).toNat :=
          mul_le_mul la (pow_le_pow_right₀ (by decide) (Int.toNat_le_toNat lb)) (by positivity) a0
        have hhi : a.exact ρ * 2 ^ (b.exact ρ).toNat ≤ ah * 2 ^ bh.toNat :=
          mul_le_mul ua (pow_le_pow_right₀ (by decide) (Int.toNat_le_toNat ub)) (by positivity) (a0.trans ua)
        have h0 : 0 ≤ a.exact ρ * 2 ^ (b.exact ρ).toNat := by positivity
        refine ⟨?_, hlo, hhi⟩
        simp [Ex.eval, Ex.exact, ea, eb, a0, b0, lt_of_le_of_lt ub hbw, result_of_holds (holds_of_fits hf h0 hhi)]
      · cases h
    · cases h
  | shr a b iha ihb =>
    intro lo hi h hw
    simp only [Ex.check] at h
    split at h
    · next al ah bl bh ha hb =>
      obtain ⟨ea, la, ua⟩ := iha _ _ ha hw.1
      obtain ⟨eb, lb, ub⟩ := ihb _ _ hb hw.2
      split at h
      · next hf =>
        cases h
        simp only [Bool.and_eq_true, decide_eq_true_eq] at hf
        obtain ⟨⟨⟨ha0, hb0⟩, hbw⟩, hf⟩ := hf
        have a0 : 0 ≤ a.exact ρ := ha0.trans la
        have b0 : 0 ≤ b.exact ρ := hb0.trans lb
        have hp : (0 : ℤ) < 2 ^ bl.toNat := by positivity
        have hq : (0 : ℤ) < 2 ^ (b.exact ρ).toNat := by positivity
        have h0 : 0 ≤ a.exact ρ / 2 ^ (b.exact ρ).toNat := Int.ediv_nonneg a0 hq.le
        have h1 : a.exact ρ / 2 ^ (b.exact ρ).toNat ≤ a.exact ρ := Int.ediv_le_self _ a0
        have hhi : a.exact ρ / 2 ^ (b.exact ρ).toNat ≤ ah / 2 ^ bl.toNat := by
          rw [Int.le_ediv_iff_mul_le hp]
          calc a.exact ρ / 2 ^ (b.exact ρ).toNat * 2 ^ bl.toNat
              ≤ a.exact ρ / 2 ^ (b.exact ρ).toNat * 2 ^ (b.exact ρ).toNat :=
                mul_le_mul_of_nonneg_left (pow_le_pow_right₀ (by decide) (Int.toNat_le_toNat lb)) h0
            _ ≤ a.exact ρ := Int.ediv_mul_le _ hq.ne'
            _ ≤ ah := ua
        refine ⟨?_, h0, hhi⟩
        simp [Ex.eval, Ex.exact, ea, eb, a0, b0, lt_of_le_of_lt ub hbw, result_of_holds (holds_of_fits hf h0 (h1.trans ua))]
      · cases h
    · cases h
  | cast t a iha =>
    intro lo hi h hw
    simp only [Ex.check] at h
    split at h
    · next al ah ha =>
      obtain ⟨ea, la, ua⟩ := iha _ _ ha hw
      split at h
      · next hf =>
        cases h
        exact ⟨by simp [Ex.eval, Ex.exact, ea, conv_of_holds (holds_of_fits hf la ua)], la, ua⟩
      · cases h
    · cases h

/-- The list of expressions is accepted. -/
def checkAll (l : List Ex) : Bool := l.all fun e => e.check.isSome

theorem faithful_of_checkAll {l : List Ex} (h : checkAll l = true) : ∀ e ∈ l, e.Faithful := by
  intro e he ρ hw
  simp only [checkAll, List.all_eq_true] at h
  obtain ⟨⟨lo, hi⟩, hc⟩ := Option.isSome_iff_exists.mp (h e he)
  exact (check_sound ρ e lo hi hc hw).1

/-- No variable occurs. -/
def Ex.closed : Ex → Bool
  | val _ _ => true
  | var _ _ _ _ => false
  | bin _ a b => a.closed && b.closed
  | shl a b => a.closed && b.closed
  | shr a b => a.closed && b.closed
  | cast _ a => a.closed

theorem within_of_closed (ρ : String → ℤ) : ∀ e : Ex, e.closed = true → e.Within ρ := by
  intro e
  induction e with
  | val t v => intro _; trivial
  | var x t lo hi => intro h; simp [Ex.closed] at h
  | bin o a b iha ihb => intro h; simp only [Ex.closed, Bool.and_eq_true] at h; exact ⟨iha h.1, ihb h.2⟩
  | shl a b iha ihb => intro h; simp only [Ex.closed, Bool.and_eq_true] at h; exact ⟨iha h.1, ihb h.2⟩
  | shr a b iha ihb => intro h; simp only [Ex.closed, Bool.and_eq_true] at h; exact ⟨iha h.1, ihb h.2⟩
  | cast t a iha => intro h; simp only [Ex.closed] at h; exact iha h

/-- An expression without variables whose interval is one number has that value. -/
theorem eval_of_check {e : Ex} {n : ℤ} (ρ : String → ℤ) (h : e.closed = true ∧ e.check = some (n, n)) : e.eval ρ = some n := by
  obtain ⟨h1, h2, h3⟩ := check_sound ρ e n n h.2 (within_of_closed ρ e h.1)
  rw [h1, le_antisymm h3 h2]

end Spec.CInt
