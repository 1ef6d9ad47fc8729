import Verif.Proofs.LowMC
import Mathlib.Probability.Distributions.Uniform
import Mathlib.Algebra.Field.ZMod
import Mathlib.Data.Fintype.Pi

/-
Uniformly random bits as buffers, and equality of distributions of functions of uniformly random values.
-/

namespace Picnic

open Spec

/-- The bits `w`, followed by zeros. -/
def extBits {n : ℕ} (w : Fin n → ZMod 2) : Bits := fun p => if h : p < n then w ⟨p, h⟩ else 0

theorem extBits_lt {n : ℕ} (w : Fin n → ZMod 2) {p : ℕ} (h : p < n) : extBits w p = w ⟨p, h⟩ := by
  rw [extBits, dif_pos h]

theorem extBits_ge {n : ℕ} (w : Fin n → ZMod 2) {p : ℕ} (h : n ≤ p) : extBits w p = 0 := by
  rw [extBits, dif_neg (by omega)]

/-- The random bits `w` as a tape of `n` bytes. -/
def tapeOf {n : ℕ} (w : Fin (8 * n) → ZMod 2) : Buf := ofBits (extBits w) n

theorem tapeOf_bit {n : ℕ} (w : Fin (8 * n) → ZMod 2) {p : ℕ} (h : p < 8 * n) : bitsOf (tapeOf w) p = w ⟨p, h⟩ := by
  rw [tapeOf, bitsOf_ofBits _ h, extBits_lt w h]

theorem tapeOf_length {n : ℕ} (w : Fin (8 * n) → ZMod 2) : (tapeOf w).length = n := ofBits_length _ _

/-- Every tape occurs. -/
theorem tapeOf_surj {n : ℕ} (b : Buf) (h : b.length = n) : ∃ w : Fin (8 * n) → ZMod 2, tapeOf w = b :=
  ⟨fun p => bitsOf b p, buf_ext (by rw [tapeOf_length, h]) fun p hp => by
    rw [tapeOf_length] at hp
    rw [tapeOf_bit _ hp]⟩

theorem map_uniform_of_injective {α β : Type} [Fintype α] [Nonempty α] {f g : α → β} {σ : α → α} (hσ : Function.Injective σ) (h : ∀ a, f a = g (σ a)) :
    (PMF.uniformOfFintype α).map f = (PMF.uniformOfFintype α).map g := by
  have hs : (PMF.uniformOfFintype α).map σ = PMF.uniformOfFintype α := by
    refine PMF.ext fun a => ?_
    obtain ⟨b, rfl⟩ := (Finite.injective_iff_surjective.1 hσ) a
    rw [PMF.map_apply, tsum_eq_single b, if_pos rfl, PMF.uniformOfFintype_apply, PMF.uniformOfFintype_apply]
    intro c hc
    rw [if_neg fun e => hc (hσ e).symm]
  conv_rhs => rw [← hs, PMF.map_comp]
  congr 1
  funext a
  exact h a

/-- The same for independent copies. -/
theorem map_uniform_pi {T : ℕ} {α β : Type} [Fintype α] [Nonempty α] {f g : Fin T → α → β}
    (h : ∀ t, ∃ σ : α → α, Function.Injective σ ∧ ∀ a, f t a = g t (σ a)) :
    (PMF.uniformOfFintype (Fin T → α)).map (fun w t => f t (w t)) = (PMF.uniformOfFintype (Fin T → α)).map (fun w t => g t (w t)) := by
  choose σ hσ hf using h
  refine map_uniform_of_injective (σ := fun w t => σ t (w t)) (fun w w' e => ?_) fun w => ?_
  · funext t
    exact hσ t (congrFun e t)
  · funext t
    exact hf t (w t)

end Picnic
