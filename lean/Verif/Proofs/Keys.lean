import Verif.Proofs.Params
import Verif.Model.Api

/-
Helper lemmas for key generation and key (de)serialisation.
-/

namespace Picnic

/-- All bits from `n` up to the end of the last byte are zero. -/
def PadZero (b : Buf) (n : ℕ) : Prop := ∀ i, n ≤ i → i < 8 * ((n + 7) / 8) → bitsOf b i = 0

instance (b : Buf) (n : ℕ) : Decidable (PadZero b n) :=
  decidable_of_iff (∀ i < 8 * ((n + 7) / 8), n ≤ i → bitsOf b i = 0)
    ⟨fun h i h1 h2 => h i h2 h1, fun h i h2 h1 => h i h1 h2⟩

theorem arePaddingBitsZero_ok {b : Buf} {n : ℕ} (h : (n + 7) / 8 ≤ b.length) :
    arePaddingBitsZero b n = Outcome.ok (decide (PadZero b n)) := by
  unfold arePaddingBitsZero
  rw [numBytes_eq]
  obtain ⟨s, h1, h2⟩ := loopFrom_inv
    (fun i ok => (ok = true ↔ ∀ j, n ≤ j → j < i → bitsOf b j = 0))
    (f := fun i ok => if ok then do
        let bit_i ← getBit b i
        pure (bit_i == 0)
      else pure false) (lo := n) (hi := (n + 7) / 8 * 8) (s := true) (by omega)
    (by simp; intro j h1 h2; omega) (by
      rintro i hi1 hi2 ok hok
      cases ok with
      | true =>
        rw [if_pos rfl, getBit_ok (by omega), ok_bind]
        refine ⟨_, rfl, ?_⟩
        rw [beq_iff_eq, b8_eq_zero]
        constructor
        · intro h j hj1 hj2
          by_cases hj : j = i
          · subst hj; exact h
          · exact hok.1 rfl j hj1 (by omega)
        · intro h; exact h i hi1 (by omega)
      | false =>
        rw [if_neg (by simp)]
        refine ⟨_, rfl, ?_⟩
        constructor
        · intro h; simp at h
        · intro h; exact hok.2 fun j h1 h2 => h j h1 (by omega))
  rw [h1]
  congr 1
  rw [Bool.eq_iff_iff, h2, decide_eq_true_iff]
  exact ⟨fun h i h1 h2 => h i h1 (by omega), fun h i h1 h2 => h i h1 (by omega)⟩

theorem zeroTrailingBits_ok {b : Buf} {n : ℕ} (h : (n + 7) / 8 ≤ b.length) :
    ∃ b', zeroTrailingBits b n = Outcome.ok b' ∧ b'.length = b.length ∧
      ∀ i, bitsOf b' i = if n ≤ i ∧ i < 8 * ((n + 7) / 8) then 0 else bitsOf b i := by
  unfold zeroTrailingBits
  rw [numBytes_eq]
  obtain ⟨s, h1, h2, h3⟩ := loopFrom_inv
    (fun k s => s.length = b.length ∧ ∀ i, bitsOf s i = if n ≤ i ∧ i < k then 0 else bitsOf b i)
    (f := fun i data => setBit data i 0) (lo := n) (hi := (n + 7) / 8 * 8) (s := b) (by omega)
    ⟨rfl, fun i => by rw [if_neg (by omega)]⟩ (by
      rintro k hk1 hk2 s ⟨hs1, hs2⟩
      have := setBit_ok (b := s) (i := k) (by omega) 0
      rw [b8_zero] at this
      rw [this]
      refine ⟨_, rfl, by simp [hs1], fun i => ?_⟩
      rw [bitsOf_setBitP (by omega), Function.update_apply, hs2]
      by_cases hi : i = k
      · subst hi; rw [if_pos rfl, if_pos (by omega)]
      · rw [if_neg hi]
        by_cases h' : n ≤ i ∧ i < k
        · rw [if_pos h', if_pos (by omega)]
        · rw [if_neg h', if_neg (by omega)])
  refine ⟨s, h1, h2, fun i => ?_⟩
  rw [h3, Nat.mul_comm]

end Picnic
