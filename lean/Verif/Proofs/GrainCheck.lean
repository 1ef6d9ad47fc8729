import Verif.Proofs.GrainCerts

/-
What the checks of the generator of the constants mean.
-/

namespace Picnic.Tables

open Finset Spec Spec.Grain

theorem regCheck_testBit {b : ℕ → Bool} (hb : IsRegister b) {B N : ℕ} (h : regCheck B N = true) : ∀ i < N + 80, B.testBit i = b i := by
  rw [regCheck, Bool.and_eq_true] at h
  have h1 := Nat.eq_of_beq_eq_true h.1
  have h2 := Nat.eq_of_beq_eq_true h.2
  intro i
  induction i using Nat.strong_induction_on with
  | _ i ih =>
    intro hi
    by_cases h80 : i < 80
    · rw [hb.1 i h80]
      have : (B % 2 ^ 80).testBit i = (2 ^ 80 - 1).testBit i := by rw [h1]
      rw [Nat.testBit_mod_two_pow, Nat.testBit_two_pow_sub_one, decide_eq_true h80, Bool.true_and] at this
      exact this
    · obtain ⟨j, rfl⟩ : ∃ j, i = j + 80 := ⟨i - 80, by omega⟩
      have := congrArg (fun x => x.testBit j) h2
      simp only [Nat.testBit_mod_two_pow, Nat.testBit_xor, Nat.testBit_shiftRight, Nat.zero_testBit, decide_eq_true (show j < N by omega),
        Bool.true_and] at this
      rw [Nat.add_comm 13, Nat.add_comm 23, Nat.add_comm 38, Nat.add_comm 51, Nat.add_comm 62, Nat.add_comm 80, ih j (by omega) (by omega),
        ih (j + 13) (by omega) (by omega), ih (j + 23) (by omega) (by omega), ih (j + 38) (by omega) (by omega),
        ih (j + 51) (by omega) (by omega), ih (j + 62) (by omega) (by omega)] at this
      rw [hb.2 j]
      revert this
      cases B.testBit (j + 80) <;> cases b j <;> cases b (j + 13) <;> cases b (j + 23) <;> cases b (j + 38) <;> cases b (j + 51) <;>
        cases b (j + 62) <;> simp

/-! ### Matrices -/

/-- The matrix that starts at a position. -/
def slice (n O pos : ℕ) : ℕ := (O >>> pos) % 2 ^ (n * n)

/-- Matrices with a vector that they map to zero, then one with an inverse. -/
def nextCheck (n O inv : ℕ) : List (ℕ × ℕ) → ℕ → Bool
  | [], pos => force (slice n O pos) fun A => invCheck n inv A
  | x :: xs, pos =>
    (force (slice n O pos) fun A => Nat.beq (mulN n A (ofNum n x.1)) 0 && (Nat.blt x.2 n && x.1.testBit x.2)) && nextCheck n O inv xs (pos + n * n)

section
variable {n O len : ℕ} {g : ℕ → Bool} (hn : 0 < n) (hO : ∀ k < len, g k = O.testBit k)
include hn hO

theorem matAt_eq {pos : ℕ} (hpos : pos + n * n ≤ len) {i j : ℕ} (hi : i < n) (hj : j < n) :
    matAt n g pos i j = z ((slice n O pos).testBit (n * i + j)) := by
  have hlt : n * i + j < n * n := by
    calc n * i + j < n * i + n := by omega
      _ = n * (i + 1) := by ring
      _ ≤ n * n := Nat.mul_le_mul_left _ hi
  rw [slice, Nat.testBit_mod_two_pow, Nat.testBit_shiftRight, decide_eq_true hlt, Bool.true_and, matAt, hO _ (by omega)]
  rfl

theorem next_of_check {inv : ℕ} (xs : List (ℕ × ℕ)) {pos : ℕ} (h : nextCheck n O inv xs pos = true) (hlen : pos + n * n * xs.length + n * n ≤ len) :
    Next n g pos (pos + n * n * xs.length) := by
  induction xs generalizing pos with
  | nil =>
    rw [nextCheck, force_eq] at h
    have hlen : pos + n * n ≤ len := by simpa using hlen
    refine Next.accept pos ⟨fun i j => z (inv.testBit (n * i + j)), fun i hi k hk => ?_⟩
    rw [← isInv_of_check hn h i hi k hk]
    exact sum_congr rfl fun j hj => by rw [matAt_eq hn hO hlen (mem_range.1 hj) hk]
  | cons x xs ih =>
    rw [nextCheck, force_eq, Bool.and_eq_true, Bool.and_eq_true, Bool.and_eq_true] at h
    obtain ⟨⟨h1, h2, h3⟩, h4⟩ := h
    have h2 : x.2 < n := Nat.le_of_ble_eq_true h2
    rw [List.length_cons, Nat.mul_succ] at hlen ⊢
    have hp : pos + n * n ≤ len := by omega
    rw [show pos + (n * n * xs.length + n * n) = pos + n * n + n * n * xs.length by ring]
    refine Next.reject pos _ ?_ (ih h4 (by omega))
    rintro ⟨B, hB⟩
    have e := Nat.eq_of_beq_eq_true h1
    have hzero : ∀ i, mulVec n (matAt n g pos) (val n (ofNum n x.1)) i = 0 := by
      intro i
      rw [mulVec]
      split_ifs with hi
      · have := val_mulN hn (slice n O pos) (ofNum n x.1) hi
        rw [e] at this
        rw [show val n 0 i = 0 by simp [val, z]] at this
        rw [this]
        exact sum_congr rfl fun j hj => by rw [matAt_eq hn hO hp hi (mem_range.1 hj)]
      · rfl
    have hv := mulVec_inv hB (val n (ofNum n x.1)) h2
    rw [val_ofNum hn _ h2, h3, mulVec, if_pos h2, sum_eq_zero fun j _ => by rw [hzero j, mul_zero]] at hv
    exact absurd hv (by decide)

end

/-- Where matrix `t` starts, if the first candidate starts at `s`. -/
def posAt (n s : ℕ) (rej : ℕ → List (ℕ × ℕ)) : ℕ → ℕ
  | 0 => s + n * n * (rej 0).length
  | t + 1 => posAt n s rej t + n * n + n * n * (rej (t + 1)).length

/-- Where the first candidate for matrix `t` starts. -/
def begin (n s : ℕ) (rej : ℕ → List (ℕ × ℕ)) (t : ℕ) : ℕ := if t = 0 then s else posAt n s rej (t - 1) + n * n

theorem posAt_eq (n s : ℕ) (rej : ℕ → List (ℕ × ℕ)) (t : ℕ) : posAt n s rej t = begin n s rej t + n * n * (rej t).length := by
  cases t <;> rfl

/-- Where the round constants start. -/
def rcPos (T : NatTables) (C : Certs) (r : ℕ) : ℕ := posAt T.n 0 C.rejL (r - 1) + T.n * T.n

end Picnic.Tables
