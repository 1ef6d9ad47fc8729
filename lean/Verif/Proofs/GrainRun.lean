import Verif.Proofs.Grain

/-
The register of the generator of the LowMC constants, many bits at a time: bits of the sequence are packed into one number.
-/

namespace Picnic.Tables

/-- The function applied to the value (in the kernel: to the evaluated value). -/
def force {α : Type} (x : ℕ) (f : ℕ → α) : α := Nat.rec (f 0) (fun k _ => f (k + 1)) x

theorem force_eq {α : Type} (x : ℕ) (f : ℕ → α) : force x f = f x := by cases x <;> rfl

/-- 18 * s further bits of the register. -/
def regStep (s m B : ℕ) : ℕ :=
  B + (((B >>> (m - 80 * s)) ^^^ ((B >>> (m - 67 * s)) ^^^ ((B >>> (m - 57 * s)) ^^^ ((B >>> (m - 42 * s)) ^^^ ((B >>> (m - 29 * s)) ^^^
    (B >>> (m - 18 * s))))))) % 2 ^ (18 * s)) <<< m

/-- The register, with steps of twice the size after every fifth one. -/
def regRun (B m s : ℕ) : ℕ → ℕ
  | 0 => B
  | k + 1 => force (regStep s m B) fun B => force (regStep s (m + 18 * s) B) fun B => force (regStep s (m + 36 * s) B) fun B =>
      force (regStep s (m + 54 * s) B) fun B => force (regStep s (m + 72 * s) B) fun B => regRun B (m + 90 * s) (2 * s) k

/-- The number has the bits of the register. -/
def regCheck (B N : ℕ) : Bool :=
  Nat.beq (B % 2 ^ 80) (2 ^ 80 - 1) &&
    Nat.beq ((B ^^^ ((B >>> 13) ^^^ ((B >>> 23) ^^^ ((B >>> 38) ^^^ ((B >>> 51) ^^^ ((B >>> 62) ^^^ (B >>> 80))))))) % 2 ^ N) 0

end Picnic.Tables
