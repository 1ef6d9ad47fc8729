import Verif.Spec.LowMC

/-
How the Picnic specification (section "LowMC constants"; M. Albrecht et al., "Ciphers for MPC and FHE", section on the generation of instances) makes the
constants of LowMC: a self-shrinking generator whose register is that of the stream cipher Grain.  It does not refer to the model.
-/

namespace Spec.Grain

open Finset

/-- The sequence of the register: 80 ones, then each bit is the sum of six earlier ones. -/
def IsRegister (b : ℕ → Bool) : Prop :=
  (∀ i < 80, b i = true) ∧ ∀ i, b (i + 80) = (b (i + 62) ^^ (b (i + 51) ^^ (b (i + 38) ^^ (b (i + 23) ^^ (b (i + 13) ^^ b i)))))

/-- The first 160 bits after the initial state are discarded.  The others are taken in pairs: if the first bit of a pair is one, the second one is kept.
The bits kept from the first `N` pairs. -/
def kept (b : ℕ → Bool) (N : ℕ) : List Bool :=
  (List.range N).filterMap fun t => if b (240 + 2 * t) then some (b (240 + 2 * t + 1)) else none

/-- `g` is the sequence of kept bits. -/
def IsKept (b g : ℕ → Bool) : Prop := ∀ N k v, (kept b N)[k]? = some v → g k = v

/-- A bit as an element of GF(2). -/
def bit (b : Bool) : ZMod 2 := if b then 1 else 0

/-- The n × n matrix that starts at a position of the sequence, row by row. -/
def matAt (n : ℕ) (g : ℕ → Bool) (pos i j : ℕ) : ZMod 2 := bit (g (pos + (n * i + j)))

/-- Matrices are read, from the position on, until one is invertible; `q` is where that one starts. -/
inductive Next (n : ℕ) (g : ℕ → Bool) : ℕ → ℕ → Prop
  | accept (pos : ℕ) : (∃ B, IsInv n B (matAt n g pos)) → Next n g pos pos
  | reject (pos q : ℕ) : (¬ ∃ B, IsInv n B (matAt n g pos)) → Next n g (pos + n * n) q → Next n g pos q

/-- The instance is made from the sequence: first the linear layers, then the round constants, then the key matrices. -/
def Generated (X : LowMC) (g : ℕ → Bool) : Prop :=
  ∃ (pL pK : ℕ → ℕ) (c : ℕ),
    (∀ t < X.r, Next X.n g (if t = 0 then 0 else pL (t - 1) + X.n * X.n) (pL t) ∧ ∀ i < X.n, ∀ j < X.n, X.L t i j = matAt X.n g (pL t) i j) ∧
    c = pL (X.r - 1) + X.n * X.n ∧
    (∀ t < X.r, ∀ i < X.n, X.RC t i = bit (g (c + (X.n * t + i)))) ∧
    ∀ t ≤ X.r, Next X.n g (if t = 0 then c + X.n * X.r else pK (t - 1) + X.n * X.n) (pK t) ∧ ∀ i < X.n, ∀ j < X.n, X.K t i j = matAt X.n g (pK t) i j

end Spec.Grain
