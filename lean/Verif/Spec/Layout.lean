import Verif.Spec.Picnic1

/-
Where the parts of a ZKB++ signature are.  It does not refer to the model.
-/

namespace Spec.Picnic1

open Finset Spec.Challenge

variable (I : Inst)

/-- Bytes of the opening of a repetition with challenge `e`. -/
def Inst.entry (e : ℕ) : ℕ :=
  I.digest + (if I.unruh then I.gLen ((e + 2) % 3) else 0) + I.gate + 2 * I.seed + if e = 0 then 0 else I.blk

/-- The offset of the opening of repetition `t` in the byte string `b`; `I.start b I.T` is the length of the signature. -/
def Inst.start (b : Bytes) (t : ℕ) : ℕ := bytesFor (2 * I.T) + 32 + ∑ i ∈ range t, I.entry (value b i)

/-- The repetitions with challenge 0. -/
def Inst.zeros (b : Bytes) : ℕ := (List.range I.T).countP fun t => value b t = 0

/-- The key share in the opening of repetition `t`, whose challenge is not 0. -/
def Inst.share (b : Bytes) (t : ℕ) : Bytes := (b.drop (I.start b (t + 1) - I.blk)).take I.blk

/-- What makes `picnic_verify` read past the end of the byte string `b`: the Unruh transform is used, `b` starts with a challenge, it is
shorter than the signature that this challenge announces, but by at most the key shares that the repetitions with challenge 0 do not
have, and the key shares that lie within `b` have no bits after their end. -/
structure Inst.Overrun (b : Bytes) : Prop where
  unruh : I.unruh = true
  challenge : ∀ t < I.T, value b t < 3
  short : b.length < I.start b I.T
  passes : I.start b I.T ≤ b.length + I.zeros b * I.blk
  shares : ∀ t < I.T, I.start b (t + 1) ≤ b.length → value b t ≠ 0 → ZeroPad I.X.n (I.share b t)

end Spec.Picnic1
