import Verif.Model.Api

/-
Specification vocabulary for calls whose arguments lie in one memory: areas of memory, key objects in memory, and what
it means that a call changes only certain areas.
-/

namespace Spec

open Picnic

/-- The `n` bytes of the memory `m` at address `p`. -/
def area (m : Buf) (p n : Nat) : Buf := (m.drop p).take n

/-- The number with the given little endian digits. -/
def leNum (b : Buf) : Nat := b.foldr (fun d rest => d.toNat + 256 * rest) 0

/-- The public key stored at address `p`: 4 bytes of parameter set, 32 bytes of plaintext, 32 of ciphertext. -/
def pkAt (m : Buf) (p : Nat) : PublicKey :=
  { params := leNum (area m p 4), plaintext := area m (p + 4) 32, ciphertext := area m (p + 36) 32 }

/-- The private key stored at address `p`: 4 bytes of parameter set, 32 bytes of key, 68 bytes of public key. -/
def skAt (m : Buf) (p : Nat) : PrivateKey :=
  { params := leNum (area m p 4), data := area m (p + 4) 32, pk := pkAt m (p + 36) }

/-- The areas of `n` bytes at `p` and of `k` bytes at `q` have no byte in common. -/
def Apart (p n q k : Nat) : Prop := p + n ≤ q ∨ q + k ≤ p

/-- `m'` has the same bytes as `m` outside of the given areas (address, length). -/
def OnlyChanges (m m' : Buf) (areas : List (Nat × Nat)) : Prop :=
  m'.length = m.length ∧ ∀ i, (∀ a ∈ areas, i < a.1 ∨ a.1 + a.2 ≤ i) → m'[i]? = m[i]?

end Spec
