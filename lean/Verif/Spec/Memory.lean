import Verif.Model.Heap
import Verif.Model.Tree

/-
Memory obtained by a call: bytes requested from `malloc` and `calloc`, on a machine with pointers and `size_t` of 8 bytes.
-/

namespace Spec

open Picnic Picnic.Heap

/-- The heap at the time of a call: the numbers of allocated blocks have been given out, and the observation of the largest number of
allocated bytes starts with the call. -/
def AtCall (h : Heap) : Prop := (∀ i ∈ h.live, i < h.next) ∧ h.peak = h.bytes

/-- At no moment of a run that ends, more than `n` bytes are allocated in addition to those before the call. -/
def MemoryWithin {α : Type} (m : HM α) (n : Nat) : Prop :=
  ∀ h, AtCall h → ∀ r h', m h = .ok (r, h') → h'.peak ≤ h.bytes + n

/-- bytes that suffice to sign -/
def signBytes : Nat → Nat
  | 1 => 197949 | 2 => 291681 | 3 => 402573 | 4 => 614449 | 5 => 661992 | 6 => 1024656
  | 7 => 1366771 | 8 => 3191882 | 9 => 5928774
  | 10 => 190671 | 11 => 380099 | 12 => 635622
  | _ => 0

/-- bytes that suffice to verify -/
def verifyBytes : Nat → Nat
  | 1 => 146427 | 2 => 240159 | 3 => 299543 | 4 => 511419 | 5 => 494188 | 6 => 856852
  | 7 => 1389314 | 8 => 3247552 | 9 => 6058494
  | 10 => 141117 | 11 => 282662 | 12 => 474388
  | _ => 0

/-- bytes that suffice to print a signature -/
def printBytes : Nat → Nat
  | 1 => 44544 | 2 => 67977 | 3 => 92564 | 4 => 145533 | 5 => 153880 | 6 => 244546
  | 7 => 82803 | 8 => 183614 | 9 => 353792
  | 10 => 42573 | 11 => 86971 | 12 => 147310
  | _ => 0

/-- The repetitions `l` are opened (`ml` are the others), and `len` are the lengths of the data that is revealed for them. -/
structure Opening (P : Params) (l ml : List Nat) (opened : Nat → Bool) (len : Lens) : Prop where
  range : ∀ t ∈ l, t < P.numMPCRounds
  distinct : l.Nodup
  number : l.length = P.numOpenedRounds
  others : ∀ t < P.numMPCRounds, t ∈ ml ↔ t ∉ l
  range' : ∀ t ∈ ml, t < P.numMPCRounds
  opened : ∀ t, opened t = decide (t ∈ l)
  iSeedInfo : Picnic.revealSeedsSize P P.numMPCRounds l l.length = .ok len.iSeedInfo
  cvInfo : Picnic.openMerkleTreeSize P P.numMPCRounds ml ml.length = .ok len.cvInfo
  seedInfo : ∀ t ∈ l, ∃ h < P.numMPCParties, Picnic.revealSeedsSize P P.numMPCParties [h] 1 = .ok (len.seedInfo t)

end Spec
