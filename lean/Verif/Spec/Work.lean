import Verif.Model.Leak

/-
The work done by a run.  Steps are counted in two kinds: calls of the Keccak permutation (24 rounds on 200 bytes, the
same work each time), and everything else: one access to an element of an array, one byte of a block that is copied,
compared, cleared or squeezed, one test, or the start of a loop.  Between two steps the code does a bounded amount of
arithmetic on local variables.
-/

namespace Spec

open Picnic.Leak

/-- the elementary steps behind one observation -/
def weight : Ev → Nat
  | .readN _ n => n + 1
  | .writeN _ n => n + 1
  | .permute => 0
  | _ => 1

/-- the number of elementary steps of a run -/
def steps {α : Type} (x : LM α) : Nat := (x.tr.map weight).sum

/-- the number of calls of the Keccak permutation -/
def permutations {α : Type} (x : LM α) : Nat := x.tr.count .permute

/-- the bytes of the sponge that the permutation mixes in or puts out in one call (SHAKE128 for L1, SHAKE256 else) -/
def rate : Nat → Nat
  | 1 | 2 | 7 | 10 => 168
  | _ => 136

/-- elementary steps that suffice to verify a signature for the parameter set, message and rehashing not counted -/
def verifySteps : Nat → Nat
  | 1 => 93084876 | 2 => 94233093 | 3 => 424991044 | 4 => 427586525 | 5 => 1217670483 | 6 => 1222113117
  | 7 => 116573276 | 8 => 303571960 | 9 => 770128657
  | 10 => 27897147 | 11 => 77609814 | 12 => 277655907
  | _ => 1

/-- elementary steps that suffice for deriving one more digest of challenges and reading it -/
def rehashSteps : Nat → Nat
  | 1 | 2 | 10 => 1824
  | 3 | 4 | 11 => 2704
  | 5 | 6 | 12 => 3584
  | 7 => 5958 | 8 => 9722 | 9 => 14002
  | _ => 0

/-- calls of the permutation that suffice to verify a signature, message and rehashing not counted -/
def verifyPermutations : Nat → Nat
  | 1 => 4679 | 2 => 5098 | 3 => 9553 | 4 => 10722 | 5 => 14908 | 6 => 16908
  | 7 => 32242 | 8 => 71676 | 9 => 120843
  | 10 => 4592 | 11 => 9224 | 12 => 14521
  | _ => 0

/-- calls of the permutation that suffice for deriving one more digest of challenges -/
def rehashPermutations : Nat → Nat
  | 1 | 2 | 3 | 4 | 5 | 6 | 10 | 11 | 12 => 2
  | 7 => 3
  | 8 | 9 => 4
  | _ => 0

/-- elementary steps that suffice to sign with the parameter set, message and rehashing not counted -/
def signSteps : Nat → Nat
  | 1 => 142024747 | 2 => 143172964 | 3 => 642778101 | 4 => 645373582 | 5 => 1835209424 | 6 => 1839652058
  | 7 => 114890721 | 8 => 298553753 | 9 => 757797629
  | 10 => 43953994 | 11 => 121187423 | 12 => 424928264
  | _ => 1

/-- calls of the permutation that suffice to sign, message and rehashing not counted -/
def signPermutations : Nat → Nat
  | 1 => 6967 | 2 => 7386 | 3 => 14185 | 4 => 15354 | 5 => 22104 | 6 => 24104
  | 7 => 32244 | 8 => 71678 | 9 => 120845
  | 10 => 6833 | 11 => 13692 | 12 => 21525
  | _ => 0

/-- elementary steps that suffice to generate or to validate a key pair -/
def keySteps : Nat → Nat
  | 1 | 2 => 194433
  | 3 | 4 => 619671
  | 5 | 6 => 1356951
  | 7 | 10 => 46757
  | 8 | 11 => 93425
  | 9 | 12 => 284711
  | _ => 1

end Spec
