import Verif.Model.KeccakP

/-
/repo/sha3/KeccakP-1600-reference.c with `KeccakReference` defined: the tables of the permutation are variables, and every start of a sponge
(/repo/sha3/KeccakSponge.inc:50, :139) computes them again.  The other model files follow the code without `KeccakReference`, as the project's makefile
builds it, where the tables are constants.

Simplifications: the printing of intermediate values (`displayStateAsLanes` etc.) is left out; its header `displayIntermediateValues.h`
(/repo/sha3/KeccakP-1600-reference.c:21-23) is not part of the project.
-/

namespace Picnic

/-- The static variables, /repo/sha3/KeccakP-1600-reference.c:35-36. -/
structure KeccakTables where
  rc : List Lane
  rho : List Nat
  deriving DecidableEq, Repr

/-- /repo/sha3/KeccakP-1600-reference.c:85-94 `LFSR86540`: the result and the new register. -/
def lfsr86540 (r : Byte) : Bool × Byte :=
  let result := (r &&& 0x01) != 0
  if r &&& 0x80 ≠ 0 then (result, (r <<< 1) ^^^ 0x71) else (result, r <<< 1)

/-- /repo/sha3/KeccakP-1600-reference.c:59-65: entry `i` is cleared, then `n` of the seven passes of the inner loop. -/
def roundConstantSteps (i n : Nat) (s : List Lane × Byte) : M (List Lane × Byte) := do
  let rc ← wr s.1 i 0
  loop (fun j s => do
    let bitPosition := 2 ^ j - 1
    let (b, r) := lfsr86540 s.2
    if b then do
      let c ← rd s.1 i
      let rc ← wr s.1 i (c ^^^ (1#64 <<< bitPosition))
      pure (rc, r)
    else pure (s.1, r)) n (rc, s.2)

/-- /repo/sha3/KeccakP-1600-reference.c:54-67 `KeccakP1600_InitializeRoundConstants`. -/
def initRoundConstants (rc : List Lane) : M (List Lane) := do
  let s ← loop (fun i s => roundConstantSteps i 7 s) 24 (rc, 0x01)
  pure s.1

/-- The table while `KeccakP1600_InitializeRoundConstants` (/repo/sha3/KeccakP-1600-reference.c:54-67) is working on entry `i` and has done `n` of the seven
passes of the inner loop. -/
def roundConstantsDuring (i n : Nat) (rc : List Lane) : M (List Lane) := do
  let s ← loop (fun i s => roundConstantSteps i 7 s) i (rc, 0x01)
  let s ← roundConstantSteps i n s
  pure s.1

/-- /repo/sha3/KeccakP-1600-reference.c:69-83 `KeccakP1600_InitializeRhoOffsets`, the first `n` passes of the loop (all: 24). -/
def initRhoOffsets (n : Nat) (rho : List Nat) : M (List Nat) := do
  let rho ← wr rho (kidx 0 0) 0
  let s ← loop (fun t (s : List Nat × Nat × Nat) => do
    let (rho, x, y) := s
    let rho ← wr rho (kidx x y) ((t + 1) * (t + 2) / 2 % 64)
    let newX := (0 * x + 1 * y) % 5
    let newY := (2 * x + 3 * y) % 5
    pure (rho, newX, newY)) n (rho, 1, 0)
  pure s.1

/-- /repo/sha3/KeccakP-1600-reference.c:44-52 `KeccakP1600_StaticInitialize` (`sizeof(tKeccakLane)` is 8). -/
def staticInitialize (g : KeccakTables) : M KeccakTables := do
  let rc ← initRoundConstants g.rc
  let rho ← initRhoOffsets 24 g.rho
  pure ⟨rc, rho⟩

/-- /repo/sha3/KeccakP-1600-reference.c:335-341 `rho`, reading the variable table. -/
def kRhoV (g : KeccakTables) (A : List Lane) : M (List Lane) :=
  loop55 (fun x y A => do
    let a ← rd A (kidx x y)
    let o ← rd g.rho (kidx x y)
    wr A (kidx x y) (rol64 a o)) A

/-- /repo/sha3/KeccakP-1600-reference.c:367-370 `iota`, reading the variable table. -/
def kIotaV (g : KeccakTables) (A : List Lane) (indexRound : Nat) : M (List Lane) := do
  let a ← rd A (kidx 0 0)
  let c ← rd g.rc indexRound
  wr A (kidx 0 0) (a ^^^ c)

/-- /repo/sha3/KeccakP-1600-reference.c:284-314 `KeccakP1600Round`, reading the variable tables. -/
def keccakRoundV (g : KeccakTables) (A : List Lane) (indexRound : Nat) : M (List Lane) := do
  let A ← kTheta A
  let A ← kRhoV g A
  let A ← kPi A
  let A ← kChi A
  kIotaV g A indexRound

/-- /repo/sha3/KeccakP-1600-reference.c:231-250 `KeccakP1600_Permute_24rounds` and :272-282 `KeccakP1600OnWords`, little endian branch.  `g r` are the tables as they are
during round `r` (another thread may change them in between). -/
def permute24V (g : Nat → KeccakTables) (state : Buf) : M Buf := do
  let A ← collect (fun i => ldLane state i) 25
  let A ← loopFrom (24 - 24) 24 (fun i A => keccakRoundV (g i) A i) A
  pure (A.flatMap laneBytes)

end Picnic
