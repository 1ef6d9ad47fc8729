import Verif.Model.KeccakP
import Verif.Model.Leak

/-
Model/KeccakP with observations.
-/

namespace Picnic.Leak

/-- `for(x=0; x<5; x++) for(y=0; y<5; y++) s = f(x, y, s)` (as in /repo/sha3/KeccakP-1600-reference.c:318-365) -/
def loop55 {σ : Type} (f : Nat → Nat → σ → M σ) (s : σ) : M σ :=
  loop (fun x s => loop (fun y s => f x y s) 5 s) 5 s

/-- /repo/sha3/KeccakP-1600-reference.c:316 `ROL64`: the shift amount is tested -/
def rolB (a : Lane) (offset : Nat) : M Lane := do
  note (decide (offset ≠ 0))
  pure (rol64 a offset)

/-- /repo/sha3/KeccakP-1600-reference.c:318-333 `theta`.  The arrays C and D start out uninitialised; the model
starts them at zero, every element is assigned before it is read. -/
def kTheta (A : List Lane) : M (List Lane) := do
  let C ← loop (fun x C => do
    let C ← wr C x 0
    loop (fun y C => do
      let c ← rd C x
      let a ← rd A (kidx x y)
      wr C x (c ^^^ a)) 5 C) 5 (List.replicate 5 0)
  let D ← loop (fun x D => do
    let c1 ← rd C ((x + 1) % 5)
    let c4 ← rd C ((x + 4) % 5)
    let c1 ← rolB c1 1
    wr D x (c1 ^^^ c4)) 5 (List.replicate 5 0)
  loop55 (fun x y A => do
    let a ← rd A (kidx x y)
    let d ← rd D x
    wr A (kidx x y) (a ^^^ d)) A

/-- /repo/sha3/KeccakP-1600-reference.c:335-341 `rho` -/
def kRho (A : List Lane) : M (List Lane) :=
  loop55 (fun x y A => do
    let a ← rd A (kidx x y)
    let o ← rd keccakRhoOffsets (kidx x y)
    let a ← rolB a o
    wr A (kidx x y) a) A

/-- /repo/sha3/KeccakP-1600-reference.c:343-352 `pi` -/
def kPi (A : List Lane) : M (List Lane) := do
  let tempA ← loop55 (fun x y tempA => do
    let a ← rd A (kidx x y)
    wr tempA (kidx x y) a) (List.replicate 25 0)
  loop55 (fun x y A => do
    let a ← rd tempA (kidx x y)
    wr A (kidx (0 * x + 1 * y) (2 * x + 3 * y)) a) A

/-- /repo/sha3/KeccakP-1600-reference.c:354-365 `chi` -/
def kChi (A : List Lane) : M (List Lane) :=
  loop (fun y A => do
    let C ← loop (fun x C => do
      let a0 ← rd A (kidx x y)
      let a1 ← rd A (kidx (x + 1) y)
      let a2 ← rd A (kidx (x + 2) y)
      wr C x (a0 ^^^ ((~~~ a1) &&& a2))) 5 (List.replicate 5 0)
    loop (fun x A => do
      let c ← rd C x
      wr A (kidx x y) c) 5 A) 5 A

/-- /repo/sha3/KeccakP-1600-reference.c:367-370 `iota` -/
def kIota (A : List Lane) (indexRound : Nat) : M (List Lane) := do
  let a ← rd A (kidx 0 0)
  let c ← rd keccakRoundConstants indexRound
  wr A (kidx 0 0) (a ^^^ c)

/-- /repo/sha3/KeccakP-1600-reference.c:284-314 `KeccakP1600Round` -/
def keccakRound (A : List Lane) (indexRound : Nat) : M (List Lane) := do
  let A ← kTheta A
  let A ← kRho A
  let A ← kPi A
  let A ← kChi A
  kIota A indexRound

/-- /repo/sha3/KeccakP-1600-reference.c:272-282 `KeccakP1600OnWords` (maxNrRounds = 24) -/
def keccakOnWords (A : List Lane) (nrRounds : Nat) : M (List Lane) :=
  loopFrom (24 - nrRounds) 24 (fun i A => keccakRound A i) A

/-- The i-th 64-bit lane of the state on a little endian machine.  The cast in /repo/sha3/KeccakP-1600-reference.c:231-250. -/
def ldLane (b : Buf) (i : Nat) : M Lane := do
  let b0 ← rd b (8 * i)
  let b1 ← rd b (8 * i + 1)
  let b2 ← rd b (8 * i + 2)
  let b3 ← rd b (8 * i + 3)
  let b4 ← rd b (8 * i + 4)
  let b5 ← rd b (8 * i + 5)
  let b6 ← rd b (8 * i + 6)
  let b7 ← rd b (8 * i + 7)
  pure (b7 ++ b6 ++ b5 ++ b4 ++ b3 ++ b2 ++ b1 ++ b0)

/-- /repo/sha3/KeccakP-1600-reference.c:231-250 `KeccakP1600_Permute_24rounds`, little endian branch: the cast
`(tKeccakLane*)state` is the conversion of the bytes to lanes and back. -/
def keccakPermute24 (state : Buf) : M Buf := do
  let A ← collect (fun i => ldLane state i) 25
  let A ← keccakOnWords A 24
  pure (A.flatMap laneBytes)

end Picnic.Leak
