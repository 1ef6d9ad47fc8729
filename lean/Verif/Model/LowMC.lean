import Verif.Model.Params

/-
/repo/picnic_impl.c lines 49-231: bit helpers, XOR helpers, matrix multiplication, LowMC encryption; and
lines 1041-1079.

`uint32_t` loop counters, bit numbers and lengths are natural numbers here: all their values are bounded by the
parameter table (below 2^20), so no wrap-around is possible.
-/

namespace Picnic

/-- /repo/lowmc_constants.h:20-21 `LOWMC_MAX_STATE_SIZE` (bytes) and the size in bytes of `uint32_t[LOWMC_MAX_WORDS]` -/
def LOWMC_MAX_STATE_SIZE : Nat := 64

/-- /repo/picnic_impl.c:50-53 `getBit` and :56-59 `getBitFromWordArray` -/
def getBit (array : Buf) (bitNumber : Nat) : M Byte := do
  let x ← rd array (bitNumber / 8)
  pure ((x >>> (7 - bitNumber % 8)) &&& 0x01)

/-- /repo/picnic_impl.c:62-66 `setBit` and :69-72 `setBitInWordArray`.  The C expression is computed in `int` and
truncated to `uint8_t`; only the low 8 bits matter. -/
def setBit (bytes : Buf) (bitNumber : Nat) (val : Byte) : M Buf := do
  let x ← rd bytes (bitNumber / 8)
  wr bytes (bitNumber / 8)
    ((x &&& ~~~ ((1 : Byte) <<< (7 - bitNumber % 8))) ||| (val <<< (7 - bitNumber % 8)))

/-- /repo/picnic_impl.c:74-80 `zeroTrailingBits` -/
def zeroTrailingBits (data : Buf) (bitLength : Nat) : M Buf :=
  loopFrom bitLength (numBytes bitLength * 8) (fun i data => setBit data i 0) data

/-- /repo/picnic_impl.c:1069-1079 `arePaddingBitsZero` (the early return becomes a conjunction) -/
def arePaddingBitsZero (data : Buf) (bitLength : Nat) : M Bool :=
  loopFrom bitLength (numBytes bitLength * 8) (fun i ok =>
    if ok then do
      let bit_i ← getBit data i
      pure (bit_i == 0)
    else pure false) true

/-- /repo/picnic_impl.c:107-112 `xor_array`; `out` is the previous contents of the output array. `in1` may alias
`out`: element i is read before it is written and is not read again. -/
def xorArray (out in1 in2 : Buf) (length : Nat) : M Buf :=
  loop (fun i out => do
    let a ← ldw in1 i
    let b ← ldw in2 i
    stw out i (a ^^^ b)) length out

/-- /repo/picnic_impl.c:113-127 `xor_three` (whole words, then the remaining bytes) -/
def xorThree (output in1 in2 in3 : Buf) (lenBytes : Nat) : M Buf := do
  let wholeWords := lenBytes / 4
  let output ← loop (fun i output => do
    let a ← ldw in1 i
    let b ← ldw in2 i
    let c ← ldw in3 i
    stw output i (a ^^^ b ^^^ c)) wholeWords output
  loopFrom (wholeWords * 4) lenBytes (fun i output => do
    let a ← rd in1 i
    let b ← rd in2 i
    let c ← rd in3 i
    wr output i (a ^^^ b ^^^ c)) output

/-- /repo/picnic_impl.c:155-167 `parity32` (the return type `uint8_t` keeps the low bit) -/
def parity32 (x : U32) : Byte :=
  let y := x ^^^ (x >>> 1)
  let y := y ^^^ (y >>> 2)
  let y := y ^^^ (y >>> 4)
  let y := y ^^^ (y >>> 8)
  let y := y ^^^ (y >>> 16)
  (y &&& 1).setWidth 8

/-- /repo/picnic_impl.c:82-100 `parity` of an array of `len` 32-bit words -/
def parityWords (data : Buf) (len : Nat) : M Byte := do
  let x ← ldw data 0
  let x ← loopFrom 1 len (fun i x => do
    let d ← ldw data i
    pure (x ^^^ d)) x
  let y := x ^^^ (x >>> 1)
  let y := y ^^^ (y >>> 2)
  let y := y ^^^ (y >>> 4)
  let y := y ^^^ (y >>> 8)
  let y := y ^^^ (y >>> 16)
  pure ((y &&& 1).setWidth 8)

/-- One row of the product: /repo/picnic_impl.c:182-191, the value of `prod` for row i. -/
def matrixRow (state matrix : Buf) (P : Params) (i : Nat) : M U32 := do
  let wholeWords := P.stateSizeBits / 32
  let prod ← loop (fun j prod => do
    let s ← ldw state j
    let m ← ldw matrix (i * P.stateSizeWords + j)
    pure (prod ^^^ (s &&& m))) wholeWords (0 : U32)
  loopFrom (wholeWords * 32) P.stateSizeBits (fun j prod => do
    let s ← getBit state j
    let m ← getBit matrix (i * P.stateSizeWords * 32 + j)
    pure (prod ^^^ (s &&& m).setWidth 32)) prod

/-- /repo/picnic_impl.c:169-196 `matrix_mul` (word-wise version).  `temp` is the uninitialised contents of the local
array of 64 bytes; `output` the previous contents of the output array. -/
def matrixMul (temp output state matrix : Buf) (P : Params) : M Buf := do
  let temp ← stw temp (P.stateSizeWords - 1) 0
  let temp ← loop (fun i temp => do
    let prod ← matrixRow state matrix P i
    setBit temp i (parity32 prod)) P.stateSizeBits temp
  memcpy output 0 temp 0 (P.stateSizeWords * 4)

/-- /repo/picnic_impl.c:199-210 `substitution` -/
def substitution (state : Buf) (P : Params) : M Buf :=
  loop (fun k state => do
    let i := 3 * k
    let a ← getBit state (i + 2)
    let b ← getBit state (i + 1)
    let c ← getBit state i
    let state ← setBit state (i + 2) (a ^^^ (b &&& c))
    let state ← setBit state (i + 1) (a ^^^ b ^^^ (a &&& c))
    setBit state i (a ^^^ b ^^^ c ^^^ (a &&& b))) P.numSboxes state

/-- Sites of uninitialised memory (first argument of `Env.junk`).  This one: `temp` of `matrix_mul`, /repo/picnic_impl.c:177. -/
def siteMatTemp : Nat := 0
/-- the arrays `roundKey`, /repo/picnic_impl.c:214, /repo/picnic3_impl.c:171 -/
def siteRoundKey : Nat := 1
/-- `tmp`, /repo/picnic_impl.c:632, 888 -/
def siteScratch : Nat := 2
/-- /repo/picnic_types.c:56-58 (the code clears this memory; the model allows any contents) -/
def siteTape : Nat := 3
/-- /repo/picnic_types.c:221, 249 -/
def siteCommit : Nat := 4
/-- /repo/picnic_types.c:351 -/
def siteG : Nat := 5
/-- /repo/picnic_impl.c:359, /repo/picnic3_impl.c:460, 578 -/
def siteHash : Nat := 6
/-- /repo/picnic_types.c:175, /repo/picnic3_impl.c:753 -/
def siteSeeds : Nat := 7
/-- /repo/picnic_types.c:128-129, 145-152 -/
def siteChallenge : Nat := 8
/-- /repo/picnic_types.c:80, 97-103 -/
def siteProof : Nat := 9
/-- /repo/tree.c:138, 495, /repo/picnic3_impl.c:830, 844 -/
def siteTree : Nat := 10
/-- local arrays, /repo/picnic3_impl.c:90-100, 168-174 -/
def siteStack : Nat := 11
/-- the caller's key objects -/
def siteKey : Nat := 12

/-- /repo/picnic_impl.c:212-231 `LowMCEnc`; `output` is the previous contents of the output buffer (the caller never
passes `plaintext == output`).  The matrix scratch array is uninitialised stack memory. -/
def lowMCEnc (E : Env) (P : Params) (plaintext output key : Buf) : M Buf := do
  let C := E.lowmc P
  let temp := fun n => E.junkBuf siteMatTemp n LOWMC_MAX_STATE_SIZE
  let output ← memcpy output 0 plaintext 0 (P.stateSizeWords * 4)
  let roundKey ← matrixMul (temp 0) (E.junkBuf siteRoundKey 0 LOWMC_MAX_STATE_SIZE) key (C.K 0) P
  let output ← xorArray output output roundKey P.stateSizeWords
  let (output, _) ← loopFrom 1 (P.numRounds + 1) (fun r (output, roundKey) => do
    let roundKey ← matrixMul (temp (2 * r)) roundKey key (C.K r) P
    let output ← substitution output P
    let output ← matrixMul (temp (2 * r + 1)) output output (C.L (r - 1)) P
    let output ← xorArray output output (C.RC (r - 1)) P.stateSizeWords
    let output ← xorArray output output roundKey P.stateSizeWords
    pure (output, roundKey)) (output, roundKey)
  pure output

end Picnic
