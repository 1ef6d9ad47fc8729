import Verif.Spec.CInt
import Verif.Model.Params

/-
The integer expressions of the library, with their C types: /repo/picnic.c, /repo/picnic_impl.c, /repo/picnic3_impl.c, /repo/tree.c,
/repo/picnic_types.c, /repo/hash.c.

The other files of the model compute sizes, indices and loop counters with natural numbers.  Here the same expressions are written down function by
function with the types the C program gives them: conversions on assignment, on passing arguments and on return are `cast`s, the last increment of
each loop counter is included.  A field of `paramset_t` (all `uint32_t`, /repo/picnic_impl.h:36-52) is a constant of the parameter set; other objects
are variables with the range of values they take.  Where the range of an object rests on more than its loop, the comment says why.

Left out: the bitwise operators `&`, `|`, `^`, `~` (no overflow; modelled elsewhere on bit vectors), pointer arithmetic (bounds: C07, C35-C37), `printf`
arguments, code under `#if 0`, and the Keccak code in /repo/sha3 (modelled with the wrap-around in Model/Hash and Model/KeccakP).
-/

namespace Picnic.Ints

open Spec.CInt

instance : Add Ex := ⟨Ex.bin .add⟩
instance : Sub Ex := ⟨Ex.bin .sub⟩
instance : Mul Ex := ⟨Ex.bin .mul⟩
instance : Div Ex := ⟨Ex.bin .div⟩
instance : Mod Ex := ⟨Ex.bin .mod⟩
/-- A decimal constant has type `int`. -/
instance (n : Nat) : OfNat Ex n := ⟨Ex.val .i32 n⟩

/-- `a < b` -/
def lt (a b : Ex) : Ex := .bin .lt a b
/-- `a <= b` -/
def le (a b : Ex) : Ex := .bin .le a b
/-- `a == b` -/
def eq (a b : Ex) : Ex := .bin .eq a b

/-- Conversions, also those implied by an assignment, an argument or a return. -/
def toU8 (e : Ex) : Ex := .cast .u8 e
/-- Conversion to `uint16_t`. -/
def toU16 (e : Ex) : Ex := .cast .u16 e
/-- Conversion to `int`. -/
def toI32 (e : Ex) : Ex := .cast .i32 e
/-- Conversion to `uint32_t`. -/
def toU32 (e : Ex) : Ex := .cast .u32 e
/-- Conversion to `size_t`. -/
def toU64 (e : Ex) : Ex := .cast .u64 e

/-- A `sizeof` or another constant of type `size_t`. -/
def sz (n : Nat) : Ex := .val .u64 n

/-- A member of `paramset_t`. -/
def fld (n : Nat) : Ex := .val .u32 n

/-- A variable. -/
def v (x : String) (t : Ty) (lo hi : Nat) : Ex := .var x t lo hi

/-- `for (t x = 0; x < n; x += step)` with `n` of type `tn` and largest value `last` of `x` inside the loop: comparison and increment. -/
def loop (x : String) (t : Ty) (n : Ex) (last : Nat) (step : Ex := 1) : List Ex :=
  [lt (v x t 0 last) n, .cast t (v x t 0 last + step), lt (.cast t (v x t 0 last + step)) n]

/-- One C function: for which parameter sets it is reached, and its integer expressions. -/
structure Fn where
  name : String
  on : Params → Bool
  exprs : Params → List Ex

/-- The ZKB++ parameter sets (three parties in the table /repo/picnic.c:93-185). -/
def zkb (P : Params) : Bool := P.numMPCParties == 3
/-- The Picnic3 parameter sets. -/
def p3 (P : Params) : Bool := P.numMPCParties == 16
/-- The parameter sets with Unruh's transform. -/
def ur (P : Params) : Bool := P.transform == .UR
/-- All parameter sets. -/
def any (_ : Params) : Bool := true

section fields
variable (P : Params)
/-- The members of `paramset_t` as expressions; `stateSizeBits`, /repo/picnic_impl.h:39. -/
def bits := fld P.stateSizeBits
/-- `stateSizeBytes`, /repo/picnic_impl.h:40 -/
def bytes := fld P.stateSizeBytes
/-- `stateSizeWords`, /repo/picnic_impl.h:41 -/
def words := fld P.stateSizeWords
/-- `andSizeBytes`, /repo/picnic_impl.h:42 -/
def ands := fld P.andSizeBytes
/-- `UnruhGWithoutInputBytes`, /repo/picnic_impl.h:43 -/
def gNo := fld P.unruhGWithoutInputBytes
/-- `UnruhGWithInputBytes`, /repo/picnic_impl.h:44 -/
def gIn := fld P.unruhGWithInputBytes
/-- `numMPCRounds`, /repo/picnic_impl.h:45 -/
def T := fld P.numMPCRounds
/-- `numOpenedRounds`, /repo/picnic_impl.h:46 -/
def u := fld P.numOpenedRounds
/-- `numMPCParties`, /repo/picnic_impl.h:47 -/
def N := fld P.numMPCParties
/-- `seedSizeBytes`, /repo/picnic_impl.h:48 -/
def seed := fld P.seedSizeBytes
/-- `digestSizeBytes`, /repo/picnic_impl.h:50 -/
def dig := fld P.digestSizeBytes
/-- `saltSizeBytes`, /repo/picnic_impl.h:49 -/
def salt := fld P.saltSizeBytes
/-- `numSboxes`, /repo/picnic_impl.h:38 -/
def sboxes := fld P.numSboxes
/-- `numRounds`, /repo/picnic_impl.h:37 -/
def rounds := fld P.numRounds
/-- Number of AND gates. -/
def gates : Nat := 3 * P.numSboxes * P.numRounds
end fields

/-- Value returned by `numBytes` (/repo/picnic_impl.c:102-105), type `uint32_t`. -/
def nb (n : Nat) : Ex := .val .u32 (numBytes n)

/-! ## /repo/picnic_impl.c: helpers -/

/-- /repo/picnic_impl.c:50-53 `getBit`, any bit number -/
def getBit : Fn := ⟨"getBit", any, fun _ =>
  let b := v "bitNumber" .u32 0 (2 ^ 32 - 1)
  [b / 8, 7 - b % 8, .shr (v "byte" .u8 0 255) (7 - b % 8)]⟩

/-- /repo/picnic_impl.c:62-66 `setBit`, any bit number; `val` is 0 or 1 -/
def setBit : Fn := ⟨"setBit", any, fun _ =>
  let b := v "bitNumber" .u32 0 (2 ^ 32 - 1)
  [b / 8, .shr b 3, .shl 1 (7 - b % 8), .shl (v "val" .u8 0 1) (7 - b % 8)]⟩

/-- /repo/picnic_impl.c:74-80 `zeroTrailingBits` and :1069-1079 `arePaddingBitsZero`, called with `stateSizeBits` and, for the latter, with the number
of AND gates (/repo/picnic3_impl.c:970, 983) -/
def trailing : Fn := ⟨"zeroTrailingBits, arePaddingBitsZero", any, fun P =>
  [P.stateSizeBits, gates P].flatMap fun n =>
    let i := v "i" .u64 n (8 * numBytes n)
    [toU32 (sz n), toU64 (nb n), sz (numBytes n) * 8, lt i (sz (numBytes n) * 8), toU32 i, i + 1]⟩

/-- /repo/picnic_impl.c:82-100 `parity`, :155-167 `parity32`, /repo/picnic3_impl.c:61-69 `parity16`: the shifts -/
def parity : Fn := ⟨"parity, parity32, parity16", any, fun _ =>
  let x := v "x" .u32 0 (2 ^ 32 - 1)
  let y := v "y" .u16 0 (2 ^ 16 - 1)
  [.shr x 1, .shr x 2, .shr x 4, .shr x 8, .shr x 16, toU16 (.shr y 1), toU16 (.shr y 2), toU16 (.shr y 4), toU16 (.shr y 8)]⟩

/-- /repo/picnic_impl.c:102-105 `numBytes`, the branch for a nonzero argument -/
def numBytesFn : Fn := ⟨"numBytes", any, fun _ =>
  let n := v "numBits" .u32 1 (2 ^ 32 - 1)
  [(n - 1) / 8 + 1]⟩

/-- /repo/picnic_impl.c:107-112 `xor_array` (length `stateSizeWords`) and :113-127 `xor_three` (length `stateSizeBytes`) -/
def xors : Fn := ⟨"xor_array, xor_three", any, fun P =>
  let lenBytes := toU64 (bytes P)
  let wholeWords := lenBytes / sz 4
  let i := v "i" .u64 0 P.stateSizeBytes
  loop "i" .u32 (words P) (P.stateSizeWords - 1) ++
    [wholeWords, lt i wholeWords, i + 1, wholeWords * sz 4, lt i lenBytes, i + 1]⟩

/-- /repo/picnic_impl.c:169-196 `matrix_mul` -/
def matrixMul : Fn := ⟨"matrix_mul", any, fun P =>
  let i := v "i" .u32 0 (P.stateSizeBits - 1)
  let j := v "j" .u32 0 (P.stateSizeBits - 1)
  let wholeWords := bits P / 32
  [words P - 1, wholeWords] ++ loop "i" .u32 (bits P) (P.stateSizeBits - 1) ++
    [lt j wholeWords, j + 1, toU64 (i * words P + j), wholeWords * 32, toU64 (i * words P * 32 + j), toU32 (toU64 (i * words P * 32 + j)),
     words P * sz 4]⟩

/-- /repo/picnic_impl.c:199-210 `substitution`, :478-507 `mpc_substitution_verify`, :721-750 `mpc_substitution` (counter `uint32_t`) and
/repo/picnic3_impl.c:142-161 `aux_mpc_sbox`, :281-305 `mpc_sbox` (counter `size_t`, passed on as `uint32_t`) -/
def substitution : Fn := ⟨"substitution, mpc_substitution_verify, mpc_substitution, aux_mpc_sbox, mpc_sbox", any, fun P =>
  let i := v "i" .u32 0 (3 * P.numSboxes - 3)
  let k := v "i" .u64 0 (3 * P.numSboxes - 3)
  loop "i" .u32 (sboxes P * 3) (3 * P.numSboxes - 3) 3 ++ [i + 2, i + 1] ++ loop "j" .u8 3 2 ++ loop "j" .u8 2 1 ++
    loop "i" .u64 (sboxes P * 3) (3 * P.numSboxes - 3) 3 ++ [k + 2, k + 1, toU32 (k + 2), toU32 (k + 1), toU32 k]⟩

/-- /repo/picnic_impl.c:212-231 `LowMCEnc`, :517-549 `mpc_LowMC_verify`, :767-800 `mpc_LowMC`, /repo/picnic3_impl.c:383-414 `simulateOnline`: loop over the
rounds and sizes -/
def lowmc : Fn := ⟨"LowMCEnc, mpc_LowMC_verify, mpc_LowMC, simulateOnline", any, fun P =>
  let r := v "r" .u32 1 P.numRounds
  [words P * sz 4, 4 * words P * sz 4, 6 * words P * sz 4, le r (rounds P), r + 1, le (r + 1) (rounds P), r - 1] ++
    loop "player" .u32 (v "players" .u64 2 3) 2 ++ loop "i" .u8 (v "players" .i32 2 3) 2 ++ loop "i" .i32 3 2⟩

/-! ## /repo/picnic_impl.c: ZKB++ -/

/-- Length of the longer tape passed to `createRandomTape` (/repo/picnic_impl.c:563, 895) -/
def tapeLen (P : Params) : Ex := bytes P + ands P

/-- /repo/picnic_impl.c:234-261 `createRandomTape`: round numbers come as `uint32_t` (:895) or `size_t` (:648), players as `int` -/
def createRandomTape : Fn := ⟨"createRandomTape", zkb, fun P =>
  [tapeLen P, lt (tapeLen P) (dig P), lt (ands P) (dig P), toU16 (tapeLen P), toU16 (ands P), toU16 (v "k" .u32 0 (P.numMPCRounds - 1)),
   toU16 (v "i" .u64 0 (P.numMPCRounds - 1)), toU16 (v "j" .i32 0 2), toU16 2, toU64 (tapeLen P)]⟩

/-- /repo/picnic_impl.c:310-334 `G` -/
def gFn : Fn := ⟨"G", ur, fun P =>
  let outputBytes := toU16 (seed P + ands P)
  [outputBytes, toU16 (bytes P), toU16 (outputBytes + toU16 (bytes P)), toU64 (toU16 (outputBytes + toU16 (bytes P)))]⟩

/-- /repo/picnic_impl.c:336-352 `setChallenge`, `getChallenge` -/
def challenge : Fn := ⟨"setChallenge, getChallenge", zkb, fun P =>
  let r := v "round" .u64 0 (P.numMPCRounds - 1)
  [toU32 r, 2 * toU32 r, 2 * toU32 r + 1, .shr (v "trit" .u8 0 2) 1, .shl (v "bit" .u8 0 1) 1]⟩

/-- /repo/picnic_impl.c:354-432 `H3`, with `VIEW_OUTPUTS` of :35 -/
def h3 : Fn := ⟨"H3", zkb, fun P =>
  let i := v "i" .u32 0 (P.numMPCRounds - 1)
  let j := v "j" .i32 0 2
  let jj := v "j" .i32 0 6
  [T P * 2, nb (2 * P.numMPCRounds) - 1, i * 3 + j] ++ loop "i" .u32 (T P) (P.numMPCRounds - 1) ++ loop "j" .i32 3 2 ++
    loop "i" .u64 (dig P) (P.digestSizeBytes - 1) ++ loop "j" .i32 8 6 2 ++
    [6 - jj, .shr (v "byte" .u8 0 255) (6 - jj), toU64 (v "round" .u64 0 (P.numMPCRounds - 1) + 1), eq (v "round" .u64 1 P.numMPCRounds) (T P)]⟩

/-- /repo/picnic_impl.c:435-464 `prove` and the same indices in `verify` (:656-671) -/
def proveFn : Fn := ⟨"prove", zkb, fun _ =>
  let e := v "challenge" .u8 0 2
  [(e + 1) % 3, (e + 2) % 3, toU8 ((e + 1) % 3)]⟩

/-- /repo/picnic_impl.c:466-476 `mpc_AND_verify`, :706-719 `mpc_AND`: the position on the tape, at most the number of AND gates -/
def mpcAnd : Fn := ⟨"mpc_AND_verify, mpc_AND", zkb, fun P =>
  let i := v "i" .u8 0 2
  [toU32 (v "pos" .u32 0 (gates P - 1) + 1), (i + 1) % 3] ++ loop "i" .u8 3 2⟩

/-- /repo/picnic_impl.c:618-702 `verify` -/
def verifyFn : Fn := ⟨"verify", zkb, fun P =>
  let i := v "i" .u64 0 (P.numMPCRounds - 1)
  let e := v "challenge" .u8 0 2
  [T P * 3 * sz 8, 6 * bytes P, lt (bytes P + ands P) (6 * bytes P), T P * sz 24, i * 3 + e, i * 3 + (e + 1) % 3, i * 3 + (e + 2) % 3, 2 * T P] ++
    loop "i" .u64 (T P) (P.numMPCRounds - 1)⟩

/-- /repo/picnic_impl.c:847-866 `computeSeeds` -/
def computeSeeds : Fn := ⟨"computeSeeds", zkb, fun P =>
  [toU16 (bits P), seed P * (N P * T P) + salt P, toU64 (seed P * (N P * T P) + salt P)]⟩

/-- /repo/picnic_impl.c:869-978 `sign_picnic1` -/
def signPicnic1 : Fn := ⟨"sign_picnic1", zkb, fun P =>
  let i := v "i" .u64 0 (P.numMPCRounds - 1)
  let j := v "j" .u64 0 2
  [9 * bytes P, lt (bytes P + ands P) (9 * bytes P), toU64 (9 * bytes P), tapeLen P, T P * 3 * sz 8, i * 3 + j] ++
    loop "k" .u32 (T P) (P.numMPCRounds - 1) ++ loop "j" .i32 2 1 ++ loop "i" .u64 (T P) (P.numMPCRounds - 1) ++ loop "j" .u64 3 2⟩

/-- The formula of /repo/picnic_impl.c:988-989, type `size_t` -/
def bytesRequired1 (P : Params) : Ex :=
  toU64 (nb (2 * P.numMPCRounds) + salt P + T P * (2 * seed P + bytes P + ands P + dig P))

/-- What `bytesRequired` is at /repo/picnic_impl.c:995, as a number: also the most `serializeSignature` writes -/
def zkbMax (P : Params) : Nat :=
  numBytes (2 * P.numMPCRounds) + P.saltSizeBytes +
    P.numMPCRounds * (2 * P.seedSizeBytes + P.stateSizeBytes + P.andSizeBytes + P.digestSizeBytes + P.unruhGWithoutInputBytes)

/-- /repo/picnic_impl.c:982-1038 `serializeSignature` -/
def serialize1 : Fn := ⟨"serializeSignature", zkb, fun P =>
  [2 * T P, bytesRequired1 P, bytesRequired1 P + gNo P * T P, lt (v "sigBytesLen" .u64 0 (2 ^ 64 - 1)) (bytesRequired1 P),
   toI32 (v "written" .i64 0 (zkbMax P))] ++ loop "i" .u64 (T P) (P.numMPCRounds - 1)⟩

/-- /repo/picnic_impl.c:1041-1056 `computeInputShareSize` and :1081-1146 `deserializeSignature`: the sum is at most `numMPCRounds * stateSizeBytes` -/
def deserialize1 : Fn := ⟨"computeInputShareSize, deserializeSignature", zkb, fun P =>
  let s := v "inputShareSize" .u64 0 (P.numMPCRounds * P.stateSizeBytes)
  let expected := toU64 (nb (2 * P.numMPCRounds) + salt P + T P * (2 * seed P + ands P + dig P) + s)
  let len := v "sigBytesLen" .u64 0 (2 ^ 64 - 1)
  [s + toU64 (bytes P), 2 * T P, lt len (nb (2 * P.numMPCRounds)), expected, expected + gNo P * T P, lt len (expected + gNo P * T P),
   lt 2 (v "challenge" .u8 0 3)] ++ loop "i" .u64 (T P) (P.numMPCRounds - 1)⟩

/-! ## /repo/picnic_types.c -/

/-- /repo/picnic_types.c:48-64 `getTapeSizeBytes`, `allocateRandomTape` -/
def allocateRandomTape : Fn := ⟨"getTapeSizeBytes, allocateRandomTape", any, fun P =>
  let nTapes := toU64 (N P)
  let tapeSizeBytes := toU64 (2 * ands P)
  [tapeSizeBytes, nTapes * sz 8, nTapes * tapeSizeBytes] ++ loop "i" .u8 nTapes (P.numMPCParties - 1)⟩

/-- /repo/picnic_types.c:120-169 `allocateSignature`, `freeSignature`, `allocateSignature2`, `freeSignature2` -/
def allocateSignature : Fn := ⟨"allocateSignature, freeSignature, allocateSignature2, freeSignature2", any, fun P =>
  [T P * sz 48, 2 * T P, u P * sz 2] ++ loop "i" .u64 (T P) (P.numMPCRounds - 1)⟩

/-- /repo/picnic_types.c:171-205 `allocateSeeds` -/
def allocateSeeds : Fn := ⟨"allocateSeeds", any, fun P =>
  let nSeeds := toU64 (N P)
  [(T P + 1) * sz 16, T P * nSeeds * seed P + salt P, T P * nSeeds * sz 8 + sz 8 + T P * sz 8, T P * seed P + salt P, nSeeds * sz 8] ++
    loop "i" .u32 (T P) (P.numMPCRounds - 1) ++ loop "j" .u32 nSeeds (P.numMPCParties - 1)⟩

/-- /repo/picnic_types.c:215-258 `allocateCommitments` (called with 0: `numMPCParties` commitments), `allocateCommitments2` (called with `numMPCRounds`) -/
def allocateCommitments : Fn := ⟨"allocateCommitments, allocateCommitments2", any, fun P =>
  let n := toU64 (N P)
  let m := toU64 (T P)
  [T P * sz 16, T P * (n * dig P + n * sz 8), n * sz 8, m * dig P + m * sz 8, m * sz 8] ++ loop "i" .u32 (T P) (P.numMPCRounds - 1) ++
    loop "j" .u32 n (P.numMPCParties - 1) ++ loop "i" .u64 m (P.numMPCRounds - 1)⟩

/-- /repo/picnic_types.c:269-310 `allocateInputs`, `allocateMsgs` -/
def allocateMsgs : Fn := ⟨"allocateInputs, allocateMsgs", any, fun P =>
  [T P * (words P * sz 4 + sz 8), T P * sz 8, words P * sz 4, T P * sz 24, T P * (N P * toU64 (ands P) + N P * sz 8), N P * sz 8] ++
    loop "i" .u32 (T P) (P.numMPCRounds - 1) ++ loop "j" .u32 (N P) (P.numMPCParties - 1)⟩

/-- /repo/picnic_types.c:318-361 `allocateViews`, `freeViews`, `allocateGCommitments` -/
def allocateViews : Fn := ⟨"allocateViews, freeViews, allocateGCommitments", any, fun P =>
  [T P * sz 8, T P * sz 24, gIn P * T P * 3, toU64 (gIn P * T P * 3)] ++ loop "i" .u64 (T P) (P.numMPCRounds - 1) ++ loop "j" .u64 3 2 ++
    loop "i" .u32 (T P) (P.numMPCRounds - 1) ++ loop "j" .u8 3 2⟩

/-! ## /repo/tree.c.  Trees have `numMPCRounds` leaves (initial seeds, Merkle tree) or `numMPCParties` leaves (seeds of one repetition). -/

/-- `tree->depth` and `tree->numNodes` for `L` leaves (/repo/tree.c:49-50) -/
def depthOf (L : Nat) : Nat := ceilLog2 L + 1
/-- /repo/tree.c:50 -/
def nodesOf (L : Nat) : Nat := (2 ^ depthOf L - 1) - (2 ^ (depthOf L - 1) - L)

/-- The formula of /repo/tree.c:50, type `size_t` -/
def numNodesEx (L : Nat) : Ex :=
  let depth := toU64 (toU32 (.val .u32 (ceilLog2 L)) + 1)
  ((Ex.shl 1 depth) - 1) - ((Ex.shl 1 (depth - 1)) - sz L)

/-- For every tree of the parameter set. -/
def trees (P : Params) (f : Nat → List Ex) : List Ex := [P.numMPCRounds, P.numMPCParties].flatMap f

/-- /repo/tree.c:45-75 `createTree`, with /repo/tree.c:34-43 `exists` -/
def createTree : Fn := ⟨"createTree", p3, fun P => trees P fun L =>
  let nodes := sz (nodesOf L)
  let i := v "i" .i32 1 (nodesOf L - L)
  [toU32 (sz L), numNodesEx L, nodes * sz 8, nodes * toU64 (seed P), nodes * toU64 (dig P), nodes - sz L, toI32 (nodes - sz L),
   lt 0 i, i - 1, 2 * i + 1, 2 * i + 2, toU64 (2 * i + 1), toU64 (2 * i + 2)] ++ loop "i" .u64 nodes (nodesOf L - 1)⟩

/-- /repo/tree.c:87-121 `isLeftChild`, `hasRightChild`, `hasLeftChild`, `getParent`, `getLeaves`, `getLeaf`, :179-215 `isLeafNode`, `hasSibling`,
`getSibling`.  `getParent` subtracts 1 from an odd node and 2 from an even one, which is not the root; `getSibling` subtracts 1 from a node that is not the
root. -/
def nodeFns : Fn := ⟨"isLeftChild, hasRightChild, hasLeftChild, getParent, getLeaf, isLeafNode, hasSibling, getSibling", p3, fun P => trees P fun L =>
  let nodes := sz (nodesOf L)
  let n := v "node" .u64 0 (nodesOf L - 1)
  let odd := v "node" .u64 1 (nodesOf L - 1)
  let even := v "node" .u64 2 (nodesOf L - 1)
  [n % 2, eq (n % 2) 1, 2 * n + 2, lt (2 * n + 2) nodes, 2 * n + 1, lt (2 * n + 1) nodes, (odd - 1) / 2, (even - 2) / 2, nodes - sz L,
   nodes - sz L + v "leafIndex" .u64 0 (L - 1), n + 1, lt (n + 1) nodes, odd - 1]⟩

/-- /repo/tree.c:123-177 `hashSeed`, `expandSeeds`, `generateSeeds`: repetition and node numbers become 16-bit tags of the hash input -/
def expandSeeds : Fn := ⟨"hashSeed, expandSeeds", p3, fun P => trees P fun L =>
  let nodes := sz (nodesOf L)
  let i := v "i" .u64 0 (nodesOf L / 2 - 1)
  [toU16 (v "repIndex" .u64 0 (P.numMPCRounds - 1)), toU16 i, 2 * seed P, toU64 (2 * seed P), nodes - 1, 2 * i + 1, 2 * i + 2, i + 1,
   le (i + 1) (v "lastNonLeaf" .u64 0 (nodesOf L / 2))]⟩

/-- /repo/tree.c:235-291 `getRevealedNodes`.  `pos` counts the steps from a leaf to the root (less than the depth), `revealedPos` at most one node per leaf
(the array has `numLeaves` entries; no write past it: C35-C37), `sibling` has a left child when it is doubled. -/
def getRevealedNodes : Fn := ⟨"getRevealedNodes", p3, fun P => trees P fun L =>
  let nodes := sz (nodesOf L)
  let pathLen := sz (depthOf L) - 1
  let hideListSize := v "hideListSize" .u64 1 P.numOpenedRounds
  let hidden := v "hideList[i]" .u16 0 (L - 1)
  [pathLen, pathLen * sz 8, hideListSize * pathLen * sz 8, v "i" .u64 0 (depthOf L - 1) + 1, v "i" .u64 0 (P.numOpenedRounds - 1) + 1,
   hidden + (nodes - sz L), v "pos" .u64 0 (depthOf L - 1) + 1, sz L * sz 8, v "d" .u64 0 (depthOf L - 1) + 1,
   2 * v "sibling" .u64 0 (nodesOf L / 2 - 1) + 1, v "revealedPos" .u64 0 (L - 1) + 1]⟩

/-- /repo/tree.c:293-330 `revealSeedsSize`, `revealSeeds`.  The output buffer has room for `numLeaves` seeds (/repo/picnic3_impl.c:830-845) and at most so
many nodes are revealed, so `outLen` is at least `seedSizeBytes` each time it is reduced. -/
def revealSeeds : Fn := ⟨"revealSeedsSize, revealSeeds", p3, fun P => trees P fun L =>
  let outLen := v "outLen" .i32 P.seedSizeBytes (L * P.seedSizeBytes)
  [v "numNodesRevealed" .u64 0 L * seed P, lt (.val .i32 (2 ^ 31 - 1)) (v "outputSize" .u64 0 (2 ^ 64 - 1)), toI32 (sz (L * P.seedSizeBytes)),
   toI32 (outLen - seed P), lt (toI32 (outLen - seed P)) 0, v "i" .u64 0 (L - 1) + 1, toU64 (v "written" .i64 0 (L * P.seedSizeBytes))]⟩

/-- /repo/tree.c:332-360 `reconstructSeeds`.  `inputLen` is the number of nodes times `seedSizeBytes` (`deserializeSignature2`), so `inLen` is at least
`seedSizeBytes` each time it is reduced. -/
def reconstructSeeds : Fn := ⟨"reconstructSeeds", p3, fun P => trees P fun L =>
  let inLen := v "inLen" .i32 P.seedSizeBytes (L * P.seedSizeBytes)
  [lt (.val .i32 (2 ^ 31 - 1)) (v "inputLen" .u64 0 (2 ^ 64 - 1)), toI32 (v "inputLen" .u64 0 (L * P.seedSizeBytes)), toI32 (inLen - seed P),
   lt (toI32 (inLen - seed P)) 0, v "i" .u64 0 (L - 1) + 1]⟩

/-- /repo/tree.c:362-418 `computeParentHash`, `buildMerkleTree`, :549-581 `verifyMerkleTree`: the node number becomes a 16-bit tag; the loop starts with
`numNodes`, which does not exist -/
def merkle : Fn := ⟨"computeParentHash, buildMerkleTree, verifyMerkleTree", p3, fun P =>
  let L := P.numMPCRounds
  let nodes := sz (nodesOf L)
  let i := v "i" .i32 1 (nodesOf L)
  let parent := v "parent" .u64 0 (nodesOf L / 2 - 1)
  [nodes - sz L, nodes - sz L + v "i" .u64 0 (L - 1), toI32 nodes, lt 0 i, i - 1, toU64 i, 2 * parent + 1, 2 * parent + 2, toU16 parent] ++
    loop "i" .u64 (sz L) (L - 1)⟩

/-- /repo/tree.c:422-506 `getRevealedMerkleNodes`, `openMerkleTreeSize`, `openMerkleTree` -/
def revealedMerkle : Fn := ⟨"getRevealedMerkleNodes, openMerkleTreeSize, openMerkleTree", p3, fun P =>
  let L := P.numMPCRounds
  let nodes := sz (nodesOf L)
  let i := v "i" .i32 1 (nodesOf L / 2 - 1)
  let missing := v "missingLeaves[i]" .u16 0 (L - 1)
  [nodes - sz L, nodes - sz L + missing, toI32 (v "getParent" .u64 0 (nodesOf L / 2 - 1)), lt 0 i, i - 1, toU64 i, 2 * i + 1, 2 * i + 2,
   toU64 (2 * i + 2), sz L * sz 8, missing + (nodes - sz L), v "pos" .u64 0 (L - 1) + 1, v "revealedSize" .u64 0 L * dig P,
   v "revealedSize" .u64 0 L * toU64 (dig P)] ++ loop "i" .u64 (sz (L - P.numOpenedRounds)) (L - P.numOpenedRounds - 1)⟩

/-- /repo/tree.c:509-546 `addMerkleNodes`.  `inputSize` is the number of nodes times the digest size (`deserializeSignature2`), so `intLen` is at least
`dataSize` each time it is reduced. -/
def addMerkleNodes : Fn := ⟨"addMerkleNodes", p3, fun P =>
  let L := P.numMPCRounds
  let dataSize := toU64 (dig P)
  let intLen := v "intLen" .i32 P.digestSizeBytes (L * P.digestSizeBytes)
  [lt (.val .i32 (2 ^ 31 - 1)) (v "inputSize" .u64 0 (2 ^ 64 - 1)), toI32 (v "inputSize" .u64 0 (L * P.digestSizeBytes)), toI32 (intLen - dataSize),
   lt (toI32 (intLen - dataSize)) 0, v "i" .u64 0 (L - 1) + 1]⟩

/-! ## /repo/picnic3_impl.c -/

/-- /repo/picnic3_impl.c:38-51 `nlz`: in each branch the bits that are shifted out are zero -/
def nlzFn : Fn := ⟨"nlz", any, fun _ =>
  let x (k : Nat) := v "x" .u32 0 (2 ^ k - 1)
  let n (k : Nat) := v "n" .u32 1 k
  [.shr (x 32) 16, .shr (x 32) 24, .shr (x 32) 28, .shr (x 32) 30, n 1 + 16, .shl (x 16) 16, n 17 + 8, .shl (x 24) 8, n 25 + 4, .shl (x 28) 4,
   n 29 + 2, .shl (x 30) 2, n 31 - .shr (x 32) 31, toI32 (n 31 - .shr (x 32) 31)]⟩

/-- /repo/picnic3_impl.c:53-59 `ceil_log2`, for a nonzero argument -/
def ceilLog2Fn : Fn := ⟨"ceil_log2", any, fun _ =>
  [v "x" .u32 1 (2 ^ 32 - 1) - 1, 32 - v "nlz" .i32 0 32, toU32 (32 - v "nlz" .i32 0 32)]⟩

/-- Number of bits of one tape that are read: a mask and an AND output per state bit and round -/
def tapeBits (P : Params) : Nat := 2 * P.stateSizeBits * P.numRounds

/-- /repo/picnic3_impl.c:71-119 `createRandomTapes`, `tapesToWord`, `tapesToWords`, `tapesToParityBits`.  The position stays within the bits used
(:197, :202 set it to the start of a round, and a round reads `2 * stateSizeBits`). -/
def tapes : Fn := ⟨"createRandomTapes, tapesToWord, tapesToWords, tapesToParityBits", p3, fun P =>
  [toU16 (v "t" .u64 0 (P.numMPCRounds - 1)), toU16 (v "i" .u64 0 (P.numMPCParties - 1)), toU32 (v "pos" .u32 0 (tapeBits P - 1) + 1),
   toU32 (v "i" .u64 0 15), toU32 (v "i" .u64 0 (P.stateSizeBits - 1))] ++ loop "i" .u64 (N P) (P.numMPCParties - 1) ++ loop "i" .u64 16 15 ++
    loop "w" .u64 (sz P.stateSizeBits) (P.stateSizeBits - 1)⟩

/-- /repo/picnic3_impl.c:128-140 `extend` (before the bitwise complement), `aux_mpc_AND` (after `tapesToWord` has advanced the position) -/
def auxAnd : Fn := ⟨"extend, aux_mpc_AND", p3, fun P =>
  [v "bit" .u8 0 1 - 1, N P - 1, toU64 (N P - 1), v "pos" .u32 1 (tapeBits P) - 1]⟩

/-- /repo/picnic3_impl.c:168-209 `computeAuxTape` -/
def computeAuxTape : Fn := ⟨"computeAuxTape", p3, fun P =>
  let r := v "r" .u32 1 P.numRounds
  [words P - 1, lt 0 r, r - 1, bits P * 2 * (r - 1), bits P * 2 * (r - 1) + bits P]⟩

/-- /repo/picnic3_impl.c:213-264 `commit`, `commit_h`, `commit_v`, `wordToMsgs`: tags are 16 bits; one message bit per AND gate -/
def commits : Fn := ⟨"commit, commit_h, commit_v, wordToMsgs", p3, fun P =>
  [toU16 (v "t" .u64 0 (P.numMPCRounds - 1)), toU16 (v "j" .u64 0 (P.numMPCParties - 1)), toU32 (v "msgs->pos" .u64 0 (gates P)),
   v "msgs->pos" .u64 0 (gates P - 1) + 1, toU32 (v "i" .u64 0 (P.numMPCParties - 1))] ++ loop "i" .u64 (N P) (P.numMPCParties - 1)⟩

/-- /repo/picnic3_impl.c:266-279 `mpc_AND`: `unopened` is -1 or a party; the bit numbers in the second case -/
def mpcAnd3 : Fn := ⟨"mpc_AND", p3, fun P =>
  [le 0 (.var "unopened" .i32 (-1) (P.numMPCParties - 1)), toU32 (v "unopened" .i32 0 (P.numMPCParties - 1)), toU32 (v "msgs->pos" .u64 0 (gates P))]⟩

/-- /repo/picnic3_impl.c:336-355 `contains`, `indexOf` (on a value that is in the list): lists of `numOpenedRounds` entries -/
def lists : Fn := ⟨"contains, indexOf", p3, fun P =>
  [eq (v "list[i]" .u16 0 (2 ^ 16 - 1)) (v "value" .u64 0 (P.numMPCRounds - 1)), toI32 (v "i" .u64 0 (P.numOpenedRounds - 1)),
   toU64 (toI32 (v "i" .u64 0 (P.numOpenedRounds - 1)))] ++ loop "i" .u64 (toU64 (u P)) (P.numOpenedRounds - 1)⟩

/-- /repo/picnic3_impl.c:357-381 `getAuxBits`, `setAuxBits` -/
def auxBits : Fn := ⟨"getAuxBits, setAuxBits", p3, fun P =>
  let n := toU64 (bits P)
  let j := v "j" .u32 0 (P.numRounds - 1)
  let i := v "i" .u64 0 (P.stateSizeBits - 1)
  [toU64 (N P - 1), n, n + n * 2 * j + i, toU32 (n + n * 2 * j + i), v "pos" .u64 0 (P.stateSizeBits * P.numRounds - 1) + 1,
   toU32 (v "pos" .u64 0 (P.stateSizeBits * P.numRounds - 1))] ++ loop "j" .u32 (rounds P) (P.numRounds - 1) ++ loop "i" .u64 n (P.stateSizeBits - 1)⟩

/-- /repo/picnic3_impl.c:416-434 `bitsToChunks` for chunks of `len` bits: before bit `j` is added, `chunks[i]` is less than `2^j` -/
def bitsToChunksOf (P : Params) (len : Nat) : List Ex :=
  let chunkLenBits := sz len
  let inputLen := toU64 (dig P)
  let chunkCount := P.digestSizeBytes * 8 / len
  [toU64 (.val .u32 len), lt (inputLen * 8) chunkLenBits, (inputLen * 8) / chunkLenBits,
   toU32 (v "i" .u64 0 (chunkCount - 1) * chunkLenBits + v "j" .u64 0 (len - 1)), .shl 1 chunkLenBits,
   lt (v "chunks[i]" .u16 0 (2 ^ len - 1)) (.shl 1 chunkLenBits)] ++
    loop "i" .u64 ((inputLen * 8) / chunkLenBits) (chunkCount - 1) ++ loop "j" .u64 chunkLenBits (len - 1) ++
    (List.range len).map fun j => toU16 (v "chunks[i]" .u16 0 (2 ^ j - 1) + .shl (v "bit" .u8 0 1) (v "j" .u64 j j))

/-- /repo/picnic3_impl.c:416-508 `bitsToChunks`, `appendUnique`, `expandChallengeHash` -/
def expandChallengeHash : Fn := ⟨"bitsToChunks, appendUnique, expandChallengeHash", p3, fun P =>
  let c := ceilLog2 P.numMPCRounds
  let p := ceilLog2 P.numMPCParties
  let chunk := v "chunks[i]" .u16 0 (2 ^ c - 1)
  [lt (fld c) (fld p), dig P * 8 / fld (min c p), toU64 (dig P * 8 / fld (min c p)), lt chunk (T P), lt chunk (N P),
   v "position" .u64 0 (P.numOpenedRounds - 1) + 1, v "countP" .u64 0 (P.numOpenedRounds - 1) + 1, eq (v "countC" .u64 0 P.numOpenedRounds) (u P),
   lt (v "countC" .u64 0 P.numOpenedRounds) (u P)] ++ bitsToChunksOf P c ++ bitsToChunksOf P p⟩

/-- /repo/picnic3_impl.c:554-568 `getMissingLeavesList` -/
def getMissingLeavesList : Fn := ⟨"getMissingLeavesList", p3, fun P =>
  [T P - u P, toU64 (T P - u P), toU16 (v "i" .u64 0 (P.numMPCRounds - 1)), v "pos" .u64 0 (P.numMPCRounds - P.numOpenedRounds - 1) + 1] ++
    loop "i" .u64 (T P) (P.numMPCRounds - 1)⟩

/-- /repo/picnic3_impl.c:570-729 `verify_picnic3`, :746-893 `sign_picnic3`, :731-744 `computeSaltAndRootSeed` -/
def signVerify3 : Fn := ⟨"verify_picnic3, sign_picnic3, computeSaltAndRootSeed", p3, fun P =>
  [T P * sz 24, T P * sz 8, N P - 1, toU64 (N P - 1), toI32 (v "unopened" .u64 0 (P.numMPCParties - 1)), T P - u P, toU64 (T P - u P), toU16 (bits P),
   toU64 (salt P + seed P), toU64 (T P * seed P), toU64 (N P * seed P), eq (v "challengeP" .u16 0 (P.numMPCParties - 1)) (toU64 (N P - 1))] ++
    loop "t" .u64 (T P) (P.numMPCRounds - 1) ++ loop "j" .u64 (N P - 1) (P.numMPCParties - 2)⟩

/-- More than `bytesRequired` of /repo/picnic3_impl.c:898-939 and :1001-1016 can become: every leaf revealed in all trees -/
def p3Max (P : Params) : Nat :=
  P.digestSizeBytes + P.saltSizeBytes + P.numMPCRounds * P.seedSizeBytes + P.numMPCRounds * P.digestSizeBytes +
    P.numOpenedRounds * (2 * P.andSizeBytes + P.numMPCParties * P.seedSizeBytes + P.stateSizeBytes + P.digestSizeBytes)

/-- /repo/picnic3_impl.c:895-994 `deserializeSignature2`, :996-1059 `serializeSignature2` -/
def serialize3 : Fn := ⟨"deserializeSignature2, serializeSignature2", p3, fun P =>
  let req := v "bytesRequired" .u64 0 (p3Max P)
  [toU64 (dig P + salt P), req + v "iSeedInfoLen" .u64 0 (P.numMPCRounds * P.seedSizeBytes), req + v "cvInfoLen" .u64 0 (P.numMPCRounds * P.digestSizeBytes),
   req + ands P, req + v "seedInfoLen" .u64 0 (P.numMPCParties * P.seedSizeBytes), req + bytes P, req + dig P, T P - u P,
   eq (v "P_t" .u64 0 (P.numMPCParties - 1)) (N P - 1), 3 * rounds P * sboxes P, toU64 (3 * rounds P * sboxes P),
   eq (v "sigBytesLen" .u64 0 (2 ^ 64 - 1)) req, toI32 (v "written" .i64 0 (p3Max P))] ++ loop "t" .u64 (T P) (P.numMPCRounds - 1)⟩

/-! ## /repo/hash.c -/

/-- The lengths passed to `HashUpdate` and `HashSqueeze` (/repo/hash.c:21-29, 55-62), with the longest derived output (/repo/picnic_impl.c:862), times 8.
The message is the caller's: at most 2^61 - 1 bytes (see `C24_huge_update_ignored` for longer ones).  `HashUpdateIntLE` (:83-88): see its callers. -/
def hashLen : Fn := ⟨"HashUpdate, HashSqueeze", any, fun P =>
  let len := v "byteLen" .u64 0 (2 ^ 61 - 1)
  [len * 8, toU64 (seed P * (N P * T P) + salt P) * 8]⟩

/-! ## /repo/picnic.c -/

/-- Security level of the table in /repo/picnic.c:93-185: `seedSizeBytes` is a quarter of it, type `uint32_t` -/
def pqLevel (P : Params) : Ex := .val .u32 (P.seedSizeBytes * 4)

/-- /repo/picnic.c:87-200 `get_param_set` -/
def getParamSetFn : Fn := ⟨"get_param_set", any, fun P =>
  [sboxes P * 3 * rounds P, 2 * pqLevel P, (bits P + 32 - 1) / 32, seed P + ands P, gNo P + bytes P]⟩

/-- The formulas of /repo/picnic.c:352-366 for the Picnic3 parameter sets, type `size_t` -/
def sigSize3 (P : Params) : Ex :=
  let u := toU64 (u P)
  let T := toU64 (T P)
  let log := Ex.val .u32 (ceilLog2 ((P.numMPCRounds + (P.numOpenedRounds - 1)) / P.numOpenedRounds))
  let numTreeValues := toU64 (u * log)
  let proofSize := toU64 (seed P * .val .u32 (ceilLog2 P.numMPCParties) + ands P + bytes P + dig P + bytes P + ands P)
  let _ := T
  toU64 (salt P + dig P + numTreeValues * seed P + numTreeValues * dig P + proofSize * u)

/-- The formula of /repo/picnic.c:374 (FS), type `size_t` -/
def sigSizeFS (P : Params) : Ex :=
  toU64 (T P * (dig P + bytes P + nb (3 * P.numSboxes * P.numRounds) + 2 * seed P) + nb (2 * P.numMPCRounds) + salt P)

/-- The formula of /repo/picnic.c:376 (UR), type `size_t` -/
def sigSizeUR (P : Params) : Ex :=
  toU64 (T P * (dig P + bytes P + 2 * nb (3 * P.numSboxes * P.numRounds) + 3 * seed P) + nb (2 * P.numMPCRounds) + salt P)

/-- /repo/picnic.c:337-380 `picnic_signature_size`, Picnic3; the argument of `ceil_log2` is converted to `uint32_t` -/
def signatureSize3 : Fn := ⟨"picnic_signature_size (Picnic3)", p3, fun P =>
  let u := toU64 (u P)
  let T := toU64 (T P)
  [(T + (u - 1)) / u, toU32 ((T + (u - 1)) / u), sigSize3 P]⟩

/-- /repo/picnic.c:337-380 `picnic_signature_size`, ZKB++ -/
def signatureSize1 : Fn := ⟨"picnic_signature_size (ZKB++)", zkb, fun P =>
  [3 * sboxes P * rounds P, 2 * T P, sigSizeFS P, sigSizeUR P]⟩

/-- /repo/picnic.c:455-588 `picnic_write_public_key`, `picnic_read_public_key`, `picnic_write_private_key`, `picnic_read_private_key`: `key->params` is one
of the enumerators -/
def keysFn : Fn := ⟨"picnic_write_public_key, picnic_read_public_key, picnic_write_private_key, picnic_read_private_key", any, fun P =>
  let n := toU64 (bytes P)
  let len := v "buflen" .u64 0 (2 ^ 64 - 1)
  [1 + 2 * n, 1 + 3 * n, lt len (1 + 2 * n), lt len (1 + 3 * n), lt len 1, toU8 (v "params" .u32 1 12), toI32 (1 + 2 * n), toI32 (1 + 3 * n)]⟩

/-- /repo/picnic.c:267-335 `picnic_sign`: the length returned by `serializeSignature` or `serializeSignature2` goes to `*signature_len` -/
def picnicSign : Fn := ⟨"picnic_sign", any, fun P =>
  [toU64 (v "ret" .i32 0 (if P.numMPCParties == 3 then zkbMax P else p3Max P))]⟩

/-- All functions of the library with integer arithmetic. -/
def functions : List Fn :=
  [getBit, setBit, trailing, parity, numBytesFn, xors, matrixMul, substitution, lowmc, createRandomTape, gFn, challenge, h3, proveFn, mpcAnd, verifyFn,
   computeSeeds, signPicnic1, serialize1, deserialize1, allocateRandomTape, allocateSignature, allocateSeeds, allocateCommitments, allocateMsgs,
   allocateViews, createTree, nodeFns, expandSeeds, getRevealedNodes, revealSeeds, reconstructSeeds, merkle, revealedMerkle, addMerkleNodes, nlzFn,
   ceilLog2Fn, tapes, auxAnd, computeAuxTape, commits, mpcAnd3, lists, auxBits, expandChallengeHash, getMissingLeavesList, signVerify3, serialize3,
   hashLen, getParamSetFn, signatureSize3, signatureSize1, keysFn, picnicSign]

end Picnic.Ints
