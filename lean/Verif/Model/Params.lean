import Verif.Model.Base

/-
Parameter sets: /repo/picnic.h lines 45-61 (enum), /repo/picnic.c lines 23-200, /repo/picnic3_impl.c lines
33-59, and the environment of the model.
-/

namespace Picnic

/-- /repo/picnic_impl.c:102-105 `numBytes`.  Simplification: Nat instead of uint32_t (all arguments in the code
are small constants of the parameter table). -/
def numBytes (numBits : Nat) : Nat :=
  if numBits == 0 then 0 else (numBits - 1) / 8 + 1

/-- /repo/picnic3_impl.c:38-51 `nlz` -/
def nlz (x : U32) : U32 :=
  if x == 0 then 32 else
  let n : U32 := 1
  let (n, x) := if (x >>> 16) == 0 then (n + 16, x <<< 16) else (n, x)
  let (n, x) := if (x >>> 24) == 0 then (n + 8, x <<< 8) else (n, x)
  let (n, x) := if (x >>> 28) == 0 then (n + 4, x <<< 4) else (n, x)
  let (n, x) := if (x >>> 30) == 0 then (n + 2, x <<< 2) else (n, x)
  n - (x >>> 31)

/-- /repo/picnic3_impl.c:53-59 `ceil_log2` -/
def ceilLog2U32 (x : U32) : U32 :=
  if x == 0 then 0 else 32 - nlz (x - 1)

/-- `ceil_log2` called with a `size_t`/`uint32_t` argument (the conversion truncates to 32 bits).  /repo/picnic3_impl.c:53-59. -/
def ceilLog2 (x : Nat) : Nat := (ceilLog2U32 (BitVec.ofNat 32 x)).toNat

/-- /repo/picnic_impl.h `transform_t` -/
inductive Transform where
  | FS | UR | invalid
  deriving DecidableEq, Repr, Inhabited

/-- /repo/picnic.h:42-57 enumerators of `picnic_params_t`; the enum argument itself is a `Nat`
(the enum has no negative enumerator, so the compiler's underlying type is unsigned int). -/
def pidL1FS : Nat := 1
/-- /repo/picnic.h:45 -/
def pidL1UR : Nat := 2
/-- /repo/picnic.h:46 -/
def pidL3FS : Nat := 3
/-- /repo/picnic.h:47 -/
def pidL3UR : Nat := 4
/-- /repo/picnic.h:48 -/
def pidL5FS : Nat := 5
/-- /repo/picnic.h:49 -/
def pidL5UR : Nat := 6
/-- /repo/picnic.h:50 -/
def pidPicnic3L1 : Nat := 7
/-- /repo/picnic.h:51 -/
def pidPicnic3L3 : Nat := 8
/-- /repo/picnic.h:52 -/
def pidPicnic3L5 : Nat := 9
/-- /repo/picnic.h:53 -/
def pidL1full : Nat := 10
/-- /repo/picnic.h:54 -/
def pidL3full : Nat := 11
/-- /repo/picnic.h:55 -/
def pidL5full : Nat := 12
/-- /repo/picnic.h:56 -/
def pidMaxIndex : Nat := 13

/-- /repo/picnic.h:36 -/
def PICNIC_MAX_LOWMC_BLOCK_SIZE : Nat := 32
/-- /repo/picnic.h:37 -/
def PICNIC_MAX_PUBLICKEY_SIZE : Nat := 2 * PICNIC_MAX_LOWMC_BLOCK_SIZE + 1
/-- /repo/picnic.h:38 -/
def PICNIC_MAX_PRIVATEKEY_SIZE : Nat := 3 * PICNIC_MAX_LOWMC_BLOCK_SIZE + 2
/-- /repo/picnic.h:39 -/
def PICNIC_MAX_SIGNATURE_SIZE : Nat := 209522

/-- /repo/picnic_impl.h `paramset_t` -/
structure Params where
  numRounds : Nat := 0
  numSboxes : Nat := 0
  stateSizeBits : Nat := 0
  stateSizeBytes : Nat := 0
  stateSizeWords : Nat := 0
  andSizeBytes : Nat := 0
  unruhGWithoutInputBytes : Nat := 0
  unruhGWithInputBytes : Nat := 0
  numMPCRounds : Nat := 0
  numOpenedRounds : Nat := 0
  numMPCParties : Nat := 0
  seedSizeBytes : Nat := 0
  digestSizeBytes : Nat := 0
  saltSizeBytes : Nat := 0
  transform : Transform := .invalid
  deriving DecidableEq, Repr, Inhabited

/-- /repo/picnic.c:23-30 `is_valid_params` -/
def isValidParams (params : Nat) : Bool := params > 0 && params < pidMaxIndex

/-- /repo/picnic.c:32-52 `get_transform` -/
def getTransform (parameters : Nat) : Transform :=
  match parameters with
  | 1 | 3 | 5 | 7 | 8 | 9 | 10 | 11 | 12 => .FS
  | 2 | 4 | 6 => .UR
  | _ => .invalid

/-- /repo/picnic.c:54-85 `picnic_get_param_name` -/
def picnicGetParamName (parameters : Nat) : String :=
  match parameters with
  | 1 => "Picnic_L1_FS"
  | 2 => "Picnic_L1_UR"
  | 3 => "Picnic_L3_FS"
  | 4 => "Picnic_L3_UR"
  | 5 => "Picnic_L5_FS"
  | 6 => "Picnic_L5_UR"
  | 7 => "Picnic3_L1"
  | 8 => "Picnic3_L3"
  | 9 => "Picnic3_L5"
  | 10 => "Picnic_L1_full"
  | 11 => "Picnic_L3_full"
  | 12 => "Picnic_L5_full"
  | _ => "Unknown parameter set"

/-- The `switch` of /repo/picnic.c:93-185: (pqSecurityLevel, stateSizeBits, numMPCRounds, numOpenedRounds,
numMPCParties, numSboxes, numRounds, digestSizeBytes); `none` is the `default` branch. -/
def paramTable (picnicParams : Nat) : Option (Nat × Nat × Nat × Nat × Nat × Nat × Nat × Nat) :=
  match picnicParams with
  | 1 | 2 => some (64, 128, 219, 0, 3, 10, 20, 32)
  | 3 | 4 => some (96, 192, 329, 0, 3, 10, 30, 48)
  | 5 | 6 => some (128, 256, 438, 0, 3, 10, 38, 64)
  | 7 => some (64, 129, 250, 36, 16, 43, 4, 32)
  | 8 => some (96, 192, 419, 52, 16, 64, 4, 48)
  | 9 => some (128, 255, 601, 68, 16, 85, 4, 64)
  | 10 => some (64, 129, 219, 0, 3, 43, 4, 32)
  | 11 => some (96, 192, 329, 0, 3, 64, 4, 48)
  | 12 => some (128, 255, 438, 0, 3, 85, 4, 64)
  | _ => none

/-- /repo/picnic.c:87-200 `get_param_set`; `none` is the return value -1. -/
def getParamSet (picnicParams : Nat) : Option Params :=
  match paramTable picnicParams with
  | none => none
  | some (pqSecurityLevel, stateSizeBits, numMPCRounds, numOpenedRounds, numMPCParties, numSboxes,
          numRounds, digestSizeBytes) =>
    let andSizeBytes := numBytes (numSboxes * 3 * numRounds)
    let stateSizeBytes := numBytes stateSizeBits
    let seedSizeBytes := numBytes (2 * pqSecurityLevel)
    let transform := getTransform picnicParams
    let gWithout := if transform = .UR then seedSizeBytes + andSizeBytes else 0
    let gWith := if transform = .UR then gWithout + stateSizeBytes else 0
    some {
      numRounds := numRounds
      numSboxes := numSboxes
      stateSizeBits := stateSizeBits
      stateSizeBytes := stateSizeBytes
      stateSizeWords := (stateSizeBits + 32 - 1) / 32
      andSizeBytes := andSizeBytes
      unruhGWithoutInputBytes := gWithout
      unruhGWithInputBytes := gWith
      numMPCRounds := numMPCRounds
      numOpenedRounds := numOpenedRounds
      numMPCParties := numMPCParties
      seedSizeBytes := seedSizeBytes
      digestSizeBytes := digestSizeBytes
      saltSizeBytes := 32
      transform := transform }

/-- /repo/picnic.c:257-265 `is_picnic3` -/
def isPicnic3 (params : Nat) : Bool :=
  params == pidPicnic3L1 || params == pidPicnic3L3 || params == pidPicnic3L5

/-- The accessor functions of /repo/lowmc_constants.h for one parameter set.  Matrices are row-major arrays of
`stateSizeBits` rows with `stateSizeWords` 32-bit words each, as memory bytes. -/
structure LowMCConsts where
  K : Nat → Buf
  KInv : Nat → Buf
  L : Nat → Buf
  LInv : Nat → Buf
  RC : Nat → Buf

/-- Everything the C code depends on that is not one of its arguments.
Not in /repo: the Keccak permutation is replaced by the one of Model/KeccakP where its values matter; the constants of LowMC are declared in /repo/lowmc_constants.h:25-36. -/
structure Env where
  /-- `KeccakP1600_Permute_24rounds` on the 200-byte state -/
  perm : Buf → Buf
  /-- contents of /repo's (absent) lowmc_constants.c -/
  lowmc : Params → LowMCConsts
  /-- contents of uninitialised memory: allocation site, instance, offset -/
  junk : Nat → Nat → Nat → Byte
  /-- iterations granted to each rejection sampling loop -/
  fuel : Nat

/-- Contents of an uninitialised buffer of `n` bytes.  For example the result of `malloc` in /repo/picnic_types.c:80. -/
def Env.junkBuf (E : Env) (site inst n : Nat) : Buf := (List.range n).map (E.junk site inst)

end Picnic
