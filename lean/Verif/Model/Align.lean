import Verif.Model.Params

/-
Addresses of the multi-byte memory accesses (/repo/picnic_impl.c, /repo/picnic3_impl.c, /repo/picnic_types.c, /repo/picnic.c).

The C code reaches byte buffers through `uint32_t*` and carves arrays of pointers out of byte slabs.  A conversion to, or an access through, a
pointer to a type of alignment `n` is undefined unless the address is a multiple of `n` (C11 6.3.2.3p7).  This file lists, function by function,
the addresses of these accesses for an arbitrary placement of the objects in memory.  Left out: accesses to a declared variable or structure member
through its own type (the compiler aligns them), `uint8_t` accesses, and `memcpy`/`memcmp`/`memset` (byte-wise).
-/

namespace Picnic.Align

/-- One access of `size` bytes at `addr` through a pointer whose type has alignment `size` (4 for `uint32_t`, 8 for a pointer). -/
structure Access where
  size : Nat
  addr : Nat
  deriving DecidableEq, Repr

/-- The heap allocations that are accessed through word or pointer-to-pointer types. -/
inductive Site where
  /-- /repo/picnic_types.c:36 `view->inputShare` -/
  | viewInput
  /-- /repo/picnic_types.c:38 `view->outputShare` -/
  | viewOutput
  /-- /repo/picnic_impl.c:632 and :888 `tmp` -/
  | tmp
  /-- /repo/picnic_impl.c:642 `view3Slab` -/
  | view3Slab
  /-- /repo/picnic_types.c:81 `proof->input` -/
  | proofInput
  /-- /repo/picnic_types.c:271 `slab` of `allocateInputs` -/
  | inputs
  /-- /repo/picnic_types.c:221 `slab` of `allocateCommitments` -/
  | commitments
  /-- /repo/picnic_types.c:249 `slab` of `allocateCommitments2` -/
  | commitments2
  /-- /repo/picnic_types.c:294 `slab` of `allocateMsgs` -/
  | msgs
  /-- /repo/picnic_types.c:176 `slab2` of `allocateSeeds` -/
  | seeds
  deriving DecidableEq, Repr

/-- Automatic arrays declared as `uint32_t[]`: `roundKey`, `state`, `x`, `y`, `key`, `key0`, `temp`. -/
inductive Auto where
  | roundKey | state | x | y | key | key0 | temp
  deriving DecidableEq, Repr

/-- Where the objects are.  `heap s ix`: the address returned by the allocation `s` of repetition (and party) `ix`;
`auto a`: address of the automatic array; `kMat r`, `lMat r`, `rConst r`, ...: the constants returned by /repo/lowmc_constants.h:27-37
as `const uint32_t*`; `pk`, `sk`: the caller's key structures; `bytes`: the automatic array `uint8_t ciphertext[32]` of
`picnic_validate_keypair` (/repo/picnic.c:614). -/
structure Layout where
  heap : Site → List Nat → Nat
  auto : Auto → Nat
  kMat : Nat → Nat
  kMatInv : Nat → Nat
  lMat : Nat → Nat
  lMatInv : Nat → Nat
  rConst : Nat → Nat
  pk : Nat
  sk : Nat
  bytes : Nat

/-- An element `p[i]` of an array of `uint32_t`. -/
def word (p i : Nat) : Access := ⟨4, p + 4 * i⟩

/-- An element `p[i]` of an array of pointers. -/
def ptr (p i : Nat) : Access := ⟨8, p + 8 * i⟩

/-- /repo/picnic.h:60-64: offset of `plaintext` in `picnic_publickey_t` (after a 4-byte enum). -/
def pkPlaintext (pk : Nat) : Nat := pk + 4

/-- /repo/picnic.h:60-64: offset of `ciphertext`. -/
def pkCiphertext (pk : Nat) : Nat := pk + 4 + PICNIC_MAX_LOWMC_BLOCK_SIZE

/-- /repo/picnic.h:67-71: offset of `data` in `picnic_privatekey_t`. -/
def skData (sk : Nat) : Nat := sk + 4

/-- /repo/picnic.h:67-71: offset of `pk`. -/
def skPk (sk : Nat) : Nat := sk + 4 + PICNIC_MAX_LOWMC_BLOCK_SIZE

/-- /repo/picnic_impl.c:107-112 `xor_array` -/
def xorArray (out in1 in2 length : Nat) : List Access :=
  (List.range length).flatMap fun i => [word in1 i, word in2 i, word out i]

/-- /repo/picnic_impl.c:113-127 `xor_three`; the bytes after the last whole word are accessed as bytes. -/
def xorThree (output in1 in2 in3 lenBytes : Nat) : List Access :=
  (List.range (lenBytes / 4)).flatMap fun i => [word in1 i, word in2 i, word in3 i, word output i]

/-- /repo/picnic_impl.c:169-197 `matrix_mul`; `output` is only written with `memcpy`. -/
def matrixMul (L : Layout) (state matrix : Nat) (P : Params) : List Access :=
  word (L.auto .temp) (P.stateSizeWords - 1) ::
  (List.range P.stateSizeBits).flatMap fun i =>
    (List.range (P.stateSizeBits / 32)).flatMap fun j => [word state j, word matrix (i * P.stateSizeWords + j)]

/-- /repo/picnic_impl.c:212-232 `LowMCEnc`; `substitution` works on bytes. -/
def lowMCEnc (L : Layout) (output key : Nat) (P : Params) : List Access :=
  matrixMul L key (L.kMat 0) P ++ xorArray output output (L.auto .roundKey) P.stateSizeWords ++
  (List.range P.numRounds).flatMap fun r =>
    matrixMul L key (L.kMat (r + 1)) P ++ matrixMul L output (L.lMat r) P ++
    xorArray output output (L.rConst r) P.stateSizeWords ++ xorArray output output (L.auto .roundKey) P.stateSizeWords

/-- /repo/picnic_impl.c:509-515 `mpc_matrix_mul` -/
def mpcMatrixMul (L : Layout) (state : List Nat) (matrix : Nat) (P : Params) : List Access :=
  state.flatMap fun s => matrixMul L s matrix P

/-- /repo/picnic_impl.c:263-268 `mpc_xor` -/
def mpcXor (st inp : List Nat) (len : Nat) : List Access :=
  (st.zip inp).flatMap fun p => xorArray p.1 p.1 p.2 len

/-- /repo/picnic_impl.c:767-801 `mpc_LowMC`; `slab` is carved into three round keys and three states. -/
def mpcLowMC (L : Layout) (inputShares : List Nat) (plaintext slab : Nat) (P : Params) : List Access :=
  let w := 4 * P.stateSizeWords
  let roundKey := [slab, slab + w, slab + w + w]
  let state := [slab + w + w + w, slab + w + w + w + w, slab + w + w + w + w + w]
  xorArray (slab + w + w + w) (slab + w + w + w) plaintext P.stateSizeWords ++
  mpcMatrixMul L inputShares (L.kMat 0) P ++ mpcXor state roundKey P.stateSizeWords ++
  (List.range P.numRounds).flatMap fun r =>
    mpcMatrixMul L inputShares (L.kMat (r + 1)) P ++ mpcMatrixMul L state (L.lMat r) P ++
    xorArray (slab + w + w + w) (slab + w + w + w) (L.rConst r) P.stateSizeWords ++ mpcXor state roundKey P.stateSizeWords

/-- /repo/picnic_impl.c:276-285 `mpc_xor_constant_verify` -/
def mpcXorConstantVerify (s0 s1 inp len challenge : Nat) : List Access :=
  if challenge = 0 then xorArray s0 s0 inp len else if challenge = 2 then xorArray s1 s1 inp len else []

/-- /repo/picnic_impl.c:517-549 `mpc_LowMC_verify` -/
def mpcLowMCVerify (L : Layout) (in1 in2 tmp plaintext challenge : Nat) (P : Params) : List Access :=
  let w := 4 * P.stateSizeWords
  let roundKey := [tmp, tmp + w]
  let s0 := tmp + w + w
  let s1 := tmp + w + w + w
  mpcXorConstantVerify s0 s1 plaintext P.stateSizeWords challenge ++
  mpcMatrixMul L [in1, in2] (L.kMat 0) P ++ mpcXor [s0, s1] roundKey P.stateSizeWords ++
  (List.range P.numRounds).flatMap fun r =>
    mpcMatrixMul L [in1, in2] (L.kMat (r + 1)) P ++ mpcMatrixMul L [s0, s1] (L.lMat r) P ++
    mpcXorConstantVerify s0 s1 (L.rConst r) P.stateSizeWords challenge ++ mpcXor [s0, s1] roundKey P.stateSizeWords

/-- /repo/picnic_types.c:214-233 `allocateCommitments` (and every later use of `commitments[i].hashes[j]`): the slab holds, for each
repetition, the table of pointers followed by the digests. -/
def commitmentTables (slab numRounds nCommitments digestSizeBytes : Nat) : List Access :=
  (List.range numRounds).flatMap fun i =>
    (List.range nCommitments).map fun j => ptr (slab + i * (nCommitments * 8 + nCommitments * digestSizeBytes)) j

/-- /repo/picnic_types.c:244-258 `allocateCommitments2` -/
def commitmentTable2 (slab numCommitments : Nat) : List Access :=
  (List.range numCommitments).map fun j => ptr slab j

/-- /repo/picnic_types.c:290-312 `allocateMsgs`: for each repetition the table of pointers followed by the messages. -/
def msgsTables (slab numRounds numParties andSizeBytes : Nat) : List Access :=
  (List.range numRounds).flatMap fun i =>
    (List.range numParties).map fun j => ptr (slab + i * (numParties * 8 + numParties * andSizeBytes)) j

/-- /repo/picnic_types.c:171-205 `allocateSeeds`: the pointer tables of all repetitions lie behind one another. -/
def seedTables (slab numRounds nSeeds : Nat) : List Access :=
  (List.range numRounds).flatMap fun i => (List.range nSeeds).map fun j => ptr (slab + i * (nSeeds * 8)) j

/-- /repo/picnic_types.c:269-283 `allocateInputs`: table of pointers -/
def inputTable (slab numRounds : Nat) : List Access := (List.range numRounds).map fun i => ptr slab i

/-- /repo/picnic_types.c:277-280: the address `inputs[t]` -/
def inputAddr (slab t : Nat) (P : Params) : Nat := slab + P.numMPCRounds * 8 + t * (P.stateSizeWords * 4)

/-- /repo/picnic_impl.c:643, :671: the pointer `view3Output` in repetition `i`, which is advanced by `stateSizeBytes` bytes. -/
def view3Output (L : Layout) (i : Nat) (P : Params) : Nat := L.heap .view3Slab [] + i * P.stateSizeBytes

/-- /repo/picnic_impl.c:669 `xor_three(view3Output, view1s[i].outputShare, view2s[i].outputShare, pubKey, stateSizeBytes)`
and the conversion of `view3Output` to `uint32_t*`. -/
def view3Step (L : Layout) (i pubKey : Nat) (P : Params) : List Access :=
  xorThree (view3Output L i P) (L.heap .viewOutput [i, 0]) (L.heap .viewOutput [i, 1]) pubKey P.stateSizeBytes

/-- /repo/picnic_impl.c:618-703 `verify`, without the statement of line 669: repetition `i` opens with challenge `c i`. -/
def verifyRest (L : Layout) (plaintext : Nat) (c : Nat → Nat) (P : Params) : List Access :=
  commitmentTables (L.heap .commitments []) P.numMPCRounds P.numMPCParties P.digestSizeBytes ++
  (List.range P.numMPCRounds).flatMap fun i =>
    mpcLowMCVerify L (L.heap .viewInput [i, 0]) (L.heap .viewInput [i, 1]) (L.heap .tmp []) plaintext (c i) P

/-- /repo/picnic_impl.c:618-703 `verify` -/
def verify (L : Layout) (pubKey plaintext : Nat) (c : Nat → Nat) (P : Params) : List Access :=
  verifyRest L plaintext c P ++ (List.range P.numMPCRounds).flatMap fun i => view3Step L i pubKey P

/-- /repo/picnic_impl.c:869-979 `sign_picnic1` (all repetitions). -/
def signPicnic1 (L : Layout) (privateKey plaintext : Nat) (P : Params) : List Access :=
  commitmentTables (L.heap .commitments []) P.numMPCRounds P.numMPCParties P.digestSizeBytes ++
  seedTables (L.heap .seeds []) P.numMPCRounds P.numMPCParties ++
  (List.range P.numMPCRounds).flatMap fun k =>
    xorThree (L.heap .viewInput [k, 2]) privateKey (L.heap .viewInput [k, 0]) (L.heap .viewInput [k, 1]) P.stateSizeBytes ++
    mpcLowMC L [L.heap .viewInput [k, 0], L.heap .viewInput [k, 1], L.heap .viewInput [k, 2]] plaintext (L.heap .tmp []) P ++
    xorThree (L.auto .temp) (L.heap .viewOutput [k, 0]) (L.heap .viewOutput [k, 1]) (L.heap .viewOutput [k, 2]) P.stateSizeBytes

/-- /repo/picnic3_impl.c:168-209 `computeAuxTape` -/
def computeAuxTape (L : Layout) (P : Params) : List Access :=
  word (L.auto .key0) (P.stateSizeWords - 1) :: matrixMul L (L.auto .key0) (L.kMatInv 0) P ++
  (List.range P.numRounds).flatMap fun r =>
    matrixMul L (L.auto .key) (L.kMat (r + 1)) P ++ xorArray (L.auto .x) (L.auto .x) (L.auto .roundKey) P.stateSizeWords ++
    matrixMul L (L.auto .x) (L.lMatInv r) P

/-- /repo/picnic3_impl.c:383-414 `simulateOnline` -/
def simulateOnline (L : Layout) (maskedKey plaintext : Nat) (P : Params) : List Access :=
  matrixMul L maskedKey (L.kMat 0) P ++ xorArray (L.auto .state) (L.auto .roundKey) plaintext P.stateSizeWords ++
  (List.range P.numRounds).flatMap fun r =>
    matrixMul L (L.auto .state) (L.lMat r) P ++ xorArray (L.auto .state) (L.auto .state) (L.rConst r) P.stateSizeWords ++
    matrixMul L maskedKey (L.kMat (r + 1)) P ++ xorArray (L.auto .state) (L.auto .roundKey) (L.auto .state) P.stateSizeWords

/-- /repo/picnic3_impl.c:746-892 `sign_picnic3` -/
def signPicnic3 (L : Layout) (privateKey plaintext : Nat) (P : Params) : List Access :=
  inputTable (L.heap .inputs []) P.numMPCRounds ++
  commitmentTables (L.heap .commitments []) P.numMPCRounds P.numMPCParties P.digestSizeBytes ++
  msgsTables (L.heap .msgs []) P.numMPCRounds P.numMPCParties P.andSizeBytes ++
  commitmentTable2 (L.heap .commitments2 [0]) P.numMPCRounds ++ commitmentTable2 (L.heap .commitments2 [1]) P.numMPCRounds ++
  (List.range P.numMPCRounds).flatMap fun t =>
    computeAuxTape L P ++
    xorArray (inputAddr (L.heap .inputs []) t P) (inputAddr (L.heap .inputs []) t P) privateKey P.stateSizeWords ++
    simulateOnline L (inputAddr (L.heap .inputs []) t P) plaintext P

/-- /repo/picnic3_impl.c:570-728 `verify_picnic3`; the repetitions in `opened` are simulated, the others recomputed.  Simplification: the accesses
of a verification that reaches the end (an early exit performs fewer). -/
def verifyPicnic3 (L : Layout) (plaintext : Nat) (opened : Nat → Bool) (P : Params) : List Access :=
  commitmentTables (L.heap .commitments []) P.numMPCRounds P.numMPCParties P.digestSizeBytes ++
  msgsTables (L.heap .msgs []) P.numMPCRounds P.numMPCParties P.andSizeBytes ++
  commitmentTable2 (L.heap .commitments2 [0]) P.numMPCRounds ++ commitmentTable2 (L.heap .commitments2 [1]) P.numMPCRounds ++
  (List.range P.numMPCRounds).flatMap fun t =>
    if opened t then simulateOnline L (L.heap .proofInput [t]) plaintext P else computeAuxTape L P

/-- /repo/picnic.c:202-254 `picnic_keygen`: `LowMCEnc` on the fields of the two structures. -/
def keygen (L : Layout) (P : Params) : List Access := lowMCEnc L (pkCiphertext L.pk) (skData L.sk) P

/-- /repo/picnic.c:267-335 `picnic_sign` -/
def picnicSign (L : Layout) (P : Params) : List Access :=
  if P.numMPCParties = 3 then signPicnic1 L (skData L.sk) (pkPlaintext (skPk L.sk)) P
  else signPicnic3 L (skData L.sk) (pkPlaintext (skPk L.sk)) P

/-- /repo/picnic.c:382-452 `picnic_verify`; `c` are the challenges (party numbers; opened repetitions) of the signature. -/
def picnicVerify (L : Layout) (c : Nat → Nat) (opened : Nat → Bool) (P : Params) : List Access :=
  if P.numMPCParties = 3 then verify L (pkCiphertext L.pk) (pkPlaintext L.pk) c P
  else verifyPicnic3 L (pkPlaintext L.pk) opened P

/-- /repo/picnic.c:591-622 `picnic_validate_keypair`: `LowMCEnc` on a local `uint8_t` array. -/
def validateKeypair (L : Layout) (P : Params) : List Access := lowMCEnc L L.bytes (skData L.sk) P

end Picnic.Align
