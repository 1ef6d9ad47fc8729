import Verif.Model.Api

/-
The functions of /repo/picnic.c that write to objects of the caller, on one memory that holds all objects of the
caller: the key objects, the message, the signature and its length are given by addresses and may overlap.  What the
library allocates itself (heap, stack) lies elsewhere and is modelled by values, as in the other files.

Addresses are positions in a list of bytes; an access outside of the list is undefined behaviour.  Key objects are laid
out as in Model/Align (a 4-byte little endian enum, then arrays of 32 bytes).  `memcpy` between areas with a byte in
common is undefined behaviour (ISO C 7.24.2.1), also if source and destination are the same.
-/

namespace Picnic.Mem

/-- The memory of the caller. -/
abbrev Mem := Buf

/-- sizeof(picnic_publickey_t), /repo/picnic.h:60-64 -/
def sizeofPk : Nat := 4 + 2 * PICNIC_MAX_LOWMC_BLOCK_SIZE

/-- sizeof(picnic_privatekey_t), /repo/picnic.h:67-71 -/
def sizeofSk : Nat := 4 + PICNIC_MAX_LOWMC_BLOCK_SIZE + sizeofPk

/-- /repo/picnic.h:60-64: `&pk->plaintext` -/
def plaintext (pk : Nat) : Nat := pk + 4

/-- /repo/picnic.h:60-64: `&pk->ciphertext` -/
def ciphertext (pk : Nat) : Nat := pk + 4 + PICNIC_MAX_LOWMC_BLOCK_SIZE

/-- /repo/picnic.h:67-71: `&sk->data` -/
def data (sk : Nat) : Nat := sk + 4

/-- /repo/picnic.h:67-71: `&sk->pk` -/
def pkOf (sk : Nat) : Nat := sk + 4 + PICNIC_MAX_LOWMC_BLOCK_SIZE

/-- `memcpy(dst, src, n)` within the memory of the caller -/
def copy (m : Mem) (dst src n : Nat) : M Mem :=
  if n = 0 ∨ dst + n ≤ src ∨ src + n ≤ dst then memcpy m dst m src n else .ub .overlap

/-- The bytes of an integer of `n` bytes (little endian machine). -/
def intBytes (n v : Nat) : Buf := (List.range n).map fun i => BitVec.ofNat 8 (v / 256 ^ i)

/-- The integer stored in some bytes (little endian machine). -/
def bytesInt : Buf → Nat
  | [] => 0
  | b :: bs => b.toNat + 256 * bytesInt bs

/-- `key->params` as an rvalue, for either kind of key: a 4-byte enum at the beginning of the object.
/repo/picnic.h:60-71 -/
def getParams (m : Mem) (key : Nat) : M Nat := do
  let b ← rdN m key 4
  pure (bytesInt b)

/-- `key->params = v`.  /repo/picnic.h:60-71 -/
def setParams (m : Mem) (key v : Nat) : M Mem := wrN m key (intBytes 4 v)

/-- /repo/picnic_impl.c:74-80 `zeroTrailingBits` on a 32-byte array of a key object.  It reads and writes only this
array; the changed array is written back at once. -/
def zeroTrailing (m : Mem) (p bitLength : Nat) : M Mem := do
  let b ← rdN m p PICNIC_MAX_LOWMC_BLOCK_SIZE
  let b ← zeroTrailingBits b bitLength
  wrN m p b

/-- /repo/picnic_impl.c:212-231 `LowMCEnc` on three arrays of key objects.  `key` is read again in every round, after
`output` has been changed; `roundKey` is a local array. -/
def lowMCEnc (E : Env) (P : Params) (m : Mem) (plaintext output key : Nat) : M Mem := do
  let C := E.lowmc P
  let temp := fun n => E.junkBuf siteMatTemp n LOWMC_MAX_STATE_SIZE
  let m ← if plaintext ≠ output then copy m output plaintext (P.stateSizeWords * 4) else pure m
  let k ← rdN m key PICNIC_MAX_LOWMC_BLOCK_SIZE
  let roundKey ← matrixMul (temp 0) (E.junkBuf siteRoundKey 0 LOWMC_MAX_STATE_SIZE) k (C.K 0) P
  let o ← rdN m output PICNIC_MAX_LOWMC_BLOCK_SIZE
  let o ← xorArray o o roundKey P.stateSizeWords
  let m ← wrN m output o
  let (m, _) ← loopFrom 1 (P.numRounds + 1) (fun r (m, roundKey) => do
    let k ← rdN m key PICNIC_MAX_LOWMC_BLOCK_SIZE
    let roundKey ← matrixMul (temp (2 * r)) roundKey k (C.K r) P
    let o ← rdN m output PICNIC_MAX_LOWMC_BLOCK_SIZE
    let o ← substitution o P
    let o ← matrixMul (temp (2 * r + 1)) o o (C.L (r - 1)) P
    let o ← xorArray o o (C.RC (r - 1)) P.stateSizeWords
    let o ← xorArray o o roundKey P.stateSizeWords
    let m ← wrN m output o
    pure (m, roundKey)) (m, roundKey)
  pure m

/-- /repo/picnic.c:202-254 `picnic_keygen`.  As in Model/Api a failing random source leaves its buffer as it is. -/
def keygen (E : Env) (rng : Rng) (m : Mem) (parameters : Nat) (pk sk : Option Nat) : M (Int × Mem) := do
  if !isValidParams parameters then pure (-1, m)
  else match pk, sk with
  | none, _ => pure (-1, m)
  | some _, none => pure (-1, m)
  | some pk, some sk => do
    let m ← wrN m pk (zeros sizeofPk)
    let m ← wrN m sk (zeros sizeofSk)
    match getParamSet parameters with
    | none => pure (-1, m)
    | some P => do
      let m ← setParams m sk parameters
      let m ← setParams m pk parameters
      match rng 0 P.stateSizeBytes with
      | none => pure (-1, m)
      | some r => do
        let m ← wrN m (data sk) r
        let m ← zeroTrailing m (data sk) P.stateSizeBits
        match rng 1 P.stateSizeBytes with
        | none => pure (-1, m)
        | some r => do
          let m ← wrN m (plaintext pk) r
          let m ← zeroTrailing m (plaintext pk) P.stateSizeBits
          let m ← lowMCEnc E P m (plaintext pk) (ciphertext pk) (data sk)
          let m ← copy m (pkOf sk) pk sizeofPk
          pure (0, m)

/-- /repo/picnic_impl.c:982-1038 `serializeSignature` to the address `sigBytes`; `none` is -1.  Result: the memory and
the number of bytes written. -/
def serializeSignature (P : Params) (sig : Signature) (m : Mem) (sigBytes sigBytesLen : Nat) :
    M (Option (Mem × Nat)) := do
  let bytesRequired := numBytes (2 * P.numMPCRounds) + P.saltSizeBytes +
    P.numMPCRounds * (2 * P.seedSizeBytes + P.stateSizeBytes + P.andSizeBytes + P.digestSizeBytes)
  let bytesRequired := if P.transform = .UR then bytesRequired + P.unruhGWithoutInputBytes * P.numMPCRounds
    else bytesRequired
  if sigBytesLen < bytesRequired then pure none
  else do
    let out ← emit (m, sigBytes) sig.challengeBits (numBytes (2 * P.numMPCRounds))
    let out ← emit out sig.salt P.saltSizeBytes
    let out ← loop (fun i out => do
      let challenge ← getChallenge sig.challengeBits i
      let proof ← rd sig.proofs i
      let out ← emit out proof.view3Commitment P.digestSizeBytes
      let out ← if P.transform = .UR then do
          let len := if challenge = 0 then P.unruhGWithInputBytes else P.unruhGWithoutInputBytes
          let g ← deref proof.view3UnruhG
          emit out g len
        else pure out
      let out ← emit out proof.communicatedBits P.andSizeBytes
      let out ← emit out proof.seed1 P.seedSizeBytes
      let out ← emit out proof.seed2 P.seedSizeBytes
      if challenge = 1 ∨ challenge = 2 then emit out proof.inputShare P.stateSizeBytes
      else pure out) P.numMPCRounds out
    pure (some (out.1, out.2 - sigBytes))

/-- /repo/picnic3_impl.c:996-1059 `serializeSignature2` to the address `sigBytes`; `none` is -1. -/
def serializeSignature2 (P : Params) (sig : Signature2) (m : Mem) (sigBytes sigBytesLen : Nat) :
    M (Option (Mem × Nat)) := do
  let bytesRequired := P.digestSizeBytes + P.saltSizeBytes + sig.iSeedInfoLen + sig.cvInfoLen
  let bytesRequired ← proofsSize P sig.challengeC sig.challengeP (fun t => do
    let p ← rd sig.proofs t
    pure (match p with | some p => p.seedInfoLen | none => 0)) bytesRequired
  if sigBytesLen < bytesRequired then pure none
  else do
    let out ← emit (m, sigBytes) sig.challengeHash P.digestSizeBytes
    let out ← emit out sig.salt P.saltSizeBytes
    let out ← emit out sig.iSeedInfo sig.iSeedInfoLen
    let out ← emit out sig.cvInfo sig.cvInfoLen
    let out ← loop (fun t out => do
      let c ← containsU16 sig.challengeC P.numOpenedRounds t
      if c then do
        let proof ← rd sig.proofs t
        let proof ← deref proof
        let out ← emit out proof.seedInfo proof.seedInfoLen
        let idx ← indexOfU16 sig.challengeC P.numOpenedRounds t
        let P_t ← rd sig.challengeP idx
        let out ← if P_t ≠ P.numMPCParties - 1 then emit out proof.aux P.andSizeBytes else pure out
        let out ← emit out proof.input P.stateSizeBytes
        let out ← emit out proof.msgs P.andSizeBytes
        emit out proof.C P.digestSizeBytes
      else pure out) P.numMPCRounds out
    pure (some (out.1, out.2 - sigBytes))

/-- /repo/picnic.c:267-335 `picnic_sign`; `signature_len` is the address of the 8-byte length.  `sign_picnic1` and
`sign_picnic3` write only to memory of the library, therefore the arrays of the key and the message are read once before
they are called. -/
def sign (E : Env) (m : Mem) (sk message message_len signature signature_len : Nat) : M (Int × Mem) := do
  let params ← getParams m sk
  match getParamSet params with
  | none => pure (-1, m)
  | some P => do
    let params ← getParams m sk
    let d ← rdN m (data sk) PICNIC_MAX_LOWMC_BLOCK_SIZE
    let ct ← rdN m (ciphertext (pkOf sk)) PICNIC_MAX_LOWMC_BLOCK_SIZE
    let pt ← rdN m (plaintext (pkOf sk)) PICNIC_MAX_LOWMC_BLOCK_SIZE
    let msg ← rdN m message message_len
    if !isPicnic3 params then do
      let sig ← signPicnic1 E P d ct pt msg message_len (allocateSignature E P)
      match sig with
      | none => pure (-1, m)
      | some sig => do
        let len ← rdN m signature_len 8
        let r ← serializeSignature P sig m signature (bytesInt len)
        match r with
        | none => pure (-1, m)
        | some (m, n) => do
          let m ← wrN m signature_len (intBytes 8 n)
          pure (0, m)
    else do
      let sig ← signPicnic3 E P d ct pt msg message_len (allocateSignature2 E P)
      match sig with
      | none => pure (-1, m)
      | some sig => do
        let len ← rdN m signature_len 8
        let r ← serializeSignature2 P sig m signature (bytesInt len)
        match r with
        | none => pure (-1, m)
        | some (m, n) => do
          let m ← wrN m signature_len (intBytes 8 n)
          pure (0, m)

/-- /repo/picnic.c:455-480 `picnic_write_public_key` -/
def writePublicKey (m : Mem) (key buf : Option Nat) (buflen : Nat) : M (Int × Mem) := do
  match key, buf with
  | some key, some buf => do
    let params ← getParams m key
    match getParamSet params with
    | none => pure (-1, m)
    | some P => do
      let n := P.stateSizeBytes
      if buflen < 1 + 2 * n then pure (-1, m)
      else do
        let params ← getParams m key
        let m ← wr m buf (BitVec.ofNat 8 params)
        let m ← copy m (buf + 1) (ciphertext key) n
        let m ← copy m (buf + 1 + n) (plaintext key) n
        pure (((1 + 2 * n : Nat) : Int), m)
  | _, _ => pure (-1, m)

/-- /repo/picnic.c:482-516 `picnic_read_public_key` -/
def readPublicKey (m : Mem) (key buf : Option Nat) (buflen : Nat) : M (Int × Mem) := do
  match key, buf with
  | some key, some buf =>
    if buflen < 1 then pure (-1, m)
    else do
      let b0 ← rd m buf
      if !isValidParams b0.toNat then pure (-1, m)
      else do
        let b0 ← rd m buf
        let m ← setParams m key b0.toNat
        let params ← getParams m key
        match getParamSet params with
        | none => pure (-1, m)
        | some P => do
          let n := P.stateSizeBytes
          if buflen < 1 + 2 * n then pure (-1, m)
          else do
            let m ← copy m (ciphertext key) (buf + 1) n
            let m ← copy m (plaintext key) (buf + 1 + n) n
            let c ← rdN m (ciphertext key) PICNIC_MAX_LOWMC_BLOCK_SIZE
            let p ← rdN m (plaintext key) PICNIC_MAX_LOWMC_BLOCK_SIZE
            let okC ← arePaddingBitsZero c P.stateSizeBits
            let okP ← if okC then arePaddingBitsZero p P.stateSizeBits else pure false
            if !okP then pure (-1, m) else pure (0, m)
  | _, _ => pure (-1, m)

/-- /repo/picnic.c:519-546 `picnic_write_private_key` -/
def writePrivateKey (m : Mem) (key buf : Option Nat) (buflen : Nat) : M (Int × Mem) := do
  match key, buf with
  | some key, some buf => do
    let params ← getParams m key
    match getParamSet params with
    | none => pure (-1, m)
    | some P => do
      let n := P.stateSizeBytes
      if buflen < 1 + 3 * n then pure (-1, m)
      else do
        let params ← getParams m key
        let m ← wr m buf (BitVec.ofNat 8 params)
        let m ← copy m (buf + 1) (data key) n
        let m ← copy m (buf + 1 + n) (ciphertext (pkOf key)) n
        let m ← copy m (buf + 1 + 2 * n) (plaintext (pkOf key)) n
        pure (((1 + 3 * n : Nat) : Int), m)
  | _, _ => pure (-1, m)

/-- /repo/picnic.c:549-588 `picnic_read_private_key`; `buf[0]` is read again after the key object has been cleared -/
def readPrivateKey (m : Mem) (key buf : Option Nat) (buflen : Nat) : M (Int × Mem) := do
  match key, buf with
  | some key, some buf =>
    if buflen < 1 then pure (-1, m)
    else do
      let b0 ← rd m buf
      if !isValidParams b0.toNat then pure (-1, m)
      else do
        let m ← wrN m key (zeros sizeofSk)
        let b0 ← rd m buf
        let m ← setParams m key b0.toNat
        let b0 ← rd m buf
        let m ← setParams m (pkOf key) b0.toNat
        let params ← getParams m key
        match getParamSet params with
        | none => pure (-1, m)
        | some P => do
          let n := P.stateSizeBytes
          if buflen < 1 + 3 * n then pure (-1, m)
          else do
            let m ← copy m (data key) (buf + 1) n
            let m ← copy m (ciphertext (pkOf key)) (buf + 1 + n) n
            let m ← copy m (plaintext (pkOf key)) (buf + 1 + 2 * n) n
            let d ← rdN m (data key) PICNIC_MAX_LOWMC_BLOCK_SIZE
            let c ← rdN m (ciphertext (pkOf key)) PICNIC_MAX_LOWMC_BLOCK_SIZE
            let p ← rdN m (plaintext (pkOf key)) PICNIC_MAX_LOWMC_BLOCK_SIZE
            let okD ← arePaddingBitsZero d P.stateSizeBits
            let okC ← if okD then arePaddingBitsZero c P.stateSizeBits else pure false
            let okP ← if okC then arePaddingBitsZero p P.stateSizeBits else pure false
            if !okP then pure (-1, m) else pure (0, m)
  | _, _ => pure (-1, m)

end Picnic.Mem
