import Verif.Model.Picnic3

/-
/repo/picnic.c lines 202-783: the public API.

Pointers that the caller may pass as NULL are `Option`s.  `message` and `signature` are the objects the caller's
pointers refer to, the length arguments are passed separately.
-/

namespace Picnic

/-- /repo/picnic.h `picnic_publickey_t`; both arrays have 32 bytes. -/
structure PublicKey where
  params : Nat
  plaintext : Buf
  ciphertext : Buf
  deriving Repr, Inhabited, DecidableEq

/-- /repo/picnic.h `picnic_privatekey_t`; `data` has 32 bytes. -/
structure PrivateKey where
  params : Nat
  data : Buf
  pk : PublicKey
  deriving Repr, Inhabited, DecidableEq

/-- `memset(pk, 0, sizeof(picnic_publickey_t))` (/repo/picnic.c:220) -/
def PublicKey.zero : PublicKey :=
  { params := 0, plaintext := zeros PICNIC_MAX_LOWMC_BLOCK_SIZE, ciphertext := zeros PICNIC_MAX_LOWMC_BLOCK_SIZE }

/-- `memset(sk, 0, sizeof(picnic_privatekey_t))` (/repo/picnic.c:221, 559) -/
def PrivateKey.zero : PrivateKey :=
  { params := 0, data := zeros PICNIC_MAX_LOWMC_BLOCK_SIZE, pk := PublicKey.zero }

/-- The random number generator `picnic_random_bytes`: result of the k-th call with the given length (`none`: the
call returns a nonzero value).  /repo/picnic.h:216-233, /repo/picnic_impl.c:803-844. -/
abbrev Rng := Nat → Nat → Option Buf

/-- /repo/picnic.c:202-254 `picnic_keygen`; returns the return value and the two key objects. -/
def picnicKeygen (E : Env) (rng : Rng) (parameters : Nat) (pk : Option PublicKey) (sk : Option PrivateKey) :
    M (Int × Option PublicKey × Option PrivateKey) := do
  if !isValidParams parameters then pure (-1, pk, sk)
  else match pk, sk with
  | none, sk => pure (-1, none, sk)
  | some pk, none => pure (-1, some pk, none)
  | some _, some _ =>
    match getParamSet parameters with
    | none => pure (-1, some PublicKey.zero, some PrivateKey.zero)
    | some P => do
      let sk := { PrivateKey.zero with params := parameters }
      let pk := { PublicKey.zero with params := parameters }
      match rng 0 P.stateSizeBytes with
      | none => pure (-1, some pk, some sk)
      | some r => do
        let data ← wrN sk.data 0 r
        let data ← zeroTrailingBits data P.stateSizeBits
        let sk := { sk with data := data }
        match rng 1 P.stateSizeBytes with
        | none => pure (-1, some pk, some sk)
        | some r => do
          let pt ← wrN pk.plaintext 0 r
          let pt ← zeroTrailingBits pt P.stateSizeBits
          let pk := { pk with plaintext := pt }
          let ct ← lowMCEnc E P pk.plaintext pk.ciphertext sk.data
          let pk := { pk with ciphertext := ct }
          pure (0, some pk, some { sk with pk := pk })

/-- /repo/picnic.c:267-335 `picnic_sign`; returns the return value, the signature buffer, and `*signature_len`. -/
def picnicSign (E : Env) (sk : Option PrivateKey) (message : Buf) (message_len : Nat) (signature : Buf)
    (signature_len : Nat) : M (Int × Buf × Nat) := do
  let sk ← deref sk
  match getParamSet sk.params with
  | none => pure (-1, signature, signature_len)
  | some P =>
    if !isPicnic3 sk.params then do
      let sig ← signPicnic1 E P sk.data sk.pk.ciphertext sk.pk.plaintext message message_len (allocateSignature E P)
      match sig with
      | none => pure (-1, signature, signature_len)
      | some sig => do
        let r ← serializeSignature P sig signature signature_len
        match r with
        | none => pure (-1, signature, signature_len)
        | some (signature, len) => pure (0, signature, len)
    else do
      let sig ← signPicnic3 E P sk.data sk.pk.ciphertext sk.pk.plaintext message message_len (allocateSignature2 E P)
      match sig with
      | none => pure (-1, signature, signature_len)
      | some sig => do
        let r ← serializeSignature2 P sig signature signature_len
        match r with
        | none => pure (-1, signature, signature_len)
        | some (signature, len) => pure (0, signature, len)

/-- /repo/picnic.c:337-380 `picnic_signature_size` -/
def picnicSignatureSize (parameters : Nat) : Nat :=
  match getParamSet parameters with
  | none => PICNIC_MAX_SIGNATURE_SIZE
  | some P =>
    if isPicnic3 parameters then
      let u := P.numOpenedRounds
      let T := P.numMPCRounds
      let numTreeValues := u * ceilLog2 ((T + (u - 1)) / u)
      let proofSize := P.seedSizeBytes * ceilLog2 P.numMPCParties + P.andSizeBytes + P.stateSizeBytes
        + P.digestSizeBytes + P.stateSizeBytes + P.andSizeBytes
      P.saltSizeBytes + P.digestSizeBytes + numTreeValues * P.seedSizeBytes + numTreeValues * P.digestSizeBytes
        + proofSize * u
    else match P.transform with
    | .FS => P.numMPCRounds * (P.digestSizeBytes + P.stateSizeBytes + numBytes (3 * P.numSboxes * P.numRounds)
        + 2 * P.seedSizeBytes) + numBytes (2 * P.numMPCRounds) + P.saltSizeBytes
    | .UR => P.numMPCRounds * (P.digestSizeBytes + P.stateSizeBytes + 2 * numBytes (3 * P.numSboxes * P.numRounds)
        + 3 * P.seedSizeBytes) + numBytes (2 * P.numMPCRounds) + P.saltSizeBytes
    | .invalid => PICNIC_MAX_SIGNATURE_SIZE

/-- /repo/picnic.c:382-452 `picnic_verify` -/
def picnicVerify (E : Env) (pk : Option PublicKey) (message : Buf) (message_len : Nat) (signature : Buf)
    (signature_len : Nat) : M Int := do
  let pk ← deref pk
  match getParamSet pk.params with
  | none => pure (-1)
  | some P =>
    if !isPicnic3 pk.params then do
      let sig ← deserializeSignature P (allocateSignature E P) signature signature_len
      match sig with
      | none => pure (-1)
      | some sig => do
        let ok ← verify E P sig pk.ciphertext pk.plaintext message message_len
        pure (if ok then 0 else -1)
    else do
      let sig ← deserializeSignature2 E P (allocateSignature2 E P) signature signature_len
      match sig with
      | none => pure (-1)
      | some sig => do
        let ok ← verifyPicnic3 E P sig pk.ciphertext pk.plaintext message message_len
        pure (if ok then 0 else -1)

/-- /repo/picnic.c:455-480 `picnic_write_public_key`; returns the return value and the buffer. -/
def picnicWritePublicKey (key : Option PublicKey) (buf : Option Buf) (buflen : Nat) : M (Int × Option Buf) := do
  match key, buf with
  | some key, some buf =>
    match getParamSet key.params with
    | none => pure (-1, some buf)
    | some P => do
      let n := P.stateSizeBytes
      let bytesRequired := 1 + 2 * n
      if buflen < bytesRequired then pure (-1, some buf)
      else do
        let buf ← wr buf 0 (BitVec.ofNat 8 key.params)
        let buf ← memcpy buf 1 key.ciphertext 0 n
        let buf ← memcpy buf (1 + n) key.plaintext 0 n
        pure ((bytesRequired : Int), some buf)
  | _, buf => pure (-1, buf)

/-- /repo/picnic.c:482-516 `picnic_read_public_key`; returns the return value and the key object. -/
def picnicReadPublicKey (key : Option PublicKey) (buf : Option Buf) (buflen : Nat) : M (Int × Option PublicKey) := do
  match key, buf with
  | some key, some buf =>
    if buflen < 1 then pure (-1, some key)
    else do
      let b0 ← rd buf 0
      if !isValidParams b0.toNat then pure (-1, some key)
      else do
        let b0 ← rd buf 0
        let key := { key with params := b0.toNat }
        match getParamSet key.params with
        | none => pure (-1, some key)
        | some P => do
          let n := P.stateSizeBytes
          if buflen < 1 + 2 * n then pure (-1, some key)
          else do
            let ct ← memcpy key.ciphertext 0 buf 1 n
            let pt ← memcpy key.plaintext 0 buf (1 + n) n
            let key := { key with ciphertext := ct, plaintext := pt }
            let okC ← arePaddingBitsZero key.ciphertext P.stateSizeBits
            let okP ← if okC then arePaddingBitsZero key.plaintext P.stateSizeBits else pure false
            if !okP then pure (-1, some key) else pure (0, some key)
  | key, _ => pure (-1, key)

/-- /repo/picnic.c:519-546 `picnic_write_private_key` -/
def picnicWritePrivateKey (key : Option PrivateKey) (buf : Option Buf) (buflen : Nat) : M (Int × Option Buf) := do
  match key, buf with
  | some key, some buf =>
    match getParamSet key.params with
    | none => pure (-1, some buf)
    | some P => do
      let n := P.stateSizeBytes
      let bytesRequired := 1 + 3 * n
      if buflen < bytesRequired then pure (-1, some buf)
      else do
        let buf ← wr buf 0 (BitVec.ofNat 8 key.params)
        let buf ← memcpy buf 1 key.data 0 n
        let buf ← memcpy buf (1 + n) key.pk.ciphertext 0 n
        let buf ← memcpy buf (1 + 2 * n) key.pk.plaintext 0 n
        pure ((bytesRequired : Int), some buf)
  | _, buf => pure (-1, buf)

/-- /repo/picnic.c:549-588 `picnic_read_private_key` -/
def picnicReadPrivateKey (key : Option PrivateKey) (buf : Option Buf) (buflen : Nat) :
    M (Int × Option PrivateKey) := do
  match key, buf with
  | some key, some buf =>
    if buflen < 1 then pure (-1, some key)
    else do
      let b0 ← rd buf 0
      if !isValidParams b0.toNat then pure (-1, some key)
      else do
        let b0 ← rd buf 0
        let key := { PrivateKey.zero with params := b0.toNat, pk := { PublicKey.zero with params := b0.toNat } }
        match getParamSet key.params with
        | none => pure (-1, some key)
        | some P => do
          let n := P.stateSizeBytes
          if buflen < 1 + 3 * n then pure (-1, some key)
          else do
            let data ← memcpy key.data 0 buf 1 n
            let ct ← memcpy key.pk.ciphertext 0 buf (1 + n) n
            let pt ← memcpy key.pk.plaintext 0 buf (1 + 2 * n) n
            let key := { key with data := data, pk := { key.pk with ciphertext := ct, plaintext := pt } }
            let okD ← arePaddingBitsZero key.data P.stateSizeBits
            let okC ← if okD then arePaddingBitsZero key.pk.ciphertext P.stateSizeBits else pure false
            let okP ← if okC then arePaddingBitsZero key.pk.plaintext P.stateSizeBits else pure false
            if !okP then pure (-1, some key) else pure (0, some key)
  | key, _ => pure (-1, key)

/-- /repo/picnic.c:591-622 `picnic_validate_keypair`: `publickey` is dereferenced before the NULL check. -/
def picnicValidateKeypair (E : Env) (privatekey : Option PrivateKey) (publickey : Option PublicKey) : M Int := do
  let pk ← deref publickey
  match getParamSet pk.params with
  | none => pure (-1)
  | some P =>
    match privatekey with
    | none => pure (-1)
    | some sk =>
      if sk.params ≠ pk.params then pure (-1)
      else if !isValidParams sk.params then pure (-1)
      else do
        let ct ← lowMCEnc E P pk.plaintext (zeros PICNIC_MAX_LOWMC_BLOCK_SIZE) sk.data
        let eq ← memeq ct pk.ciphertext P.stateSizeBytes
        pure (if eq then 0 else -1)

end Picnic
