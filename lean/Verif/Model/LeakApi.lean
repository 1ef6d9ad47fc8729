import Verif.Model.LeakPicnic3
import Verif.Model.Api

/-
Model/Api (the functions that handle secret keys) with observations.
-/

namespace Picnic.Leak

/-- /repo/picnic.c:202-254 `picnic_keygen`; returns the return value and the two key objects. -/
def picnicKeygen (E : Env) (rng : Rng) (parameters : Nat) (pk : Option PublicKey) (sk : Option PrivateKey) :
    M (Int × Option PublicKey × Option PrivateKey) := do
  ifB !isValidParams parameters then pure (-1, pk, sk)
  else do
  note pk.isSome
  match pk, sk with
  | none, sk => pure (-1, none, sk)
  | some pk, none => do
    note false
    pure (-1, some pk, none)
  | some _, some _ => do
    note true
    note (getParamSet parameters).isSome
    match getParamSet parameters with
    | none => pure (-1, some PublicKey.zero, some PrivateKey.zero)
    | some P => do
      let sk := { PrivateKey.zero with params := parameters }
      let pk := { PublicKey.zero with params := parameters }
      note (rng 0 P.stateSizeBytes).isSome
      match rng 0 P.stateSizeBytes with
      | none => pure (-1, some pk, some sk)
      | some r => do
        let data ← wrN sk.data 0 r
        let data ← zeroTrailingBits data P.stateSizeBits
        let sk := { sk with data := data }
        note (rng 1 P.stateSizeBytes).isSome
        match rng 1 P.stateSizeBytes with
        | none => pure (-1, some pk, some sk)
        | some r => do
          let pt ← wrN pk.plaintext 0 r
          let pt ← zeroTrailingBits pt P.stateSizeBits
          let pk := { pk with plaintext := pt }
          let ct ← lowMCEnc E P pk.plaintext pk.ciphertext sk.data
          let pk := { pk with ciphertext := ct }
          pure (0, some pk, some { sk with pk := pk })

/-- /repo/picnic.c:267-335 `picnic_sign`; returns the return value, the signature buffer, and `*signature_len`. -/
def picnicSign (E : Env) (sk : Option PrivateKey) (message : Buf) (message_len : Nat) (signature : Buf)
    (signature_len : Nat) : M (Int × Buf × Nat) := do
  let sk ← deref sk
  note (getParamSet sk.params).isSome
  match getParamSet sk.params with
  | none => pure (-1, signature, signature_len)
  | some P =>
    ifB !isPicnic3 sk.params then do
      let sig ← signPicnic1 E P sk.data sk.pk.ciphertext sk.pk.plaintext message message_len (allocateSignature E P)
      note sig.isSome
      match sig with
      | none => pure (-1, signature, signature_len)
      | some sig => do
        let r ← serializeSignature P sig signature signature_len
        note r.isSome
        match r with
        | none => pure (-1, signature, signature_len)
        | some (signature, len) => pure (0, signature, len)
    else do
      let sig ← signPicnic3 E P sk.data sk.pk.ciphertext sk.pk.plaintext message message_len (allocateSignature2 E P)
      note sig.isSome
      match sig with
      | none => pure (-1, signature, signature_len)
      | some sig => do
        let r ← serializeSignature2 P sig signature signature_len
        note r.isSome
        match r with
        | none => pure (-1, signature, signature_len)
        | some (signature, len) => pure (0, signature, len)

/-- /repo/picnic.c:519-546 `picnic_write_private_key` -/
def picnicWritePrivateKey (key : Option PrivateKey) (buf : Option Buf) (buflen : Nat) : M (Int × Option Buf) := do
  note key.isSome
  note buf.isSome
  match key, buf with
  | some key, some buf => do
    note (getParamSet key.params).isSome
    match getParamSet key.params with
    | none => pure (-1, some buf)
    | some P => do
      let n := P.stateSizeBytes
      let bytesRequired := 1 + 3 * n
      ifB buflen < bytesRequired then pure (-1, some buf)
      else do
        let buf ← wr buf 0 (BitVec.ofNat 8 key.params)
        let buf ← memcpy buf 1 key.data 0 n
        let buf ← memcpy buf (1 + n) key.pk.ciphertext 0 n
        let buf ← memcpy buf (1 + 2 * n) key.pk.plaintext 0 n
        pure ((bytesRequired : Int), some buf)
  | _, buf => pure (-1, buf)

/-- /repo/picnic.c:549-588 `picnic_read_private_key` -/
def picnicReadPrivateKey (key : Option PrivateKey) (buf : Option Buf) (buflen : Nat) :
    M (Int × Option PrivateKey) := do
  note key.isSome
  note buf.isSome
  match key, buf with
  | some key, some buf =>
    ifB buflen < 1 then pure (-1, some key)
    else do
      let b0 ← rd buf 0
      LM.publish (.byte b0)
      ifB !isValidParams b0.toNat then pure (-1, some key)
      else do
        let b0 ← rd buf 0
        LM.publish (.byte b0)
        let key := { PrivateKey.zero with params := b0.toNat, pk := { PublicKey.zero with params := b0.toNat } }
        note (getParamSet key.params).isSome
        match getParamSet key.params with
        | none => pure (-1, some key)
        | some P => do
          let n := P.stateSizeBytes
          ifB buflen < 1 + 3 * n then pure (-1, some key)
          else do
            let data ← memcpy key.data 0 buf 1 n
            let ct ← memcpy key.pk.ciphertext 0 buf (1 + n) n
            let pt ← memcpy key.pk.plaintext 0 buf (1 + 2 * n) n
            let key := { key with data := data, pk := { key.pk with ciphertext := ct, plaintext := pt } }
            let okD ← arePaddingBitsZero key.data P.stateSizeBits
            let okC ← ifB okD then arePaddingBitsZero key.pk.ciphertext P.stateSizeBits else pure false
            let okP ← ifB okC then arePaddingBitsZero key.pk.plaintext P.stateSizeBits else pure false
            ifB !okP then pure (-1, some key) else pure (0, some key)
  | key, _ => pure (-1, key)

/-- /repo/picnic.c:591-622 `picnic_validate_keypair`: `publickey` is dereferenced before the NULL check. -/
def picnicValidateKeypair (E : Env) (privatekey : Option PrivateKey) (publickey : Option PublicKey) : M Int := do
  let pk ← deref publickey
  note (getParamSet pk.params).isSome
  match getParamSet pk.params with
  | none => pure (-1)
  | some P => do
    note privatekey.isSome
    match privatekey with
    | none => pure (-1)
    | some sk =>
      ifB sk.params ≠ pk.params then pure (-1)
      else ifB !isValidParams sk.params then pure (-1)
      else do
        let ct ← lowMCEnc E P pk.plaintext (zeros PICNIC_MAX_LOWMC_BLOCK_SIZE) sk.data
        let eq ← memeq ct pk.ciphertext P.stateSizeBytes
        LM.publish (.flag eq)
        ifB eq then pure 0 else pure (-1)

end Picnic.Leak
