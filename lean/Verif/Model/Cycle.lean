import Verif.Model.Api

/-
The program of /repo/example.c, and the default random source of /repo/picnic_impl.c:802-836 with the file handles it opens.
-/

namespace Picnic

/-- Contents of the uninitialised objects of `picnicExample`: the key structures, the signature buffer returned by `malloc`, the two
serialisation buffers, and the uninitialised memory seen by the k-th library call. -/
structure CycleJunk where
  pk : PublicKey
  sk : PrivateKey
  sig : Nat → Byte
  pkBuf : Nat → Byte
  skBuf : Nat → Byte
  call : Nat → Nat → Nat → Nat → Byte

/-- /repo/example.c:20-129 `picnicExample`.  Simplifications: the message is a parameter (500 bytes of 0x01 in the program), allocations
succeed, output to the terminal is left out; the result is 0 for a normal return and -1 for `exit(-1)`. -/
def picnicExample (E : Env) (rng : Rng) (J : CycleJunk) (parameters : Nat) (message : Buf) : M Int := do
  let (ret, pk, sk) ← picnicKeygen { E with junk := J.call 0 } rng parameters (some J.pk) (some J.sk)
  if ret ≠ 0 then pure (-1) else do
  let signature_len := picnicSignatureSize parameters
  let signature := (List.range signature_len).map J.sig
  let (ret, signature, signature_len) ← picnicSign { E with junk := J.call 1 } sk message message.length signature signature_len
  if ret ≠ 0 then pure (-1) else do
  let signature := if signature_len < picnicSignatureSize parameters then signature.take signature_len else signature
  let ret ← picnicVerify { E with junk := J.call 2 } pk message message.length signature signature_len
  if ret ≠ 0 then pure (-1) else do
  let pk_buf := (List.range PICNIC_MAX_PUBLICKEY_SIZE).map J.pkBuf
  let (ret, pk_buf) ← picnicWritePublicKey pk (some pk_buf) PICNIC_MAX_PUBLICKEY_SIZE
  if ret ≤ 0 then pure (-1) else do
  let (ret, pk) ← picnicReadPublicKey (some PublicKey.zero) pk_buf PICNIC_MAX_PUBLICKEY_SIZE
  if ret ≠ 0 then pure (-1) else do
  let ret ← picnicVerify { E with junk := J.call 3 } pk message message.length signature signature_len
  if ret ≠ 0 then pure (-1) else do
  let sk_buf := (List.range PICNIC_MAX_PRIVATEKEY_SIZE).map J.skBuf
  let (ret, sk_buf) ← picnicWritePrivateKey sk (some sk_buf) PICNIC_MAX_PRIVATEKEY_SIZE
  if ret ≤ 0 then pure (-1) else do
  let (ret, sk) ← picnicReadPrivateKey (some PrivateKey.zero) sk_buf PICNIC_MAX_PRIVATEKEY_SIZE
  if ret ≠ 0 then pure (-1) else do
  let ret ← picnicValidateKeypair { E with junk := J.call 4 } sk pk
  if ret ≠ 0 then pure (-1) else pure 0

/-- What the operating system answers to the k-th call of `random_bytes_default`: whether `fopen("/dev/urandom")` succeeds, and the bytes `fread`
stores when `len` bytes are requested (at most `len`; fewer at an error). -/
structure Urandom where
  opens : Nat → Bool
  reads : Nat → Nat → Buf

/-- /repo/picnic_impl.c:803-817 `random_bytes_default` (Linux): return value, destination buffer, number of open file handles. -/
def randomBytesDefault (U : Urandom) (k : Nat) (buf : Buf) (len : Nat) (handles : Nat) : M (Int × Buf × Nat) := do
  if U.opens k = false then pure (-1, buf, handles) else do
  let handles := handles + 1
  let got := (U.reads k len).take len
  let buf ← wrN buf 0 got
  if got.length ≠ len then pure (-2, buf, handles) else do
  pure (0, buf, handles - 1)

/-- `random_bytes_default` as the random source of `picnic_keygen` (/repo/picnic.h:227-233): the bytes delivered, `none` if the call fails. -/
def Urandom.rng (U : Urandom) : Rng := fun k n =>
  match randomBytesDefault U k (zeros n) n 0 with
  | .ok (0, buf, _) => some buf
  | _ => none

end Picnic
