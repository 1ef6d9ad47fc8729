import Verif.Model.Print
import Verif.Model.Cycle

/-
The program of /repo/create_test_vectors.c.
-/

namespace Picnic

/-- /repo/create_test_vectors.c:23-106 `createTestVectors`: the result (1 for a normal return, -1 for `exit(-1)`) and what has been
printed.  `J` is the uninitialised memory (`J.skBuf` for `buf`).  Simplifications: allocations succeed, the messages before `exit(-1)` and blank
lines are left out; the two `printf` around `picnic_verify` are one item. -/
def createTestVectors (E : Env) (rng : Rng) (J : CycleJunk) (parameters : Nat) : M (Int × List Printed) := do
  let out := [Printed.text (picnicGetParamName parameters)]
  let (ret, pk, sk) ← picnicKeygen { E with junk := J.call 0 } rng parameters (some J.pk) (some J.sk)
  if ret ≠ 0 then pure (-1, out) else do
  let buf := (List.range (PICNIC_MAX_PRIVATEKEY_SIZE + 1)).map J.skBuf
  let (skSize, buf) ← picnicWritePrivateKey sk (some buf) (PICNIC_MAX_PRIVATEKEY_SIZE + 1)
  if skSize ≤ 0 then pure (-1, out) else do
  let buf ← deref buf
  let a1 ← printHex "sk" (buf.drop 1) (skSize.toNat - 1)
  let (pkSize, buf) ← picnicWritePublicKey pk (some buf) (PICNIC_MAX_PRIVATEKEY_SIZE + 1)
  if skSize ≤ 0 then pure (-1, out ++ [a1]) else do
  let buf ← deref buf
  let a2 ← printHex "pk" (buf.drop 1) (pkSize.toNat - 1)
  let blocksize := (pkSize.toNat - 1) / 2
  let a3 ← printHex "pk_p" (buf.drop 1) blocksize
  let a4 ← printHex "pk_C" (buf.drop (1 + blocksize)) blocksize
  let message : Buf := [0x00, 0x01, 0x02, 0x03, 0x04, 0x05, 0x06, 0x07, 0x08, 0x09]
  let a5 ← printHex "message" message message.length
  let out := out ++ [a1, a2, a3, a4, a5]
  let signature_len := picnicSignatureSize parameters
  let signature := (List.range signature_len).map J.sig
  let (ret, signature, signature_len) ← picnicSign { E with junk := J.call 1 } sk message message.length signature signature_len
  if ret ≠ 0 then pure (-1, out) else do
  let signature := if signature_len < picnicSignatureSize parameters then signature.take signature_len else signature
  let a6 ← printHex "signature" signature signature_len
  let a7 ← printSignature { E with junk := J.call 2 } signature signature_len parameters
  let out := out ++ [a6] ++ a7
  let ret ← picnicVerify { E with junk := J.call 3 } pk message message.length signature signature_len
  if ret ≠ 0 then pure (-1, out) else
  pure (1, out ++ [.text "verify:  success"])

end Picnic
