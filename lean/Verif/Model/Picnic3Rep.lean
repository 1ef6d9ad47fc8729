import Verif.Model.Picnic3

/-
One repetition of Picnic3 with given random tapes: the parts of `sign_picnic3` and `verify_picnic3` between the creation of the
tapes and the commitments, without the hash function.
-/

namespace Picnic

/-- What the signature says about an opened repetition, apart from seeds and commitments (/repo/picnic3_impl.c:847-856):
`aux` (empty if the last party stays unopened), the masked key, and the messages of all parties (those of the opened ones follow
from their tapes). -/
structure Published where
  aux : Buf
  input : Buf
  msgs : List Buf
  deriving DecidableEq

/-- /repo/picnic3_impl.c:769, 789-799 and 847-856 for repetition `t` with the given tapes, if party `k` stays unopened; `none` if
the simulation fails. -/
def publish (E : Env) (P : Params) (t : Nat) (tapes : RandomTape) (privateKey pubKey plaintext : Buf) (k : Nat) :
    M (Option Published) := do
  let (tapes, inputs) ← computeAuxTape E P t tapes (some (zeros (P.stateSizeWords * 4)))
  let inputs ← deref inputs
  let last := P.numMPCParties - 1
  let aux ← if k ≠ last then getAuxBits P (zeros P.andSizeBytes) tapes else pure []
  let r ← signOnline E P { seeds := default, tapes := tapes, input := inputs, C := [] } privateKey pubKey plaintext t
  pure (r.map fun x => { aux := aux, input := x.1.take P.stateSizeBytes, msgs := x.2.msgs })

/-- /repo/picnic3_impl.c:660-677 for repetition `t` with the given tapes and the published `aux`, masked key `input` and messages
`msg` of the unopened party `k`: whether the simulation succeeds, and the messages of all parties. -/
def replay (E : Env) (P : Params) (t : Nat) (tapes : RandomTape) (aux input msg : Buf) (pubKey plaintext : Buf) (k : Nat) :
    M (Bool × Msgs) := do
  let last := P.numMPCParties - 1
  let tapes ← if k ≠ last then setAuxBits P tapes aux else pure tapes
  let tp ← rd tapes.tape k
  let tp ← wrN tp 0 (zeros (2 * P.andSizeBytes))
  let ts ← wr tapes.tape k tp
  let tapes := { tapes with tape := ts }
  let msgs := allocateMsgs P
  let m ← rd msgs.msgs k
  let m ← memcpy m 0 msg 0 P.andSizeBytes
  let ms ← wr msgs.msgs k m
  let msgs := { msgs with msgs := ms, unopened := some k }
  let (ok, _, msgs) ← simulateOnline E P t input tapes msgs plaintext pubKey
  pure (ok, msgs)

end Picnic
