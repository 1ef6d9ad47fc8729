import Verif.Model.Api

/-
Model of the printing of signatures: /repo/picnic.c:624-783 and /repo/picnic_impl.c:40-47.

Standard output is a list of items: lines of text, lists of numbers, and labelled hexadecimal strings (as the bytes they
stand for).  Blank lines are left out.  `snprintf` into `label[50]` is modelled by the label itself: the labels are at most
`"C[65535][65535]"` long.
-/

namespace Picnic

/-- One item written to standard output. -/
inductive Printed where
  | text (s : String)
  | nums (label : String) (values : List Nat)
  | hex (label : String) (bytes : Buf)
  deriving Repr, DecidableEq, Inhabited

/-- /repo/picnic_impl.c:40-47 `printHex`: prints `data[0], ..., data[len - 1]`. -/
def printHex (label : String) (data : Buf) (len : Nat) : M Printed := do
  let d ← rdN data 0 len
  pure (.hex label d)

/-- /repo/picnic.c:673-688, iteration `i` of the loop of `print_signature2` -/
def printRound2 (P : Params) (sig : Signature2) (i : Nat) : M (List Printed) := do
  let c ← rd sig.challengeC i
  let p ← rd sig.challengeP i
  let pf ← rd sig.proofs c
  let pf ← deref pf
  let a1 ← printHex "seedInfo" pf.seedInfo pf.seedInfoLen
  let a2 ← printHex "aux" pf.aux P.andSizeBytes
  let a3 ← printHex s!"C[{c}][{p}]" pf.C P.digestSizeBytes
  let a4 ← printHex "masked input" pf.input P.stateSizeBytes
  let a5 ← printHex "msgs" pf.msgs (P.stateSizeBytes + P.andSizeBytes)
  pure [.nums "u = , MPC instance index c = , unopened party index = " [i, c, p], a1, a2, a3, a4, a5]

/-- /repo/picnic.c:624-694 `print_signature2` -/
def printSignature2 (E : Env) (sigBytes : Buf) (sigBytesLen : Nat) (picnicParams : Nat) : M (List Printed) := do
  if !isPicnic3 picnicParams then pure [.text "Invalid parameter set passed to print_signature2"]
  else match getParamSet picnicParams with
  | none => pure [.text "Invalid parameters"]
  | some P => do
    let ret ← deserializeSignature2 E P (allocateSignature2 E P) sigBytes sigBytesLen
    match ret with
    | none => pure [.text "Invalid signature; deserialization fails"]
    | some sig => do
      let cs ← collect (fun i => rd sig.challengeC i) P.numOpenedRounds
      let ps ← collect (fun i => rd sig.challengeP i) P.numOpenedRounds
      let a1 ← printHex "salt" sig.salt P.saltSizeBytes
      let a2 ← printHex "iSeedInfo" sig.iSeedInfo sig.iSeedInfoLen
      let a3 ← printHex "cvInfo" sig.cvInfo sig.cvInfoLen
      loop (fun i out => do
        let r ← printRound2 P sig i
        pure (out ++ r)) P.numOpenedRounds [.nums "challenge C" cs, .nums "challenge P" ps, a1, a2, a3]

/-- /repo/picnic.c:737-778, iteration `i` of the loop of `print_signature`; `off` is how far `sigBytes` has been advanced.
The iteration writes into `proofs[i]` only, which no later iteration reads. -/
def printRound (P : Params) (proofs : List Proof) (challengeBits sigBytes : Buf) (i : Nat) (off : Nat) :
    M (List Printed × Nat) := do
  let challenge ← getChallenge challengeBits i
  let proof ← rd proofs i
  let (c, off) ← takeInto proof.view3Commitment sigBytes off P.digestSizeBytes
  let a1 ← printHex s!"b_{i}" c P.digestSizeBytes
  let (a2, off) ← if P.transform = .UR then do
      let len := if challenge = 0 then P.unruhGWithInputBytes else P.unruhGWithoutInputBytes
      let dst ← deref proof.view3UnruhG
      let (g, off) ← takeInto dst sigBytes off len
      let a ← printHex s!"G_{i}" g len
      pure ([a], off)
    else pure ([], off)
  let (cb, off) ← takeInto proof.communicatedBits sigBytes off P.andSizeBytes
  let a3 ← printHex "transcript" cb P.andSizeBytes
  let (s1, off) ← takeInto proof.seed1 sigBytes off P.seedSizeBytes
  let a4 ← printHex "seed1" s1 P.seedSizeBytes
  let (s2, off) ← takeInto proof.seed2 sigBytes off P.seedSizeBytes
  let a5 ← printHex "seed2" s2 P.seedSizeBytes
  let out := [.nums "Iteration t" [i], .nums s!"e_{i}" [challenge.toNat], a1] ++ a2 ++ [a3, a4, a5]
  if challenge = 1 ∨ challenge = 2 then do
    let (inp, off) ← takeInto proof.inputShare sigBytes off P.stateSizeBytes
    let a6 ← printHex "inputShare" inp P.stateSizeBytes
    pure (out ++ [a6], off)
  else pure (out, off)

/-- /repo/picnic.c:696-783 `print_signature` -/
def printSignature (E : Env) (sigBytes : Buf) (sigBytesLen : Nat) (picnicParams : Nat) : M (List Printed) := do
  if isPicnic3 picnicParams then printSignature2 E sigBytes sigBytesLen picnicParams
  else match getParamSet picnicParams with
  | none => pure [.text "Invalid parameters"]
  | some P => do
    let ret ← deserializeSignature P (allocateSignature E P) sigBytes sigBytesLen
    match ret with
    | none => pure [.text "Invalid signature; deserialization fails"]
    | some sig => do
      let (challengeBits, off) ← takeInto sig.challengeBits sigBytes 0 (numBytes (2 * P.numMPCRounds))
      let a1 ← printHex "challenge" challengeBits (numBytes (2 * P.numMPCRounds))
      let salt ← rdN sigBytes off P.saltSizeBytes
      let off := off + P.saltSizeBytes
      let (out, _) ← loop (fun i (out, off) => do
        let (r, off) ← printRound P sig.proofs challengeBits sigBytes i off
        pure (out ++ r, off)) P.numMPCRounds ([a1, .hex "salt" salt], off)
      pure out

end Picnic
