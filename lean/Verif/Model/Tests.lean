import Verif.Model.Cycle

/-
The test programs /repo/tree_test.c and /repo/unit_test.c (except `printNewKeypair`, which is disabled, and the two `main` functions, which
count the results of the tests below).
-/

namespace Picnic

/-! ### /repo/tree_test.c -/

/-- /repo/tree_test.c:62-64 (and :207-209), the `do ... while` loop: draw until the value is new.  `k` counts the calls of `rand`; the first argument
bounds the draws. -/
def drawNew (rand : Nat → Nat) (numLeaves : Nat) (list : List Nat) : Nat → Nat → M (Nat × Nat)
  | 0, _ => .diverge
  | n + 1, k => do
    let val := rand k % 2 ^ 16 % numLeaves
    let c ← containsU16 list list.length val
    if c then drawNew rand numLeaves list n (k + 1) else pure (val, k + 1)

/-- /repo/tree_test.c:61-66 (and :206-211): a list of `size` distinct leaves. -/
def drawList (E : Env) (rand : Nat → Nat) (size numLeaves : Nat) : M (List Nat × Nat) :=
  loop (fun _ (st : List Nat × Nat) => do
    let (val, k) ← drawNew rand numLeaves st.1 E.fuel st.2
    pure (st.1 ++ [val], k)) size ([], 0)

/-- /repo/tree_test.c:57-67 (and :202-212): the list given by the caller, or a random one for NULL. -/
def listOr (E : Env) (rand : Nat → Nat) (list : Option (List Nat)) (size numLeaves : Nat) : M (List Nat) :=
  match list with
  | some l => pure l
  | none => do
    let (l, _) ← drawList E rand size numLeaves
    pure l

/-- /repo/tree_test.c:144-174, the comparison of leaf i of the two trees; the result is `ret`. -/
def seedTestLeaf (P : Params) (tree tree2 : Tree) (hideList : List Nat) (hideListSize firstLeaf i : Nat) : M Int := do
  let hidden ← containsU16 hideList hideListSize ((i - firstLeaf) % 2 ^ 16)
  let have2 ← rd tree2.haveNode i
  if hidden then pure (if have2 then 0 else 1)
  else if !have2 then pure 0
  else do
    let have1 ← rd tree.haveNode i
    if !have1 then pure 0
    else do
      let a ← rd tree.nodes i
      let b ← rd tree2.nodes i
      let eq ← memeq a b P.seedSizeBytes
      pure (if eq then 1 else 0)

/-- /repo/tree_test.c:44-185 `runSeedTest` with arrays `iSeed` and `salt` of the given sizes.  Simplifications: messages are left out, memory is not
tracked (the exit path frees what was allocated). -/
def runSeedTestSized (E : Env) (rand : Nat → Nat) (seedArray saltArray : Nat) (hideList : Option (List Nat)) (hideListSize numLeaves : Nat)
    (P : Params) : M Int := do
  -- `hideListSize - 1` is unsigned: for 0 it is the largest value
  if hideListSize = 0 ∨ numLeaves < hideListSize - 1 then pure 0
  else do
    let hideList ← listOr E rand hideList hideListSize numLeaves
    let iSeed : Buf := List.replicate seedArray 0x07
    let salt : Buf := List.replicate saltArray 0x09
    let repIndex := 19
    let tree ← generateSeeds E P numLeaves iSeed salt repIndex
    let tree2 ← createTree numLeaves P.seedSizeBytes
    let initialOutputSize := tree.numLeaves * P.seedSizeBytes
    let output := E.junkBuf siteTree 0 initialOutputSize
    let expectedOutputLen ← revealSeedsSize P numLeaves hideList hideListSize
    if hideListSize > 0 ∧ expectedOutputLen = 0 then pure 0
    else if expectedOutputLen % P.seedSizeBytes ≠ 0 then pure 0
    else do
      let (outputLen, output) ← revealSeeds P tree hideList hideListSize output initialOutputSize
      if outputLen = 0 then pure 0
      else if outputLen ≠ expectedOutputLen then pure 0
      else if P.numOpenedRounds * ceilLog2 (P.numMPCRounds / P.numOpenedRounds) < outputLen / tree.dataSize then pure 0
      else do
        let (ok, tree2) ← reconstructSeeds E P tree2 hideList hideListSize output outputLen salt repIndex
        if !ok then pure 0
        else do
          let firstLeaf := tree.numNodes - tree.numLeaves
          loopFrom firstLeaf tree.numNodes (fun i ret =>
            if ret = 0 then pure 0 else seedTestLeaf P tree tree2 hideList hideListSize firstLeaf i) 1

/-- /repo/tree_test.c:44-185 `runSeedTest`: both arrays have 16 bytes (lines 46-47). -/
def runSeedTest (E : Env) (rand : Nat → Nat) (hideList : Option (List Nat)) (hideListSize numLeaves : Nat) (P : Params) : M Int :=
  runSeedTestSized E rand 16 16 hideList hideListSize numLeaves P

/-- /repo/tree_test.c:188-308 `runMerkleTest` with an array `salt` of the given size. -/
def runMerkleTestSized (E : Env) (rand : Nat → Nat) (saltArray : Nat) (missingLeaves : Option (List Nat)) (missingLeavesSize numLeaves : Nat)
    (P : Params) : M Int := do
  if missingLeavesSize = 0 ∨ numLeaves < missingLeavesSize - 1 then pure 0
  else do
    let missingLeaves ← listOr E rand missingLeaves missingLeavesSize numLeaves
    let tree ← createTree numLeaves P.digestSizeBytes
    let leafData : List (Option Buf) := (List.range tree.numLeaves).map fun i => some (List.replicate tree.dataSize (BitVec.ofNat 8 (i + 1)))
    let salt : Buf := List.replicate saltArray 0x09
    let tree ← buildMerkleTree E P tree leafData salt
    let (openData, openDataSize) ← openMerkleTree E tree missingLeaves missingLeavesSize
    if P.numOpenedRounds * ceilLog2 (P.numMPCRounds / P.numOpenedRounds) < openDataSize / tree.dataSize then pure 0
    else do
      let tree2 ← createTree numLeaves P.digestSizeBytes
      let leafData ← loop (fun i leafData => do
        let m ← rd missingLeaves i
        wr leafData m none) missingLeavesSize leafData
      let (ok, tree2) ← addMerkleNodes tree2 missingLeaves missingLeavesSize openData openDataSize
      if !ok then pure 0
      else do
        let (ok, tree2) ← verifyMerkleTree E P tree2 leafData salt
        if !ok then pure 0
        else do
          let a ← rd tree.nodes 0
          let b ← rd tree2.nodes 0
          let eq ← memeq a b tree.dataSize
          pure (if eq then 1 else 0)

/-- /repo/tree_test.c:188-308 `runMerkleTest`: `salt` has 16 bytes (line 191). -/
def runMerkleTest (E : Env) (rand : Nat → Nat) (missingLeaves : Option (List Nat)) (missingLeavesSize numLeaves : Nat) (P : Params) : M Int :=
  runMerkleTestSized E rand 16 missingLeaves missingLeavesSize numLeaves P

/-! ### /repo/unit_test.c -/

/-- /repo/unit_test.c:66-96 `run_lowmc_enc_test` -/
def runLowmcEncTest (E : Env) (param : Nat) (key plaintext expected : Buf) : M Int := do
  match getParamSet param with
  | none => pure 0
  | some P => do
    let actual ← lowMCEnc E P plaintext (zeros 32) key
    let eq ← memeq expected actual P.stateSizeBytes
    pure (if eq then 1 else 0)

/-- /repo/unit_test.c:281-342 `test_serialization_L1`, for any parameter set (`Picnic_L1_FS` = 1 in the program) and any initial contents `pk2`, `sk2`
of the second pair of structures. -/
def testSerialization (E : Env) (rng : Rng) (J : CycleJunk) (pk2 : PublicKey) (sk2 : PrivateKey) (parameters : Nat) : M Int := do
  let (ret, pk, sk) ← picnicKeygen { E with junk := J.call 0 } rng parameters (some J.pk) (some J.sk)
  if ret ≠ 0 then pure 0 else do
  let (ret, pk_buf) ← picnicWritePublicKey pk (some ((List.range PICNIC_MAX_PUBLICKEY_SIZE).map J.pkBuf)) PICNIC_MAX_PUBLICKEY_SIZE
  if ret ≤ 1 then pure 0 else do
  let (ret, sk_buf) ← picnicWritePrivateKey sk (some ((List.range PICNIC_MAX_PRIVATEKEY_SIZE).map J.skBuf)) PICNIC_MAX_PRIVATEKEY_SIZE
  if ret ≤ 1 then pure 0 else do
  let (ret, pk2) ← picnicReadPublicKey (some pk2) pk_buf PICNIC_MAX_PUBLICKEY_SIZE
  if ret ≠ 0 then pure 0 else do
  let (ret, sk2) ← picnicReadPrivateKey (some sk2) sk_buf PICNIC_MAX_PRIVATEKEY_SIZE
  if ret ≠ 0 then pure 0 else do
  let ret ← picnicValidateKeypair { E with junk := J.call 1 } sk2 pk2
  if ret ≠ 0 then pure 0 else do
  let ret ← picnicValidateKeypair { E with junk := J.call 2 } sk2 pk
  if ret ≠ 0 then pure 0 else do
  let ret ← picnicValidateKeypair { E with junk := J.call 3 } sk pk2
  if ret ≠ 0 then pure 0 else pure 1

/-- The common part of /repo/unit_test.c:345-398 and :533-582: the parameter set, the signature object made by `sign_picnic3`, its serialisation, and the
object read back; `none` if the test has failed (result 0).  `MSG_LEN` is 500. -/
def signAndReadBack (E : Env) (rng : Rng) (J : CycleJunk) (parameters : Nat) : M (Option (Params × Signature2 × Buf × Signature2)) := do
  match getParamSet parameters with
  | none => pure none
  | some P => do
    let (ret, _, sk) ← picnicKeygen { E with junk := J.call 0 } rng parameters (some J.pk) (some J.sk)
    if ret ≠ 0 then pure none else do
    let sk ← deref sk
    let message : Buf := List.replicate 500 0x07
    let signature_len := picnicSignatureSize parameters
    let signature := (List.range signature_len).map J.sig
    let sig ← signPicnic3 { E with junk := J.call 1 } P sk.data sk.pk.ciphertext sk.pk.plaintext message 500
      (allocateSignature2 { E with junk := J.call 1 } P)
    match sig with
    | none => pure none
    | some sig => do
      let out ← serializeSignature2 P sig signature signature_len
      match out with
      | none => pure none
      | some (signature, signature_len) => do
        let sig2 ← deserializeSignature2 { E with junk := J.call 2 } P (allocateSignature2 { E with junk := J.call 2 } P) signature signature_len
        match sig2 with
        | none => pure none
        | some sig2 => pure (some (P, sig, signature.take signature_len, sig2))

/-- /repo/unit_test.c:345-422 `test_serialize_roundtrip_picnic3`; `J.skBuf` is the memory returned by the second `malloc`.  The two signatures have
`signature_len` bytes. -/
def testSerializeRoundtrip (E : Env) (rng : Rng) (J : CycleJunk) (parameters : Nat) : M Int := do
  let r ← signAndReadBack E rng J parameters
  match r with
  | none => pure 0
  | some (P, _, signature, sig2) => do
    let out ← serializeSignature2 P sig2 ((List.range signature.length).map J.skBuf) signature.length
    match out with
    | none => pure 0
    | some (signature2, _) => do
      let eq ← memeq signature signature2 signature.length
      pure (if eq then 1 else 0)

/-- /repo/unit_test.c:445-485 `compare_proofs`; true for the result 0.  The pointers `aux` are not NULL (`allocateProof2`). -/
def compareProofs (P : Params) (proof1 proof2 : Proof2) (compareAux : Bool) : M Bool := do
  if proof1.seedInfoLen ≠ proof2.seedInfoLen then pure false else do
  let eq ← memeq proof1.seedInfo proof2.seedInfo proof1.seedInfoLen
  if !eq then pure false else do
  let eq ← if compareAux then memeq proof1.aux proof2.aux P.andSizeBytes else pure true
  if !eq then pure false else do
  let eq ← memeq proof1.C proof2.C P.digestSizeBytes
  if !eq then pure false else do
  let eq ← memeq proof1.input proof2.input P.stateSizeBytes
  if !eq then pure false else memeq proof1.msgs proof2.msgs P.andSizeBytes

/-- `memcmp(a, b, n*sizeof(uint16_t)) == 0` for two lists of numbers -/
def memeqU16 (a b : List Nat) (n : Nat) : M Bool :=
  if n ≤ a.length ∧ n ≤ b.length then pure (a.take n == b.take n) else .ub .oobRead

/-- /repo/unit_test.c:488-531 `compare_signatures`; true for the result 0. -/
def compareSignatures (P : Params) (sig1 sig2 : Signature2) : M Bool := do
  let eq ← memeq sig1.salt sig2.salt P.saltSizeBytes
  if !eq then pure false else do
  if sig1.iSeedInfoLen ≠ sig2.iSeedInfoLen then pure false else do
  let eq ← memeq sig1.iSeedInfo sig2.iSeedInfo sig1.iSeedInfoLen
  if !eq then pure false else do
  if sig1.cvInfoLen ≠ sig2.cvInfoLen then pure false else do
  let eq ← memeq sig1.cvInfo sig2.cvInfo sig1.cvInfoLen
  if !eq then pure false else do
  let eq ← memeqU16 sig1.challengeC sig2.challengeC P.numOpenedRounds
  if !eq then pure false else do
  let eq ← memeqU16 sig1.challengeP sig2.challengeP P.numOpenedRounds
  if !eq then pure false else
  loop (fun t eq => if !eq then pure false else do
    let c ← containsU16 sig1.challengeC P.numOpenedRounds t
    if c then do
      let idx ← indexOfU16 sig1.challengeC P.numOpenedRounds t
      let P_t ← rd sig1.challengeP idx
      let p1 ← rd sig1.proofs t
      let p1 ← deref p1
      let p2 ← rd sig2.proofs t
      let p2 ← deref p2
      compareProofs P p1 p2 (P_t != P.numMPCParties - 1)
    else pure true) P.numMPCRounds true

/-- /repo/unit_test.c:533-596 `test_sig_serialize_picnic3` -/
def testSigSerialize (E : Env) (rng : Rng) (J : CycleJunk) (parameters : Nat) : M Int := do
  let r ← signAndReadBack E rng J parameters
  match r with
  | none => pure 0
  | some (P, sig, _, sig2) => do
    let eq ← compareSignatures P sig sig2
    pure (if eq then 1 else 0)

/-- /repo/unit_test.c:600-667 `do_test_sign`.  The message is a parameter (500 bytes of 0x01 in the program). -/
def doTestSign (E : Env) (J : CycleJunk) (message pkBuf skBuf expectedChallenge expectedSalt : Buf) (expectedSigLen : Nat) : M Int := do
  let (ret, pk) ← picnicReadPublicKey (some J.pk) (some pkBuf) pkBuf.length
  if ret ≠ 0 then pure 0 else do
  let (ret, sk) ← picnicReadPrivateKey (some J.sk) (some skBuf) skBuf.length
  if ret ≠ 0 then pure 0 else do
  let ret ← picnicValidateKeypair { E with junk := J.call 0 } sk pk
  if ret ≠ 0 then pure 0 else do
  let pkv ← deref pk
  let signature_len := picnicSignatureSize pkv.params
  let signature := (List.range signature_len).map J.sig
  let (ret, signature, signature_len) ← picnicSign { E with junk := J.call 1 } sk message message.length signature signature_len
  if ret ≠ 0 then pure 0 else do
  if signature_len ≠ expectedSigLen then pure 0 else do
  let eq ← memeq signature expectedChallenge expectedChallenge.length
  if !eq then pure 0 else do
  let eq ← memeq (signature.drop expectedChallenge.length) expectedSalt expectedSalt.length
  if !eq then pure 0 else do
  let ret ← picnicVerify { E with junk := J.call 2 } pk message message.length signature signature_len
  if ret ≠ 0 then pure 0 else pure 1

/-- /repo/unit_test.c:774-787, one turn of the loop, for the byte `l` and the junk of this call: `none` once an altered signature has been
accepted (`return 0`). -/
def modifyByte (E : Env) (pk : Option PublicKey) (message : Buf) (signature_len l : Nat) (signature : Option Buf) : M (Option Buf) :=
  match signature with
  | none => pure none
  | some signature => do
    let v ← rd signature l
    let signature ← wr signature l (v + 1)
    let ret ← picnicVerify E pk message message.length signature signature_len
    if ret = 0 then pure none else do
    let v ← rd signature l
    let signature ← wr signature l (v - 1)
    pure (some signature)

/-- /repo/unit_test.c:737-794 `picnic_test_modified_signatures`.  The message is a parameter (500 equal bytes in the program).  The loop
`for (l = 0; l < signature_len; l += signature_len/50)` has ⌈signature_len / (signature_len/50)⌉ turns; it does not end if the step is 0. -/
def testModifiedSignatures (E : Env) (rng : Rng) (J : CycleJunk) (parameters : Nat) (message : Buf) : M Int := do
  let max_signature_size := picnicSignatureSize parameters
  if max_signature_size = 0 then pure 0 else do
  let (ret, pk, sk) ← picnicKeygen { E with junk := J.call 0 } rng parameters (some J.pk) (some J.sk)
  if ret ≠ 0 then pure 0 else do
  let signature := (List.range max_signature_size).map J.sig
  let (ret, signature, signature_len) ← picnicSign { E with junk := J.call 1 } sk message message.length signature max_signature_size
  if ret ≠ 0 then pure 0 else do
  let ret ← picnicVerify { E with junk := J.call 2 } pk message message.length signature signature_len
  if ret ≠ 0 then pure 0 else do
  let step := signature_len / 50
  if step = 0 then .diverge else do
  let r ← loop (fun i => modifyByte { E with junk := J.call (3 + i) } pk message signature_len (i * step))
    ((signature_len + (step - 1)) / step) (some signature)
  pure (if r.isNone then 0 else 1)

end Picnic
