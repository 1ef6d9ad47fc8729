import Verif.Model.LeakHash
import Verif.Model.LeakLowMC
import Verif.Model.Zkb

/-
Model/Zkb (the prover) with observations.
-/

namespace Picnic.Leak

/-- dereference of a possibly NULL pointer (for example `proof->view3UnruhG`, NULL in /repo/picnic_types.c:106) -/
def deref {α : Type} (p : Option α) : M α :=
  match p with
  | some a => .ok a
  | none => .ub .nullDeref

/-- Hash the given (object, length) pairs after the prefix and squeeze `outLen` bytes: the recurring C sequence
HashInit; HashUpdate*; HashFinal; HashSqueeze.  Used only where the C code performs exactly this sequence.  As in /repo/picnic_impl.c:288-307. -/
def hashAll (E : Env) (P : Params) (hashPrefix : Byte) (parts : List (Buf × Nat)) (outLen : Nat) : M Buf := do
  let ctx ← hashInit E P hashPrefix
  let ctx ← foldL parts (fun ctx (p : Buf × Nat) => hashUpdate E ctx p.1 p.2) ctx
  let ctx ← hashFinal E ctx
  let (_, out) ← hashSqueeze E ctx outLen
  pure out

/-- /repo/picnic_impl.c:234-261 `createRandomTape`; `tape` is the destination buffer. -/
def createRandomTape (E : Env) (P : Params) (seed salt : Buf) (roundNumber playerNumber : Nat)
    (tape : Buf) (tapeLengthBytes : Nat) : M (Bool × Buf) :=
  ifB tapeLengthBytes < P.digestSizeBytes then pure (false, tape)
  else do
    let d ← hashAll E P HASH_PREFIX_2 [(seed, P.seedSizeBytes)] P.digestSizeBytes
    let tape ← wrN tape 0 d
    let out ← hashAll E P HASH_PREFIX_NONE
      [(tape, P.digestSizeBytes), (salt, P.saltSizeBytes), intLE roundNumber, intLE playerNumber,
       intLE tapeLengthBytes] tapeLengthBytes
    let tape ← wrN tape 0 out
    pure (true, tape)

/-- /repo/picnic_impl.c:263-268 `mpc_xor` -/
def mpcXor (state inp : List Buf) (len players : Nat) : M (List Buf) :=
  loop (fun i state => do
    let s ← rd state i
    let x ← rd inp i
    let s' ← xorArray s s x len
    wr state i s') players state

/-- /repo/picnic_impl.c:271-274 `mpc_xor_constant` -/
def mpcXorConstant (state : List Buf) (inp : Buf) (len : Nat) : M (List Buf) := do
  let s ← rd state 0
  let s' ← xorArray s s inp len
  wr state 0 s'

/-- /repo/picnic_impl.c:509-515 `mpc_matrix_mul`; `tag` names the uninitialised scratch arrays. -/
def mpcMatrixMul (E : Env) (P : Params) (tag : Nat) (output state : List Buf) (matrix : Buf) (players : Nat) :
    M (List Buf) :=
  loop (fun player output => do
    let o ← rd output player
    let s ← rd state player
    let o' ← matrixMul (E.junkBuf siteMatTemp (3 * tag + player) LOWMC_MAX_STATE_SIZE) o s matrix P
    wr output player o') players output

/-- `mpc_matrix_mul(state, state, ...)`: the output arrays alias the inputs (used at /repo/picnic_impl.c:542 and
:792); player i reads `state[i]` before it is overwritten. -/
def mpcMatrixMulInPlace (E : Env) (P : Params) (tag : Nat) (state : List Buf) (matrix : Buf) (players : Nat) :
    M (List Buf) :=
  loop (fun player state => do
    let s ← rd state player
    let s' ← matrixMul (E.junkBuf siteMatTemp (3 * tag + player) LOWMC_MAX_STATE_SIZE) s s matrix P
    wr state player s') players state

/-- /repo/picnic_impl.c:288-307 `Commit`; `hash` is the destination buffer. -/
def commitView (E : Env) (P : Params) (seed : Buf) (view : View) (hash : Buf) : M Buf := do
  let d ← hashAll E P HASH_PREFIX_4 [(seed, P.seedSizeBytes)] P.digestSizeBytes
  let hash ← wrN hash 0 d
  let d ← hashAll E P HASH_PREFIX_0
    [(hash, P.digestSizeBytes), (view.inputShare, P.stateSizeBytes), (view.communicatedBits, P.andSizeBytes),
     (view.outputShare, P.stateSizeBytes)] P.digestSizeBytes
  wrN hash 0 d

/-- /repo/picnic_impl.c:310-334 `G`; `output` is the destination buffer.  `outputBytes` is a `uint16_t`; its values
are at most 32+143+32. -/
def unruhG (E : Env) (P : Params) (viewNumber : Nat) (seed : Buf) (view : View) (output : Buf) : M Buf := do
  let outputBytes := P.seedSizeBytes + P.andSizeBytes
  let d ← hashAll E P HASH_PREFIX_5 [(seed, P.seedSizeBytes)] P.digestSizeBytes
  let output ← wrN output 0 d
  note (decide (viewNumber = 2))
  let outputBytes := if viewNumber = 2 then outputBytes + P.stateSizeBytes else outputBytes
  let d ← hashAll E P HASH_PREFIX_NONE
    ([(output, P.digestSizeBytes)] ++
     (if viewNumber = 2 then [(view.inputShare, P.stateSizeBytes)] else []) ++
     [(view.communicatedBits, P.andSizeBytes), intLE outputBytes]) (outputBytes % 2 ^ 16)
  wrN output 0 d

/-- /repo/picnic_impl.c:336-345 `setChallenge` -/
def setChallenge (challenge : Buf) (round : Nat) (trit : Byte) : M Buf := do
  let challenge ← setBit challenge (2 * round) (trit &&& 1)
  setBit challenge (2 * round + 1) ((trit >>> 1) &&& 1)

/-- /repo/picnic_impl.c:347-352 `getChallenge` -/
def getChallenge (challenge : Buf) (round : Nat) : M Byte := do
  let hi ← getBit challenge (2 * round + 1)
  let lo ← getBit challenge (2 * round)
  pure ((hi <<< 1) ||| lo)

/-- /repo/picnic_impl.c:406-419, one pass over the bytes of `hash`. -/
def h3Scan (P : Params) (hash : Buf) (st : H3State) : M H3State :=
  loop (fun i st =>
    ifB st.done then pure st else do
      let byte ← rd hash i
      loop (fun j st =>
        ifB st.done then pure st else
          let bitPair := (byte >>> (6 - 2 * j)) &&& 0x03
          ifB bitPair.toNat < 3 then do
            let ch ← setChallenge st.challengeBits st.round bitPair
            pure { challengeBits := ch, round := st.round + 1, done := st.round + 1 = P.numMPCRounds }
          else pure st) 4 st) P.digestSizeBytes st

/-- /repo/picnic_impl.c:405-426, the `while (1)` loop; `n` is the number of iterations granted. -/
def h3Loop (E : Env) (P : Params) : Nat → Buf → H3State → M Buf
  | 0, _, _ => .diverge
  | n + 1, hash, st => do
    LM.publish (.bytes hash)
    let st ← h3Scan P hash st
    ifB st.done then pure st.challengeBits
    else do
      let hash' ← hashAll E P HASH_PREFIX_1 [(hash, P.digestSizeBytes)] P.digestSizeBytes
      h3Loop E P n hash' st

/-- `for i < T: for j < 3: HashUpdate(ctx, get(i,j), len(j))`, /repo/picnic_impl.c:369-390 -/
def hashUpdateTriples (E : Env) (ctx : HashInstance) (xs : List (List Buf)) (T : Nat) (len : Nat → Nat) :
    M HashInstance :=
  loop (fun i ctx => do
    let row ← rd xs i
    loop (fun j ctx => do
      let b ← rd row j
      hashUpdate E ctx b (len j)) 3 ctx) T ctx

/-- /repo/picnic_impl.c:354-432 `H3`; `challengeBits` is the destination buffer. -/
def H3 (E : Env) (P : Params) (circuitOutput plaintext : Buf) (viewOutputs as : List (List Buf))
    (challengeBits salt message : Buf) (messageByteLength : Nat) (gs : Option (List (List Buf))) : M Buf := do
  let challengeBits ← wr challengeBits (numBytes (P.numMPCRounds * 2) - 1) 0
  let ctx ← hashInit E P HASH_PREFIX_1
  let ctx ← hashUpdateTriples E ctx viewOutputs P.numMPCRounds (fun _ => P.stateSizeBytes)
  let ctx ← hashUpdateTriples E ctx as P.numMPCRounds (fun _ => P.digestSizeBytes)
  let ctx ← ifB P.transform = .UR then do
      let gs ← deref gs
      hashUpdateTriples E ctx gs P.numMPCRounds
        (fun j => if j = 2 then P.unruhGWithInputBytes else P.unruhGWithoutInputBytes)
    else pure ctx
  let ctx ← hashUpdate E ctx circuitOutput P.stateSizeBytes
  let ctx ← hashUpdate E ctx plaintext P.stateSizeBytes
  let ctx ← hashUpdate E ctx salt P.saltSizeBytes
  let ctx ← hashUpdate E ctx message messageByteLength
  let ctx ← hashFinal E ctx
  let (_, hash) ← hashSqueeze E ctx P.digestSizeBytes
  h3Loop E P E.fuel hash { challengeBits := challengeBits, round := 0, done := false }

/-- /repo/picnic_impl.c:435-464 `prove`; `proof` is the destination. -/
def prove (P : Params) (proof : Proof) (challenge : Byte) (seeds : List Buf) (views : List View)
    (commitments : List Buf) (gs : Option (List Buf)) : M Proof := do
  let proof ←
    ifB challenge = 0 then do
      let s ← rd seeds 0
      let seed1 ← memcpy proof.seed1 0 s 0 P.seedSizeBytes
      let s ← rd seeds 1
      let seed2 ← memcpy proof.seed2 0 s 0 P.seedSizeBytes
      pure { proof with seed1 := seed1, seed2 := seed2 }
    else ifB challenge = 1 then do
      let s ← rd seeds 1
      let seed1 ← memcpy proof.seed1 0 s 0 P.seedSizeBytes
      let s ← rd seeds 2
      let seed2 ← memcpy proof.seed2 0 s 0 P.seedSizeBytes
      pure { proof with seed1 := seed1, seed2 := seed2 }
    else ifB challenge = 2 then do
      let s ← rd seeds 2
      let seed1 ← memcpy proof.seed1 0 s 0 P.seedSizeBytes
      let s ← rd seeds 0
      let seed2 ← memcpy proof.seed2 0 s 0 P.seedSizeBytes
      pure { proof with seed1 := seed1, seed2 := seed2 }
    else .abort
  let proof ←
    do
    note (decide (challenge = 1))
    ifB challenge = 1 ∨ challenge = 2 then do
      let v ← rd views 2
      let inputShare ← memcpy proof.inputShare 0 v.inputShare 0 P.stateSizeBytes
      pure { proof with inputShare := inputShare }
    else pure proof
  let v ← rd views ((challenge.toNat + 1) % 3)
  let communicatedBits ← memcpy proof.communicatedBits 0 v.communicatedBits 0 P.andSizeBytes
  let h ← rd commitments ((challenge.toNat + 2) % 3)
  let view3Commitment ← memcpy proof.view3Commitment 0 h 0 P.digestSizeBytes
  let proof := { proof with communicatedBits := communicatedBits, view3Commitment := view3Commitment }
  ifB P.transform = .UR then do
    note (decide (challenge = 0))
    let len := if challenge = 0 then P.unruhGWithInputBytes else P.unruhGWithoutInputBytes
    let gs ← deref gs
    let g ← rd gs ((challenge.toNat + 2) % 3)
    let dst ← deref proof.view3UnruhG
    let dst ← memcpy dst 0 g 0 len
    pure { proof with view3UnruhG := some dst }
  else pure proof

/-- The three bits a[j], b[j], c[j] of each share: /repo/picnic_impl.c:487-491 and :734-738. -/
def readSboxBits (state : List Buf) (i players : Nat) : M (List Byte × List Byte × List Byte) := do
  let a ← collect (fun j => do let s ← rd state j; getBit s (i + 2)) players
  let b ← collect (fun j => do let s ← rd state j; getBit s (i + 1)) players
  let c ← collect (fun j => do let s ← rd state j; getBit s i) players
  pure (a, b, c)

/-- The S-box outputs of each share: /repo/picnic_impl.c:501-505 and :744-748. -/
def writeSboxBits (state : List Buf) (i players : Nat) (a b c ab bc ca : List Byte) : M (List Buf) :=
  loop (fun j state => do
    let s ← rd state j
    let aj ← rd a j
    let bj ← rd b j
    let cj ← rd c j
    let abj ← rd ab j
    let bcj ← rd bc j
    let caj ← rd ca j
    let s ← setBit s (i + 2) (aj ^^^ bcj)
    let s ← setBit s (i + 1) (aj ^^^ bj ^^^ caj)
    let s ← setBit s i (aj ^^^ bj ^^^ cj ^^^ abj)
    wr state j s) players state

/-- `memcpy(tape->tape[j], tmp + stateSizeBytes, andSizeBytes)` (/repo/picnic_impl.c:564, 571, 580, 599, 901) -/
def setTape (tape : RandomTape) (j : Nat) (src : Buf) (soff n : Nat) : M RandomTape := do
  let t ← rd tape.tape j
  let t ← memcpy t 0 src soff n
  let ts ← wr tape.tape j t
  pure { tape with tape := ts }

/-- `createRandomTape(seed, ..., tape->tape[j], andSizeBytes, params)` directly into a tape (/repo/picnic_impl.c:581, 592, 905) -/
def createTapeInto (E : Env) (P : Params) (seed salt : Buf) (roundNumber playerNumber : Nat) (tape : RandomTape)
    (j len : Nat) : M (Bool × RandomTape) := do
  let t ← rd tape.tape j
  let (status, t) ← createRandomTape E P seed salt roundNumber playerNumber t len
  let ts ← wr tape.tape j t
  pure (status, { tape with tape := ts })

/-- /repo/picnic_impl.c:706-719 `mpc_AND` -/
def mpcAND (in1 in2 : List Byte) (rand : RandomTape) (views : List View) :
    M (List Byte × RandomTape × List View) := do
  let r ← collect (fun i => do let t ← rd rand.tape i; getBit t rand.pos) 3
  let (out, views) ← loop (fun i (out, views) => do
    let x ← rd in1 i
    let y' ← rd in2 ((i + 1) % 3)
    let x' ← rd in1 ((i + 1) % 3)
    let y ← rd in2 i
    let ri ← rd r i
    let ri' ← rd r ((i + 1) % 3)
    let o := (x &&& y') ^^^ (x' &&& y) ^^^ (x &&& y) ^^^ ri ^^^ ri'
    let v ← rd views i
    let cb ← setBit v.communicatedBits rand.pos o
    let views ← wr views i { v with communicatedBits := cb }
    pure (out ++ [o], views)) 3 (([] : List Byte), views)
  pure (out, { rand with pos := rand.pos + 1 }, views)

/-- /repo/picnic_impl.c:721-750 `mpc_substitution` -/
def mpcSubstitution (P : Params) (state : List Buf) (rand : RandomTape) (views : List View) :
    M (List Buf × RandomTape × List View) :=
  loop (fun k (state, rand, views) => do
    let i := 3 * k
    let (a, b, c) ← readSboxBits state i 3
    let (ab, rand, views) ← mpcAND a b rand views
    let (bc, rand, views) ← mpcAND b c rand views
    let (ca, rand, views) ← mpcAND c a rand views
    let state ← writeSboxBits state i 3 a b c ab bc ca
    pure (state, rand, views)) P.numSboxes (state, rand, views)

/-- /repo/picnic_impl.c:767-800 `mpc_LowMC`; returns the views. -/
def mpcLowMC (E : Env) (P : Params) (tag : Nat) (tapes : RandomTape) (views : List View) (plaintext slab : Buf) :
    M (List View × RandomTape) := do
  let C := E.lowmc P
  let _ ← wrN slab 0 (zeros (6 * P.stateSizeWords * 4))
  let roundKey := List.replicate 3 (zeros (P.stateSizeWords * 4))
  let state := List.replicate 3 (zeros (P.stateSizeWords * 4))
  let keyShares ← collect (fun i => do let v ← rd views i; pure v.inputShare) 3
  let state ← mpcXorConstant state plaintext P.stateSizeWords
  let roundKey ← mpcMatrixMul E P (100 * tag) roundKey keyShares (C.K 0) 3
  let state ← mpcXor state roundKey P.stateSizeWords 3
  let (state, _, tapes, views) ← loopFrom 1 (P.numRounds + 1) (fun r (state, roundKey, tapes, views) => do
    let roundKey ← mpcMatrixMul E P (100 * tag + 2 * r) roundKey keyShares (C.K r) 3
    let (state, tapes, views) ← mpcSubstitution P state tapes views
    let state ← mpcMatrixMulInPlace E P (100 * tag + 2 * r + 1) state (C.L (r - 1)) 3
    let state ← mpcXorConstant state (C.RC (r - 1)) P.stateSizeWords
    let state ← mpcXor state roundKey P.stateSizeWords 3
    pure (state, roundKey, tapes, views)) (state, roundKey, tapes, views)
  let views ← loop (fun i views => do
    let v ← rd views i
    let s ← rd state i
    let o ← memcpy v.outputShare 0 s 0 P.stateSizeBytes
    wr views i { v with outputShare := o }) 3 views
  pure (views, tapes)

/-- /repo/picnic_impl.c:847-866 `computeSeeds`: the slab holding the `3*numMPCRounds` seeds followed by the salt
(/repo/picnic_types.c:171-205 `allocateSeeds`). -/
def computeSeeds (E : Env) (P : Params) (privateKey publicKey plaintext message : Buf) (messageByteLength : Nat) :
    M Buf := do
  let slab := E.junkBuf siteSeeds 0 (P.numMPCRounds * P.numMPCParties * P.seedSizeBytes + P.saltSizeBytes)
  let out ← hashAll E P HASH_PREFIX_NONE
    [(privateKey, P.stateSizeBytes), (message, messageByteLength), (publicKey, P.stateSizeBytes),
     (plaintext, P.stateSizeBytes), intLE P.stateSizeBits]
    (P.seedSizeBytes * (P.numMPCParties * P.numMPCRounds) + P.saltSizeBytes)
  wrN slab 0 out

/-- The seeds of repetition k inside the slab.  Pointers set up in /repo/picnic_types.c:182-191. -/
def seedsOf (P : Params) (slab : Buf) (k : Nat) : M (List Buf) :=
  collect (fun j => rdN slab ((k * P.numMPCParties + j) * P.seedSizeBytes) P.seedSizeBytes) P.numMPCParties

/-- /repo/picnic_impl.c:892-901, the tape and input share of player j < 2.  Returns none if createRandomTape fails. -/
def signTape (E : Env) (P : Params) (seed salt : Buf) (k j : Nat) (view : View) (tmp : Buf) (tape : RandomTape) :
    M (Option (View × Buf × RandomTape)) := do
  let (status, tmp) ← createRandomTape E P seed salt k j tmp (P.stateSizeBytes + P.andSizeBytes)
  ifB !status then pure none
  else do
    let inp ← memcpy view.inputShare 0 tmp 0 P.stateSizeBytes
    let inp ← zeroTrailingBits inp P.stateSizeBits
    let tape ← setTape tape j tmp P.stateSizeBytes P.andSizeBytes
    pure (some ({ view with inputShare := inp }, tmp, tape))

/-- /repo/picnic_impl.c:890-933, repetition `k` of the loop of `sign_picnic1`; `none` is `return EXIT_FAILURE`. -/
def signRound (E : Env) (P : Params) (privateKey pubKey plaintext salt slab : Buf) (k : Nat) :
    M (Option SignRound) := do
  let seeds ← seedsOf P slab k
  let tmp := E.junkBuf siteScratch k (max (9 * P.stateSizeBytes) (P.stateSizeBytes + P.andSizeBytes))
  let tape := allocateRandomTape E P k
  let s0 ← rd seeds 0
  let r0 ← signTape E P s0 salt k 0 (allocateView P) tmp tape
  match r0 with
  | none => pure none
  | some (v0, tmp, tape) => do
  let s1 ← rd seeds 1
  let r1 ← signTape E P s1 salt k 1 (allocateView P) tmp tape
  match r1 with
  | none => pure none
  | some (v1, tmp, tape) => do
  let s2 ← rd seeds 2
  let (status, tape) ← createTapeInto E P s2 salt k 2 tape 2 P.andSizeBytes
  ifB !status then pure none
  else do
    let v2 := allocateView P
    let inp ← xorThree v2.inputShare privateKey v0.inputShare v1.inputShare P.stateSizeBytes
    let (views, _) ← mpcLowMC E P k { tape with pos := 0 } [v0, v1, { v2 with inputShare := inp }] plaintext tmp
    let v0 ← rd views 0
    let v1 ← rd views 1
    let v2 ← rd views 2
    let temp ← xorThree (zeros LOWMC_MAX_STATE_SIZE) v0.outputShare v1.outputShare v2.outputShare P.stateSizeBytes
    let eq ← memeq temp pubKey P.stateSizeBytes
    LM.publish (.flag eq)
    ifB !eq then pure none
    else do
      let hashes := allocateCommitment E P P.numMPCParties k
      let hashes ← loop (fun j hashes => do
        let s ← rd seeds j
        let v ← rd views j
        let slot ← rd hashes j
        let h ← commitView E P s v slot
        wr hashes j h) 3 hashes
      let gs ← ifB P.transform = .UR then do
          let g ← deref (allocateG E P k)
          let g ← loop (fun j g => do
            let s ← rd seeds j
            let v ← rd views j
            let slot ← rd g j
            let h ← unruhG E P j s v slot
            wr g j h) 3 g
          pure (some g)
        else pure (allocateG E P k)
      pure (some { seeds := seeds, views := views, hashes := hashes, gs := gs })

/-- `for (i = 0; i < n; i++)` whose body may leave the function early (`none`) (as the loop of /repo/picnic_impl.c:889-932 with its `goto`s) -/
def collectOpt {α : Type} (f : Nat → M (Option α)) : Nat → M (Option (List α))
  | 0 => .ok (some [])
  | n + 1 => do
    let l ← collectOpt f n
    match l with
    | none => pure none
    | some l => do
      let x ← f n
      match x with
      | none => pure none
      | some x => pure (some (l ++ [x]))

/-- /repo/picnic_impl.c:869-978 `sign_picnic1`; `none` is EXIT_FAILURE. -/
def signPicnic1 (E : Env) (P : Params) (privateKey pubKey plaintext message : Buf) (messageByteLength : Nat)
    (sig : Signature) : M (Option Signature) := do
  let slab ← computeSeeds E P privateKey pubKey plaintext message messageByteLength
  let salt ← memcpy sig.salt 0 slab (P.numMPCRounds * P.numMPCParties * P.seedSizeBytes) P.saltSizeBytes
  let rounds ← collectOpt (signRound E P privateKey pubKey plaintext salt slab) P.numMPCRounds
  match rounds with
  | none => pure none
  | some rounds => do
    let challengeBits ← H3 E P pubKey plaintext (rounds.map fun r => r.views.map (·.outputShare))
      (rounds.map (·.hashes)) sig.challengeBits salt message messageByteLength (gsArray P (rounds.map (·.gs)))
    let proofs ← collect (fun i => do
      let proof ← rd sig.proofs i
      let c ← getChallenge challengeBits i
      LM.publish (.byte c)
      let r ← rd rounds i
      prove P proof c r.seeds r.views r.hashes r.gs) P.numMPCRounds
    pure (some { proofs := proofs, challengeBits := challengeBits, salt := salt })

/-- Append `n` bytes of `src` to the output: `memcpy(sigBytes, src, n); sigBytes += n`.  /repo/picnic_impl.c:1001-1032. -/
def emit (out : Buf × Nat) (src : Buf) (n : Nat) : M (Buf × Nat) := do
  let b ← memcpy out.1 out.2 src 0 n
  pure (b, out.2 + n)

/-- /repo/picnic_impl.c:982-1038 `serializeSignature`; `none` is -1.  `sigBytesLen` is the length claimed by the
caller for the object `sigBytes`. -/
def serializeSignature (P : Params) (sig : Signature) (sigBytes : Buf) (sigBytesLen : Nat) :
    M (Option (Buf × Nat)) := do
  let bytesRequired := numBytes (2 * P.numMPCRounds) + P.saltSizeBytes +
    P.numMPCRounds * (2 * P.seedSizeBytes + P.stateSizeBytes + P.andSizeBytes + P.digestSizeBytes)
  note (decide (P.transform = .UR))
  let bytesRequired := if P.transform = .UR then bytesRequired + P.unruhGWithoutInputBytes * P.numMPCRounds
    else bytesRequired
  ifB sigBytesLen < bytesRequired then pure none
  else do
    let out ← emit (sigBytes, 0) sig.challengeBits (numBytes (2 * P.numMPCRounds))
    let out ← emit out sig.salt P.saltSizeBytes
    let out ← loop (fun i out => do
      let challenge ← getChallenge sig.challengeBits i
      LM.publish (.byte challenge)
      let proof ← rd sig.proofs i
      let out ← emit out proof.view3Commitment P.digestSizeBytes
      let out ← ifB P.transform = .UR then do
          note (decide (challenge = 0))
          let len := if challenge = 0 then P.unruhGWithInputBytes else P.unruhGWithoutInputBytes
          let g ← deref proof.view3UnruhG
          emit out g len
        else pure out
      let out ← emit out proof.communicatedBits P.andSizeBytes
      let out ← emit out proof.seed1 P.seedSizeBytes
      let out ← emit out proof.seed2 P.seedSizeBytes
      note (decide (challenge = 1))
      ifB challenge = 1 ∨ challenge = 2 then emit out proof.inputShare P.stateSizeBytes
      else pure out) P.numMPCRounds out
    pure (some out)

end Picnic.Leak
