import Verif.Model.LeakApi
import Verif.Model.LeakKeccakP
import Mathlib.Tactic.CasesM

/-
Functions that publish nothing.
-/

namespace Picnic.Leak

open Lean Elab Tactic Meta

variable {α β σ : Type}

/-- nothing is published -/
def Quiet (m : LM α) : Prop := m.pub = []

theorem q_ok {a : α} : Quiet (LM.ok a) := rfl
theorem q_pure {a : α} : Quiet (pure a : LM α) := rfl
theorem q_ub {k : UB} : Quiet (LM.ub k : LM α) := rfl
theorem q_abort : Quiet (LM.abort : LM α) := rfl
theorem q_diverge : Quiet (LM.diverge : LM α) := rfl
theorem q_tell {e : Ev} : Quiet (LM.tell e) := rfl
theorem q_note {b : Bool} : Quiet (note b) := rfl

theorem q_bind' {m : LM α} {f : α → LM β} (h : Quiet m) (hf : ∀ a, Quiet (f a)) : Quiet (LM.bind m f) := by
  unfold LM.bind Quiet at *
  cases m.out <;> simp_all

theorem q_bind {m : LM α} {f : α → LM β} (h : Quiet m) (hf : ∀ a, Quiet (f a)) : Quiet (m >>= f) := q_bind' h hf

theorem q_ite {c : Prop} [Decidable c] {a b : LM α} (ha : Quiet a) (hb : Quiet b) : Quiet (LM.ite c a b) := by
  unfold LM.ite
  refine q_bind' q_tell fun _ => ?_
  split <;> assumption

theorem q_assertM {b : Bool} : Quiet (assertM b) := q_ite q_ok q_abort

theorem q_rd {a : List α} {i : Nat} : Quiet (rd a i) := by
  refine q_bind' q_tell fun _ => ?_
  split
  · exact q_ok
  · exact q_ub

theorem q_wr {a : List α} {i : Nat} {x : α} : Quiet (wr a i x) := by
  refine q_bind' q_tell fun _ => ?_
  split
  · exact q_ok
  · exact q_ub

theorem q_rdN {a : Buf} {i n : Nat} : Quiet (rdN a i n) := by
  refine q_bind' q_tell fun _ => ?_
  split
  · exact q_ok
  · exact q_ub

theorem q_wrN {a d : Buf} {i : Nat} : Quiet (wrN a i d) := by
  refine q_bind' q_tell fun _ => ?_
  split
  · exact q_ok
  · exact q_ub

theorem q_memcpy {a b : Buf} {i j n : Nat} : Quiet (memcpy a i b j n) := q_bind q_rdN fun _ => q_wrN
theorem q_memeq {a b : Buf} {n : Nat} : Quiet (memeq a b n) := q_bind q_rdN fun _ => q_bind q_rdN fun _ => q_pure

theorem q_iterate {f : Nat → σ → M σ} {n : Nat} {s : σ} (h : ∀ i s, Quiet (f i s)) : Quiet (iterate f n s) := by
  induction n with
  | zero => exact q_ok
  | succ n ih => exact q_bind ih fun _ => h _ _

theorem q_loop {f : Nat → σ → M σ} {n : Nat} {s : σ} (h : ∀ i s, Quiet (f i s)) : Quiet (loop f n s) :=
  q_bind q_tell fun _ => q_iterate h

theorem q_loopFrom {f : Nat → σ → M σ} {n m : Nat} {s : σ} (h : ∀ i s, Quiet (f i s)) : Quiet (loopFrom n m f s) :=
  q_bind q_tell fun _ => q_iterate fun _ _ => h _ _

theorem q_loopDown {f : Nat → σ → M σ} {n : Nat} {s : σ} (h : ∀ i s, Quiet (f i s)) : Quiet (loopDown f n s) := by
  refine q_bind q_tell fun _ => ?_
  induction n generalizing s with
  | zero => exact q_ok
  | succ n ih => exact q_bind (h _ _) fun _ => ih

theorem q_collect {f : Nat → M α} {n : Nat} (h : ∀ i, Quiet (f i)) : Quiet (collect f n) := by
  refine q_bind q_tell fun _ => ?_
  induction n with
  | zero => exact q_ok
  | succ n ih => exact q_bind ih fun _ => q_bind (h _) fun _ => q_pure

theorem q_foldL {l : List α} {f : σ → α → M σ} {s : σ} (h : ∀ s x, Quiet (f s x)) : Quiet (foldL l f s) := by
  induction l generalizing s with
  | nil => exact q_bind q_note fun _ => q_pure
  | cons x l ih => exact q_bind q_note fun _ => q_bind (h _ _) fun _ => ih

/-- apply the lemma about the function the run starts with -/
elab "quietf" : tactic => withMainContext do
  let g ← getMainGoal
  let t := (← instantiateMVars (← g.getType)).consumeMData
  unless t.isAppOf ``Quiet do throwError "not a goal about a run"
  let m := (t.getArg! 1).consumeMData
  let env ← getEnv
  let name := if m.isAppOf ``Bind.bind then ``q_bind else if m.isAppOf ``Pure.pure then ``q_pure else
    match m.getAppFn.consumeMData with
    | .const (.str p s) _ => if p == ``LM then .str `Picnic.Leak ("q_" ++ s) else .str p ("q_" ++ s)
    | _ => .anonymous
  if env.contains name then
    let hs ← g.apply (← mkConstWithFreshMVarLevels name)
    replaceMainGoal (← hs.filterM fun g => not <$> g.isAssigned)
  else
    for d in ← getLCtx do
      unless d.isImplementationDetail do
        let concl := (← instantiateMVars d.type).consumeMData.getForallBody.consumeMData
        if concl.isAppOf ``Quiet && (concl.getArg! 1).getAppFn.consumeMData == m.getAppFn.consumeMData then
          let hs ← g.apply d.toExpr
          replaceMainGoal (← hs.filterM fun g => not <$> g.isAssigned)
          return
    throwError "no lemma for {m.getAppFn}"

elab "quietpi" : tactic => withMainContext do
  let t ← instantiateMVars (← (← getMainGoal).getType)
  unless t.consumeMData.isForall do throwError "not a quantifier"

macro "quiet" : tactic => `(tactic| (
  try dsimp only
  repeat' first
    | quietf
    | (quietpi; intro _; try dsimp only)
    | split))

theorem q_ldw {b : Buf} {i : Nat} : Quiet (ldw b i) := by unfold ldw; quiet
theorem q_stw {b : Buf} {i : Nat} {w : U32} : Quiet (stw b i w) := by unfold stw; quiet
theorem q_u16ofBytes {b : Buf} : Quiet (u16ofBytes b) := by unfold u16ofBytes; quiet

theorem q_loop55 {f : Nat → Nat → σ → M σ} {s : σ} (h : ∀ x y s, Quiet (f x y s)) : Quiet (loop55 f s) :=
  q_loop fun _ _ => q_loop fun _ _ => h _ _ _

theorem q_rolB {a : Lane} {offset : Nat} : Quiet (rolB a offset) := by
  unfold rolB
  quiet

theorem q_kTheta {A : List Lane} : Quiet (kTheta A) := by
  unfold kTheta
  quiet

theorem q_kRho {A : List Lane} : Quiet (kRho A) := by
  unfold kRho
  quiet

theorem q_kPi {A : List Lane} : Quiet (kPi A) := by
  unfold kPi
  quiet

theorem q_kChi {A : List Lane} : Quiet (kChi A) := by
  unfold kChi
  quiet

theorem q_kIota {A : List Lane} {indexRound : Nat} : Quiet (kIota A indexRound) := by
  unfold kIota
  quiet

theorem q_keccakRound {A : List Lane} {indexRound : Nat} : Quiet (keccakRound A indexRound) := by
  unfold keccakRound
  quiet

theorem q_keccakOnWords {A : List Lane} {nrRounds : Nat} : Quiet (keccakOnWords A nrRounds) := by
  unfold keccakOnWords
  quiet

theorem q_ldLane {b : Buf} {i : Nat} : Quiet (ldLane b i) := by
  unfold ldLane
  quiet

theorem q_keccakPermute24 {state : Buf} : Quiet (keccakPermute24 state) := by
  unfold keccakPermute24
  quiet

theorem q_getBit {array : Buf} {bitNumber : Nat} : Quiet (getBit array bitNumber) := by
  unfold getBit
  quiet

theorem q_setBit {bytes : Buf} {bitNumber : Nat} {val : Byte} : Quiet (setBit bytes bitNumber val) := by
  unfold setBit
  quiet

theorem q_zeroTrailingBits {data : Buf} {bitLength : Nat} : Quiet (zeroTrailingBits data bitLength) := by
  unfold zeroTrailingBits
  quiet

theorem q_xorArray {out : Buf} {in1 : Buf} {in2 : Buf} {length : Nat} : Quiet (xorArray out in1 in2 length) := by
  unfold xorArray
  quiet

theorem q_xorThree {output : Buf} {in1 : Buf} {in2 : Buf} {in3 : Buf} {lenBytes : Nat}
    : Quiet (xorThree output in1 in2 in3 lenBytes) := by
  unfold xorThree
  quiet

theorem q_parityWords {data : Buf} {len : Nat} : Quiet (parityWords data len) := by
  unfold parityWords
  quiet

theorem q_matrixRow {state : Buf} {matrix : Buf} {P : Params} {i : Nat} : Quiet (matrixRow state matrix P i) := by
  unfold matrixRow
  quiet

theorem q_matrixMul {temp : Buf} {output : Buf} {state : Buf} {matrix : Buf} {P : Params}
    : Quiet (matrixMul temp output state matrix P) := by
  unfold matrixMul
  quiet

theorem q_substitution {state : Buf} {P : Params} : Quiet (substitution state P) := by
  unfold substitution
  quiet

theorem q_lowMCEnc {E : Env} {P : Params} {plaintext : Buf} {output : Buf} {key : Buf}
    : Quiet (lowMCEnc E P plaintext output key) := by
  unfold lowMCEnc
  quiet

theorem q_permute {E : Env} {state : Buf} : Quiet (permute E state) := by
  unfold permute
  quiet

theorem q_addByte {state : Buf} {byte : Byte} {offset : Nat} : Quiet (addByte state byte offset) := by
  unfold addByte
  quiet

theorem q_addBytes {state : Buf} {data : Buf} {doff : Nat} {offset : Nat} {length : Nat}
    : Quiet (addBytes state data doff offset length) := by
  unfold addBytes
  quiet

theorem q_extractBytes {state : Buf} {offset : Nat} {length : Nat} : Quiet (extractBytes state offset length) := by
  unfold extractBytes
  quiet

theorem q_absorbBlocks {E : Env} {data : Buf} {rateInBytes : Nat} {dataByteLen : Nat} {x0 : Nat} {x1 : Nat}
    {x2 : Buf} : Quiet (absorbBlocks E data rateInBytes dataByteLen x0 x1 x2) := by
  induction x0 generalizing x1 x2 with
  | zero => unfold absorbBlocks; quiet
  | succ n ih => unfold absorbBlocks; quiet

theorem q_absorbLoop {E : Env} {data : Buf} {rateInBytes : Nat} {dataByteLen : Nat} {x0 : Nat} {x1 : Nat}
    {x2 : HashInstance} : Quiet (absorbLoop E data rateInBytes dataByteLen x0 x1 x2) := by
  induction x0 generalizing x1 x2 with
  | zero => unfold absorbLoop; quiet
  | succ n ih => unfold absorbLoop; quiet

theorem q_spongeAbsorb {E : Env} {inst : HashInstance} {data : Buf} {dataByteLen : Nat}
    : Quiet (spongeAbsorb E inst data dataByteLen) := by
  unfold spongeAbsorb
  quiet

theorem q_spongeAbsorbLastFewBits {E : Env} {inst : HashInstance} {delimitedData : Byte}
    : Quiet (spongeAbsorbLastFewBits E inst delimitedData) := by
  unfold spongeAbsorbLastFewBits
  quiet

theorem q_squeezeBlocks {E : Env} {rateInBytes : Nat} {dataByteLen : Nat} {x0 : Nat} {x1 : Nat} {x2 : Buf}
    {x3 : Buf} : Quiet (squeezeBlocks E rateInBytes dataByteLen x0 x1 x2 x3) := by
  induction x0 generalizing x1 x2 x3 with
  | zero => unfold squeezeBlocks; quiet
  | succ n ih => unfold squeezeBlocks; quiet

theorem q_squeezeLoop {E : Env} {rateInBytes : Nat} {dataByteLen : Nat} {x0 : Nat} {x1 : Nat} {x2 : HashInstance}
    {x3 : Buf} : Quiet (squeezeLoop E rateInBytes dataByteLen x0 x1 x2 x3) := by
  induction x0 generalizing x1 x2 x3 with
  | zero => unfold squeezeLoop; quiet
  | succ n ih => unfold squeezeLoop; quiet

theorem q_spongeSqueeze {E : Env} {inst : HashInstance} {dataByteLen : Nat}
    : Quiet (spongeSqueeze E inst dataByteLen) := by
  unfold spongeSqueeze
  quiet

theorem q_hashUpdate {E : Env} {ctx : HashInstance} {data : Buf} {byteLen : Nat}
    : Quiet (hashUpdate E ctx data byteLen) := by
  unfold hashUpdate
  quiet

theorem q_hashInit {E : Env} {P : Params} {hashPrefix : Byte} : Quiet (hashInit E P hashPrefix) := by
  unfold hashInit
  quiet

theorem q_hashFinal {E : Env} {ctx : HashInstance} : Quiet (hashFinal E ctx) := by
  unfold hashFinal
  quiet

theorem q_hashSqueeze {E : Env} {ctx : HashInstance} {byteLen : Nat} : Quiet (hashSqueeze E ctx byteLen) := by
  unfold hashSqueeze
  quiet

theorem q_hashUpdateIntLE {E : Env} {ctx : HashInstance} {x : Nat} : Quiet (hashUpdateIntLE E ctx x) := by
  unfold hashUpdateIntLE
  quiet

theorem q_deref {p : Option α} : Quiet (deref p) := by
  cases p
  · exact q_ub
  · exact q_ok

theorem q_hashAll {E : Env} {P : Params} {hashPrefix : Byte} {parts : List (Buf × Nat)} {outLen : Nat}
    : Quiet (hashAll E P hashPrefix parts outLen) := by
  unfold hashAll
  quiet

theorem q_createRandomTape {E : Env} {P : Params} {seed : Buf} {salt : Buf} {roundNumber : Nat}
    {playerNumber : Nat} {tape : Buf} {tapeLengthBytes : Nat}
    : Quiet (createRandomTape E P seed salt roundNumber playerNumber tape tapeLengthBytes) := by
  unfold createRandomTape
  quiet

theorem q_mpcXor {state : List Buf} {inp : List Buf} {len : Nat} {players : Nat}
    : Quiet (mpcXor state inp len players) := by
  unfold mpcXor
  quiet

theorem q_mpcXorConstant {state : List Buf} {inp : Buf} {len : Nat} : Quiet (mpcXorConstant state inp len) := by
  unfold mpcXorConstant
  quiet

theorem q_mpcMatrixMul {E : Env} {P : Params} {tag : Nat} {output : List Buf} {state : List Buf} {matrix : Buf}
    {players : Nat} : Quiet (mpcMatrixMul E P tag output state matrix players) := by
  unfold mpcMatrixMul
  quiet

theorem q_mpcMatrixMulInPlace {E : Env} {P : Params} {tag : Nat} {state : List Buf} {matrix : Buf}
    {players : Nat} : Quiet (mpcMatrixMulInPlace E P tag state matrix players) := by
  unfold mpcMatrixMulInPlace
  quiet

theorem q_commitView {E : Env} {P : Params} {seed : Buf} {view : View} {hash : Buf}
    : Quiet (commitView E P seed view hash) := by
  unfold commitView
  quiet

theorem q_unruhG {E : Env} {P : Params} {viewNumber : Nat} {seed : Buf} {view : View} {output : Buf}
    : Quiet (unruhG E P viewNumber seed view output) := by
  unfold unruhG
  quiet

theorem q_setChallenge {challenge : Buf} {round : Nat} {trit : Byte}
    : Quiet (setChallenge challenge round trit) := by
  unfold setChallenge
  quiet

theorem q_getChallenge {challenge : Buf} {round : Nat} : Quiet (getChallenge challenge round) := by
  unfold getChallenge
  quiet

theorem q_h3Scan {P : Params} {hash : Buf} {st : H3State} : Quiet (h3Scan P hash st) := by
  unfold h3Scan
  quiet

theorem q_hashUpdateTriples {E : Env} {ctx : HashInstance} {xs : List (List Buf)} {T : Nat}
    {len : Nat → Nat} : Quiet (hashUpdateTriples E ctx xs T len) := by
  unfold hashUpdateTriples
  quiet

theorem q_prove {P : Params} {proof : Proof} {challenge : Byte} {seeds : List Buf} {views : List View}
    {commitments : List Buf} {gs : Option (List Buf)} : Quiet (prove P proof challenge seeds views commitments gs) := by
  unfold prove
  quiet

theorem q_readSboxBits {state : List Buf} {i : Nat} {players : Nat} : Quiet (readSboxBits state i players) := by
  unfold readSboxBits
  quiet

theorem q_writeSboxBits {state : List Buf} {i : Nat} {players : Nat} {a : List Byte} {b : List Byte}
    {c : List Byte} {ab : List Byte} {bc : List Byte} {ca : List Byte}
    : Quiet (writeSboxBits state i players a b c ab bc ca) := by
  unfold writeSboxBits
  quiet

theorem q_setTape {tape : RandomTape} {j : Nat} {src : Buf} {soff : Nat} {n : Nat}
    : Quiet (setTape tape j src soff n) := by
  unfold setTape
  quiet

theorem q_createTapeInto {E : Env} {P : Params} {seed : Buf} {salt : Buf} {roundNumber : Nat} {playerNumber : Nat}
    {tape : RandomTape} {j : Nat} {len : Nat}
    : Quiet (createTapeInto E P seed salt roundNumber playerNumber tape j len) := by
  unfold createTapeInto
  quiet

theorem q_mpcAND {in1 : List Byte} {in2 : List Byte} {rand : RandomTape} {views : List View}
    : Quiet (mpcAND in1 in2 rand views) := by
  unfold mpcAND
  quiet

theorem q_mpcSubstitution {P : Params} {state : List Buf} {rand : RandomTape} {views : List View}
    : Quiet (mpcSubstitution P state rand views) := by
  unfold mpcSubstitution
  quiet

theorem q_mpcLowMC {E : Env} {P : Params} {tag : Nat} {tapes : RandomTape} {views : List View} {plaintext : Buf}
    {slab : Buf} : Quiet (mpcLowMC E P tag tapes views plaintext slab) := by
  unfold mpcLowMC
  quiet

theorem q_computeSeeds {E : Env} {P : Params} {privateKey : Buf} {publicKey : Buf} {plaintext : Buf}
    {message : Buf} {messageByteLength : Nat}
    : Quiet (computeSeeds E P privateKey publicKey plaintext message messageByteLength) := by
  unfold computeSeeds
  quiet

theorem q_seedsOf {P : Params} {slab : Buf} {k : Nat} : Quiet (seedsOf P slab k) := by
  unfold seedsOf
  quiet

theorem q_signTape {E : Env} {P : Params} {seed : Buf} {salt : Buf} {k : Nat} {j : Nat} {view : View} {tmp : Buf}
    {tape : RandomTape} : Quiet (signTape E P seed salt k j view tmp tape) := by
  unfold signTape
  quiet

theorem q_emit {out : Buf × Nat} {src : Buf} {n : Nat} : Quiet (emit out src n) := by
  unfold emit
  quiet

theorem q_containsNode {list : List Nat} {value : Nat} : Quiet (containsNode list value) := by
  induction list with
  | nil => unfold containsNode; quiet
  | cons x l ih => unfold containsNode; quiet

theorem q_treeExists {tree : Tree} {i : Nat} : Quiet (treeExists tree i) := by
  unfold treeExists
  quiet

theorem q_createTree {numLeaves : Nat} {dataSize : Nat} : Quiet (createTree numLeaves dataSize) := by
  unfold createTree
  quiet

theorem q_isLeftChild {node : Nat} : Quiet (isLeftChild node) := by
  unfold isLeftChild
  quiet

theorem q_hasRightChild {tree : Tree} {node : Nat} : Quiet (hasRightChild tree node) := by
  unfold hasRightChild
  quiet

theorem q_getParent {node : Nat} : Quiet (getParent node) := by
  unfold getParent
  quiet

theorem q_getLeaf {tree : Tree} {leafIndex : Nat} : Quiet (getLeaf tree leafIndex) := by
  unfold getLeaf
  quiet

theorem q_hashSeed {E : Env} {P : Params} {inputSeed : Buf} {salt : Buf} {hashPrefix : Byte} {repIndex : Nat}
    {nodeIndex : Nat} : Quiet (hashSeed E P inputSeed salt hashPrefix repIndex nodeIndex) := by
  unfold hashSeed
  quiet

theorem q_setNode {tree : Tree} {i : Nat} {data : Buf} {off : Nat} {n : Nat}
    : Quiet (setNode tree i data off n) := by
  unfold setNode
  quiet

theorem q_expandSeedsStep {E : Env} {P : Params} {salt : Buf} {repIndex : Nat} {i : Nat} {tree : Tree}
    : Quiet (expandSeedsStep E P salt repIndex i tree) := by
  unfold expandSeedsStep
  quiet

theorem q_expandSeeds {E : Env} {P : Params} {tree : Tree} {salt : Buf} {repIndex : Nat}
    : Quiet (expandSeeds E P tree salt repIndex) := by
  unfold expandSeeds
  quiet

theorem q_generateSeeds {E : Env} {P : Params} {nSeeds : Nat} {rootSeed : Buf} {salt : Buf} {repIndex : Nat}
    : Quiet (generateSeeds E P nSeeds rootSeed salt repIndex) := by
  unfold generateSeeds
  quiet

theorem q_hasSibling {tree : Tree} {node : Nat} : Quiet (hasSibling tree node) := by
  unfold hasSibling
  quiet

theorem q_getSibling {tree : Tree} {node : Nat} : Quiet (getSibling tree node) := by
  unfold getSibling
  quiet

theorem q_setPath {ps : PathSets} {pos : Nat} {i : Nat} {node : Nat} : Quiet (setPath ps pos i node) := by
  unfold setPath
  quiet

theorem q_getPath {ps : PathSets} {d : Nat} {i : Nat} : Quiet (getPath ps d i) := by
  unfold getPath
  quiet

theorem q_pathLoop {x0 : Nat} {x1 : Nat} {x2 : Nat} {x3 : Nat} {x4 : PathSets}
    : Quiet (pathLoop x0 x1 x2 x3 x4) := by
  induction x0 generalizing x1 x2 x3 x4 with
  | zero => unfold pathLoop; quiet
  | succ n ih => unfold pathLoop; quiet

theorem q_pathContains {ps : PathSets} {d : Nat} {len : Nat} {value : Nat}
    : Quiet (pathContains ps d len value) := by
  unfold pathContains
  quiet

theorem q_descendLoop {tree : Tree} {x0 : Nat} {x1 : Nat} : Quiet (descendLoop tree x0 x1) := by
  induction x0 generalizing x1 with
  | zero => unfold descendLoop; quiet
  | succ n ih => unfold descendLoop; quiet

theorem q_addRevealed {tree : Tree} {revealed : List Nat} {node : Nat} : Quiet (addRevealed tree revealed node) := by
  unfold addRevealed
  quiet

theorem q_getPathSets {tree : Tree} {hideList : List Nat} {hideListSize : Nat}
    : Quiet (getPathSets tree hideList hideListSize) := by
  unfold getPathSets
  quiet

theorem q_revealStep {tree : Tree} {ps : PathSets} {hideListSize : Nat} {d : Nat} {i : Nat}
    {revealed : List Nat} : Quiet (revealStep tree ps hideListSize d i revealed) := by
  unfold revealStep
  quiet

theorem q_getRevealedNodes {tree : Tree} {hideList : List Nat} {hideListSize : Nat}
    : Quiet (getRevealedNodes tree hideList hideListSize) := by
  unfold getRevealedNodes
  quiet

theorem q_revealSeeds {P : Params} {tree : Tree} {hideList : List Nat} {hideListSize : Nat} {output : Buf}
    {outputSize : Nat} : Quiet (revealSeeds P tree hideList hideListSize output outputSize) := by
  unfold revealSeeds
  quiet

theorem q_computeParentHash {E : Env} {P : Params} {tree : Tree} {child : Nat} {salt : Buf}
    : Quiet (computeParentHash E P tree child salt) := by
  unfold computeParentHash
  quiet

theorem q_setLeaves {tree : Tree} {leafData : List (Option Buf)} {check : Bool}
    : Quiet (setLeaves tree leafData check) := by
  unfold setLeaves
  quiet

theorem q_hashUp {E : Env} {P : Params} {tree : Tree} {salt : Buf} : Quiet (hashUp E P tree salt) := by
  unfold hashUp
  quiet

theorem q_buildMerkleTree {E : Env} {P : Params} {tree : Tree} {leafData : List (Option Buf)} {salt : Buf}
    : Quiet (buildMerkleTree E P tree leafData salt) := by
  unfold buildMerkleTree
  quiet

theorem q_missingNodesOf {tree : Tree} {missingLeaves : List Nat} {missingLeavesSize : Nat}
    : Quiet (missingNodesOf tree missingLeaves missingLeavesSize) := by
  unfold missingNodesOf
  quiet

theorem q_climbLoop {missing : List Bool} {x0 : Nat} {x1 : Nat} : Quiet (climbLoop missing x0 x1) := by
  induction x0 generalizing x1 with
  | zero => unfold climbLoop; quiet
  | succ n ih => unfold climbLoop; quiet

theorem q_getRevealedMerkleNodes {tree : Tree} {missingLeaves : List Nat} {missingLeavesSize : Nat}
    : Quiet (getRevealedMerkleNodes tree missingLeaves missingLeavesSize) := by
  unfold getRevealedMerkleNodes
  quiet

theorem q_openMerkleTree {E : Env} {tree : Tree} {missingLeaves : List Nat} {missingLeavesSize : Nat}
    : Quiet (openMerkleTree E tree missingLeaves missingLeavesSize) := by
  unfold openMerkleTree
  quiet

theorem q_createRandomTapes {E : Env} {P : Params} {seeds : List Buf} {salt : Buf} {t : Nat}
    : Quiet (createRandomTapes E P seeds salt t) := by
  unfold createRandomTapes
  quiet

theorem q_tapesToWord {E : Env} {tapes : RandomTape} : Quiet (tapesToWord E tapes) := by
  unfold tapesToWord
  quiet

theorem q_tapesToWords {E : Env} {numWords : Nat} {tapes : RandomTape} : Quiet (tapesToWords E numWords tapes) := by
  unfold tapesToWords
  quiet

theorem q_tapesToParityBits {E : Env} {output : Buf} {outputBitLen : Nat} {tapes : RandomTape}
    : Quiet (tapesToParityBits E output outputBitLen tapes) := by
  unfold tapesToParityBits
  quiet

theorem q_setTapeBit {tapes : RandomTape} {j : Nat} {bitNumber : Nat} {val : Byte}
    : Quiet (setTapeBit tapes j bitNumber val) := by
  unfold setTapeBit
  quiet

theorem q_auxMpcAND {E : Env} {P : Params} {mask_a : Byte} {mask_b : Byte} {fresh_output_mask : Byte}
    {tapes : RandomTape} : Quiet (auxMpcAND E P mask_a mask_b fresh_output_mask tapes) := by
  unfold auxMpcAND
  quiet

theorem q_auxMpcSbox {E : Env} {P : Params} {inp : Buf} {out : Buf} {tapes : RandomTape}
    : Quiet (auxMpcSbox E P inp out tapes) := by
  unfold auxMpcSbox
  quiet

theorem q_computeAuxTape {E : Env} {P : Params} {tag : Nat} {tapes : RandomTape} {inputs : Option Buf}
    : Quiet (computeAuxTape E P tag tapes inputs) := by
  unfold computeAuxTape
  quiet

theorem q_commit {E : Env} {P : Params} {digest : Buf} {seed : Buf} {aux : Option Buf} {salt : Buf} {t : Nat}
    {j : Nat} : Quiet (commit E P digest seed aux salt t j) := by
  unfold commit
  quiet

theorem q_commitH {E : Env} {P : Params} {digest : Buf} {C : List Buf} : Quiet (commitH E P digest C) := by
  unfold commitH
  quiet

theorem q_commitV {E : Env} {P : Params} {digest : Buf} {input : Buf} {msgs : Msgs}
    : Quiet (commitV E P digest input msgs) := by
  unfold commitV
  quiet

theorem q_wordToMsgs {P : Params} {w : U16} {msgs : Msgs} : Quiet (wordToMsgs P w msgs) := by
  unfold wordToMsgs
  quiet

theorem q_mpcAND16 {E : Env} {P : Params} {a : Byte} {b : Byte} {mask_a : U16} {mask_b : U16} {tapes : RandomTape}
    {msgs : Msgs} : Quiet (mpcAND16 E P a b mask_a mask_b tapes msgs) := by
  unfold mpcAND16
  quiet

theorem q_mpcSbox16 {E : Env} {P : Params} {state : Buf} {state_masks : List U16} {tapes : RandomTape}
    {msgs : Msgs} : Quiet (mpcSbox16 E P state state_masks tapes msgs) := by
  unfold mpcSbox16
  quiet

theorem q_containsU16 {list : List Nat} {len : Nat} {value : Nat} : Quiet (containsU16 list len value) := by
  unfold containsU16
  quiet

theorem q_indexOfU16 {list : List Nat} {len : Nat} {value : Nat} : Quiet (indexOfU16 list len value) := by
  unfold indexOfU16
  quiet

theorem q_getAuxBits {P : Params} {output : Buf} {tapes : RandomTape} : Quiet (getAuxBits P output tapes) := by
  unfold getAuxBits
  quiet

theorem q_bitsToChunks {chunkLenBits : Nat} {input : Buf} {inputLen : Nat} {cap : Nat}
    : Quiet (bitsToChunks chunkLenBits input inputLen cap) := by
  unfold bitsToChunks
  quiet

theorem q_appendUnique {cap : Nat} {list : List Nat} {value : Nat} : Quiet (appendUnique cap list value) := by
  unfold appendUnique
  quiet

theorem q_rehash {E : Env} {P : Params} {h : Buf} : Quiet (rehash E P h) := by
  unfold rehash
  quiet

theorem q_scanC {P : Params} {chunks : List Nat} {challengeC : List Nat} : Quiet (scanC P chunks challengeC) := by
  unfold scanC
  quiet

theorem q_scanP {P : Params} {chunks : List Nat} {challengeP : List Nat} : Quiet (scanP P chunks challengeP) := by
  unfold scanP
  quiet

theorem q_HCPhash {E : Env} {P : Params} {challengeHash : Buf} {Ch : List Buf} {hCv : Buf} {salt : Buf}
    {pubKey : Buf} {plaintext : Buf} {message : Buf} {messageByteLength : Nat}
    : Quiet (HCPhash E P challengeHash Ch hCv salt pubKey plaintext message messageByteLength) := by
  unfold HCPhash
  quiet

theorem q_getMissingLeavesList {P : Params} {challengeC : List Nat} : Quiet (getMissingLeavesList P challengeC) := by
  unfold getMissingLeavesList
  quiet

theorem q_commitInto {E : Env} {P : Params} {C : List Buf} {seeds : Tree} {aux : Option Buf} {salt : Buf}
    {t : Nat} {j : Nat} : Quiet (commitInto E P C seeds aux salt t j) := by
  unfold commitInto
  quiet

theorem q_computeSaltAndRootSeed {E : Env} {P : Params} {saltAndRoot : Buf} {saltAndRootLength : Nat}
    {privateKey : Buf} {pubKey : Buf} {plaintext : Buf} {message : Buf} {messageByteLength : Nat}
    : Quiet (computeSaltAndRootSeed E P saltAndRoot saltAndRootLength privateKey pubKey plaintext message messageByteLength) := by
  unfold computeSaltAndRootSeed
  quiet

theorem q_signPrep {E : Env} {P : Params} {iSeedsTree : Tree} {salt : Buf} {t : Nat}
    : Quiet (signPrep E P iSeedsTree salt t) := by
  unfold signPrep
  quiet

theorem q_signProof {E : Env} {P : Params} {challengeC : List Nat} {challengeP : List Nat} {p : Prep}
    {maskedKey : Buf} {msgs : Msgs} {t : Nat} : Quiet (signProof E P challengeC challengeP p maskedKey msgs t) := by
  unfold signProof
  quiet

theorem q_proofsSize {P : Params} {challengeC challengeP : List Nat} {seedInfoLen : Nat → M Nat} {start : Nat}
    (h : ∀ t, Quiet (seedInfoLen t)) : Quiet (proofsSize P challengeC challengeP seedInfoLen start) := by
  unfold proofsSize
  quiet

theorem q_serializeSignature2 {P : Params} {sig : Signature2} {sigBytes : Buf} {sigBytesLen : Nat}
    : Quiet (serializeSignature2 P sig sigBytes sigBytesLen) := by
  unfold serializeSignature2
  quiet

theorem q_picnicKeygen {E : Env} {rng : Rng} {parameters : Nat} {pk : Option PublicKey}
    {sk : Option PrivateKey} : Quiet (picnicKeygen E rng parameters pk sk) := by
  unfold picnicKeygen
  quiet

theorem q_picnicWritePrivateKey {key : Option PrivateKey} {buf : Option Buf} {buflen : Nat}
    : Quiet (picnicWritePrivateKey key buf buflen) := by
  unfold picnicWritePrivateKey
  quiet

end Picnic.Leak
