import Verif.Proofs.LeakRel1

/-
The functions of ZKB++ and of the trees in two runs.
-/

namespace Picnic.Leak

attribute [lw] isLeafNode

@[lw] theorem le_allocTape (E E' : Env) (P : Params) (k : Nat) : le (allocateRandomTape E P k) (allocateRandomTape E' P k) ↔ True :=
  ⟨fun _ => trivial, fun _ => ⟨le_map_range _ fun _ _ => by simp only [lw], rfl⟩⟩

@[lw] theorem le_allocCommit (E E' : Env) (P : Params) (n k : Nat) :
    le (allocateCommitment E P n k) (allocateCommitment E' P n k) ↔ True :=
  ⟨fun _ => trivial, fun _ => le_map_range _ fun _ _ => by simp only [lw]⟩

@[lw] theorem le_allocG (E E' : Env) (P : Params) (k : Nat) : le (allocateG E P k) (allocateG E' P k) ↔ True := by
  refine ⟨fun _ => trivial, fun _ => ?_⟩
  unfold allocateG
  split
  · exact le_map_range _ fun _ _ => by simp only [lw]
  · trivial

macro_rules
  | `(tactic| lowx) => `(tactic| exact (le_allocTape _ _ _ _).2 trivial)

macro_rules
  | `(tactic| lowx) => `(tactic| exact le_append (le_append (by simp [lw, *]) (by assumption)) (by simp [lw, *]))

theorem le_gsArray (P : Params) {a b : List (Option (List Buf))} (h : le a b) : le (gsArray P a) (gsArray P b) := by
  unfold gsArray
  split
  · refine le_map h fun x y hxy => ?_
    cases x <;> cases y <;> simp only [lw] at hxy
    · exact LowR.refl _
    · exact hxy
  · trivial

theorem rel_deref [Low α] {p q : Option α} (h : le p q) : Rel le (deref p) (deref q) := by
  cases p <;> cases q <;> simp only [lw] at h
  · exact rel_ub
  · exact rel_ok h

theorem rel_hashAll {E E' : Env} {P : Params} {hashPrefix hashPrefix' : Byte} {parts parts' : List (Buf × Nat)}
    {outLen outLen' : Nat} (hE : EnvRel E E') (h_hashPrefix : hashPrefix = hashPrefix') (h_parts : le parts parts')
    (h_outLen : outLen = outLen') :
    Rel le (hashAll E P hashPrefix parts outLen) (hashAll E' P hashPrefix' parts' outLen') := by
  unfold hashAll
  prep <;> rel

theorem rel_createRandomTape {E E' : Env} {P : Params} {seed seed' : Buf} {salt salt' : Buf}
    {roundNumber roundNumber' : Nat} {playerNumber playerNumber' : Nat} {tape tape' : Buf}
    {tapeLengthBytes tapeLengthBytes' : Nat} (hE : EnvRel E E') (h_seed : le seed seed') (h_salt : le salt salt')
    (h_roundNumber : roundNumber = roundNumber') (h_playerNumber : playerNumber = playerNumber')
    (h_tape : le tape tape') (h_tapeLengthBytes : tapeLengthBytes = tapeLengthBytes') :
    Rel le (createRandomTape E P seed salt roundNumber playerNumber tape tapeLengthBytes) (createRandomTape E' P seed' salt' roundNumber' playerNumber' tape' tapeLengthBytes') := by
  unfold createRandomTape
  prep <;> rel

theorem rel_mpcXor {state state' : List Buf} {inp inp' : List Buf} {len len' : Nat} {players players' : Nat}
    (h_state : le state state') (h_inp : le inp inp') (h_len : len = len') (h_players : players = players') :
    Rel le (mpcXor state inp len players) (mpcXor state' inp' len' players') := by
  unfold mpcXor
  prep <;> rel

theorem rel_mpcXorConstant {state state' : List Buf} {inp inp' : Buf} {len len' : Nat} (h_state : le state state')
    (h_inp : le inp inp') (h_len : len = len') :
    Rel le (mpcXorConstant state inp len) (mpcXorConstant state' inp' len') := by
  unfold mpcXorConstant
  prep <;> rel

theorem rel_mpcMatrixMul {E E' : Env} {P : Params} {tag tag' : Nat} {output output' : List Buf}
    {state state' : List Buf} {matrix matrix' : Buf} {players players' : Nat} (hE : EnvRel E E') (h_tag : tag = tag')
    (h_output : le output output') (h_state : le state state') (h_matrix : le matrix matrix')
    (h_players : players = players') :
    Rel le (mpcMatrixMul E P tag output state matrix players) (mpcMatrixMul E' P tag' output' state' matrix' players') := by
  unfold mpcMatrixMul
  prep <;> rel

theorem rel_mpcMatrixMulInPlace {E E' : Env} {P : Params} {tag tag' : Nat} {state state' : List Buf}
    {matrix matrix' : Buf} {players players' : Nat} (hE : EnvRel E E') (h_tag : tag = tag')
    (h_state : le state state') (h_matrix : le matrix matrix') (h_players : players = players') :
    Rel le (mpcMatrixMulInPlace E P tag state matrix players) (mpcMatrixMulInPlace E' P tag' state' matrix' players') := by
  unfold mpcMatrixMulInPlace
  prep <;> rel

theorem rel_commitView {E E' : Env} {P : Params} {seed seed' : Buf} {view view' : View} {hash hash' : Buf}
    (hE : EnvRel E E') (h_seed : le seed seed') (h_view : le view view') (h_hash : le hash hash') :
    Rel le (commitView E P seed view hash) (commitView E' P seed' view' hash') := by
  unfold commitView
  prep <;> rel

theorem rel_unruhG {E E' : Env} {P : Params} {viewNumber viewNumber' : Nat} {seed seed' : Buf} {view view' : View}
    {output output' : Buf} (hE : EnvRel E E') (h_viewNumber : viewNumber = viewNumber') (h_seed : le seed seed')
    (h_view : le view view') (h_output : le output output') :
    Rel le (unruhG E P viewNumber seed view output) (unruhG E' P viewNumber' seed' view' output') := by
  unfold unruhG
  prep
  by_cases h2 : viewNumber' = 2 <;> simp only [h2, if_true, if_false, List.cons_append, List.nil_append] <;> rel

theorem rel_setChallenge {challenge challenge' : Buf} {round round' : Nat} {trit trit' : Byte}
    (h_challenge : le challenge challenge') (h_round : round = round') :
    Rel le (setChallenge challenge round trit) (setChallenge challenge' round' trit') := by
  unfold setChallenge
  prep <;> rel

theorem rel_getChallenge {challenge challenge' : Buf} {round round' : Nat} (h_challenge : le challenge challenge')
    (h_round : round = round') :
    Rel le (getChallenge challenge round) (getChallenge challenge' round') := by
  unfold getChallenge
  prep <;> rel

theorem rel_h3Scan {P : Params} {hash hash' : Buf} {st st' : H3State} (h_hash : hash = hash') (h_st : le st st') :
    Rel le (h3Scan P hash st) (h3Scan P hash' st') := by
  unfold h3Scan
  prep <;> rel

theorem rel_h3Loop {E E' : Env} {P : Params} {x0 : Nat} {x1 x1' : Buf} {x2 x2' : H3State} (hE : EnvRel E E')
    (h_x1 : le x1 x1') (h_x2 : le x2 x2') :
    Rel le (h3Loop E P x0 x1 x2) (h3Loop E' P x0 x1' x2') := by
  induction x0 generalizing x1 x1' x2 x2' with
  | zero =>
    unfold h3Loop
    prep <;> rel
  | succ n ih =>
    unfold h3Loop
    prep <;> rel

theorem rel_hashUpdateTriples {E E' : Env} {ctx ctx' : HashInstance} {xs xs' : List (List Buf)} {T T' : Nat}
    {len len' : Nat → Nat} (hE : EnvRel E E') (h_ctx : le ctx ctx') (h_xs : le xs xs') (h_T : T = T')
    (h_len : len = len') :
    Rel le (hashUpdateTriples E ctx xs T len) (hashUpdateTriples E' ctx' xs' T' len') := by
  unfold hashUpdateTriples
  prep <;> rel

theorem rel_H3 {E E' : Env} {P : Params} {circuitOutput circuitOutput' : Buf} {plaintext plaintext' : Buf}
    {viewOutputs viewOutputs' : List (List Buf)} {as as' : List (List Buf)} {challengeBits challengeBits' : Buf}
    {salt salt' : Buf} {message message' : Buf} {messageByteLength messageByteLength' : Nat} {gs gs' : Option (List
    (List Buf))} (hE : EnvRel E E') (h_circuitOutput : le circuitOutput circuitOutput')
    (h_plaintext : le plaintext plaintext') (h_viewOutputs : le viewOutputs viewOutputs') (h_as : le as as')
    (h_challengeBits : le challengeBits challengeBits') (h_salt : le salt salt') (h_message : le message message')
    (h_messageByteLength : messageByteLength = messageByteLength') (h_gs : le gs gs') :
    Rel le (H3 E P circuitOutput plaintext viewOutputs as challengeBits salt message messageByteLength gs) (H3 E' P circuitOutput' plaintext' viewOutputs' as' challengeBits' salt' message' messageByteLength' gs') := by
  unfold H3
  rw [hE.fuel]
  prep
  rel

theorem rel_prove {P : Params} {proof proof' : Proof} {challenge challenge' : Byte} {seeds seeds' : List Buf}
    {views views' : List View} {commitments commitments' : List Buf} {gs gs' : Option (List Buf)}
    (h_proof : le proof proof') (h_challenge : challenge = challenge') (h_seeds : le seeds seeds')
    (h_views : le views views') (h_commitments : le commitments commitments') (h_gs : le gs gs') :
    Rel le (prove P proof challenge seeds views commitments gs) (prove P proof' challenge' seeds' views' commitments' gs') := by
  unfold prove
  prep <;> rel

theorem rel_readSboxBits {state state' : List Buf} {i i' : Nat} {players players' : Nat}
    (h_state : le state state') (h_i : i = i') (h_players : players = players') :
    Rel le (readSboxBits state i players) (readSboxBits state' i' players') := by
  unfold readSboxBits
  prep <;> rel

theorem rel_writeSboxBits {state state' : List Buf} {i i' : Nat} {players players' : Nat} {a a' : List Byte}
    {b b' : List Byte} {c c' : List Byte} {ab ab' : List Byte} {bc bc' : List Byte} {ca ca' : List Byte}
    (h_state : le state state') (h_i : i = i') (h_players : players = players') (h_a : le a a') (h_b : le b b')
    (h_c : le c c') (h_ab : le ab ab') (h_bc : le bc bc') (h_ca : le ca ca') :
    Rel le (writeSboxBits state i players a b c ab bc ca) (writeSboxBits state' i' players' a' b' c' ab' bc' ca') := by
  unfold writeSboxBits
  prep <;> rel

theorem rel_setTape {tape tape' : RandomTape} {j j' : Nat} {src src' : Buf} {soff soff' : Nat} {n n' : Nat}
    (h_tape : le tape tape') (h_j : j = j') (h_src : le src src') (h_soff : soff = soff') (h_n : n = n') :
    Rel le (setTape tape j src soff n) (setTape tape' j' src' soff' n') := by
  unfold setTape
  prep <;> rel

theorem rel_createTapeInto {E E' : Env} {P : Params} {seed seed' : Buf} {salt salt' : Buf}
    {roundNumber roundNumber' : Nat} {playerNumber playerNumber' : Nat} {tape tape' : RandomTape} {j j' : Nat}
    {len len' : Nat} (hE : EnvRel E E') (h_seed : le seed seed') (h_salt : le salt salt')
    (h_roundNumber : roundNumber = roundNumber') (h_playerNumber : playerNumber = playerNumber')
    (h_tape : le tape tape') (h_j : j = j') (h_len : len = len') :
    Rel le (createTapeInto E P seed salt roundNumber playerNumber tape j len) (createTapeInto E' P seed' salt' roundNumber' playerNumber' tape' j' len') := by
  unfold createTapeInto
  prep <;> rel

theorem rel_mpcAND {in1 in1' : List Byte} {in2 in2' : List Byte} {rand rand' : RandomTape}
    {views views' : List View} (h_in1 : le in1 in1') (h_in2 : le in2 in2') (h_rand : le rand rand')
    (h_views : le views views') :
    Rel le (mpcAND in1 in2 rand views) (mpcAND in1' in2' rand' views') := by
  unfold mpcAND
  prep <;> rel

theorem rel_mpcSubstitution {P : Params} {state state' : List Buf} {rand rand' : RandomTape}
    {views views' : List View} (h_state : le state state') (h_rand : le rand rand') (h_views : le views views') :
    Rel le (mpcSubstitution P state rand views) (mpcSubstitution P state' rand' views') := by
  unfold mpcSubstitution
  prep <;> rel

theorem rel_mpcLowMC {E E' : Env} {P : Params} {tag tag' : Nat} {tapes tapes' : RandomTape}
    {views views' : List View} {plaintext plaintext' : Buf} {slab slab' : Buf} (hE : EnvRel E E')
    (h_tag : tag = tag') (h_tapes : le tapes tapes') (h_views : le views views')
    (h_plaintext : le plaintext plaintext') (h_slab : le slab slab') :
    Rel le (mpcLowMC E P tag tapes views plaintext slab) (mpcLowMC E' P tag' tapes' views' plaintext' slab') := by
  unfold mpcLowMC
  rw [hE.lowmc]
  prep
  rel

theorem rel_computeSeeds {E E' : Env} {P : Params} {privateKey privateKey' : Buf} {publicKey publicKey' : Buf}
    {plaintext plaintext' : Buf} {message message' : Buf} {messageByteLength messageByteLength' : Nat}
    (hE : EnvRel E E') (h_privateKey : le privateKey privateKey') (h_publicKey : le publicKey publicKey')
    (h_plaintext : le plaintext plaintext') (h_message : le message message')
    (h_messageByteLength : messageByteLength = messageByteLength') :
    Rel le (computeSeeds E P privateKey publicKey plaintext message messageByteLength) (computeSeeds E' P privateKey' publicKey' plaintext' message' messageByteLength') := by
  unfold computeSeeds
  prep <;> rel

theorem rel_seedsOf {P : Params} {slab slab' : Buf} {k k' : Nat} (h_slab : le slab slab') (h_k : k = k') :
    Rel le (seedsOf P slab k) (seedsOf P slab' k') := by
  unfold seedsOf
  prep <;> rel

theorem rel_signTape {E E' : Env} {P : Params} {seed seed' : Buf} {salt salt' : Buf} {k k' : Nat} {j j' : Nat}
    {view view' : View} {tmp tmp' : Buf} {tape tape' : RandomTape} (hE : EnvRel E E') (h_seed : le seed seed')
    (h_salt : le salt salt') (h_k : k = k') (h_j : j = j') (h_view : le view view') (h_tmp : le tmp tmp')
    (h_tape : le tape tape') :
    Rel le (signTape E P seed salt k j view tmp tape) (signTape E' P seed' salt' k' j' view' tmp' tape') := by
  unfold signTape
  prep <;> rel

theorem rel_signRound {E E' : Env} {P : Params} {privateKey privateKey' : Buf} {pubKey pubKey' : Buf}
    {plaintext plaintext' : Buf} {salt salt' : Buf} {slab slab' : Buf} {k k' : Nat} (hE : EnvRel E E')
    (h_privateKey : le privateKey privateKey') (h_pubKey : le pubKey pubKey') (h_plaintext : le plaintext plaintext')
    (h_salt : le salt salt') (h_slab : le slab slab') (h_k : k = k') :
    Rel le (signRound E P privateKey pubKey plaintext salt slab k) (signRound E' P privateKey' pubKey' plaintext' salt' slab' k') := by
  unfold signRound
  prep <;> rel

theorem rel_collectOpt [Low α] {f g : Nat → M (Option α)} {n : Nat} (h : ∀ i < n, Rel le (f i) (g i)) :
    Rel le (collectOpt f n) (collectOpt g n) := by
  induction n with
  | zero => exact rel_ok (by simp only [lw])
  | succ n ih =>
    unfold collectOpt
    refine rel_bind (ih fun i hi => h i (by omega)) fun a b hab => ?_
    cases a <;> cases b <;> simp only [lw] at hab
    · exact rel_pure (by simp only [lw])
    · refine rel_bind (h n (by omega)) fun c d hcd => ?_
      cases c <;> cases d <;> simp only [lw] at hcd
      · exact rel_pure (by simp only [lw])
      · exact rel_pure (by simp only [lw]; exact le_append hab (by simp only [lw]; exact ⟨hcd, trivial⟩))

theorem rel_signPicnic1 {E E' : Env} {P : Params} {privateKey privateKey' : Buf} {pubKey pubKey' : Buf}
    {plaintext plaintext' : Buf} {message message' : Buf} {messageByteLength messageByteLength' : Nat}
    {sig sig' : Signature} (hE : EnvRel E E') (h_privateKey : le privateKey privateKey')
    (h_pubKey : le pubKey pubKey') (h_plaintext : le plaintext plaintext') (h_message : le message message')
    (h_messageByteLength : messageByteLength = messageByteLength') (h_sig : le sig sig') :
    Rel le (signPicnic1 E P privateKey pubKey plaintext message messageByteLength sig) (signPicnic1 E' P privateKey' pubKey' plaintext' message' messageByteLength' sig') := by
  unfold signPicnic1
  prep
  refine rel_bind (rel_computeSeeds hE (by low) (by low) (by low) (by low) rfl) fun _ _ h1 => ?_
  refine rel_bind (rel_memcpy (by low) rfl h1 rfl rfl) fun _ _ h2 => ?_
  refine rel_bind (rel_collectOpt fun i _ => rel_signRound hE (by low) (by low) (by low) h2 h1 rfl) fun r s h => ?_
  cases r <;> cases s <;> simp only [lw] at h
  · dsimp only; rel
  dsimp only
  refine rel_bind (rel_H3 hE (by low) (by low) (le_map h fun _ _ h => le_map h.2.1 fun _ _ h => h.2.2) (le_map h fun _ _ h => h.2.2.1)
    (by low) h2 (by low) rfl (le_gsArray P (le_map h fun _ _ h => h.2.2.2))) fun _ _ _ => ?_
  rel

theorem rel_emit {out out' : Buf × Nat} {src src' : Buf} {n n' : Nat} (h_out : le out out') (h_src : le src src')
    (h_n : n = n') :
    Rel le (emit out src n) (emit out' src' n') := by
  unfold emit
  prep <;> rel

theorem rel_serializeSignature {P : Params} {sig sig' : Signature} {sigBytes sigBytes' : Buf}
    {sigBytesLen sigBytesLen' : Nat} (h_sig : le sig sig') (h_sigBytes : le sigBytes sigBytes')
    (h_sigBytesLen : sigBytesLen = sigBytesLen') :
    Rel le (serializeSignature P sig sigBytes sigBytesLen) (serializeSignature P sig' sigBytes' sigBytesLen') := by
  unfold serializeSignature
  prep <;> rel

theorem rel_containsNode {list list' : List Nat} {value value' : Nat} (h_list : list = list')
    (h_value : value = value') :
    Rel le (containsNode list value) (containsNode list' value') := by
  subst_vars
  induction list' with
  | nil => unfold containsNode; prep; rel
  | cons x l ih => unfold containsNode; prep; rel

theorem rel_treeExists {tree tree' : Tree} {i i' : Nat} (h_tree : le tree tree') (h_i : i = i') :
    Rel le (treeExists tree i) (treeExists tree' i') := by
  unfold treeExists
  prep <;> rel

theorem rel_createTree {numLeaves numLeaves' : Nat} {dataSize dataSize' : Nat}
    (h_numLeaves : numLeaves = numLeaves') (h_dataSize : dataSize = dataSize') :
    Rel le (createTree numLeaves dataSize) (createTree numLeaves' dataSize') := by
  unfold createTree
  prep <;> rel

theorem rel_isLeftChild {node node' : Nat} (h_node : node = node') :
    Rel le (isLeftChild node) (isLeftChild node') := by
  unfold isLeftChild
  prep <;> rel

theorem rel_hasRightChild {tree tree' : Tree} {node node' : Nat} (h_tree : le tree tree') (h_node : node = node') :
    Rel le (hasRightChild tree node) (hasRightChild tree' node') := by
  unfold hasRightChild
  prep <;> rel

theorem rel_getParent {node node' : Nat} (h_node : node = node') :
    Rel le (getParent node) (getParent node') := by
  unfold getParent
  prep <;> rel

theorem rel_getLeaf {tree tree' : Tree} {leafIndex leafIndex' : Nat} (h_tree : le tree tree')
    (h_leafIndex : leafIndex = leafIndex') :
    Rel le (getLeaf tree leafIndex) (getLeaf tree' leafIndex') := by
  unfold getLeaf
  prep <;> rel

theorem rel_hashSeed {E E' : Env} {P : Params} {inputSeed inputSeed' : Buf} {salt salt' : Buf}
    {hashPrefix hashPrefix' : Byte} {repIndex repIndex' : Nat} {nodeIndex nodeIndex' : Nat} (hE : EnvRel E E')
    (h_inputSeed : le inputSeed inputSeed') (h_salt : le salt salt') (h_hashPrefix : hashPrefix = hashPrefix')
    (h_repIndex : repIndex = repIndex') (h_nodeIndex : nodeIndex = nodeIndex') :
    Rel le (hashSeed E P inputSeed salt hashPrefix repIndex nodeIndex) (hashSeed E' P inputSeed' salt' hashPrefix' repIndex' nodeIndex') := by
  unfold hashSeed
  prep <;> rel

theorem rel_setNode {tree tree' : Tree} {i i' : Nat} {data data' : Buf} {off off' : Nat} {n n' : Nat}
    (h_tree : le tree tree') (h_i : i = i') (h_data : le data data') (h_off : off = off') (h_n : n = n') :
    Rel le (setNode tree i data off n) (setNode tree' i' data' off' n') := by
  unfold setNode
  prep <;> rel

theorem rel_expandSeedsStep {E E' : Env} {P : Params} {salt salt' : Buf} {repIndex repIndex' : Nat} {i i' : Nat}
    {tree tree' : Tree} (hE : EnvRel E E') (h_salt : le salt salt') (h_repIndex : repIndex = repIndex')
    (h_i : i = i') (h_tree : le tree tree') :
    Rel le (expandSeedsStep E P salt repIndex i tree) (expandSeedsStep E' P salt' repIndex' i' tree') := by
  unfold expandSeedsStep
  prep <;> rel

theorem rel_expandSeeds {E E' : Env} {P : Params} {tree tree' : Tree} {salt salt' : Buf}
    {repIndex repIndex' : Nat} (hE : EnvRel E E') (h_tree : le tree tree') (h_salt : le salt salt')
    (h_repIndex : repIndex = repIndex') :
    Rel le (expandSeeds E P tree salt repIndex) (expandSeeds E' P tree' salt' repIndex') := by
  unfold expandSeeds
  prep <;> rel

theorem rel_generateSeeds {E E' : Env} {P : Params} {nSeeds nSeeds' : Nat} {rootSeed rootSeed' : Buf}
    {salt salt' : Buf} {repIndex repIndex' : Nat} (hE : EnvRel E E') (h_nSeeds : nSeeds = nSeeds')
    (h_rootSeed : le rootSeed rootSeed') (h_salt : le salt salt') (h_repIndex : repIndex = repIndex') :
    Rel le (generateSeeds E P nSeeds rootSeed salt repIndex) (generateSeeds E' P nSeeds' rootSeed' salt' repIndex') := by
  unfold generateSeeds
  prep <;> rel

theorem rel_hasSibling {tree tree' : Tree} {node node' : Nat} (h_tree : le tree tree') (h_node : node = node') :
    Rel le (hasSibling tree node) (hasSibling tree' node') := by
  unfold hasSibling
  prep <;> rel

theorem rel_getSibling {tree tree' : Tree} {node node' : Nat} (h_tree : le tree tree') (h_node : node = node') :
    Rel le (getSibling tree node) (getSibling tree' node') := by
  unfold getSibling
  prep <;> rel

theorem rel_setPath {ps ps' : PathSets} {pos pos' : Nat} {i i' : Nat} {node node' : Nat} (h_ps : le ps ps')
    (h_pos : pos = pos') (h_i : i = i') (h_node : node = node') :
    Rel le (setPath ps pos i node) (setPath ps' pos' i' node') := by
  unfold setPath
  prep <;> rel

theorem rel_getPath {ps ps' : PathSets} {d d' : Nat} {i i' : Nat} (h_ps : le ps ps') (h_d : d = d') (h_i : i = i') :
    Rel le (getPath ps d i) (getPath ps' d' i') := by
  unfold getPath
  prep <;> rel

theorem rel_pathLoop {x0 : Nat} {x1 x1' : Nat} {x2 x2' : Nat} {x3 x3' : Nat} {x4 x4' : PathSets} (h_x1 : x1 = x1')
    (h_x2 : x2 = x2') (h_x3 : x3 = x3') (h_x4 : le x4 x4') :
    Rel le (pathLoop x0 x1 x2 x3 x4) (pathLoop x0 x1' x2' x3' x4') := by
  induction x0 generalizing x1 x1' x2 x2' x3 x3' x4 x4' with
  | zero =>
    unfold pathLoop
    prep <;> rel
  | succ n ih =>
    unfold pathLoop
    prep <;> rel

theorem rel_pathContains {ps ps' : PathSets} {d d' : Nat} {len len' : Nat} {value value' : Nat} (h_ps : le ps ps')
    (h_d : d = d') (h_len : len = len') (h_value : value = value') :
    Rel le (pathContains ps d len value) (pathContains ps' d' len' value') := by
  unfold pathContains
  prep <;> rel

theorem rel_descendLoop {tree tree' : Tree} {x0 : Nat} {x1 x1' : Nat} (h_tree : le tree tree') (h_x1 : x1 = x1') :
    Rel le (descendLoop tree x0 x1) (descendLoop tree' x0 x1') := by
  induction x0 generalizing x1 x1' with
  | zero =>
    unfold descendLoop
    prep <;> rel
  | succ n ih =>
    unfold descendLoop
    prep <;> rel

theorem rel_addRevealed {tree tree' : Tree} {revealed revealed' : List Nat} {node node' : Nat}
    (h_tree : le tree tree') (h_revealed : revealed = revealed') (h_node : node = node') :
    Rel le (addRevealed tree revealed node) (addRevealed tree' revealed' node') := by
  unfold addRevealed
  prep <;> rel

theorem rel_getPathSets {tree tree' : Tree} {hideList hideList' : List Nat} {hideListSize hideListSize' : Nat}
    (h_tree : le tree tree') (h_hideList : hideList = hideList') (h_hideListSize : hideListSize = hideListSize') :
    Rel le (getPathSets tree hideList hideListSize) (getPathSets tree' hideList' hideListSize') := by
  unfold getPathSets
  prep <;> rel

theorem rel_revealStep {tree tree' : Tree} {ps ps' : PathSets} {hideListSize hideListSize' : Nat} {d d' : Nat}
    {i i' : Nat} {revealed revealed' : List Nat} (h_tree : le tree tree') (h_ps : le ps ps')
    (h_hideListSize : hideListSize = hideListSize') (h_d : d = d') (h_i : i = i') (h_revealed : revealed = revealed') :
    Rel le (revealStep tree ps hideListSize d i revealed) (revealStep tree' ps' hideListSize' d' i' revealed') := by
  unfold revealStep
  prep <;> rel

theorem rel_getRevealedNodes {tree tree' : Tree} {hideList hideList' : List Nat}
    {hideListSize hideListSize' : Nat} (h_tree : le tree tree') (h_hideList : hideList = hideList')
    (h_hideListSize : hideListSize = hideListSize') :
    Rel le (getRevealedNodes tree hideList hideListSize) (getRevealedNodes tree' hideList' hideListSize') := by
  unfold getRevealedNodes
  prep <;> rel

theorem rel_revealSeeds {P : Params} {tree tree' : Tree} {hideList hideList' : List Nat}
    {hideListSize hideListSize' : Nat} {output output' : Buf} {outputSize outputSize' : Nat} (h_tree : le tree tree')
    (h_hideList : hideList = hideList') (h_hideListSize : hideListSize = hideListSize')
    (h_output : le output output') (h_outputSize : outputSize = outputSize') :
    Rel le (revealSeeds P tree hideList hideListSize output outputSize) (revealSeeds P tree' hideList' hideListSize' output' outputSize') := by
  unfold revealSeeds
  prep <;> rel

theorem rel_computeParentHash {E E' : Env} {P : Params} {tree tree' : Tree} {child child' : Nat}
    {salt salt' : Buf} (hE : EnvRel E E') (h_tree : le tree tree') (h_child : child = child') (h_salt : le salt salt') :
    Rel le (computeParentHash E P tree child salt) (computeParentHash E' P tree' child' salt') := by
  unfold computeParentHash
  prep <;> rel

theorem rel_setLeaves {tree tree' : Tree} {leafData leafData' : List (Option Buf)} {check check' : Bool}
    (h_tree : le tree tree') (h_leafData : le leafData leafData') (h_check : check = check') :
    Rel le (setLeaves tree leafData check) (setLeaves tree' leafData' check') := by
  unfold setLeaves
  prep <;> rel

theorem rel_hashUp {E E' : Env} {P : Params} {tree tree' : Tree} {salt salt' : Buf} (hE : EnvRel E E')
    (h_tree : le tree tree') (h_salt : le salt salt') :
    Rel le (hashUp E P tree salt) (hashUp E' P tree' salt') := by
  unfold hashUp
  prep <;> rel

theorem rel_buildMerkleTree {E E' : Env} {P : Params} {tree tree' : Tree} {leafData leafData' : List (Option Buf)}
    {salt salt' : Buf} (hE : EnvRel E E') (h_tree : le tree tree') (h_leafData : le leafData leafData')
    (h_salt : le salt salt') :
    Rel le (buildMerkleTree E P tree leafData salt) (buildMerkleTree E' P tree' leafData' salt') := by
  unfold buildMerkleTree
  prep <;> rel

theorem rel_missingNodesOf {tree tree' : Tree} {missingLeaves missingLeaves' : List Nat}
    {missingLeavesSize missingLeavesSize' : Nat} (h_tree : le tree tree')
    (h_missingLeaves : missingLeaves = missingLeaves') (h_missingLeavesSize : missingLeavesSize = missingLeavesSize') :
    Rel le (missingNodesOf tree missingLeaves missingLeavesSize) (missingNodesOf tree' missingLeaves' missingLeavesSize') := by
  unfold missingNodesOf
  prep <;> rel

theorem rel_climbLoop {missing missing' : List Bool} {x0 : Nat} {x1 x1' : Nat} (h_missing : missing = missing')
    (h_x1 : x1 = x1') :
    Rel le (climbLoop missing x0 x1) (climbLoop missing' x0 x1') := by
  induction x0 generalizing x1 x1' with
  | zero =>
    unfold climbLoop
    prep <;> rel
  | succ n ih =>
    unfold climbLoop
    prep <;> rel

theorem rel_getRevealedMerkleNodes {tree tree' : Tree} {missingLeaves missingLeaves' : List Nat}
    {missingLeavesSize missingLeavesSize' : Nat} (h_tree : le tree tree')
    (h_missingLeaves : missingLeaves = missingLeaves') (h_missingLeavesSize : missingLeavesSize = missingLeavesSize') :
    Rel le (getRevealedMerkleNodes tree missingLeaves missingLeavesSize) (getRevealedMerkleNodes tree' missingLeaves' missingLeavesSize') := by
  unfold getRevealedMerkleNodes
  prep <;> rel

theorem rel_openMerkleTree {E E' : Env} {tree tree' : Tree} {missingLeaves missingLeaves' : List Nat}
    {missingLeavesSize missingLeavesSize' : Nat} (hE : EnvRel E E') (h_tree : le tree tree')
    (h_missingLeaves : missingLeaves = missingLeaves') (h_missingLeavesSize : missingLeavesSize = missingLeavesSize') :
    Rel le (openMerkleTree E tree missingLeaves missingLeavesSize) (openMerkleTree E' tree' missingLeaves' missingLeavesSize') := by
  unfold openMerkleTree
  prep <;> rel

end Picnic.Leak
