import Verif.Model.LeakZkb
import Verif.Model.Tree

/-
Model/Tree with observations.
-/

namespace Picnic.Leak

/-- /repo/tree.c:24-32 `contains` and /repo/picnic3_impl.c:436-450: the elements are tested in order until one is
equal -/
def containsNode (list : List Nat) (value : Nat) : M Bool :=
  match list with
  | [] => do
    note false
    pure false
  | x :: list => do
    note true
    ifB x = value then pure true else containsNode list value

/-- /repo/tree.c:34-43 `exists` -/
def treeExists (tree : Tree) (i : Nat) : M Bool :=
  ifB i ≥ tree.numNodes then pure false
  else rd tree.existsNode i

/-- /repo/tree.c:45-75 `createTree`.  Simplification: the `int` shifts are natural number powers
(depth ≤ 11 for the calls in the code).  `memset(exists + numNodes - numLeaves, 1, numLeaves)` is written as the
initial contents of the list (numLeaves ≤ numNodes by the formula for numNodes). -/
def createTree (numLeaves dataSize : Nat) : M Tree := do
  let depth := ceilLog2 numLeaves + 1
  let numNodes := (2 ^ depth - 1) - (2 ^ (depth - 1) - numLeaves)
  let tree : Tree := {
    depth := depth, numNodes := numNodes, numLeaves := numLeaves, dataSize := dataSize
    nodes := List.replicate numNodes (zeros dataSize)
    haveNode := List.replicate numNodes false
    existsNode := List.replicate (numNodes - numLeaves) false ++ List.replicate numLeaves true }
  let tree ← loopDown (fun i tree => do
    let l ← treeExists tree (2 * i + 1)
    let r ← treeExists tree (2 * i + 2)
    note l
    ifB l || r then do
      let e ← wr tree.existsNode i true
      pure { tree with existsNode := e }
    else pure tree) (numNodes - numLeaves) tree
  let e ← wr tree.existsNode 0 true
  pure { tree with existsNode := e }

/-- /repo/tree.c:87-91 `isLeftChild` -/
def isLeftChild (node : Nat) : M Bool := do
  assertM (node != 0)
  pure (node % 2 == 1)

/-- /repo/tree.c:93-96 `hasRightChild` -/
def hasRightChild (tree : Tree) (node : Nat) : M Bool :=
  ifB 2 * node + 2 < tree.numNodes then treeExists tree node else pure false

/-- /repo/tree.c:101-109 `getParent` -/
def getParent (node : Nat) : M Nat := do
  assertM (node != 0)
  let l ← isLeftChild node
  ifB l then pure ((node - 1) / 2) else pure ((node - 2) / 2)

/-- /repo/tree.c:116-121 `getLeaf` -/
def getLeaf (tree : Tree) (leafIndex : Nat) : M Buf := do
  assertM (leafIndex < tree.numLeaves)
  rd tree.nodes (tree.numNodes - tree.numLeaves + leafIndex)

/-- /repo/tree.c:123-134 `hashSeed`; returns the `2*seedSizeBytes` bytes written to `digest`. -/
def hashSeed (E : Env) (P : Params) (inputSeed salt : Buf) (hashPrefix : Byte) (repIndex nodeIndex : Nat) : M Buf :=
  hashAll E P hashPrefix
    [(inputSeed, P.seedSizeBytes), (salt, P.saltSizeBytes), intLE repIndex, intLE nodeIndex] (2 * P.seedSizeBytes)

/-- `memcpy(tree->nodes[i], data + off, n); tree->haveNode[i] = 1`
(as in /repo/tree.c:153-154, 160-161, 172-173, 350-351, 410-411, 532-533, 563-564) -/
def setNode (tree : Tree) (i : Nat) (data : Buf) (off n : Nat) : M Tree := do
  let b ← rd tree.nodes i
  let b ← memcpy b 0 data off n
  let nodes ← wr tree.nodes i b
  let have' ← wr tree.haveNode i true
  pure { tree with nodes := nodes, haveNode := have' }

/-- /repo/tree.c:144-164, iteration i of the loop of `expandSeeds` -/
def expandSeedsStep (E : Env) (P : Params) (salt : Buf) (repIndex : Nat) (i : Nat) (tree : Tree) : M Tree := do
  let h ← rd tree.haveNode i
  ifB !h then pure tree
  else do
    let node ← rd tree.nodes i
    let d ← hashSeed E P node salt HASH_PREFIX_1 repIndex i
    let tmp ← wrN (E.junkBuf siteTree i (2 * MAX_SEED_SIZE_BYTES)) 0 d
    let hl ← rd tree.haveNode (2 * i + 1)
    let tree ← ifB !hl then setNode tree (2 * i + 1) tmp 0 P.seedSizeBytes else pure tree
    let er ← treeExists tree (2 * i + 2)
    ifB er then do
      let hr ← rd tree.haveNode (2 * i + 2)
      ifB !hr then setNode tree (2 * i + 2) tmp P.seedSizeBytes P.seedSizeBytes else pure tree
    else pure tree

/-- /repo/tree.c:136-166 `expandSeeds` -/
def expandSeeds (E : Env) (P : Params) (tree : Tree) (salt : Buf) (repIndex : Nat) : M Tree := do
  let lastNonLeaf ← getParent (tree.numNodes - 1)
  loop (fun i tree => expandSeedsStep E P salt repIndex i tree) (lastNonLeaf + 1) tree

/-- /repo/tree.c:168-177 `generateSeeds` -/
def generateSeeds (E : Env) (P : Params) (nSeeds : Nat) (rootSeed salt : Buf) (repIndex : Nat) : M Tree := do
  let tree ← createTree nSeeds P.seedSizeBytes
  let tree ← setNode tree 0 rootSeed 0 P.seedSizeBytes
  expandSeeds E P tree salt repIndex

/-- /repo/tree.c:184-195 `hasSibling` -/
def hasSibling (tree : Tree) (node : Nat) : M Bool := do
  let e ← treeExists tree node
  ifB !e then pure false
  else do
    let l ← isLeftChild node
    ifB l then do
      let er ← treeExists tree (node + 1)
      pure er
    else pure true

/-- /repo/tree.c:197-215 `getSibling` -/
def getSibling (tree : Tree) (node : Nat) : M Nat := do
  assertM (node < tree.numNodes)
  assertM (node != 0)
  let s ← hasSibling tree node
  assertM s
  let l ← isLeftChild node
  ifB l then
    ifB node + 1 < tree.numNodes then pure (node + 1) else .abort
  else pure (node - 1)

/-- `pathSets[pos][i] = node` (/repo/tree.c:254, 257) -/
def setPath (ps : PathSets) (pos i node : Nat) : M PathSets := do
  let row ← rd ps pos
  let row ← wr row i (some node)
  wr ps pos row

/-- `pathSets[d][i]` (/repo/tree.c:267-271) -/
def getPath (ps : PathSets) (d i : Nat) : M Nat := do
  let row ← rd ps d
  let x ← rd row i
  match x with
  | some v => pure v
  | none => .ub .uninit

/-- /repo/tree.c:256-259, the path from `node` to the root; `n` bounds the iterations (the node number decreases). -/
def pathLoop : Nat → Nat → Nat → Nat → PathSets → M PathSets
  | 0, _, _, _, _ => .diverge
  | n + 1, i, pos, node, ps => do
    let p ← getParent node
    ifB p != 0 then do
      let ps ← setPath ps pos i p
      pathLoop n i (pos + 1) p ps
    else pure ps

/-- /repo/tree.c:271 `contains(pathSets[d], hideListSize, sibling)` -/
def pathContains (ps : PathSets) (d len value : Nat) : M Bool :=
  loop (fun i found => ifB found then pure true else do
    let x ← getPath ps d i
    pure (x == value)) len false

/-- /repo/tree.c:273-275, descend to the node whose seed is revealed; `n` bounds the iterations. -/
def descendLoop (tree : Tree) : Nat → Nat → M Nat
  | 0, _ => .diverge
  | n + 1, sibling => do
    let r ← hasRightChild tree sibling
    note r
    ifB !r && !isLeafNode tree sibling then descendLoop tree n (2 * sibling + 1)
    else pure sibling

/-- `revealed[revealedPos++] = node` unless already contained; the array has `numLeaves` elements.  /repo/tree.c:278-281, 458-461. -/
def addRevealed (tree : Tree) (revealed : List Nat) (node : Nat) : M (List Nat) := do
  let found ← containsNode revealed node
  ifB found then pure revealed
  else ifB revealed.length < tree.numLeaves then pure (revealed ++ [node])
  else .ub .oobWrite

/-- /repo/tree.c:251-260, the paths of all hidden leaves -/
def getPathSets (tree : Tree) (hideList : List Nat) (hideListSize : Nat) : M PathSets := do
  let pathLen := tree.depth - 1
  loop (fun i ps => do
    let h ← rd hideList i
    let node := h + (tree.numNodes - tree.numLeaves)
    let ps ← setPath ps 0 i node
    pathLoop (node + 1) i 1 node ps) hideListSize
    (List.replicate pathLen (List.replicate hideListSize none))

/-- /repo/tree.c:266-283, the body of the inner loop -/
def revealStep (tree : Tree) (ps : PathSets) (hideListSize d i : Nat) (revealed : List Nat) : M (List Nat) := do
  let node ← getPath ps d i
  let hs ← hasSibling tree node
  ifB !hs then pure revealed
  else do
    let sibling ← getSibling tree node
    let c ← pathContains ps d hideListSize sibling
    ifB !c then do
      let sibling ← descendLoop tree (tree.numNodes + 1) sibling
      addRevealed tree revealed sibling
    else pure revealed

/-- /repo/tree.c:235-291 `getRevealedNodes` -/
def getRevealedNodes (tree : Tree) (hideList : List Nat) (hideListSize : Nat) : M (List Nat) := do
  let ps ← getPathSets tree hideList hideListSize
  loop (fun d revealed =>
    loop (fun i revealed => revealStep tree ps hideListSize d i revealed) hideListSize revealed)
    (tree.depth - 1) []

/-- /repo/tree.c:304-330 `revealSeeds`; returns the number of bytes written and the output buffer.  `outLen` is an
`int`. -/
def revealSeeds (P : Params) (tree : Tree) (hideList : List Nat) (hideListSize : Nat) (output : Buf)
    (outputSize : Nat) : M (Nat × Buf) := do
  ifB outputSize > INT_MAX then pure (2 ^ 64 - 1, output)
  else do
    let revealed ← getRevealedNodes tree hideList hideListSize
    let (_, output, off) ← foldL revealed (fun (st : Int × Buf × Nat) node => do
      let outLen := st.1 - P.seedSizeBytes
      ifB outLen < 0 then .abort
      else do
        let src ← rd tree.nodes node
        let output ← memcpy st.2.1 st.2.2 src 0 P.seedSizeBytes
        pure (outLen, output, st.2.2 + P.seedSizeBytes)) ((outputSize : Int), output, 0)
    pure (off, output)

/-- /repo/tree.c:362-398 `computeParentHash` -/
def computeParentHash (E : Env) (P : Params) (tree : Tree) (child : Nat) (salt : Buf) : M Tree := do
  let e ← treeExists tree child
  ifB !e then pure tree
  else do
    let parent ← getParent child
    let hp ← rd tree.haveNode parent
    ifB hp then pure tree
    else do
      let hl ← rd tree.haveNode (2 * parent + 1)
      ifB !hl then pure tree
      else do
        let er ← treeExists tree (2 * parent + 2)
        let missingRight ← ifB er then do
            let hr ← rd tree.haveNode (2 * parent + 2)
            pure (!hr)
          else pure false
        ifB missingRight then pure tree
        else do
          let left ← rd tree.nodes (2 * parent + 1)
          let hasR ← hasRightChild tree parent
          let right ← ifB hasR then do
              let r ← rd tree.nodes (2 * parent + 2)
              pure [(r, P.digestSizeBytes)]
            else pure []
          let d ← hashAll E P HASH_PREFIX_3
            ([(left, P.digestSizeBytes)] ++ right ++ [(salt, P.saltSizeBytes), intLE parent]) P.digestSizeBytes
          setNode tree parent d 0 P.digestSizeBytes

/-- /repo/tree.c:408-413 and :556-567: copy the available leaf data; in verification (`check`) fail if the node is
already set. -/
def setLeaves (tree : Tree) (leafData : List (Option Buf)) (check : Bool) : M (Bool × Tree) :=
  loop (fun i (st : Bool × Tree) =>
    ifB !st.1 then pure st
    else do
      let tree := st.2
      let leaf ← rd leafData i
      note leaf.isSome
      match leaf with
      | none => pure (true, tree)
      | some data => do
        let h ← ifB check then rd tree.haveNode (tree.numNodes - tree.numLeaves + i) else pure false
        ifB h then pure (false, tree)
        else do
          let tree ← setNode tree (tree.numNodes - tree.numLeaves + i) data 0 tree.dataSize
          pure (true, tree)) tree.numLeaves (true, tree)

/-- /repo/tree.c:415-417 and :571-573: `for (int i = numNodes; i > 0; i--) computeParentHash(tree, i, ...)` -/
def hashUp (E : Env) (P : Params) (tree : Tree) (salt : Buf) : M Tree :=
  loopDown (fun i tree => computeParentHash E P tree i salt) tree.numNodes tree

/-- /repo/tree.c:402-418 `buildMerkleTree` -/
def buildMerkleTree (E : Env) (P : Params) (tree : Tree) (leafData : List (Option Buf)) (salt : Buf) : M Tree := do
  let (_, tree) ← setLeaves tree leafData false
  hashUp E P tree salt

/-- /repo/tree.c:428-449, the set of missing nodes -/
def missingNodesOf (tree : Tree) (missingLeaves : List Nat) (missingLeavesSize : Nat) : M (List Bool) := do
  let firstLeaf := tree.numNodes - tree.numLeaves
  let missing ← loop (fun i missing => do
    let m ← rd missingLeaves i
    wr missing (firstLeaf + m) true) missingLeavesSize (List.replicate tree.numNodes false)
  let lastNonLeaf ← getParent (tree.numNodes - 1)
  loopDown (fun i missing => do
    let e ← treeExists tree i
    ifB !e then pure missing
    else do
      let er ← treeExists tree (2 * i + 2)
      ifB er then do
        let l ← rd missing (2 * i + 1)
        ifB l then do
          let r ← rd missing (2 * i + 2)
          ifB r then wr missing i true else pure missing
        else pure missing
      else do
        let l ← rd missing (2 * i + 1)
        ifB l then wr missing i true else pure missing) lastNonLeaf missing

/-- /repo/tree.c:457-465, the `do ... while` loop: the highest missing node above `node`; `n` bounds the iterations.
`none` if the loop ends because the root is reached. -/
def climbLoop (missing : List Bool) : Nat → Nat → M (Option Nat)
  | 0, _ => .diverge
  | n + 1, node => do
    let p ← getParent node
    let m ← rd missing p
    ifB !m then pure (some node)
    else ifB p != 0 then climbLoop missing n p
    else pure none

/-- /repo/tree.c:422-471 `getRevealedMerkleNodes` -/
def getRevealedMerkleNodes (tree : Tree) (missingLeaves : List Nat) (missingLeavesSize : Nat) : M (List Nat) := do
  let firstLeaf := tree.numNodes - tree.numLeaves
  let missing ← missingNodesOf tree missingLeaves missingLeavesSize
  loop (fun i revealed => do
    let m ← rd missingLeaves i
    let node := m + firstLeaf
    let r ← climbLoop missing (node + 1) node
    match r with
    | some node => addRevealed tree revealed node
    | none => pure revealed) missingLeavesSize []

/-- /repo/tree.c:488-506 `openMerkleTree`; returns the output and its size. -/
def openMerkleTree (E : Env) (tree : Tree) (missingLeaves : List Nat) (missingLeavesSize : Nat) : M (Buf × Nat) := do
  let revealed ← getRevealedMerkleNodes tree missingLeaves missingLeavesSize
  let size := revealed.length * tree.dataSize
  let (out, _) ← foldL revealed (fun (st : Buf × Nat) node => do
    let src ← rd tree.nodes node
    let out ← memcpy st.1 st.2 src 0 tree.dataSize
    pure (out, st.2 + tree.dataSize)) (E.junkBuf siteTree 0 size, 0)
  pure (out, size)

end Picnic.Leak
