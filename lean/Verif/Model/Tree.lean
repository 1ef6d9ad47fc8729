import Verif.Model.Zkb

/-
/repo/tree.c: seed trees and Merkle trees.
-/

namespace Picnic

/-- /repo/tree.h:18-26 `tree_t`.  `haveNode` and `exists` only ever hold 0 and 1. -/
structure Tree where
  depth : Nat
  nodes : List Buf
  dataSize : Nat
  haveNode : List Bool
  existsNode : List Bool
  numNodes : Nat
  numLeaves : Nat
  deriving Repr, Inhabited

/-- `INT_MAX` (<limits.h>, used in /repo/tree.c:309, 337, 515) -/
def INT_MAX : Nat := 2 ^ 31 - 1

/-- /repo/tree.c:24-32 `contains` on an array of which the first `len` elements are in use -/
def containsNode (list : List Nat) (value : Nat) : Bool := list.any (· == value)

/-- /repo/tree.c:34-43 `exists` -/
def treeExists (tree : Tree) (i : Nat) : M Bool :=
  if i ≥ tree.numNodes then pure false
  else rd tree.existsNode i

/-- /repo/tree.c:45-75 `createTree`.  Simplification: the `int` shifts are natural number powers
(depth ≤ 11 for the calls in the code).  `memset(exists + numNodes - numLeaves, 1, numLeaves)` is written as the
initial contents of the list (numLeaves ≤ numNodes by the formula for numNodes). -/
def createTree (numLeaves dataSize : Nat) : M Tree := do
  let depth := ceilLog2 numLeaves + 1
  let numNodes := (2 ^ depth - 1) - (2 ^ (depth - 1) - numLeaves)
  let tree : Tree := {
    depth := depth, numNodes := numNodes, numLeaves := numLeaves, dataSize := dataSize
    nodes := List.replicate numNodes (zeros dataSize)
    haveNode := List.replicate numNodes false
    existsNode := List.replicate (numNodes - numLeaves) false ++ List.replicate numLeaves true }
  let tree ← loopDown (fun i tree => do
    let l ← treeExists tree (2 * i + 1)
    let r ← treeExists tree (2 * i + 2)
    if l || r then do
      let e ← wr tree.existsNode i true
      pure { tree with existsNode := e }
    else pure tree) (numNodes - numLeaves) tree
  let e ← wr tree.existsNode 0 true
  pure { tree with existsNode := e }

/-- /repo/tree.c:87-91 `isLeftChild` -/
def isLeftChild (node : Nat) : M Bool := do
  assertM (node != 0)
  pure (node % 2 == 1)

/-- /repo/tree.c:93-96 `hasRightChild` -/
def hasRightChild (tree : Tree) (node : Nat) : M Bool :=
  if 2 * node + 2 < tree.numNodes then treeExists tree node else pure false

/-- /repo/tree.c:101-109 `getParent` -/
def getParent (node : Nat) : M Nat := do
  assertM (node != 0)
  let l ← isLeftChild node
  if l then pure ((node - 1) / 2) else pure ((node - 2) / 2)

/-- /repo/tree.c:111-114 `getLeaves`: the leaves, as a list of `numLeaves` nodes -/
def getLeaves (tree : Tree) : List Buf := tree.nodes.drop (tree.numNodes - tree.numLeaves)

/-- /repo/tree.c:116-121 `getLeaf` -/
def getLeaf (tree : Tree) (leafIndex : Nat) : M Buf := do
  assertM (leafIndex < tree.numLeaves)
  rd tree.nodes (tree.numNodes - tree.numLeaves + leafIndex)

/-- /repo/tree.c:123-134 `hashSeed`; returns the `2*seedSizeBytes` bytes written to `digest`. -/
def hashSeed (E : Env) (P : Params) (inputSeed salt : Buf) (hashPrefix : Byte) (repIndex nodeIndex : Nat) : M Buf :=
  hashAll E P hashPrefix
    [(inputSeed, P.seedSizeBytes), (salt, P.saltSizeBytes), intLE repIndex, intLE nodeIndex] (2 * P.seedSizeBytes)

/-- `memcpy(tree->nodes[i], data + off, n); tree->haveNode[i] = 1`
(as in /repo/tree.c:153-154, 160-161, 172-173, 350-351, 410-411, 532-533, 563-564) -/
def setNode (tree : Tree) (i : Nat) (data : Buf) (off n : Nat) : M Tree := do
  let b ← rd tree.nodes i
  let b ← memcpy b 0 data off n
  let nodes ← wr tree.nodes i b
  let have' ← wr tree.haveNode i true
  pure { tree with nodes := nodes, haveNode := have' }

/-- /repo/tree.h:29 `MAX_SEED_SIZE_BYTES` -/
def MAX_SEED_SIZE_BYTES : Nat := 32

/-- /repo/tree.c:144-164, iteration i of the loop of `expandSeeds` -/
def expandSeedsStep (E : Env) (P : Params) (salt : Buf) (repIndex : Nat) (i : Nat) (tree : Tree) : M Tree := do
  let h ← rd tree.haveNode i
  if !h then pure tree
  else do
    let node ← rd tree.nodes i
    let d ← hashSeed E P node salt HASH_PREFIX_1 repIndex i
    let tmp ← wrN (E.junkBuf siteTree i (2 * MAX_SEED_SIZE_BYTES)) 0 d
    let hl ← rd tree.haveNode (2 * i + 1)
    let tree ← if !hl then setNode tree (2 * i + 1) tmp 0 P.seedSizeBytes else pure tree
    let er ← treeExists tree (2 * i + 2)
    if er then do
      let hr ← rd tree.haveNode (2 * i + 2)
      if !hr then setNode tree (2 * i + 2) tmp P.seedSizeBytes P.seedSizeBytes else pure tree
    else pure tree

/-- /repo/tree.c:136-166 `expandSeeds` -/
def expandSeeds (E : Env) (P : Params) (tree : Tree) (salt : Buf) (repIndex : Nat) : M Tree := do
  let lastNonLeaf ← getParent (tree.numNodes - 1)
  loop (fun i tree => expandSeedsStep E P salt repIndex i tree) (lastNonLeaf + 1) tree

/-- /repo/tree.c:168-177 `generateSeeds` -/
def generateSeeds (E : Env) (P : Params) (nSeeds : Nat) (rootSeed salt : Buf) (repIndex : Nat) : M Tree := do
  let tree ← createTree nSeeds P.seedSizeBytes
  let tree ← setNode tree 0 rootSeed 0 P.seedSizeBytes
  expandSeeds E P tree salt repIndex

/-- /repo/tree.c:179-182 `isLeafNode` -/
def isLeafNode (tree : Tree) (node : Nat) : Bool := 2 * node + 1 ≥ tree.numNodes

/-- /repo/tree.c:184-195 `hasSibling` -/
def hasSibling (tree : Tree) (node : Nat) : M Bool := do
  let e ← treeExists tree node
  if !e then pure false
  else do
    let l ← isLeftChild node
    if l then do
      let er ← treeExists tree (node + 1)
      pure er
    else pure true

/-- /repo/tree.c:197-215 `getSibling` -/
def getSibling (tree : Tree) (node : Nat) : M Nat := do
  assertM (node < tree.numNodes)
  assertM (node != 0)
  let s ← hasSibling tree node
  assertM s
  let l ← isLeftChild node
  if l then
    if node + 1 < tree.numNodes then pure (node + 1) else .abort
  else pure (node - 1)

/-- `size_t pathSets[pos][i]`; elements that have not been assigned are `none`.  /repo/tree.c:240-248. -/
abbrev PathSets := List (List (Option Nat))

/-- `pathSets[pos][i] = node` (/repo/tree.c:254, 257) -/
def setPath (ps : PathSets) (pos i node : Nat) : M PathSets := do
  let row ← rd ps pos
  let row ← wr row i (some node)
  wr ps pos row

/-- `pathSets[d][i]` (/repo/tree.c:267-271) -/
def getPath (ps : PathSets) (d i : Nat) : M Nat := do
  let row ← rd ps d
  let x ← rd row i
  match x with
  | some v => pure v
  | none => .ub .uninit

/-- /repo/tree.c:256-259, the path from `node` to the root; `n` bounds the iterations (the node number decreases). -/
def pathLoop : Nat → Nat → Nat → Nat → PathSets → M PathSets
  | 0, _, _, _, _ => .diverge
  | n + 1, i, pos, node, ps => do
    let p ← getParent node
    if p != 0 then do
      let ps ← setPath ps pos i p
      pathLoop n i (pos + 1) p ps
    else pure ps

/-- /repo/tree.c:271 `contains(pathSets[d], hideListSize, sibling)` -/
def pathContains (ps : PathSets) (d len value : Nat) : M Bool :=
  loop (fun i found => if found then pure true else do
    let x ← getPath ps d i
    pure (x == value)) len false

/-- /repo/tree.c:273-275, descend to the node whose seed is revealed; `n` bounds the iterations. -/
def descendLoop (tree : Tree) : Nat → Nat → M Nat
  | 0, _ => .diverge
  | n + 1, sibling => do
    let r ← hasRightChild tree sibling
    if !r && !isLeafNode tree sibling then descendLoop tree n (2 * sibling + 1)
    else pure sibling

/-- `revealed[revealedPos++] = node` unless already contained; the array has `numLeaves` elements.  /repo/tree.c:278-281, 458-461. -/
def addRevealed (tree : Tree) (revealed : List Nat) (node : Nat) : M (List Nat) :=
  if containsNode revealed node then pure revealed
  else if revealed.length < tree.numLeaves then pure (revealed ++ [node])
  else .ub .oobWrite

/-- /repo/tree.c:251-260, the paths of all hidden leaves -/
def getPathSets (tree : Tree) (hideList : List Nat) (hideListSize : Nat) : M PathSets := do
  let pathLen := tree.depth - 1
  loop (fun i ps => do
    let h ← rd hideList i
    let node := h + (tree.numNodes - tree.numLeaves)
    let ps ← setPath ps 0 i node
    pathLoop (node + 1) i 1 node ps) hideListSize
    (List.replicate pathLen (List.replicate hideListSize none))

/-- /repo/tree.c:266-283, the body of the inner loop -/
def revealStep (tree : Tree) (ps : PathSets) (hideListSize d i : Nat) (revealed : List Nat) : M (List Nat) := do
  let node ← getPath ps d i
  let hs ← hasSibling tree node
  if !hs then pure revealed
  else do
    let sibling ← getSibling tree node
    let c ← pathContains ps d hideListSize sibling
    if !c then do
      let sibling ← descendLoop tree (tree.numNodes + 1) sibling
      addRevealed tree revealed sibling
    else pure revealed

/-- /repo/tree.c:235-291 `getRevealedNodes` -/
def getRevealedNodes (tree : Tree) (hideList : List Nat) (hideListSize : Nat) : M (List Nat) := do
  let ps ← getPathSets tree hideList hideListSize
  loop (fun d revealed =>
    loop (fun i revealed => revealStep tree ps hideListSize d i revealed) hideListSize revealed)
    (tree.depth - 1) []

/-- /repo/tree.c:293-302 `revealSeedsSize` -/
def revealSeedsSize (P : Params) (numNodes : Nat) (hideList : List Nat) (hideListSize : Nat) : M Nat := do
  let tree ← createTree numNodes P.seedSizeBytes
  let revealed ← getRevealedNodes tree hideList hideListSize
  pure (revealed.length * P.seedSizeBytes)

/-- /repo/tree.c:304-330 `revealSeeds`; returns the number of bytes written and the output buffer.  `outLen` is an
`int`. -/
def revealSeeds (P : Params) (tree : Tree) (hideList : List Nat) (hideListSize : Nat) (output : Buf)
    (outputSize : Nat) : M (Nat × Buf) := do
  if outputSize > INT_MAX then pure (2 ^ 64 - 1, output)
  else do
    let revealed ← getRevealedNodes tree hideList hideListSize
    let (_, output, off) ← revealed.foldlM (fun (st : Int × Buf × Nat) node => do
      let outLen := st.1 - P.seedSizeBytes
      if outLen < 0 then .abort
      else do
        let src ← rd tree.nodes node
        let output ← memcpy st.2.1 st.2.2 src 0 P.seedSizeBytes
        pure (outLen, output, st.2.2 + P.seedSizeBytes)) ((outputSize : Int), output, 0)
    pure (off, output)

/-- /repo/tree.c:332-360 `reconstructSeeds`; the Boolean is true for return value 0. -/
def reconstructSeeds (E : Env) (P : Params) (tree : Tree) (hideList : List Nat) (hideListSize : Nat) (input : Buf)
    (inputLen : Nat) (salt : Buf) (repIndex : Nat) : M (Bool × Tree) := do
  if inputLen > INT_MAX then pure (false, tree)
  else do
    let revealed ← getRevealedNodes tree hideList hideListSize
    let (ok, tree, _, _) ← revealed.foldlM (fun (st : Bool × Tree × Int × Nat) node =>
      if !st.1 then pure st
      else do
        let inLen := st.2.2.1 - P.seedSizeBytes
        if inLen < 0 then pure (false, st.2.1, inLen, st.2.2.2)
        else do
          let tree ← setNode st.2.1 node input st.2.2.2 P.seedSizeBytes
          pure (true, tree, inLen, st.2.2.2 + P.seedSizeBytes)) (true, tree, (inputLen : Int), 0)
    if !ok then pure (false, tree)
    else do
      let tree ← expandSeeds E P tree salt repIndex
      pure (true, tree)

/-- /repo/tree.c:362-398 `computeParentHash` -/
def computeParentHash (E : Env) (P : Params) (tree : Tree) (child : Nat) (salt : Buf) : M Tree := do
  let e ← treeExists tree child
  if !e then pure tree
  else do
    let parent ← getParent child
    let hp ← rd tree.haveNode parent
    if hp then pure tree
    else do
      let hl ← rd tree.haveNode (2 * parent + 1)
      if !hl then pure tree
      else do
        let er ← treeExists tree (2 * parent + 2)
        let missingRight ← if er then do
            let hr ← rd tree.haveNode (2 * parent + 2)
            pure (!hr)
          else pure false
        if missingRight then pure tree
        else do
          let left ← rd tree.nodes (2 * parent + 1)
          let hasR ← hasRightChild tree parent
          let right ← if hasR then do
              let r ← rd tree.nodes (2 * parent + 2)
              pure [(r, P.digestSizeBytes)]
            else pure []
          let d ← hashAll E P HASH_PREFIX_3
            ([(left, P.digestSizeBytes)] ++ right ++ [(salt, P.saltSizeBytes), intLE parent]) P.digestSizeBytes
          setNode tree parent d 0 P.digestSizeBytes

/-- /repo/tree.c:408-413 and :556-567: copy the available leaf data; in verification (`check`) fail if the node is
already set. -/
def setLeaves (tree : Tree) (leafData : List (Option Buf)) (check : Bool) : M (Bool × Tree) :=
  loop (fun i (st : Bool × Tree) =>
    if !st.1 then pure st
    else do
      let tree := st.2
      let leaf ← rd leafData i
      match leaf with
      | none => pure (true, tree)
      | some data => do
        let h ← if check then rd tree.haveNode (tree.numNodes - tree.numLeaves + i) else pure false
        if h then pure (false, tree)
        else do
          let tree ← setNode tree (tree.numNodes - tree.numLeaves + i) data 0 tree.dataSize
          pure (true, tree)) tree.numLeaves (true, tree)

/-- /repo/tree.c:415-417 and :571-573: `for (int i = numNodes; i > 0; i--) computeParentHash(tree, i, ...)` -/
def hashUp (E : Env) (P : Params) (tree : Tree) (salt : Buf) : M Tree :=
  loopDown (fun i tree => computeParentHash E P tree i salt) tree.numNodes tree

/-- /repo/tree.c:402-418 `buildMerkleTree` -/
def buildMerkleTree (E : Env) (P : Params) (tree : Tree) (leafData : List (Option Buf)) (salt : Buf) : M Tree := do
  let (_, tree) ← setLeaves tree leafData false
  hashUp E P tree salt

/-- /repo/tree.c:428-449, the set of missing nodes -/
def missingNodesOf (tree : Tree) (missingLeaves : List Nat) (missingLeavesSize : Nat) : M (List Bool) := do
  let firstLeaf := tree.numNodes - tree.numLeaves
  let missing ← loop (fun i missing => do
    let m ← rd missingLeaves i
    wr missing (firstLeaf + m) true) missingLeavesSize (List.replicate tree.numNodes false)
  let lastNonLeaf ← getParent (tree.numNodes - 1)
  loopDown (fun i missing => do
    let e ← treeExists tree i
    if !e then pure missing
    else do
      let er ← treeExists tree (2 * i + 2)
      if er then do
        let l ← rd missing (2 * i + 1)
        if l then do
          let r ← rd missing (2 * i + 2)
          if r then wr missing i true else pure missing
        else pure missing
      else do
        let l ← rd missing (2 * i + 1)
        if l then wr missing i true else pure missing) lastNonLeaf missing

/-- /repo/tree.c:457-465, the `do ... while` loop: the highest missing node above `node`; `n` bounds the iterations.
`none` if the loop ends because the root is reached. -/
def climbLoop (missing : List Bool) : Nat → Nat → M (Option Nat)
  | 0, _ => .diverge
  | n + 1, node => do
    let p ← getParent node
    let m ← rd missing p
    if !m then pure (some node)
    else if p != 0 then climbLoop missing n p
    else pure none

/-- /repo/tree.c:422-471 `getRevealedMerkleNodes` -/
def getRevealedMerkleNodes (tree : Tree) (missingLeaves : List Nat) (missingLeavesSize : Nat) : M (List Nat) := do
  let firstLeaf := tree.numNodes - tree.numLeaves
  let missing ← missingNodesOf tree missingLeaves missingLeavesSize
  loop (fun i revealed => do
    let m ← rd missingLeaves i
    let node := m + firstLeaf
    let r ← climbLoop missing (node + 1) node
    match r with
    | some node => addRevealed tree revealed node
    | none => pure revealed) missingLeavesSize []

/-- /repo/tree.c:473-484 `openMerkleTreeSize` -/
def openMerkleTreeSize (P : Params) (numNodes : Nat) (missingLeaves : List Nat) (missingLeavesSize : Nat) : M Nat := do
  let tree ← createTree numNodes P.digestSizeBytes
  let revealed ← getRevealedMerkleNodes tree missingLeaves missingLeavesSize
  pure (revealed.length * P.digestSizeBytes)

/-- /repo/tree.c:488-506 `openMerkleTree`; returns the output and its size. -/
def openMerkleTree (E : Env) (tree : Tree) (missingLeaves : List Nat) (missingLeavesSize : Nat) : M (Buf × Nat) := do
  let revealed ← getRevealedMerkleNodes tree missingLeaves missingLeavesSize
  let size := revealed.length * tree.dataSize
  let (out, _) ← revealed.foldlM (fun (st : Buf × Nat) node => do
    let src ← rd tree.nodes node
    let out ← memcpy st.1 st.2 src 0 tree.dataSize
    pure (out, st.2 + tree.dataSize)) (E.junkBuf siteTree 0 size, 0)
  pure (out, size)

/-- /repo/tree.c:509-546 `addMerkleNodes`; the Boolean is true for return value 0. -/
def addMerkleNodes (tree : Tree) (missingLeaves : List Nat) (missingLeavesSize : Nat) (input : Buf) (inputSize : Nat) :
    M (Bool × Tree) := do
  assertM (missingLeavesSize < tree.numLeaves)
  if inputSize > INT_MAX then pure (false, tree)
  else do
    let revealed ← getRevealedMerkleNodes tree missingLeaves missingLeavesSize
    assertM (!containsNode revealed 0)
    let (ok, tree, intLen, _) ← revealed.foldlM (fun (st : Bool × Tree × Int × Nat) node =>
      if !st.1 then pure st
      else do
        let intLen := st.2.2.1 - tree.dataSize
        if intLen < 0 then pure (false, st.2.1, intLen, st.2.2.2)
        else do
          let tree' ← setNode st.2.1 node input st.2.2.2 tree.dataSize
          pure (true, tree', intLen, st.2.2.2 + tree.dataSize)) (true, tree, (inputSize : Int), 0)
    if !ok then pure (false, tree)
    else if intLen ≠ 0 then pure (false, tree)
    else pure (true, tree)

/-- /repo/tree.c:549-581 `verifyMerkleTree`; the Boolean is true for return value 0. -/
def verifyMerkleTree (E : Env) (P : Params) (tree : Tree) (leafData : List (Option Buf)) (salt : Buf) :
    M (Bool × Tree) := do
  let (ok, tree) ← setLeaves tree leafData true
  if !ok then pure (false, tree)
  else do
    let tree ← hashUp E P tree salt
    let h ← rd tree.haveNode 0
    pure (h, tree)

end Picnic
