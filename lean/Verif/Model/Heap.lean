import Verif.Model.Params
import Mathlib.Algebra.BigOperators.Group.Multiset.Basic
import Mathlib.Algebra.Group.Nat.Even
import Mathlib.Data.Multiset.AddSub

/-
Lifetimes of heap objects: which blocks are allocated, used and released by sign, verify and print.

This is a second model of the same code.  It leaves out the contents of buffers (Model/Zkb, Model/Picnic3) and keeps the
pointers: every `malloc`, `calloc`, `realloc`, `free`, and the accesses to heap blocks.  Branches that depend on data are
parameters (`Bool`s); the theorems hold for all of them.  All accesses by a function to the same block are one
`touch`, at the place of the first or, if a block is released, also of the last one.
-/

namespace Picnic.Heap

/-- A pointer variable: never assigned, NULL, or the start of the allocated block with the given number.  Pointers into a block are
not distinguished from the block. -/
inductive Ptr where
  | undef
  | null
  | blk (id : Nat)
  deriving DecidableEq, Repr, Inhabited

/-- The heap: blocks that are allocated, the number of the next block, whether the n-th allocation fails, how many bytes were
requested for each block, and the largest number of bytes that were allocated at the same time. -/
structure Heap where
  live : Multiset Nat
  next : Nat
  fail : Nat → Bool
  size : Nat → Nat
  peak : Nat

/-- the bytes that are allocated -/
def Heap.bytes (h : Heap) : Nat := (h.live.map h.size).sum

/-- Programs that use the heap. -/
abbrev HM := StateT Heap Outcome

/-- Undefined behaviour. -/
def ubH {α : Type} (u : UB) : HM α := fun _ => .ub u

/-- the heap with a new block of n bytes -/
def Heap.alloc (h : Heap) (n : Nat) : Heap :=
  let g : Heap := { h with live := h.next ::ₘ h.live, next := h.next + 1, size := fun i => if i = h.next then n else h.size i }
  { g with peak := max h.peak g.bytes }

/-- `malloc`, `calloc` of n bytes.  Sizes of pointers and structures are those of 64-bit machines (pointers and `size_t`: 8 bytes). -/
def malloc (n : Nat) : HM Ptr := fun h =>
  if h.fail h.next then .ok (.null, { h with next := h.next + 1 })
  else .ok (.blk h.next, h.alloc n)

/-- `free(p)`: nothing for NULL, undefined for anything that is not allocated. -/
def free : Ptr → HM Unit
  | .undef => ubH .badFree
  | .null => pure ()
  | .blk i => fun h => if i ∈ h.live then .ok ((), { h with live := h.live.erase i }) else .ub .badFree

/-- An access to the block that `p` refers to. -/
def touch : Ptr → HM Unit
  | .undef => ubH .uninit
  | .null => ubH .nullDeref
  | .blk i => fun h => if i ∈ h.live then .ok ((), h) else .ub .oobRead

/-- An access to an object that is a local variable (`none`) or lies in a heap block. -/
def touchC : Option Ptr → HM Unit
  | none => pure ()
  | some p => touch p

/-- `realloc(p, n)` with n > 0: a new block with the old contents. -/
def realloc (p : Ptr) (n : Nat) : HM Ptr := do
  touch p
  let q ← malloc n
  match q with
  | .null => pure .null
  | q => do
    free p
    pure q

/-- `for (i = 0; i < n; i++) f(i)` -/
def forH (f : Nat → HM Unit) : Nat → HM Unit
  | 0 => pure ()
  | n + 1 => do
    forH f n
    f n

/-- `for (i = 0; i < n; i++) a[i] = f(i)` -/
def collectH {α : Type} (f : Nat → HM α) : Nat → HM (List α)
  | 0 => pure []
  | n + 1 => do
    let l ← collectH f n
    let x ← f n
    pure (l ++ [x])

/-- `for (i = 0; i < n; i++) { a[i] = f(i); if (failed) break; }` with an array `a` whose elements are `d` before. -/
def collectWhile {α : Type} (d : α) (f : Nat → HM (Bool × α)) : Nat → HM (Bool × List α)
  | 0 => pure (true, [])
  | n + 1 => do
    let (ok, l) ← collectWhile d f n
    if ok then do
      let (ok, x) ← f n
      pure (ok, l ++ [x])
    else pure (false, l ++ [d])

/-- `for (i = 0; i < n; i++) { if (!f(i)) break; }` -/
def whileH (f : Nat → HM Bool) : Nat → HM Bool
  | 0 => pure true
  | n + 1 => do
    let ok ← whileH f n
    if ok then f n else pure false

/-- `a[i]` -/
def getH {α : Type} (l : List α) (i : Nat) : HM α :=
  match l[i]? with
  | some x => pure x
  | none => ubH .oobRead

/-! ### /repo/picnic_types.c -/

/-- `shares_t*` (/repo/picnic_types.h:54-57) -/
structure HShares where
  self : Ptr
  shares : Ptr

/-- /repo/picnic_types.c:19-26 -/
def allocateShares (count : Nat) : HM HShares := do
  let self ← malloc 16
  let shares ← malloc (2 * count)
  touch self
  pure ⟨self, shares⟩

/-- /repo/picnic_types.c:27-31 -/
def freeShares (s : HShares) : HM Unit := do
  touch s.self
  free s.shares
  free s.self

/-- `view_t` (/repo/picnic_types.h:26-30) -/
structure HView where
  inputShare : Ptr
  communicatedBits : Ptr
  outputShare : Ptr

/-- /repo/picnic_types.c:34-39; the view lies in the block `c`. -/
def allocateView (P : Params) (c : Ptr) : HM HView := do
  let a ← malloc P.stateSizeBytes
  touch c
  let b ← malloc P.andSizeBytes
  touch c
  let o ← malloc P.stateSizeBytes
  touch c
  pure ⟨a, b, o⟩

/-- /repo/picnic_types.c:41-46 -/
def freeView (c : Ptr) (v : HView) : HM Unit := do
  touch c
  free v.inputShare
  touch c
  free v.communicatedBits
  touch c
  free v.outputShare

/-- All accesses to the buffers of a view. -/
def useView (c : Ptr) (v : HView) : HM Unit := do
  touch c
  touch v.inputShare
  touch v.communicatedBits
  touch v.outputShare

/-- `randomTape_t`: the array of pointers and the slab that they point into.  /repo/picnic_types.h:20-24. -/
structure HTape where
  tape : Ptr
  slab : Ptr

/-- /repo/picnic_types.c:53-64; `c` is the block that contains the object, if it is on the heap. -/
def allocateRandomTape (P : Params) (c : Option Ptr) : HM HTape := do
  touchC c
  let tape ← malloc (8 * P.numMPCParties)
  touchC c
  let slab ← malloc (P.numMPCParties * (2 * P.andSizeBytes))
  touch tape
  touchC c
  pure ⟨tape, slab⟩

/-- /repo/picnic_types.c:66-72 -/
def freeRandomTape (c : Option Ptr) (t : HTape) : HM Unit := do
  touchC c
  touch t.tape
  free t.slab
  touchC c
  free t.tape

/-- All accesses to the tapes. -/
def useTape (c : Option Ptr) (t : HTape) : HM Unit := do
  touchC c
  touch t.tape
  touch t.slab

/-- `proof2_t` (/repo/picnic3_impl.h:20-27) -/
structure HProof2 where
  seedInfo : Ptr
  C : Ptr
  input : Ptr
  aux : Ptr
  msgs : Ptr

/-- All pointers NULL, as after `calloc` (/repo/picnic_types.c:152). -/
def HProof2.zero : HProof2 := ⟨.null, .null, .null, .null, .null⟩

/-- /repo/picnic_types.c:74-85 -/
def allocateProof2 (P : Params) (c : Ptr) : HM HProof2 := do
  touch c
  let C ← malloc P.digestSizeBytes
  touch c
  let input ← malloc P.stateSizeBytes
  touch c
  let aux ← malloc P.andSizeBytes
  touch c
  let msgs ← malloc P.andSizeBytes
  touch c
  pure ⟨.null, C, input, aux, msgs⟩

/-- /repo/picnic_types.c:86-93 -/
def freeProof2 (c : Ptr) (p : HProof2) : HM Unit := do
  touch c
  free p.seedInfo
  touch c
  free p.C
  touch c
  free p.input
  touch c
  free p.aux
  touch c
  free p.msgs

/-- `proof_t` (/repo/picnic_impl.h:54-61) -/
structure HProof where
  seed1 : Ptr
  seed2 : Ptr
  inputShare : Ptr
  communicatedBits : Ptr
  view3Commitment : Ptr
  view3UnruhG : Ptr

/-- /repo/picnic_types.c:95-108 -/
def allocateProof (P : Params) (c : Ptr) : HM HProof := do
  let s1 ← malloc P.seedSizeBytes
  touch c
  let s2 ← malloc P.seedSizeBytes
  touch c
  let i ← malloc P.stateSizeBytes
  touch c
  let cb ← malloc P.andSizeBytes
  touch c
  let vc ← malloc P.digestSizeBytes
  touch c
  let g ← if P.unruhGWithInputBytes > 0 then malloc P.unruhGWithInputBytes else pure .null
  touch c
  pure ⟨s1, s2, i, cb, vc, g⟩

/-- /repo/picnic_types.c:110-118 -/
def freeProof (c : Ptr) (p : HProof) : HM Unit := do
  touch c
  free p.seed1
  touch c
  free p.seed2
  touch c
  free p.inputShare
  touch c
  free p.communicatedBits
  touch c
  free p.view3Commitment
  touch c
  free p.view3UnruhG

/-- All accesses to the buffers of a proof. -/
def useProof (P : Params) (c : Ptr) (p : HProof) : HM Unit := do
  touch c
  touch p.seed1
  touch p.seed2
  touch p.inputShare
  touch p.communicatedBits
  touch p.view3Commitment
  if P.unruhGWithInputBytes > 0 then touch p.view3UnruhG else pure ()

/-- `signature_t` (/repo/picnic_impl.h:63-67) -/
structure HSig where
  proofs : Ptr
  proof : List HProof
  challengeBits : Ptr
  salt : Ptr

/-- /repo/picnic_types.c:120-130; `c` is the block of the object itself, if it is on the heap. -/
def allocateSignature (P : Params) (c : Option Ptr) : HM HSig := do
  let proofs ← malloc (P.numMPCRounds * 48)
  touchC c
  let proof ← collectH (fun _ => do
    touchC c
    allocateProof P proofs) P.numMPCRounds
  let cb ← malloc (numBytes (2 * P.numMPCRounds))
  touchC c
  let salt ← malloc P.saltSizeBytes
  touchC c
  pure ⟨proofs, proof, cb, salt⟩

/-- /repo/picnic_types.c:132-141 -/
def freeSignature (P : Params) (c : Option Ptr) (s : HSig) : HM Unit := do
  forH (fun i => do
    touchC c
    let p ← getH s.proof i
    freeProof s.proofs p) P.numMPCRounds
  touchC c
  free s.proofs
  touchC c
  free s.challengeBits
  touchC c
  free s.salt

/-- `signature2_t` (/repo/picnic3_impl.h:29-39) -/
structure HSig2 where
  salt : Ptr
  iSeedInfo : Ptr
  cvInfo : Ptr
  challengeC : Ptr
  challengeP : Ptr
  challengeHash : Ptr
  proofs : Ptr
  proof : List HProof2

/-- /repo/picnic_types.c:143-154 -/
def allocateSignature2 (P : Params) (c : Option Ptr) : HM HSig2 := do
  let salt ← malloc P.saltSizeBytes
  touchC c
  let cC ← malloc (P.numOpenedRounds * 2)
  touchC c
  let cP ← malloc (P.numOpenedRounds * 2)
  touchC c
  let cH ← malloc P.digestSizeBytes
  touchC c
  let proofs ← malloc (P.numMPCRounds * 48)
  touchC c
  pure ⟨salt, .null, .null, cC, cP, cH, proofs, List.replicate P.numMPCRounds HProof2.zero⟩

/-- /repo/picnic_types.c:157-169 -/
def freeSignature2 (P : Params) (c : Option Ptr) (s : HSig2) : HM Unit := do
  touchC c
  free s.salt
  touchC c
  free s.iSeedInfo
  touchC c
  free s.cvInfo
  touchC c
  free s.challengeC
  touchC c
  free s.challengeP
  touchC c
  free s.challengeHash
  forH (fun i => do
    touchC c
    let p ← getH s.proof i
    freeProof2 s.proofs p) P.numMPCRounds
  touchC c
  free s.proofs

/-- `seeds_t*` with its three slabs (/repo/picnic_types.h:49-52) -/
structure HSeeds where
  self : Ptr
  slab1 : Ptr
  slab2 : Ptr
  slab3 : Ptr

/-- /repo/picnic_types.c:171-205 -/
def allocateSeeds (P : Params) : HM HSeeds := do
  let self ← malloc ((P.numMPCRounds + 1) * 16)
  let slab1 ← malloc (P.numMPCRounds * P.numMPCParties * P.seedSizeBytes + P.saltSizeBytes)
  let slab2 ← malloc (P.numMPCRounds * P.numMPCParties * 8 + 8 + P.numMPCRounds * 8)
  let slab3 ← malloc (P.numMPCRounds * P.seedSizeBytes + P.saltSizeBytes)
  touch self
  touch slab2
  pure ⟨self, slab1, slab2, slab3⟩

/-- /repo/picnic_types.c:207-213 -/
def freeSeeds (s : HSeeds) : HM Unit := do
  touch s.self
  touch s.slab2
  free s.slab1
  touch s.self
  free s.slab3
  touch s.self
  free s.slab2
  free s.self

/-- `commitments_t*`, `msgs_t*`, `g_commitments_t*`: an array and the slab that its pointers point into (/repo/picnic_types.h:32-47) -/
structure HArr where
  self : Ptr
  slab : Ptr

/-- /repo/picnic_types.c:215-235, `numCommitments` = 0 in all calls -/
def allocateCommitments (P : Params) : HM HArr := do
  let self ← malloc (P.numMPCRounds * 16)
  touch self
  let slab ← malloc (P.numMPCRounds * (P.numMPCParties * P.digestSizeBytes + P.numMPCParties * 8))
  touch self
  touch slab
  pure ⟨self, slab⟩

/-- /repo/picnic_types.c:237-241 -/
def freeCommitments (a : HArr) : HM Unit := do
  touch a.self
  free a.slab
  free a.self

/-- All accesses to such an array. -/
def useArr (a : HArr) : HM Unit := do
  touch a.self
  touch a.slab

/-- /repo/picnic_types.c:245-258, into a local variable; the result is `hashes`.  `numCommitments` is `numMPCRounds` in all calls. -/
def allocateCommitments2 (P : Params) : HM Ptr := do
  let slab ← malloc (P.numMPCRounds * P.digestSizeBytes + P.numMPCRounds * 8)
  touch slab
  pure slab

/-- /repo/picnic_types.c:260-267 -/
def freeCommitments2 (hashes : Ptr) : HM Unit := do
  match hashes with
  | .null => pure ()
  | p => free p

/-- /repo/picnic_types.c:269-283 -/
def allocateInputs (P : Params) : HM Ptr := do
  let slab ← malloc (P.numMPCRounds * (P.stateSizeWords * 4 + 8))
  touch slab
  pure slab

/-- /repo/picnic_types.c:285-288 -/
def freeInputs (inputs : Ptr) : HM Unit := free inputs

/-- /repo/picnic_types.c:290-310 -/
def allocateMsgs (P : Params) : HM HArr := do
  let self ← malloc (P.numMPCRounds * 24)
  let slab ← malloc (P.numMPCRounds * (P.numMPCParties * P.andSizeBytes + P.numMPCParties * 8))
  touch self
  touch slab
  pure ⟨self, slab⟩

/-- /repo/picnic_types.c:312-316 -/
def freeMsgs (a : HArr) : HM Unit := do
  touch a.self
  free a.slab
  free a.self

/-- `view_t*`: the three views of one repetition (/repo/picnic_types.h:26-30, /repo/picnic_types.c:324) -/
structure HRow where
  self : Ptr
  view : List HView

/-- `view_t**` (/repo/picnic_types.c:321) -/
structure HViews where
  self : Ptr
  row : List HRow

/-- /repo/picnic_types.c:318-331 -/
def allocateViews (P : Params) : HM HViews := do
  let self ← malloc (P.numMPCRounds * 8)
  let row ← collectH (fun _ => do
    let r ← malloc 72
    touch self
    let v ← collectH (fun _ => do
      touch self
      allocateView P r) 3
    pure (HRow.mk r v)) P.numMPCRounds
  pure ⟨self, row⟩

/-- /repo/picnic_types.c:333-343 -/
def freeViews (P : Params) (vs : HViews) : HM Unit := do
  forH (fun i => do
    let r ← getH vs.row i
    forH (fun j => do
      touch vs.self
      let v ← getH r.view j
      freeView r.self v) 3
    touch vs.self
    free r.self) P.numMPCRounds
  free vs.self

/-- /repo/picnic_types.c:345-361 -/
def allocateGCommitments (P : Params) : HM HArr :=
  if P.transform = .UR then do
    let self ← malloc (P.numMPCRounds * 24)
    let slab ← malloc (P.unruhGWithInputBytes * P.numMPCRounds * 3)
    touch self
    pure ⟨self, slab⟩
  else pure ⟨.null, .null⟩

/-- /repo/picnic_types.c:363-369 -/
def freeGCommitments (a : HArr) : HM Unit := do
  match a.self with
  | .null => pure ()
  | p => do
    touch p
    free a.slab
    free p

/-! ### /repo/tree.c -/

/-- `tree_t*` (/repo/tree.h:18-26) -/
structure HTree where
  self : Ptr
  nodes : Ptr
  slab : Ptr
  haveNode : Ptr
  exists' : Ptr
  numLeaves : Nat

/-- the depth of a tree with n leaves, /repo/tree.c:49 -/
def depthOf (n : Nat) : Nat := ceilLog2 n + 1

/-- the number of nodes, /repo/tree.c:50 -/
def nodesOf (n : Nat) : Nat := (2 ^ depthOf n - 1) - (2 ^ (depthOf n - 1) - n)

/-- The NULL pointer, as in /repo/picnic3_impl.c:579. -/
def HTree.null : HTree := ⟨.null, .undef, .undef, .undef, .undef, 0⟩

/-- /repo/tree.c:45-74 -/
def createTree (numLeaves dataSize : Nat) : HM HTree := do
  let self ← malloc 56
  touch self
  let nodes ← malloc (nodesOf numLeaves * 8)
  touch self
  let slab ← malloc (nodesOf numLeaves * dataSize)
  touch nodes
  let have' ← malloc (nodesOf numLeaves)
  touch self
  let ex ← malloc (nodesOf numLeaves)
  touch self
  touch ex
  pure ⟨self, nodes, slab, have', ex, numLeaves⟩

/-- /repo/tree.c:76-85 -/
def freeTree (t : HTree) : HM Unit :=
  match t.self with
  | .null => pure ()
  | p => do
    touch p
    touch t.nodes
    free t.slab
    touch p
    free t.nodes
    touch p
    free t.haveNode
    touch p
    free t.exists'
    free p

/-- All accesses to the blocks of a tree. -/
def useTree (t : HTree) : HM Unit := do
  touch t.self
  touch t.nodes
  touch t.slab
  touch t.haveNode
  touch t.exists'

/-- /repo/tree.c:168-177 (and `expandSeeds`, 136-166) -/
def generateSeeds (P : Params) (nSeeds : Nat) (rootSeed salt : Ptr) : HM HTree := do
  let t ← createTree nSeeds P.seedSizeBytes
  touch rootSeed
  touch salt
  useTree t
  pure t

/-- /repo/tree.c:235-291 -/
def getRevealedNodes (t : HTree) (hideList : Option Ptr) (hideListSize : Nat) : HM Ptr := do
  let pathSets ← malloc ((depthOf t.numLeaves - 1) * 8)
  let slab ← malloc (hideListSize * (depthOf t.numLeaves - 1) * 8)
  touch pathSets
  touchC hideList
  touch slab
  useTree t
  let revealed ← malloc (t.numLeaves * 8)
  touch revealed
  touch slab
  touch pathSets
  free slab
  free pathSets
  pure revealed

/-- /repo/tree.c:293-302 -/
def revealSeedsSize (P : Params) (numNodes : Nat) (hideList : Option Ptr) (hideListSize : Nat) : HM Unit := do
  let t ← createTree numNodes P.seedSizeBytes
  let revealed ← getRevealedNodes t hideList hideListSize
  freeTree t
  free revealed

/-- /repo/tree.c:304-330; the branch of an insufficient buffer is an `assert`. -/
def revealSeeds (t : HTree) (hideList : Option Ptr) (hideListSize : Nat) (output : Ptr) : HM Unit := do
  let revealed ← getRevealedNodes t hideList hideListSize
  touch revealed
  useTree t
  touch output
  free revealed

/-- /repo/tree.c:332-360; `ok`: whether the input has enough bytes.  (The early exit for inputs longer than INT_MAX allocates
nothing.) -/
def reconstructSeeds (t : HTree) (hideList : Option Ptr) (hideListSize : Nat) (input salt : Ptr) (ok : Bool) : HM Bool := do
  let revealed ← getRevealedNodes t hideList hideListSize
  touch revealed
  touch input
  useTree t
  if ok then do
    touch salt
    free revealed
    pure true
  else do
    free revealed
    pure false

/-- /repo/tree.c:402-418 -/
def buildMerkleTree (t : HTree) (leafData salt : Ptr) : HM Unit := do
  useTree t
  touch leafData
  touch salt

/-- /repo/tree.c:421-471 -/
def getRevealedMerkleNodes (t : HTree) (missingLeaves : Ptr) : HM Ptr := do
  touch t.self
  let missingNodes ← malloc (nodesOf t.numLeaves)
  touch missingLeaves
  touch missingNodes
  useTree t
  let revealed ← malloc (t.numLeaves * 8)
  touch missingNodes
  touch revealed
  free missingNodes
  pure revealed

/-- /repo/tree.c:473-484 -/
def openMerkleTreeSize (P : Params) (numNodes : Nat) (missingLeaves : Ptr) : HM Unit := do
  let t ← createTree numNodes P.digestSizeBytes
  let revealed ← getRevealedMerkleNodes t missingLeaves
  freeTree t
  free revealed

/-- /repo/tree.c:488-506; the caller releases the result.  `outputSize`: the number of revealed nodes times their size. -/
def openMerkleTree (t : HTree) (missingLeaves : Ptr) (outputSize : Nat) : HM Ptr := do
  let revealed ← getRevealedMerkleNodes t missingLeaves
  let output ← malloc outputSize
  touch revealed
  useTree t
  touch output
  free revealed
  pure output

/-- /repo/tree.c:509-546; `ok`: whether the input has the right number of bytes. -/
def addMerkleNodes (t : HTree) (missingLeaves input : Ptr) (ok : Bool) : HM Bool := do
  let revealed ← getRevealedMerkleNodes t missingLeaves
  touch revealed
  touch input
  useTree t
  free revealed
  pure ok

/-- /repo/tree.c:549-581; `ok`: the result. -/
def verifyMerkleTree (t : HTree) (leafData salt : Ptr) (ok : Bool) : HM Bool := do
  useTree t
  touch leafData
  touch salt
  pure ok

/-! ### /repo/picnic_impl.c -/

/-- `if (params->transform == TRANSFORM_UR) { ... }` around an access of `gs`, /repo/picnic_impl.c:383, 660, 928 -/
def useG (P : Params) (gs : HArr) : HM Unit := if P.transform = .UR then useArr gs else pure ()

/-- /repo/picnic_impl.c:354-432 -/
def H3 (P : Params) (viewOutputs : Ptr) (as : HArr) (challengeBits salt : Ptr) (gs : HArr) : HM Unit := do
  let hash ← malloc P.digestSizeBytes
  touch challengeBits
  touch viewOutputs
  useArr as
  useG P gs
  touch salt
  touch hash
  free hash

/-- /repo/picnic_impl.c:618-702; `ok`: whether the challenge is the one of the signature.  `c` is the block of the signature. -/
def verify (P : Params) (c : Ptr) (sig : HSig) (ok : Bool) : HM Bool := do
  let as ← allocateCommitments P
  let gs ← allocateGCommitments P
  let viewOutputs ← malloc (P.numMPCRounds * 3 * 8)
  touch c
  let tmp ← malloc (max (6 * P.stateSizeBytes) (P.stateSizeBytes + P.andSizeBytes))
  let tape ← malloc 24
  let tp ← allocateRandomTape P (some tape)
  let view1s ← malloc (P.numMPCRounds * 24)
  let view2s ← malloc (P.numMPCRounds * 24)
  let view3Slab ← malloc (P.stateSizeBytes * P.numMPCRounds)
  let views ← collectH (fun i => do
    let v1 ← allocateView P view1s
    let v2 ← allocateView P view2s
    touch c
    touch sig.challengeBits
    touch sig.salt
    let p ← getH sig.proof i
    useProof P sig.proofs p
    useView view1s v1
    useView view2s v2
    touch tmp
    useTape (some tape) tp
    useArr as
    useG P gs
    touch viewOutputs
    touch view3Slab
    pure (v1, v2)) P.numMPCRounds
  let computed ← malloc (numBytes (2 * P.numMPCRounds))
  H3 P viewOutputs as computed sig.salt gs
  forH (fun i => do
    let v ← getH views i
    useView view1s v.1
    useView view2s v.2) P.numMPCRounds
  touch view3Slab
  touch computed
  touch sig.challengeBits
  free computed
  free view3Slab
  freeCommitments as
  forH (fun i => do
    let v ← getH views i
    freeView view1s v.1
    freeView view2s v.2) P.numMPCRounds
  free view1s
  free view2s
  free tmp
  freeRandomTape (some tape) tp
  free tape
  freeGCommitments gs
  free viewOutputs
  pure ok

/-- /repo/picnic_impl.c:869-978; `simOk k`: whether the simulation of repetition `k` yields the public key.  If not, the function
returns at once.  `c` is the block of the signature. -/
def signPicnic1 (P : Params) (c : Ptr) (sig : HSig) (simOk : Nat → Bool) : HM Bool := do
  let views ← allocateViews P
  let as ← allocateCommitments P
  let gs ← allocateGCommitments P
  let seeds ← allocateSeeds P
  touch seeds.slab1
  touch c
  touch sig.salt
  let tp ← allocateRandomTape P none
  let tmp ← malloc (max (9 * P.stateSizeBytes) (P.stateSizeBytes + P.andSizeBytes))
  let ok ← whileH (fun k => do
    touch seeds.self
    touch seeds.slab2
    touch seeds.slab1
    touch sig.salt
    touch tmp
    useTape none tp
    touch views.self
    let r ← getH views.row k
    forH (fun j => do
      let v ← getH r.view j
      useView r.self v) 3
    if simOk k then do
      useArr as
      useG P gs
      pure true
    else pure false) P.numMPCRounds
  if !ok then pure false
  else do
    let viewOutputs ← malloc (P.numMPCRounds * 3 * 8)
    touch viewOutputs
    H3 P viewOutputs as sig.challengeBits sig.salt gs
    forH (fun i => do
      touch c
      let p ← getH sig.proof i
      useProof P sig.proofs p
      touch sig.challengeBits
      touch seeds.slab1
      let r ← getH views.row i
      forH (fun j => do
        let v ← getH r.view j
        useView r.self v) 3
      useArr as) P.numMPCRounds
    free tmp
    freeViews P views
    freeCommitments as
    freeRandomTape none tp
    freeGCommitments gs
    free viewOutputs
    freeSeeds seeds
    pure true

/-! ### /repo/picnic3_impl.c -/

/-- /repo/picnic3_impl.c:453-508 -/
def expandChallengeHash (P : Params) (challengeHash challengeC challengeP : Ptr) : HM Unit := do
  let chunks ← malloc (P.digestSizeBytes * 8 / min (ceilLog2 P.numMPCRounds) (ceilLog2 P.numMPCParties) * 2)
  touch challengeHash
  touch chunks
  touch challengeC
  touch challengeP
  free chunks

/-- /repo/picnic3_impl.c:554-569 -/
def getMissingLeavesList (P : Params) (challengeC : Ptr) : HM Ptr := do
  let missingLeaves ← malloc ((P.numMPCRounds - P.numOpenedRounds) * 2)
  touch challengeC
  touch missingLeaves
  pure missingLeaves

/-- The branches of `verify_picnic3`: which repetitions are opened, and which checks succeed.  /repo/picnic3_impl.c:570-729. -/
structure Verify3 where
  opened : Nat → Bool
  iSeedsOk : Bool
  seedsOk : Nat → Bool
  simOk : Nat → Bool
  merkleOk : Bool
  leavesOk : Bool
  hashOk : Bool

/-- All checks of `verify_picnic3` succeed, those of the seed trees aside. -/
def Verify3.Ok (P : Params) (d : Verify3) : Bool :=
  ((List.range P.numMPCRounds).all fun t => !d.opened t || d.simOk t) && (d.merkleOk && (d.leavesOk && d.hashOk))

/-- /repo/picnic3_impl.c:712-729, the code after the label `Exit` of `verify_picnic3` -/
def verify3Exit (P : Params) (C : HArr) (Ch Cv : Ptr) (msgs : HArr) (treeCv iSeedsTree : HTree) (seeds : Ptr) (seed : List HTree)
    (tapes : Ptr) (tape : List HTape) : HM Unit := do
  freeCommitments C
  freeCommitments2 Cv
  freeCommitments2 Ch
  freeMsgs msgs
  freeTree treeCv
  freeTree iSeedsTree
  forH (fun t => do
    let tp ← getH tape t
    freeRandomTape (some tapes) tp
    touch seeds
    let s ← getH seed t
    freeTree s) P.numMPCRounds
  free seeds
  free tapes

/-- /repo/picnic3_impl.c:571-729; `c` is the block of the signature. -/
def verifyPicnic3 (P : Params) (c : Ptr) (sig : HSig2) (d : Verify3) : HM Bool := do
  let C ← allocateCommitments P
  let msgs ← allocateMsgs P
  let treeCv ← createTree P.numMPCRounds P.digestSizeBytes
  let seeds ← malloc (P.numMPCRounds * 8)
  let tapes ← malloc (P.numMPCRounds * 24)
  let iSeedsTree ← createTree P.numMPCRounds P.seedSizeBytes
  touch c
  let ok ← reconstructSeeds iSeedsTree (some sig.challengeC) P.numOpenedRounds sig.iSeedInfo sig.salt d.iSeedsOk
  if !ok then do
    verify3Exit P C .null .null msgs treeCv iSeedsTree seeds (List.replicate P.numMPCRounds HTree.null) tapes
      (List.replicate P.numMPCRounds ⟨.undef, .undef⟩)
    pure false
  else do
    let (ok, seed) ← collectWhile HTree.null (fun t => do
      touch sig.challengeC
      if !d.opened t then do
        useTree iSeedsTree
        let s ← generateSeeds P P.numMPCParties iSeedsTree.slab sig.salt
        touch seeds
        pure (true, s)
      else do
        let s ← createTree P.numMPCParties P.seedSizeBytes
        touch seeds
        touch sig.challengeP
        touch sig.proofs
        let pf ← getH sig.proof t
        let ok ← reconstructSeeds s none 1 pf.seedInfo sig.salt (d.seedsOk t)
        pure (ok, s)) P.numMPCRounds
    if !ok then do
      verify3Exit P C .null .null msgs treeCv iSeedsTree seeds seed tapes (List.replicate P.numMPCRounds ⟨.undef, .undef⟩)
      pure false
    else do
      let tape ← collectH (fun t => do
        touch seeds
        let s ← getH seed t
        useTree s
        let tp ← allocateRandomTape P (some tapes)
        useTape (some tapes) tp
        useArr C
        touch sig.challengeC
        if !d.opened t then pure tp
        else do
          touch sig.challengeP
          touch sig.proofs
          let pf ← getH sig.proof t
          touch pf.aux
          touch pf.C
          pure tp) P.numMPCRounds
      let Ch ← allocateCommitments2 P
      useArr C
      touch Ch
      let Cv ← allocateCommitments2 P
      let tmpShares ← allocateShares P.stateSizeBits
      let ok ← whileH (fun t => do
        touch sig.challengeC
        if d.opened t then do
          touch sig.challengeP
          touch sig.proofs
          let pf ← getH sig.proof t
          touch pf.aux
          touch pf.msgs
          touch pf.input
          let tp ← getH tape t
          useTape (some tapes) tp
          useArr msgs
          touch tmpShares.self
          touch tmpShares.shares
          if !d.simOk t then do
            freeShares tmpShares
            pure false
          else do
            touch Cv
            pure true
        else do
          touch Cv
          pure true) P.numMPCRounds
      if !ok then do
        verify3Exit P C Ch Cv msgs treeCv iSeedsTree seeds seed tapes tape
        pure false
      else do
        freeShares tmpShares
        let missingLeaves ← getMissingLeavesList P sig.challengeC
        let ok ← addMerkleNodes treeCv missingLeaves sig.cvInfo d.merkleOk
        free missingLeaves
        if !ok then do
          verify3Exit P C Ch Cv msgs treeCv iSeedsTree seeds seed tapes tape
          pure false
        else do
          let ok ← verifyMerkleTree treeCv Cv sig.salt d.leavesOk
          if !ok then do
            verify3Exit P C Ch Cv msgs treeCv iSeedsTree seeds seed tapes tape
            pure false
          else do
            touch Ch
            useTree treeCv
            touch sig.challengeHash
            verify3Exit P C Ch Cv msgs treeCv iSeedsTree seeds seed tapes tape
            pure d.hashOk

/-- /repo/picnic3_impl.c:874-891, the code after the label `Exit` of `sign_picnic3` -/
def sign3Exit (P : Params) (tapes seeds : Ptr) (st : List (HTree × HTape)) (iSeedsTree treeCv : HTree) (C : HArr) (Ch Cv inputs : Ptr)
    (msgs : HArr) : HM Unit := do
  forH (fun t => do
    let x ← getH st t
    freeRandomTape (some tapes) x.2
    touch seeds
    freeTree x.1) P.numMPCRounds
  free tapes
  free seeds
  freeTree iSeedsTree
  freeTree treeCv
  freeCommitments C
  freeCommitments2 Ch
  freeCommitments2 Cv
  freeInputs inputs
  freeMsgs msgs

/-- Lengths that depend on the challenge: `iSeedInfoLen`, `cvInfoLen`, and `seedInfoLen` of repetition t (/repo/picnic3_impl.c:824-846). -/
structure Lens where
  iSeedInfo : Nat
  cvInfo : Nat
  seedInfo : Nat → Nat

/-- /repo/picnic3_impl.c:746-893; `simOk t`: whether the simulation of repetition `t` succeeds, `opened t`: whether the challenge opens
it.  Returns the signature with its new buffers; `c` is its block. -/
def signPicnic3 (P : Params) (c : Ptr) (sig : HSig2) (simOk opened : Nat → Bool) (len : Lens) : HM (Bool × HSig2) := do
  let saltAndRoot ← malloc (P.saltSizeBytes + P.seedSizeBytes)
  touch saltAndRoot
  touch c
  touch sig.salt
  let iSeedsTree ← generateSeeds P P.numMPCRounds saltAndRoot sig.salt
  touch iSeedsTree.self
  free saltAndRoot
  let tapes ← malloc (P.numMPCRounds * 24)
  let seeds ← malloc (P.numMPCRounds * 8)
  let st ← collectH (fun _ => do
    useTree iSeedsTree
    let s ← generateSeeds P P.numMPCParties iSeedsTree.slab sig.salt
    touch seeds
    touch s.self
    let tp ← allocateRandomTape P (some tapes)
    useTree s
    useTape (some tapes) tp
    pure (s, tp)) P.numMPCRounds
  let inputs ← allocateInputs P
  forH (fun t => do
    let x ← getH st t
    useTape (some tapes) x.2
    touch inputs) P.numMPCRounds
  let C ← allocateCommitments P
  forH (fun t => do
    let x ← getH st t
    useTree x.1
    useTape (some tapes) x.2
    useArr C) P.numMPCRounds
  let msgs ← allocateMsgs P
  let tmpShares ← allocateShares P.stateSizeBits
  let ok ← whileH (fun t => do
    touch inputs
    let x ← getH st t
    useTape (some tapes) x.2
    useArr msgs
    touch tmpShares.self
    touch tmpShares.shares
    if !simOk t then do
      freeShares tmpShares
      pure false
    else pure true) P.numMPCRounds
  if !ok then do
    sign3Exit P tapes seeds st iSeedsTree HTree.null C .null .null inputs msgs
    pure (false, sig)
  else do
    freeShares tmpShares
    let Ch ← allocateCommitments2 P
    let Cv ← allocateCommitments2 P
    useArr C
    touch Ch
    touch Cv
    touch inputs
    useArr msgs
    let treeCv ← createTree P.numMPCRounds P.digestSizeBytes
    buildMerkleTree treeCv Cv sig.salt
    touch sig.challengeHash
    expandChallengeHash P sig.challengeHash sig.challengeC sig.challengeP
    let missingLeaves ← getMissingLeavesList P sig.challengeC
    let cvInfo ← openMerkleTree treeCv missingLeaves len.cvInfo
    touch c
    free missingLeaves
    let iSeedInfo ← malloc (P.numMPCRounds * P.seedSizeBytes)
    touch c
    revealSeeds iSeedsTree (some sig.challengeC) P.numOpenedRounds iSeedInfo
    let iSeedInfo ← realloc iSeedInfo len.iSeedInfo
    touch c
    let proof ← collectH (fun t => do
      touch sig.challengeC
      if opened t then do
        let pf ← allocateProof2 P sig.proofs
        touch sig.challengeP
        let seedInfo ← malloc (P.numMPCParties * P.seedSizeBytes)
        touch sig.proofs
        let x ← getH st t
        revealSeeds x.1 none 1 seedInfo
        let seedInfo ← realloc seedInfo (len.seedInfo t)
        touch sig.proofs
        touch pf.aux
        useTape (some tapes) x.2
        touch pf.input
        touch inputs
        touch pf.msgs
        useArr msgs
        touch pf.C
        useArr C
        pure { pf with seedInfo := seedInfo }
      else getH sig.proof t) P.numMPCRounds
    sign3Exit P tapes seeds st iSeedsTree treeCv C Ch Cv inputs msgs
    pure (true, { sig with cvInfo := cvInfo, iSeedInfo := iSeedInfo, proof := proof })

/-- The branches of `deserializeSignature2`: enough bytes for challenge and salt, the right number of bytes, which repetitions
are opened, and whether the padding of proof `t` is zero; and the lengths that depend on the challenge.  /repo/picnic3_impl.c:895-994. -/
structure Decode2 where
  longEnough : Bool
  sizeOk : Bool
  opened : Nat → Bool
  paddingOk : Nat → Bool
  len : Lens

/-- All checks of `deserializeSignature2` succeed. -/
def Decode2.Ok (P : Params) (d : Decode2) : Bool :=
  d.longEnough && (d.sizeOk && (List.range P.numMPCRounds).all fun t => !d.opened t || d.paddingOk t)

/-- /repo/picnic3_impl.c:895-993 -/
def deserializeSignature2 (P : Params) (c : Option Ptr) (sig : HSig2) (d : Decode2) : HM (Bool × HSig2) := do
  if !d.longEnough then pure (false, sig)
  else do
    touchC c
    touch sig.challengeHash
    touch sig.salt
    expandChallengeHash P sig.challengeHash sig.challengeC sig.challengeP
    revealSeedsSize P P.numMPCRounds (some sig.challengeC) P.numOpenedRounds
    let missingLeaves ← getMissingLeavesList P sig.challengeC
    openMerkleTreeSize P P.numMPCRounds missingLeaves
    free missingLeaves
    revealSeedsSize P P.numMPCParties none 1
    touch sig.challengeP
    if !d.sizeOk then pure (false, sig)
    else do
      let iSeedInfo ← malloc d.len.iSeedInfo
      touchC c
      touch iSeedInfo
      let cvInfo ← malloc d.len.cvInfo
      touchC c
      touch cvInfo
      let (ok, proof) ← collectWhile HProof2.zero (fun t => do
        touch sig.challengeC
        if d.opened t then do
          let pf ← allocateProof2 P sig.proofs
          let seedInfo ← malloc (d.len.seedInfo t)
          touch sig.proofs
          touch seedInfo
          touch sig.challengeP
          touch pf.aux
          touch pf.input
          touch pf.msgs
          touch pf.C
          pure (d.paddingOk t, { pf with seedInfo := seedInfo })
        else do
          let pf ← getH sig.proof t
          pure (true, pf)) P.numMPCRounds
      pure (ok, { sig with iSeedInfo := iSeedInfo, cvInfo := cvInfo, proof := proof })

/-! ### /repo/picnic.c -/

/-- /repo/picnic.c:279-305, `picnic_sign` for a ZKB++ parameter set; `serOk`: whether the signature fits into the buffer.  The branch
`sig == NULL` (282-284) comes after the first access. -/
def picnicSign1 (P : Params) (simOk : Nat → Bool) (serOk : Bool) : HM Int := do
  let sig ← malloc 24
  let s ← allocateSignature P (some sig)
  if sig = .null then pure (-1)
  else do
    let ok ← signPicnic1 P sig s simOk
    if !ok then do
      freeSignature P (some sig) s
      free sig
      pure (-1)
    else do
      touch sig
      touch s.challengeBits
      touch s.salt
      forH (fun i => do
        let p ← getH s.proof i
        useProof P s.proofs p) P.numMPCRounds
      freeSignature P (some sig) s
      free sig
      pure (if serOk then 0 else -1)

/-- /repo/picnic.c:306-332, `picnic_sign` for a Picnic3 parameter set -/
def picnicSign3 (P : Params) (simOk opened : Nat → Bool) (len : Lens) (serOk : Bool) : HM Int := do
  let sig ← malloc 72
  let s ← allocateSignature2 P (some sig)
  if sig = .null then pure (-1)
  else do
    let (ok, s) ← signPicnic3 P sig s simOk opened len
    if !ok then do
      freeSignature2 P (some sig) s
      free sig
      pure (-1)
    else do
      touch sig
      touch s.challengeHash
      touch s.salt
      touch s.iSeedInfo
      touch s.cvInfo
      touch s.proofs
      freeSignature2 P (some sig) s
      free sig
      pure (if serOk then 0 else -1)

/-- /repo/picnic.c:395-421, `picnic_verify` for a ZKB++ parameter set; `decOk`: the result of `deserializeSignature`, which allocates
nothing; `ok`: whether the challenge matches. -/
def picnicVerify1 (P : Params) (decOk ok : Bool) : HM Int := do
  let sig ← malloc 24
  let s ← allocateSignature P (some sig)
  if sig = .null then pure (-1)
  else do
    touch sig
    touch s.challengeBits
    touch s.salt
    forH (fun i => do
      let p ← getH s.proof i
      useProof P s.proofs p) P.numMPCRounds
    if !decOk then do
      freeSignature P (some sig) s
      free sig
      pure (-1)
    else do
      let ok ← verify P sig s ok
      freeSignature P (some sig) s
      free sig
      pure (if ok then 0 else -1)

/-- /repo/picnic.c:422-448, `picnic_verify` for a Picnic3 parameter set -/
def picnicVerify3 (P : Params) (d : Decode2) (v : Verify3) : HM Int := do
  let sig ← malloc 72
  let s ← allocateSignature2 P (some sig)
  if sig = .null then pure (-1)
  else do
    let (ok, s) ← deserializeSignature2 P (some sig) s d
    if !ok then do
      freeSignature2 P (some sig) s
      free sig
      pure (-1)
    else do
      let ok ← verifyPicnic3 P sig s { v with opened := d.opened }
      freeSignature2 P (some sig) s
      free sig
      pure (if ok then 0 else -1)

/-- /repo/picnic.c:717-783, `print_signature` for a ZKB++ parameter set: if decoding fails, it returns without releasing the
signature. -/
def printSignature1 (P : Params) (decOk : Bool) : HM Unit := do
  let s ← allocateSignature P none
  touch s.challengeBits
  touch s.salt
  forH (fun i => do
    let p ← getH s.proof i
    useProof P s.proofs p) P.numMPCRounds
  if !decOk then pure ()
  else freeSignature P none s

/-- /repo/picnic.c:645-694, `print_signature2`; likewise. -/
def printSignature2 (P : Params) (d : Decode2) : HM Unit := do
  let s ← allocateSignature2 P none
  let (ok, s) ← deserializeSignature2 P none s d
  if !ok then pure ()
  else do
    touch s.challengeC
    touch s.challengeP
    touch s.salt
    touch s.iSeedInfo
    touch s.cvInfo
    freeSignature2 P none s

end Picnic.Heap
