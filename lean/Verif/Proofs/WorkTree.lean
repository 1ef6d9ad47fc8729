import Verif.Proofs.WorkZkb

/-
The work of the functions on trees.
-/

namespace Picnic.Leak

variable {e p q L S : Nat} {P : Params} {E : Env} {α β σ : Type}

/-- the depth of a tree with `L` leaves -/
def depthOf (L : Nat) : Nat := ceilLog2 L + 1

/-- the number of nodes of a tree with `L` leaves -/
def nodesOf (L : Nat) : Nat := (2 ^ depthOf L - 1) - (2 ^ (depthOf L - 1) - L)

/-- a tree with `L` leaves and `S` bytes in each node -/
structure Dim (L S : Nat) (t : Tree) : Prop where
  depth : t.depth = depthOf L
  nodes : t.numNodes = nodesOf L
  leaves : t.numLeaves = L
  size : t.dataSize = S

theorem Dim.of {t t' : Tree} (h : Dim L S t) (h1 : t'.depth = t.depth) (h2 : t'.numNodes = t.numNodes)
    (h3 : t'.numLeaves = t.numLeaves) (h4 : t'.dataSize = t.dataSize) : Dim L S t' :=
  ⟨h1.trans h.depth, h2.trans h.nodes, h3.trans h.leaves, h4.trans h.size⟩

theorem takes_containsNode {l : List Nat} {v : Nat} : Takes e p (containsNode l v) (l.length * (2 * e) + e) := by
  induction l with
  | nil => exact (takes_bind (takes_note _) fun _ _ => takes_pure _).mono (by simp)
  | cons x l ih =>
    refine (takes_bind (takes_note _) fun _ _ => takes_ite (fun _ => takes_pure _) fun _ => ih).mono ?_
    rw [List.length_cons, Nat.add_mul, Nat.one_mul]; omega

theorem takes_containsNode_of {l : List Nat} {v : Nat} (n : Nat) (h : l.length ≤ n) :
    Takes e p (containsNode l v) (n * (2 * e) + e) :=
  takes_containsNode.mono (Nat.add_le_add_right (Nat.mul_le_mul_right _ h) _)
macro_rules | `(tactic| tk_leaf) => `(tactic| exact takes_containsNode_of _ (by assumption))

def treeExists_work (e p : Nat) : { w // ∀ t i, Takes e p (treeExists t i) w } :=
  ⟨_, fun t i => by unfold treeExists; tk⟩
macro_rules | `(tactic| tk_leaf) => `(tactic| exact (treeExists_work _ _).2 _ _)

def createTree_work (e p n s : Nat) : { w // Takes e p (createTree n s) w } := ⟨_, by unfold createTree; tk⟩
macro_rules | `(tactic| tk_leaf) => `(tactic| exact (createTree_work _ _ _ _).2)

theorem post_createTree (L S : Nat) : Post (createTree L S) (Dim L S) := by
  refine post_seq (R := Dim L S) (post_loopDown _ ⟨rfl, rfl, rfl, rfl⟩ fun i t ht => ?_) fun t ht =>
    post_bind fun _ _ => post_pure (ht.of rfl rfl rfl rfl)
  refine post_bind fun _ _ => post_bind fun _ _ => post_bind fun _ _ => post_ite (fun _ => post_bind fun _ _ => ?_) fun _ => post_pure ht
  exact post_pure (ht.of rfl rfl rfl rfl)
macro_rules | `(tactic| tk_post) => `(tactic| apply takes_seq (post_createTree _ _))

def isLeftChild_work (e p : Nat) : { w // ∀ n, Takes e p (isLeftChild n) w } := ⟨_, fun n => by unfold isLeftChild; tk⟩
macro_rules | `(tactic| tk_leaf) => `(tactic| exact (isLeftChild_work _ _).2 _)

def hasRightChild_work (e p : Nat) : { w // ∀ t n, Takes e p (hasRightChild t n) w } :=
  ⟨_, fun t n => by unfold hasRightChild; tk⟩
macro_rules | `(tactic| tk_leaf) => `(tactic| exact (hasRightChild_work _ _).2 _ _)

def getParent_work (e p : Nat) : { w // ∀ n, Takes e p (getParent n) w } := ⟨_, fun n => by unfold getParent; tk⟩
macro_rules | `(tactic| tk_leaf) => `(tactic| exact (getParent_work _ _).2 _)

theorem post_getParent (n : Nat) : Post (getParent n) (· < n) := by
  refine post_bind fun _ h => post_bind fun _ _ => post_ite (fun _ => post_pure ?_) fun _ => post_pure ?_
  all_goals
    have : Post (assertM (n != 0)) fun _ => n ≠ 0 := post_ite (fun h => post_ok (by simpa using h)) fun _ => post_abort
    have := this _ h
    omega

def getLeaf_work (e p : Nat) : { w // ∀ t n, Takes e p (getLeaf t n) w } := ⟨_, fun t n => by unfold getLeaf; tk⟩
macro_rules | `(tactic| tk_leaf) => `(tactic| exact (getLeaf_work _ _).2 _ _)

def hashSeed_work (e q : Nat) [Kind e q] (P : Params) :
    { w // ∀ E s salt b r n, Takes e (q * rateOf P) (hashSeed E P s salt b r n) w } :=
  ⟨_, fun E s salt b r n => by unfold hashSeed; tk⟩
macro_rules | `(tactic| tk_leaf) => `(tactic| exact (hashSeed_work _ _ _).2 _ _ _ _ _ _)

theorem post_hashSeed {s salt : Buf} {b : Byte} {r n : Nat} :
    Post (hashSeed E P s salt b r n) fun d => d.length ≤ 2 * P.seedSizeBytes := post_hashAll
macro_rules | `(tactic| tk_post) => `(tactic| apply takes_seq post_hashSeed)

def setNode_work (e p n : Nat) : { w // ∀ t i d o, Takes e p (setNode t i d o n) w } :=
  ⟨_, fun t i d o => by unfold setNode; tk⟩
macro_rules | `(tactic| tk_leaf) => `(tactic| exact (setNode_work _ _ _).2 _ _ _ _)

theorem post_setNode {t : Tree} {i : Nat} {d : Buf} {o n : Nat} (h : Dim L S t) : Post (setNode t i d o n) (Dim L S) :=
  post_bind fun _ _ => post_bind fun _ _ => post_bind fun _ _ => post_bind fun _ _ => post_pure (h.of rfl rfl rfl rfl)
macro_rules | `(tactic| tk_post) => `(tactic| apply takes_seq (post_setNode (by assumption)))

def expandSeedsStep_work (e q : Nat) [Kind e q] (P : Params) :
    { w // ∀ E salt r i t, Takes e (q * rateOf P) (expandSeedsStep E P salt r i t) w } :=
  ⟨_, fun E salt r i t => by unfold expandSeedsStep; tk⟩
macro_rules | `(tactic| tk_leaf) => `(tactic| exact (expandSeedsStep_work _ _ _).2 _ _ _ _ _)

theorem takes_loop_of {f : Nat → σ → M σ} {c n : Nat} {s : σ} (k : Nat) (hk : n ≤ k) (h : ∀ i s, Takes e p (f i s) c) :
    Takes e p (loop f n s) (e + k * c) :=
  (takes_loop h).mono (Nat.add_le_add_left (Nat.mul_le_mul_right _ hk) _)

theorem takes_loopDown_of {f : Nat → σ → M σ} {c n : Nat} {s : σ} (k : Nat) (hk : n ≤ k) (h : ∀ i s, Takes e p (f i s) c) :
    Takes e p (loopDown f n s) (e + k * c) :=
  (takes_loopDown h).mono (Nat.add_le_add_left (Nat.mul_le_mul_right _ hk) _)

def expandSeeds_work (e q : Nat) [Kind e q] (P : Params) (L S : Nat) :
    { w // ∀ E t salt r, Dim L S t → Takes e (q * rateOf P) (expandSeeds E P t salt r) w } :=
  ⟨_, fun E t salt r h => by
    unfold expandSeeds
    apply takes_seq (post_getParent _)
    · tk
    · intro k hk
      apply takes_loop_of (nodesOf L) (by rw [← h.nodes]; omega)
      intro _ _; tk⟩
macro_rules | `(tactic| tk_leaf) => `(tactic| exact (expandSeeds_work _ _ _ _ _).2 _ _ _ _ (by assumption))

def generateSeeds_work (e q : Nat) [Kind e q] (P : Params) (n : Nat) :
    { w // ∀ E root salt r, Takes e (q * rateOf P) (generateSeeds E P n root salt r) w } :=
  ⟨_, fun E root salt r => by unfold generateSeeds; tk⟩
macro_rules | `(tactic| tk_leaf) => `(tactic| exact (generateSeeds_work _ _ _ _).2 _ _ _ _)

def hasSibling_work (e p : Nat) : { w // ∀ t n, Takes e p (hasSibling t n) w } := ⟨_, fun t n => by unfold hasSibling; tk⟩
macro_rules | `(tactic| tk_leaf) => `(tactic| exact (hasSibling_work _ _).2 _ _)

def getSibling_work (e p : Nat) : { w // ∀ t n, Takes e p (getSibling t n) w } := ⟨_, fun t n => by unfold getSibling; tk⟩
macro_rules | `(tactic| tk_leaf) => `(tactic| exact (getSibling_work _ _).2 _ _)

def setPath_work (e p : Nat) : { w // ∀ ps i j n, Takes e p (setPath ps i j n) w } :=
  ⟨_, fun ps i j n => by unfold setPath; tk⟩
macro_rules | `(tactic| tk_leaf) => `(tactic| exact (setPath_work _ _).2 _ _ _ _)

def getPath_work (e p : Nat) : { w // ∀ ps i j, Takes e p (getPath ps i j) w } :=
  ⟨_, fun ps i j => by unfold getPath; tk⟩
macro_rules | `(tactic| tk_leaf) => `(tactic| exact (getPath_work _ _).2 _ _ _)

theorem post_setPath {ps : PathSets} {i j n : Nat} :
    Post (setPath ps i j n) fun r => i < ps.length ∧ r.length = ps.length := by
  refine post_bind fun _ h => post_bind fun _ _ => fun r hr => ?_
  refine ⟨?_, post_wr r hr⟩
  rw [out_rd] at h
  by_contra hc
  rw [Picnic.rd, List.getElem?_eq_none (by omega)] at h
  cases h

theorem takes_pathLoop (n i pos node : Nat) (ps : PathSets) : Takes e p (pathLoop n i pos node ps)
    ((ps.length - pos + 1) * ((getParent_work e p).1 + e + (setPath_work e p).1)) := by
  induction n generalizing pos node ps with
  | zero => exact Nat.zero_le _
  | succ n ih =>
    refine takes_bind (m := e + max ((setPath_work e p).1 + (ps.length - pos) * ((getParent_work e p).1 + e + (setPath_work e p).1)) 0)
      ((getParent_work _ _).2 _) (fun _ _ => takes_ite (fun _ =>
        takes_seq post_setPath ((setPath_work _ _).2 _ _ _ _) fun ps' h' => ?_) fun _ => takes_pure _) |>.mono ?_
    · refine (ih _ _ _).mono (Nat.mul_le_mul_right _ ?_)
      omega
    · rw [Nat.succ_mul]; omega

def getPathSets_work (e p k L S : Nat) : { w // ∀ t l, Dim L S t → Takes e p (getPathSets t l k) w } :=
  ⟨_, fun t l h => by
    unfold getPathSets
    apply takes_loop_inv (fun ps => ps.length = depthOf L - 1)
    · rw [List.length_replicate, h.depth]
    · intro i _ ps hps
      refine post_bind fun _ _ => post_seq post_setPath fun ps' h' => ?_
      have : ∀ n j pos node ps, Post (pathLoop n j pos node ps) fun r => r.length = ps.length := by
        intro n
        induction n with
        | zero => exact fun _ _ _ _ => post_diverge
        | succ n ih =>
          intro j pos node ps
          refine post_bind fun _ _ => post_ite (fun _ => post_seq post_setPath fun ps' h' => ?_) fun _ => post_pure rfl
          exact fun r hr => (ih _ _ _ _ r hr).trans h'.2
      exact fun r hr => (this _ _ _ _ _ r hr).trans (h'.2.trans hps)
    · intro i _ ps hps
      apply takes_bind
      · tk
      · intro _ _
        apply takes_seq post_setPath
        · tk
        · intro ps' h'
          have hl : ps'.length = depthOf L - 1 := h'.2.trans hps
          have key : ∀ n i pos node, Takes e p (pathLoop n i pos node ps')
              ((depthOf L - 1 - pos + 1) * ((getParent_work e p).1 + e + (setPath_work e p).1)) := by
            intro n i pos node; rw [← hl]; exact takes_pathLoop ..
          exact key _ _ 1 _⟩
macro_rules | `(tactic| tk_leaf) => `(tactic| exact (getPathSets_work _ _ _ _ _).2 _ _ (by assumption))

def pathContains_work (e p k : Nat) : { w // ∀ ps d v, Takes e p (pathContains ps d k v) w } :=
  ⟨_, fun ps d v => by unfold pathContains; tk⟩
macro_rules | `(tactic| tk_leaf) => `(tactic| exact (pathContains_work _ _ _).2 _ _ _)

theorem takes_descendLoop (t : Tree) (n s : Nat) :
    Takes e p (descendLoop t n s) (n * ((hasRightChild_work e p).1 + e + e)) := by
  induction n generalizing s with
  | zero => exact Nat.zero_le _
  | succ n ih =>
    refine (takes_bind ((hasRightChild_work e p).2 _ _) fun _ _ => takes_bind (takes_note _) fun _ _ =>
      takes_ite (fun _ => ih _) fun _ => takes_pure _).mono ?_
    rw [Nat.succ_mul]; omega

def addRevealed_work (e p n : Nat) : { w // ∀ t l v, l.length ≤ n → Takes e p (addRevealed t l v) w } :=
  ⟨_, fun t l v h => by unfold addRevealed; tk⟩
macro_rules | `(tactic| tk_leaf) => `(tactic| exact (addRevealed_work _ _ _).2 _ _ _ (by assumption))

theorem post_addRevealed {t : Tree} {l : List Nat} {v : Nat} (h : Dim L S t) (hl : l.length ≤ L) :
    Post (addRevealed t l v) fun l => l.length ≤ L := by
  refine post_bind fun _ _ => post_ite (fun _ => post_pure hl) fun _ => post_ite (fun hc => post_pure ?_) fun _ => post_ub
  rw [h.leaves] at hc
  rw [List.length_append, List.length_singleton]
  exact hc

def revealStep_work (e p k L S : Nat) :
    { w // ∀ t ps d i l, Dim L S t → l.length ≤ L → Takes e p (revealStep t ps k d i l) w } :=
  ⟨_, fun t ps d i l h hl => by
    unfold revealStep
    rw [h.nodes]
    tk
    exact takes_descendLoop _ _ _⟩
macro_rules | `(tactic| tk_leaf) => `(tactic| exact (revealStep_work _ _ _ _ _).2 _ _ _ _ _ (by assumption) (by assumption))

theorem post_revealStep {t : Tree} {ps : PathSets} {k d i : Nat} {l : List Nat} (h : Dim L S t) (hl : l.length ≤ L) :
    Post (revealStep t ps k d i l) fun l => l.length ≤ L :=
  post_bind fun _ _ => post_bind fun _ _ => post_ite (fun _ => post_pure hl) fun _ => post_bind fun _ _ => post_bind fun _ _ =>
    post_ite (fun _ => post_bind fun _ _ => post_addRevealed h hl) fun _ => post_pure hl

def getRevealedNodes_work (e p k L S : Nat) : { w // ∀ t l, Dim L S t → Takes e p (getRevealedNodes t l k) w } :=
  ⟨_, fun t l h => by
    unfold getRevealedNodes
    rw [h.depth]
    apply takes_bind
    · tk
    · intro ps _
      apply takes_loop_inv (fun l => l.length ≤ L) (Nat.zero_le _)
      · intro d _ s hs
        exact post_loop _ hs fun i _ s hs => post_revealStep h hs
      · intro d _ s hs
        apply takes_loop_inv (fun l => l.length ≤ L) hs
        · exact fun i _ s hs => post_revealStep h hs
        · intro i _ s hs
          tk⟩
macro_rules | `(tactic| tk_leaf) => `(tactic| exact (getRevealedNodes_work _ _ _ _ _).2 _ _ (by assumption))

theorem post_getRevealedNodes {t : Tree} {l : List Nat} {k : Nat} (h : Dim L S t) :
    Post (getRevealedNodes t l k) fun r => r.length ≤ L :=
  post_bind fun _ _ => post_loop _ (Nat.zero_le _) fun _ _ _ hs => post_loop _ hs fun _ _ _ hs => post_revealStep h hs
macro_rules | `(tactic| tk_post) => `(tactic| apply takes_seq (post_getRevealedNodes (by assumption)))

def revealSeedsSize_work (e p : Nat) (P : Params) (n k : Nat) : { w // ∀ l, Takes e p (revealSeedsSize P n l k) w } :=
  ⟨_, fun l => by unfold revealSeedsSize; tk⟩
macro_rules | `(tactic| tk_leaf) => `(tactic| exact (revealSeedsSize_work _ _ _ _ _).2 _)

theorem post_revealSeedsSize {n k : Nat} {l : List Nat} : Post (revealSeedsSize P n l k) (· ≤ n * P.seedSizeBytes) :=
  post_seq (post_createTree _ _) fun _ h => post_seq (post_getRevealedNodes h) fun _ h =>
    post_pure (Nat.mul_le_mul_right _ h)
macro_rules | `(tactic| tk_post) => `(tactic| apply takes_seq post_revealSeedsSize)

def reconstructSeeds_work (e q : Nat) [Kind e q] (P : Params) (k L S : Nat) :
    { w // ∀ E t l inp n salt r, Dim L S t → Takes e (q * rateOf P) (reconstructSeeds E P t l k inp n salt r) w } :=
  ⟨_, fun E t l inp n salt r h => by
    unfold reconstructSeeds
    apply takes_ite
    · intro _; tk
    · intro _
      apply takes_seq (post_getRevealedNodes h)
      · tk
      · intro rev hrev
        apply takes_seq (Q := fun st => Dim L S st.2.1)
        · refine post_foldL _ h fun s x hs => post_ite (fun _ => post_pure hs) fun _ => post_ite (fun _ => post_pure hs) fun _ => ?_
          exact post_seq (post_setNode hs) fun _ h => post_pure h
        · apply takes_foldL_of L hrev
          intro s x; tk
        · intro st hst
          tk⟩
macro_rules | `(tactic| tk_leaf) => `(tactic| exact (reconstructSeeds_work _ _ _ _ _ _).2 _ _ _ _ _ _ _ (by assumption))

/- Merkle trees -/

def missingNodesOf_work (e p k L S : Nat) : { w // ∀ t l, Dim L S t → Takes e p (missingNodesOf t l k) w } :=
  ⟨_, fun t l h => by
    unfold missingNodesOf
    dsimp only
    apply takes_bind
    · tk
    · intro _ _
      apply takes_seq (post_getParent _)
      · tk
      · intro n hn
        apply takes_loopDown_of (nodesOf L) (by rw [← h.nodes]; omega)
        intro _ _; tk⟩
macro_rules | `(tactic| tk_leaf) => `(tactic| exact (missingNodesOf_work _ _ _ _ _).2 _ _ (by assumption))

theorem post_missingNodesOf {t : Tree} {l : List Nat} {k : Nat} (h : Dim L S t) :
    Post (missingNodesOf t l k) fun r => r.length = nodesOf L := by
  refine post_seq (R := fun r => r.length = nodesOf L) (post_loop _ (by rw [List.length_replicate, h.nodes]) fun i _ s hs =>
    post_bind fun _ _ r hr => (post_wr r hr).trans hs) fun m hm => post_bind fun _ _ => post_loopDown _ hm fun i s hs => ?_
  refine post_bind fun _ _ => post_ite (fun _ => post_pure hs) fun _ => post_bind fun _ _ => post_ite (fun _ => ?_) fun _ => ?_
  · exact post_bind fun _ _ => post_ite (fun _ => post_bind fun _ _ => post_ite (fun _ r hr => (post_wr r hr).trans hs)
      fun _ => post_pure hs) fun _ => post_pure hs
  · exact post_bind fun _ _ => post_ite (fun _ r hr => (post_wr r hr).trans hs) fun _ => post_pure hs

theorem takes_climbLoop (m : List Bool) (n node : Nat) :
    Takes e p (climbLoop m n node) (node * ((getParent_work e p).1 + 3 * e) + ((getParent_work e p).1 + 3 * e)) := by
  induction n generalizing node with
  | zero => exact Nat.zero_le _
  | succ n ih =>
    refine (takes_seq (m := e + (e + max 0 (e + max (node * ((getParent_work e p).1 + 3 * e)) 0))) (post_getParent _)
      ((getParent_work _ _).2 _) fun k hk => takes_bind (takes_rd ..) fun _ _ =>
      takes_ite (fun _ => takes_pure _) fun _ => takes_ite (fun _ => (ih k).mono ?_) fun _ => takes_pure _).mono ?_
    · calc k * ((getParent_work e p).1 + 3 * e) + ((getParent_work e p).1 + 3 * e) = (k + 1) * ((getParent_work e p).1 + 3 * e) := by ring
        _ ≤ _ := Nat.mul_le_mul_right _ hk
    · omega

/-- the loop ends at once if its first step leads out of the tree -/
theorem takes_climbLoop_of (m : List Bool) (n node k : Nat) (hk : m.length = k) :
    Takes e p (climbLoop m n node) (((getParent_work e p).1 + 3 * e) + (k * ((getParent_work e p).1 + 3 * e) + ((getParent_work e p).1 + 3 * e))) := by
  cases n with
  | zero => exact Nat.zero_le _
  | succ n =>
    refine (takes_bind (m := e + (e + max 0 (e + max (k * ((getParent_work e p).1 + 3 * e) + ((getParent_work e p).1 + 3 * e)) 0)))
      ((getParent_work _ _).2 _) fun a _ => takes_bind (takes_rd ..) fun _ hr =>
      takes_ite (fun _ => takes_pure _) fun _ => takes_ite (fun _ => (takes_climbLoop m n a).mono ?_) fun _ => takes_pure _).mono (by omega)
    refine Nat.add_le_add_right (Nat.mul_le_mul_right _ ?_) _
    rw [out_rd] at hr
    by_contra hc
    rw [Picnic.rd, List.getElem?_eq_none (by omega)] at hr
    cases hr
macro_rules | `(tactic| tk_leaf) => `(tactic| exact takes_climbLoop_of _ _ _ _ (by assumption))

def getRevealedMerkleNodes_work (e p k L S : Nat) :
    { w // ∀ t l, Dim L S t → Takes e p (getRevealedMerkleNodes t l k) w } :=
  ⟨_, fun t l h => by
    unfold getRevealedMerkleNodes
    dsimp only
    apply takes_seq (post_missingNodesOf h)
    · tk
    · intro m hm
      apply takes_loop_inv (fun l => l.length ≤ L) (Nat.zero_le _)
      · intro i _ s hs
        refine post_bind fun _ _ => post_bind fun o _ => ?_
        cases o with
        | none => exact post_pure hs
        | some a => exact post_addRevealed h hs
      · intro i _ s hs
        tk⟩
macro_rules | `(tactic| tk_leaf) => `(tactic| exact (getRevealedMerkleNodes_work _ _ _ _ _).2 _ _ (by assumption))

theorem post_getRevealedMerkleNodes {t : Tree} {l : List Nat} {k : Nat} (h : Dim L S t) :
    Post (getRevealedMerkleNodes t l k) fun r => r.length ≤ L := by
  refine post_bind fun _ _ => post_loop _ (Nat.zero_le _) fun i _ s hs => post_bind fun _ _ => post_bind fun o _ => ?_
  cases o with
  | none => exact post_pure hs
  | some a => exact post_addRevealed h hs
macro_rules | `(tactic| tk_post) => `(tactic| apply takes_seq (post_getRevealedMerkleNodes (by assumption)))

def openMerkleTreeSize_work (e p : Nat) (P : Params) (n k : Nat) : { w // ∀ l, Takes e p (openMerkleTreeSize P n l k) w } :=
  ⟨_, fun l => by unfold openMerkleTreeSize; tk⟩
macro_rules | `(tactic| tk_leaf) => `(tactic| exact (openMerkleTreeSize_work _ _ _ _ _).2 _)

theorem post_openMerkleTreeSize {n k : Nat} {l : List Nat} : Post (openMerkleTreeSize P n l k) (· ≤ n * P.digestSizeBytes) :=
  post_seq (post_createTree _ _) fun _ h => post_seq (post_getRevealedMerkleNodes h) fun _ h =>
    post_pure (Nat.mul_le_mul_right _ h)
macro_rules | `(tactic| tk_post) => `(tactic| apply takes_seq post_openMerkleTreeSize)

def addMerkleNodes_work (e p k L S : Nat) :
    { w // ∀ t l inp n, Dim L S t → Takes e p (addMerkleNodes t l k inp n) w } :=
  ⟨_, fun t l inp n h => by
    unfold addMerkleNodes
    rw [h.size]
    apply takes_bind
    · tk
    · intro _ _
      apply takes_ite
      · intro _; tk
      · intro _
        apply takes_seq (post_getRevealedMerkleNodes h)
        · tk
        · intro rev hrev
          apply takes_bind
          · tk
          · intro _ _
            apply takes_bind
            · tk
            · intro _ _
              apply takes_bind
              · apply takes_foldL_of L hrev
                intro s x; tk
              · intro _ _; tk⟩
macro_rules | `(tactic| tk_leaf) => `(tactic| exact (addMerkleNodes_work _ _ _ _ _).2 _ _ _ _ (by assumption))

theorem post_addMerkleNodes {t : Tree} {l : List Nat} {k n : Nat} {inp : Buf} (h : Dim L S t) :
    Post (addMerkleNodes t l k inp n) fun r => Dim L S r.2 := by
  refine post_bind fun _ _ => post_ite (fun _ => post_pure h) fun _ => post_bind fun _ _ => post_bind fun _ _ => post_bind fun _ _ => ?_
  refine post_seq (R := fun st => Dim L S st.2.1) (post_foldL _ h fun s x hs => ?_) fun st hst => ?_
  · exact post_ite (fun _ => post_pure hs) fun _ => post_ite (fun _ => post_pure hs) fun _ =>
      post_seq (post_setNode hs) fun _ h => post_pure h
  · exact post_ite (fun _ => post_pure hst) fun _ => post_ite (fun _ => post_pure hst) fun _ => post_pure hst
macro_rules | `(tactic| tk_post) => `(tactic| apply takes_seq (post_addMerkleNodes (by assumption)))

def setLeaves_work (e p L S : Nat) : { w // ∀ t l c, Dim L S t → Takes e p (setLeaves t l c) w } :=
  ⟨_, fun t l c h => by
    unfold setLeaves
    rw [h.leaves]
    apply takes_loop_inv (fun st => Dim L S st.2) h
    · intro i _ s hs
      refine post_ite (fun _ => post_pure hs) fun _ => post_bind fun o _ => post_bind fun _ _ => ?_
      cases o with
      | none => exact post_pure hs
      | some a =>
        exact post_bind fun _ _ => post_ite (fun _ => post_pure hs) fun _ => post_seq (post_setNode hs) fun _ h => post_pure h
    · intro i _ s hs
      dsimp only
      rw [hs.size]
      tk⟩
macro_rules | `(tactic| tk_leaf) => `(tactic| exact (setLeaves_work _ _ _ _).2 _ _ _ (by assumption))

theorem post_setLeaves {t : Tree} {l : List (Option Buf)} {c : Bool} (h : Dim L S t) :
    Post (setLeaves t l c) fun r => Dim L S r.2 := by
  refine post_loop _ h fun i _ s hs => ?_
  refine post_ite (fun _ => post_pure hs) fun _ => post_bind fun o _ => post_bind fun _ _ => ?_
  cases o with
  | none => exact post_pure hs
  | some a =>
    exact post_bind fun _ _ => post_ite (fun _ => post_pure hs) fun _ => post_seq (post_setNode hs) fun _ h => post_pure h
macro_rules | `(tactic| tk_post) => `(tactic| apply takes_seq (post_setLeaves (by assumption)))

def parentHash_work (e q : Nat) [Kind e q] (P : Params) : { w // ∀ E left salt n (right : List (Buf × Nat)),
    (right = [] ∨ ∃ r, right = [(r, P.digestSizeBytes)]) → Takes e (q * rateOf P) (hashAll E P HASH_PREFIX_3
      ([(left, P.digestSizeBytes)] ++ right ++ [(salt, P.saltSizeBytes), intLE n]) P.digestSizeBytes) w } :=
  ⟨_, fun E left salt n right h => by
    apply takes_cases (right = [])
    · intro h; subst h; tk
    · intro h'
      obtain ⟨r, rfl⟩ := h.resolve_left h'
      tk⟩
macro_rules | `(tactic| tk_leaf) => `(tactic| exact (parentHash_work _ _ _).2 _ _ _ _ _ (by assumption))

theorem post_rightChild {c : Bool} {l : List Buf} {i n : Nat} :
    Post (ifB c then do let r ← rd l i; pure [(r, n)] else pure []) fun right => right = [] ∨ ∃ r, right = [(r, n)] :=
  post_ite (fun _ => post_bind fun r _ => post_pure (Or.inr ⟨r, rfl⟩)) fun _ => post_pure (Or.inl rfl)
macro_rules | `(tactic| tk_post) => `(tactic| apply takes_seq post_rightChild)

def computeParentHash_work (e q : Nat) [Kind e q] (P : Params) :
    { w // ∀ E t c salt, Takes e (q * rateOf P) (computeParentHash E P t c salt) w } :=
  ⟨_, fun E t c salt => by unfold computeParentHash; tk⟩
macro_rules | `(tactic| tk_leaf) => `(tactic| exact (computeParentHash_work _ _ _).2 _ _ _ _)

def hashUp_work (e q : Nat) [Kind e q] (P : Params) (L S : Nat) :
    { w // ∀ E t salt, Dim L S t → Takes e (q * rateOf P) (hashUp E P t salt) w } :=
  ⟨_, fun E t salt h => by unfold hashUp; rw [h.nodes]; tk⟩
macro_rules | `(tactic| tk_leaf) => `(tactic| exact (hashUp_work _ _ _ _ _).2 _ _ _ (by assumption))

def verifyMerkleTree_work (e q : Nat) [Kind e q] (P : Params) (L S : Nat) :
    { w // ∀ E t l salt, Dim L S t → Takes e (q * rateOf P) (verifyMerkleTree E P t l salt) w } :=
  ⟨_, fun E t l salt h => by unfold verifyMerkleTree; tk⟩
macro_rules | `(tactic| tk_leaf) => `(tactic| exact (verifyMerkleTree_work _ _ _ _ _).2 _ _ _ _ (by assumption))

end Picnic.Leak
