import Verif.Proofs.WorkPicnic3
import Verif.Proofs.LeakErase

/-
The work of key generation, key validation and signing.
-/

namespace Picnic.Leak

variable {e p q L S : Nat} {P : Params} {E : Env} {α β σ : Type}

/- /repo/picnic_impl.c, LowMC -/

def substitution_work (e p : Nat) (P : Params) : { w // ∀ s, Takes e p (substitution s P) w } :=
  ⟨_, fun s => by unfold substitution; tk⟩
macro_rules | `(tactic| tk_leaf) => `(tactic| exact (substitution_work _ _ _).2 _)

def lowMCEnc_work (e p : Nat) (P : Params) : { w // ∀ E pt o k, Takes e p (lowMCEnc E P pt o k) w } :=
  ⟨_, fun E pt o k => by unfold lowMCEnc; tk⟩
macro_rules | `(tactic| tk_leaf) => `(tactic| exact (lowMCEnc_work _ _ _).2 _ _ _ _)

/- /repo/picnic_impl.c, `sign_picnic1` -/

def mpcXorConstant_work (e p n : Nat) : { w // ∀ s i, Takes e p (mpcXorConstant s i n) w } :=
  ⟨_, fun s i => by unfold mpcXorConstant; tk⟩
macro_rules | `(tactic| tk_leaf) => `(tactic| exact (mpcXorConstant_work _ _ _).2 _ _)

def mpcAND_work (e p : Nat) : { w // ∀ a b r v, Takes e p (mpcAND a b r v) w } :=
  ⟨_, fun a b r v => by unfold mpcAND; tk⟩
macro_rules | `(tactic| tk_leaf) => `(tactic| exact (mpcAND_work _ _).2 _ _ _ _)

def mpcSubstitution_work (e p : Nat) (P : Params) : { w // ∀ s r v, Takes e p (mpcSubstitution P s r v) w } :=
  ⟨_, fun s r v => by unfold mpcSubstitution; tk⟩
macro_rules | `(tactic| tk_leaf) => `(tactic| exact (mpcSubstitution_work _ _ _).2 _ _ _)

def mpcLowMC_work (e p : Nat) (P : Params) : { w // ∀ E t r v pl sl, Takes e p (mpcLowMC E P t r v pl sl) w } :=
  ⟨_, fun E t r v pl sl => by unfold mpcLowMC; tk⟩
macro_rules | `(tactic| tk_leaf) => `(tactic| exact (mpcLowMC_work _ _ _).2 _ _ _ _ _ _)

def prove_work (e p : Nat) (P : Params) : { w // ∀ pr c s v h g, Takes e p (prove P pr c s v h g) w } :=
  ⟨_, fun pr c s v h g => by unfold prove; tk⟩
macro_rules | `(tactic| tk_leaf) => `(tactic| exact (prove_work _ _ _).2 _ _ _ _ _ _)

def seedsOf_work (e p : Nat) (P : Params) : { w // ∀ s k, Takes e p (seedsOf P s k) w } :=
  ⟨_, fun s k => by unfold seedsOf; tk⟩
macro_rules | `(tactic| tk_leaf) => `(tactic| exact (seedsOf_work _ _ _).2 _ _)

def emit_work (e p n : Nat) : { w // ∀ o s, Takes e p (emit o s n) w } := ⟨_, fun o s => by unfold emit; tk⟩
macro_rules | `(tactic| tk_leaf) => `(tactic| exact (emit_work _ _ _).2 _ _)

theorem takes_emit_of {o : Buf × Nat} {s : Buf} {n : Nat} (k : Nat) (h : n ≤ k) :
    Takes e p (emit o s n) (e * (k + 1) + e * (k + 1)) := by
  refine (takes_bind (m := 0) (takes_memcpy ..) fun _ _ => takes_pure _).mono ?_
  have : e * (n + 1) ≤ e * (k + 1) := Nat.mul_le_mul_left _ (by omega)
  omega

theorem takes_emit_if (o : Buf × Nat) (s : Buf) (c : Prop) [Decidable c] (a b : Nat) :
    Takes e p (emit o s (if c then a else b)) (e * (max a b + 1) + e * (max a b + 1)) :=
  takes_emit_of _ (by split <;> first | exact Nat.le_max_left .. | exact Nat.le_max_right ..)
macro_rules | `(tactic| tk_leaf) => `(tactic| exact takes_emit_if _ _ _ _ _)
macro_rules | `(tactic| tk_leaf) => `(tactic| exact takes_emit_of _ (by assumption))

def serializeSignature_work (e p : Nat) (P : Params) : { w // ∀ s b n, Takes e p (serializeSignature P s b n) w } :=
  ⟨_, fun s b n => by unfold serializeSignature; tk⟩
macro_rules | `(tactic| tk_leaf) => `(tactic| exact (serializeSignature_work _ _ _).2 _ _ _)

section

variable (e q : Nat) [Kind e q] (P : Params)

def computeSeeds_work (mlen : Nat) : { w // ∀ E k pk pl m, Takes e (q * rateOf P) (computeSeeds E P k pk pl m mlen) w } :=
  ⟨_, fun E k pk pl m => by unfold computeSeeds; tk⟩

def signTape_work : { w // ∀ E s salt k j v tmp t, Takes e (q * rateOf P) (signTape E P s salt k j v tmp t) w } :=
  ⟨_, fun E s salt k j v tmp t => by unfold signTape; tk⟩
macro_rules | `(tactic| tk_leaf) => `(tactic| exact (signTape_work _ _ _).2 _ _ _ _ _ _ _ _)

def signRound_work : { w // ∀ E k pk pl salt slab i, Takes e (q * rateOf P) (signRound E P k pk pl salt slab i) w } :=
  ⟨_, fun E k pk pl salt slab i => by unfold signRound; tk⟩
macro_rules | `(tactic| tk_leaf) => `(tactic| exact (signRound_work _ _ _).2 _ _ _ _ _ _ _)

def signPicnic1_work (mlen fuel : Nat) : { w // ∀ E k pk pl m sig, E.fuel = fuel →
    Takes e (q * rateOf P) (signPicnic1 E P k pk pl m mlen sig) w } :=
  ⟨_, fun E k pk pl m sig hf => by
    unfold signPicnic1
    apply takes_bind ((computeSeeds_work e q P mlen).2 ..); intro slab _
    apply takes_bind
    · tk
    intro salt _
    apply takes_bind
    · tk
    intro rounds _
    apply takes_option rounds
    · intro h; subst h; tk
    · intro rounds h; subst h
      apply takes_bind
      · exact (H3_work e q P mlen fuel).2 E _ _ _ _ _ _ _ _ hf
      · intro _ _; tk⟩

end

/- lists whose elements have a property -/

theorem post_rd {l : List α} {i : Nat} {I : α → Prop} (h : ∀ x ∈ l, I x) : Post (rd l i) I := by
  refine post_bind' fun _ _ => ?_
  cases hi : l[i]? with
  | none => exact post_ub
  | some a => exact post_ok (h a (List.mem_of_getElem? hi))

theorem post_gather_all {f : Nat → M α} {I : α → Prop} (h : ∀ i, Post (f i) I) (n : Nat) :
    Post (gather f n) fun l => ∀ x ∈ l, I x := by
  induction n with
  | zero => exact post_ok (by simp)
  | succ n ih =>
    refine post_seq ih fun l hl => post_seq (h n) fun x hx => post_pure fun y hy => ?_
    rcases List.mem_append.1 hy with hy | hy
    · exact hl y hy
    · rw [List.mem_singleton.1 hy]; exact hx

theorem post_collect {f : Nat → M α} {I : α → Prop} (h : ∀ i, Post (f i) I) {n : Nat} :
    Post (collect f n) fun l => ∀ x ∈ l, I x := post_bind fun _ _ => post_gather_all h n

theorem post_collectOpt {f : Nat → M (Option α)} {I : α → Prop} (h : ∀ i, Post (f i) fun o => ∀ x, o = some x → I x) (n : Nat) :
    Post (collectOpt f n) fun o => ∀ l, o = some l → ∀ x ∈ l, I x := by
  induction n with
  | zero => exact post_ok (by rintro _ ⟨⟩; simp)
  | succ n ih =>
    refine post_seq ih fun o ho => ?_
    cases o with
    | none => exact post_pure (by simp)
    | some l =>
      refine post_seq (h n) fun o' ho' => ?_
      cases o' with
      | none => exact post_pure (by simp)
      | some x =>
        refine post_pure ?_
        rintro _ ⟨⟩ y hy
        rcases List.mem_append.1 hy with hy | hy
        · exact ho l rfl y hy
        · rw [List.mem_singleton.1 hy]; exact ho' x rfl

/- trees -/

theorem post_expandSeedsStep {salt : Buf} {r i : Nat} {t : Tree} (h : Dim L S t) :
    Post (expandSeedsStep E P salt r i t) (Dim L S) := by
  refine post_bind fun _ _ => post_ite (fun _ => post_pure h) fun _ => ?_
  refine post_bind fun _ _ => post_bind fun _ _ => post_bind fun _ _ => post_bind fun _ _ => ?_
  refine post_seq (post_ite (fun _ => post_setNode h) fun _ => post_pure h) fun t' h' => post_bind fun _ _ => ?_
  exact post_ite (fun _ => post_bind fun _ _ => post_ite (fun _ => post_setNode h') fun _ => post_pure h') fun _ => post_pure h'

theorem post_generateSeeds {n : Nat} {root salt : Buf} {r : Nat} :
    Post (generateSeeds E P n root salt r) (Dim n P.seedSizeBytes) :=
  post_seq (post_createTree _ _) fun _ h => post_seq (post_setNode h) fun _ h => post_bind fun _ _ =>
    post_loop _ h fun _ _ _ h => post_expandSeedsStep h
macro_rules | `(tactic| tk_post) => `(tactic| apply takes_seq post_generateSeeds)

theorem takes_foldL_len {l : List α} {f : σ → α → M σ} {c n : Nat} {s : σ} (hl : l.length ≤ n)
    (h : ∀ s x, Takes e p (f s x) c) : Takes e p (foldL l f s) (n * (c + e) + e) := takes_foldL_of n hl h

def revealSeeds_work (e p : Nat) (P : Params) (k L S : Nat) :
    { w // ∀ t l o n, Dim L S t → Takes e p (revealSeeds P t l k o n) w } :=
  ⟨_, fun t l o n h => by
    unfold revealSeeds
    apply takes_ite
    · intro _; tk
    · intro _
      apply takes_seq (post_getRevealedNodes h)
      · tk
      intro r hr
      apply takes_bind
      · apply takes_foldL_len hr
        intro s x; tk
      · intro _ _; tk⟩
macro_rules | `(tactic| tk_leaf) => `(tactic| exact (revealSeeds_work _ _ _ _ _ _).2 _ _ _ _ (by assumption))

theorem post_foldL_len {l : List α} {f : σ → α → M σ} {s : σ} (m : σ → Nat) (c : Nat) (h : ∀ s x, Post (f s x) fun r => m r ≤ m s + c) :
    Post (foldL l f s) fun r => m r ≤ m s + l.length * c := by
  induction l generalizing s with
  | nil => exact post_bind fun _ _ => post_pure (by simp)
  | cons x l ih =>
    refine post_bind fun _ _ => post_seq (h s x) fun a ha b hb => ?_
    have := ih (s := a) b hb
    rw [List.length_cons, Nat.add_mul, Nat.one_mul]
    omega

theorem post_revealSeeds {t : Tree} {l : List Nat} {k n : Nat} {o : Buf} (h : Dim L S t) (hn : n ≤ INT_MAX) :
    Post (revealSeeds P t l k o n) fun r => r.1 ≤ L * P.seedSizeBytes := by
  refine post_ite (fun h => absurd h (by omega)) fun _ => post_seq (post_getRevealedNodes h) fun r hr => ?_
  refine post_seq (post_foldL_len (fun s : Int × Buf × Nat => s.2.2) P.seedSizeBytes fun s x => ?_) fun a ha => post_pure ?_
  · exact post_ite (fun _ => post_abort) fun _ => post_bind fun _ _ => post_bind fun _ _ => post_pure (Nat.le_refl _)
  · have : r.length * P.seedSizeBytes ≤ L * P.seedSizeBytes := Nat.mul_le_mul_right _ hr
    have ha : a.2.2 ≤ 0 + r.length * P.seedSizeBytes := ha
    show a.2.2 ≤ _
    omega

def buildMerkleTree_work (e q : Nat) [Kind e q] (P : Params) (L S : Nat) :
    { w // ∀ E t l salt, Dim L S t → Takes e (q * rateOf P) (buildMerkleTree E P t l salt) w } :=
  ⟨_, fun E t l salt h => by
    unfold buildMerkleTree
    apply takes_seq (post_setLeaves h)
    · tk
    intro r hr
    exact (hashUp_work _ _ _ _ _).2 _ _ _ hr⟩
macro_rules | `(tactic| tk_leaf) => `(tactic| exact (buildMerkleTree_work _ _ _ _ _).2 _ _ _ _ (by assumption))

theorem post_computeParentHash {t : Tree} {i : Nat} {salt : Buf} (h : Dim L S t) :
    Post (computeParentHash E P t i salt) (Dim L S) := by
  refine post_bind fun _ _ => post_ite (fun _ => post_pure h) fun _ => post_bind fun _ _ => post_bind fun _ _ => ?_
  refine post_ite (fun _ => post_pure h) fun _ => post_bind fun _ _ => post_ite (fun _ => post_pure h) fun _ => ?_
  refine post_bind fun _ _ => post_bind fun _ _ => post_ite (fun _ => post_pure h) fun _ => ?_
  exact post_bind fun _ _ => post_bind fun _ _ => post_bind fun _ _ => post_bind fun _ _ => post_setNode h

theorem post_buildMerkleTree {t : Tree} {l : List (Option Buf)} {salt : Buf} (h : Dim L S t) :
    Post (buildMerkleTree E P t l salt) (Dim L S) :=
  post_seq (post_setLeaves h) fun _ h => post_loopDown _ h fun _ _ h => post_computeParentHash h
macro_rules | `(tactic| tk_post) => `(tactic| apply takes_seq (post_buildMerkleTree (by assumption)))

def openMerkleTree_work (e p : Nat) (k L S : Nat) :
    { w // ∀ E t l, Dim L S t → Takes e p (openMerkleTree E t l k) w } :=
  ⟨_, fun E t l h => by
    unfold openMerkleTree
    rw [h.size]
    apply takes_seq (post_getRevealedMerkleNodes h)
    · tk
    intro r hr
    apply takes_bind
    · apply takes_foldL_len hr
      intro s x; tk
    · intro _ _; tk⟩
macro_rules | `(tactic| tk_leaf) => `(tactic| exact (openMerkleTree_work _ _ _ _ _).2 _ _ _ (by assumption))

theorem post_openMerkleTree {t : Tree} {l : List Nat} {k : Nat} (h : Dim L S t) :
    Post (openMerkleTree E t l k) fun r => r.2 ≤ L * S :=
  post_seq (post_getRevealedMerkleNodes h) fun r hr => post_bind fun _ _ => post_pure (by
    rw [h.size]; exact Nat.mul_le_mul_right _ hr)
macro_rules | `(tactic| tk_post) => `(tactic| apply takes_seq (post_openMerkleTree (by assumption)))

/- /repo/picnic3_impl.c, `sign_picnic3` -/

def computeSaltAndRootSeed_work (e q : Nat) [Kind e q] (P : Params) (n mlen : Nat) :
    { w // ∀ E o k pk pl m, Takes e (q * rateOf P) (computeSaltAndRootSeed E P o n k pk pl m mlen) w } :=
  ⟨_, fun E o k pk pl m => by unfold computeSaltAndRootSeed; tk⟩

def signPrep_work (e q : Nat) [Kind e q] (P : Params) : { w // ∀ E t salt i, Takes e (q * rateOf P) (signPrep E P t salt i) w } :=
  ⟨_, fun E t salt i => by unfold signPrep; tk⟩
macro_rules | `(tactic| tk_leaf) => `(tactic| exact (signPrep_work _ _ _).2 _ _ _ _)

theorem post_signPrep {t : Tree} {salt : Buf} {i : Nat} :
    Post (signPrep E P t salt i) fun r => Dim P.numMPCParties P.seedSizeBytes r.seeds :=
  post_bind fun _ _ => post_seq post_generateSeeds fun _ h => post_bind fun _ _ => post_bind fun _ _ => post_bind fun _ _ =>
    post_bind fun _ _ => post_bind fun _ _ => post_bind fun _ _ => post_pure h

def signOnline_work (e p : Nat) (P : Params) : { w // ∀ E r k pk pl t, Takes e p (signOnline E P r k pk pl t) w } :=
  ⟨_, fun E r k pk pl t => by unfold signOnline; tk⟩
macro_rules | `(tactic| tk_leaf) => `(tactic| exact (signOnline_work _ _ _).2 _ _ _ _ _ _)

theorem post_signOnline {r : Prep} {k pk pl : Buf} {t : Nat} :
    Post (signOnline E P r k pk pl t) fun o => ∀ x, o = some x → x.2.pos ≤ P.numRounds * (3 * P.numSboxes) :=
  post_bind fun _ _ => post_seq (post_simulateOnline_le rfl) fun a ha => post_ite
    (fun _ => post_pure (by rintro _ ⟨⟩; exact ha)) fun _ => post_pure (by simp)

def signProof_work (e p : Nat) (P : Params) :
    { w // ∀ E c d (r : Prep) k m t, Dim P.numMPCParties P.seedSizeBytes r.seeds → Takes e p (signProof E P c d r k m t) w } :=
  ⟨_, fun E c d r k m t h => by unfold signProof; tk⟩
macro_rules | `(tactic| tk_leaf) => `(tactic| exact (signProof_work _ _ _).2 _ _ _ _ _ _ _ (by assumption))

theorem post_signProof {c d : List Nat} {r : Prep} {k : Buf} {m : Msgs} {t : Nat} (h : Dim P.numMPCParties P.seedSizeBytes r.seeds)
    (hn : P.numMPCParties * P.seedSizeBytes ≤ INT_MAX) :
    Post (signProof E P c d r k m t) fun o => ∀ x, o = some x → x.seedInfoLen ≤ P.numMPCParties * P.seedSizeBytes := by
  refine post_bind fun _ _ => post_ite (fun _ => ?_) fun _ => post_pure (by simp)
  refine post_bind fun _ _ => post_bind fun _ _ => post_seq (post_revealSeeds h hn) fun a ha => ?_
  refine post_bind fun _ _ => post_bind fun _ _ => post_bind fun _ _ => post_bind fun _ _ => post_bind fun _ _ => post_bind fun _ _ => ?_
  exact post_pure (by rintro _ ⟨⟩; exact ha)

/-- the lists in a signature are not longer than the arrays for them -/
structure Small (P : Params) (sig : Signature2) : Prop where
  iSeed : sig.iSeedInfoLen ≤ P.numMPCRounds * P.seedSizeBytes
  cv : sig.cvInfoLen ≤ P.numMPCRounds * P.digestSizeBytes
  seed : ∀ o ∈ sig.proofs, ∀ x, o = some x → x.seedInfoLen ≤ P.numMPCParties * P.seedSizeBytes

def commitVs_work (e q : Nat) [Kind e q] (P : Params) : { w // ∀ (f : Nat → Buf) E (l : List (Buf × Msgs)),
    (∀ x ∈ l, x.2.pos ≤ P.numRounds * (3 * P.numSboxes)) →
    Takes e (q * rateOf P) (collect (fun t => do
      let o ← rd l t
      let d ← commitV E P (f t) o.1 o.2
      pure (some d)) P.numMPCRounds) w } :=
  ⟨_, fun f E l h => by
    apply takes_collect; intro t
    apply takes_seq (post_rd h) (takes_rd ..); intro o ho
    apply takes_bind
    · exact (commitV_work e q P _).2 _ _ _ _ ho
    · intro _ _; tk⟩

def signProofs_work (e p : Nat) (P : Params) : { w // ∀ E c d (preps : List Prep) (l : List (Buf × Msgs)),
    (∀ x ∈ preps, Dim P.numMPCParties P.seedSizeBytes x.seeds) →
    Takes e p (collect (fun t => do
      let p ← rd preps t
      let o ← rd l t
      signProof E P c d p o.1 o.2 t) P.numMPCRounds) w } :=
  ⟨_, fun E c d preps l h => by
    apply takes_collect; intro t
    apply takes_seq (post_rd h) (takes_rd ..); intro o ho
    tk⟩

def signPicnic3_work (e q : Nat) [Kind e q] (P : Params) (mlen fuel : Nat) : { w // ∀ E k pk pl m sig, E.fuel = fuel →
    Takes e (q * rateOf P) (signPicnic3 E P k pk pl m mlen sig) w } :=
  ⟨_, fun E k pk pl m sig hf => by
    unfold signPicnic3
    apply takes_bind ((computeSaltAndRootSeed_work e q P _ mlen).2 ..); intro sr _
    apply takes_bind
    · tk
    intro salt _
    apply takes_bind
    · tk
    intro root _
    apply takes_seq post_generateSeeds
    · tk
    intro iSeeds hI
    apply takes_seq (post_collect fun _ => post_signPrep)
    · tk
    intro preps hp
    apply takes_seq (post_collectOpt (fun _ => post_bind fun _ _ => post_signOnline) _)
    · tk
    intro online ho
    apply takes_option online
    · intro h; subst h; tk
    · intro online h; subst h
      have ho := ho online rfl
      apply takes_bind
      · tk
      intro Ch _
      apply takes_bind ((commitVs_work e q P).2 _ _ _ ho)
      intro Cv _
      apply takes_seq (post_createTree _ _)
      · tk
      intro t ht
      apply takes_seq (post_buildMerkleTree ht)
      · tk
      intro t ht
      apply takes_bind
      · tk
      intro rootCv _
      apply takes_bind ((HCPhash_work e q P mlen).2 ..)
      intro ch _
      apply takes_bind ((expandChallengeHash_work e q P fuel).2 E _ hf)
      intro cc _
      apply takes_bind
      · tk
      intro ml _
      apply takes_bind
      · tk
      intro cv _
      apply takes_bind
      · tk
      intro si _
      apply takes_bind ((signProofs_work _ _ P).2 _ _ _ _ _ hp)
      intro _ _; tk⟩

theorem post_signPicnic3 {k pk pl m : Buf} {mlen : Nat} {sig : Signature2} (hn : P.numMPCParties * P.seedSizeBytes ≤ INT_MAX)
    (hn' : P.numMPCRounds * P.seedSizeBytes ≤ INT_MAX) :
    Post (signPicnic3 E P k pk pl m mlen sig) fun o => ∀ s, o = some s → Small P s := by
  refine post_bind fun _ _ => post_bind fun _ _ => post_bind fun _ _ => post_seq post_generateSeeds fun iSeeds hI => ?_
  refine post_seq (post_collect fun _ => post_signPrep) fun preps hp => post_bind fun o _ => ?_
  cases o with
  | none => exact post_pure (by simp)
  | some o =>
    refine post_bind fun _ _ => post_bind fun _ _ => post_seq (post_createTree _ _) fun t ht => ?_
    refine post_seq (post_buildMerkleTree ht) fun t ht => post_bind fun _ _ => post_bind fun _ _ => post_bind fun cc _ => ?_
    refine post_bind fun _ _ => post_seq (post_openMerkleTree ht) fun cv hcv => post_seq (post_revealSeeds hI hn') fun si hsi => ?_
    refine post_seq (post_collect fun t => post_seq (post_rd hp) fun r hr => post_bind fun _ _ => post_signProof hr hn) fun ps hps => ?_
    refine post_pure ?_
    rintro _ ⟨⟩
    exact ⟨hsi, hcv, hps⟩

def proofsSizeOf_work (e p : Nat) (P : Params) : { w // ∀ c d (l : List (Option Proof2)) s, Takes e p (proofsSize P c d (fun t => do
    let p ← rd l t
    pure (match p with | some p => p.seedInfoLen | none => 0)) s) w } :=
  ⟨_, fun c d k s => by unfold proofsSize; tk⟩

def serializeSignature2_work (e p : Nat) (P : Params) :
    { w // ∀ s b n, Small P s → Takes e p (serializeSignature2 P s b n) w } :=
  ⟨_, fun s b n h => by
    have h1 := h.iSeed
    have h2 := h.cv
    have h3 := h.seed
    unfold serializeSignature2
    apply takes_bind
    · exact (proofsSizeOf_work _ _ _).2 _ _ _ _
    intro _ _
    apply takes_ite
    · intro _; tk
    intro _
    apply takes_bind
    · tk
    intro _ _
    apply takes_bind
    · tk
    intro _ _
    apply takes_bind
    · tk
    intro _ _
    apply takes_bind
    · tk
    intro _ _
    apply takes_bind
    · apply takes_loop; intro t out
      apply takes_bind
      · tk
      intro _ _
      apply takes_ite
      · intro _
        apply takes_seq (post_rd h3) (takes_rd ..); intro o ho
        apply takes_option o
        · intro h; subst h; exact takes_bind (m := 0) (takes_deref none) (fun _ h => by cases h)
        · intro x h; subst h
          have ho := ho x rfl
          apply takes_bind (takes_deref _)
          intro y hy
          rw [out_deref] at hy
          cases hy
          tk
      · intro _; tk
    · intro _ _; tk⟩

/- /repo/picnic.c -/

def signZkb_work (e q : Nat) [Kind e q] (P : Params) (mlen fuel : Nat) :
    { w // ∀ E (sk : PrivateKey) msg b n, E.fuel = fuel → getParamSet sk.params = some P → isPicnic3 sk.params = false →
      Takes e (q * rateOf P) (picnicSign E (some sk) msg mlen b n) w } :=
  ⟨_, fun E sk msg b n hf hP h3 => by
    apply takes_bind
    · tk
    · intro sk' hsk'
      rw [out_deref] at hsk'
      cases hsk'
      apply takes_bind
      · tk
      · intro _ _
        simp only [hP, h3, Bool.not_false]
        apply takes_bind' (takes_tell _)
        intro _ _
        simp only [if_true]
        apply takes_bind ((signPicnic1_work e q P mlen fuel).2 E _ _ _ _ _ hf)
        intro o _
        apply takes_bind
        · tk
        · intro _ _
          apply takes_option o
          · intro h; subst h; tk
          · intro sig h; subst h
            tk⟩

def sign3_work (e q : Nat) [Kind e q] (P : Params) (mlen fuel : Nat) :
    { w // ∀ E (sk : PrivateKey) msg b n, E.fuel = fuel → getParamSet sk.params = some P → isPicnic3 sk.params = true →
      P.numMPCParties * P.seedSizeBytes ≤ INT_MAX → P.numMPCRounds * P.seedSizeBytes ≤ INT_MAX →
      Takes e (q * rateOf P) (picnicSign E (some sk) msg mlen b n) w } :=
  ⟨_, fun E sk msg b n hf hP h3 hn hn' => by
    apply takes_bind
    · tk
    · intro sk' hsk'
      rw [out_deref] at hsk'
      cases hsk'
      apply takes_bind
      · tk
      · intro _ _
        simp only [hP, h3, Bool.not_true]
        apply takes_bind' (takes_tell _)
        intro _ _
        simp only [Bool.false_eq_true, if_false]
        apply takes_seq (post_signPicnic3 hn hn') ((signPicnic3_work e q P mlen fuel).2 E _ _ _ _ _ hf)
        intro o ho
        apply takes_bind
        · tk
        · intro _ _
          apply takes_option o
          · intro h; subst h; tk
          · intro sig h; subst h
            apply takes_bind ((serializeSignature2_work _ _ P).2 _ _ _ (ho sig rfl))
            intro _ _
            tk⟩

def keygen_work (e p : Nat) (P : Params) :
    { w // ∀ E (rng : Rng) i pk sk, getParamSet i = some P → (∀ k r, rng k P.stateSizeBytes = some r → r.length ≤ P.stateSizeBytes) →
      Takes e p (picnicKeygen E rng i pk sk) w } :=
  ⟨_, fun E rng i pk sk hP hr => by
    unfold picnicKeygen
    apply takes_ite
    · intro _; tk
    intro _
    apply takes_bind (takes_note _); intro _ _
    apply takes_option pk
    · intro h; subst h; tk
    intro pk h; subst h
    apply takes_option sk
    · intro h; subst h; tk
    intro sk h; subst h
    simp only [hP]
    apply takes_bind (takes_note _); intro _ _
    apply takes_bind (takes_note _); intro _ _
    apply takes_bind (takes_note _); intro _ _
    apply takes_option (rng 0 P.stateSizeBytes)
    · intro h; rw [h]; tk
    intro r h; rw [h]
    have h1 := hr 0 r h
    dsimp only
    apply takes_bind
    · tk
    intro _ _
    apply takes_bind
    · tk
    intro _ _
    apply takes_bind (takes_note _); intro _ _
    apply takes_option (rng 1 P.stateSizeBytes)
    · intro h; rw [h]; tk
    intro r h; rw [h]
    have h1 := hr 1 r h
    dsimp only
    tk⟩

def validate_work (e p : Nat) (P : Params) :
    { w // ∀ E sk (pk : PublicKey), getParamSet pk.params = some P → Takes e p (picnicValidateKeypair E sk (some pk)) w } :=
  ⟨_, fun E sk pk hP => by
    apply takes_bind
    · tk
    intro pk' hpk'
    rw [out_deref] at hpk'
    cases hpk'
    apply takes_bind
    · tk
    intro _ _
    simp only [hP]
    apply takes_bind
    · tk
    intro _ _
    apply takes_option sk
    · intro h; subst h; tk
    intro sk h; subst h
    tk⟩

/- how the bounds grow with the length of the message and the number of rehashes -/

theorem signZkb_linear (e q : Nat) [Kind e q] (P : Params) (mlen fuel : Nat) :
    (signZkb_work e q P mlen fuel).1 ≤ (signZkb_work e q P 0 0).1 + 2 * ((15 * e + q) * mlen) +
      fuel * ((h3Scan_work e (q * rateOf P) P).1 + e + (rehash3_work e q P).1) := by
  have h0 : (computeSeeds_work e q P mlen).1 = (computeSeeds_work e q P 0).1 + (15 * e + q) * mlen := by
    simp only [computeSeeds_work, List.map_cons, List.map_nil, List.sum_cons, List.sum_nil]
    ring
  have h : (signPicnic1_work e q P mlen fuel).1 ≤ (signPicnic1_work e q P 0 0).1 + 2 * ((15 * e + q) * mlen) +
      fuel * ((h3Scan_work e (q * rateOf P) P).1 + e + (rehash3_work e q P).1) := by
    simp only [signPicnic1_work, H3_linear e q P mlen fuel, h0]
    omega
  simp only [signZkb_work]
  omega

theorem sign3_linear (e q : Nat) [Kind e q] (P : Params) (mlen fuel : Nat) :
    (sign3_work e q P mlen fuel).1 ≤ (sign3_work e q P 0 0).1 + 2 * ((15 * e + q) * mlen) +
      fuel * ((expandChallengeHash_work e q P 1).1 - (expandChallengeHash_work e q P 0).1) := by
  have h0 : (computeSaltAndRootSeed_work e q P (P.saltSizeBytes + P.seedSizeBytes) mlen).1 =
      (computeSaltAndRootSeed_work e q P (P.saltSizeBytes + P.seedSizeBytes) 0).1 + (15 * e + q) * mlen := by
    simp only [computeSaltAndRootSeed_work, List.map_cons, List.map_nil, List.sum_cons, List.sum_nil]
    ring
  have h : (signPicnic3_work e q P mlen fuel).1 ≤ (signPicnic3_work e q P 0 0).1 + 2 * ((15 * e + q) * mlen) +
      fuel * ((expandChallengeHash_work e q P 1).1 - (expandChallengeHash_work e q P 0).1) := by
    simp only [signPicnic3_work, HCPhash_linear e q P mlen, expandChallengeHash_linear e q P fuel, h0]
    omega
  simp only [sign3_work]
  omega

end Picnic.Leak
