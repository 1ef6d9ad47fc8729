import Verif.Proofs.WorkTree

/-
The work of Picnic3 verification.
-/

namespace Picnic.Leak

variable {e p q L S : Nat} {P : Params} {E : Env} {α β σ : Type}

theorem post_iterate_idx {f : Nat → σ → M σ} (I : Nat → σ → Prop) (n : Nat) (h : ∀ i < n, ∀ s, I i s → Post (f i s) (I (i + 1)))
    {s : σ} (hs : I 0 s) : Post (iterate f n s) (I n) := by
  induction n with
  | zero => exact post_pure hs
  | succ n ih =>
    exact post_seq (ih fun i hi => h i (by omega)) fun a ha => h n (by omega) a ha

theorem post_loop_idx {f : Nat → σ → M σ} {n : Nat} {s : σ} (I : Nat → σ → Prop) (hs : I 0 s)
    (h : ∀ i < n, ∀ s, I i s → Post (f i s) (I (i + 1))) : Post (loop f n s) (I n) :=
  post_bind fun _ _ => post_iterate_idx I n h hs

theorem post_loopFrom_idx {f : Nat → σ → M σ} {a b : Nat} {s : σ} (I : Nat → σ → Prop) (hs : I 0 s)
    (h : ∀ i < b - a, ∀ s, I i s → Post (f (a + i) s) (I (i + 1))) : Post (loopFrom a b f s) (I (b - a)) :=
  post_bind fun _ _ => post_iterate_idx I _ h hs

theorem takes_rdN_of {b : Buf} {i n k : Nat} (h : n ≤ k) : Takes e p (rdN b i n) (e * (k + 1)) :=
  (takes_rdN b i n).mono (Nat.mul_le_mul_left _ (by omega))

/- tapes -/

def createRandomTapes_work (e q : Nat) [Kind e q] (P : Params) :
    { w // ∀ E s salt t, Takes e (q * rateOf P) (createRandomTapes E P s salt t) w } :=
  ⟨_, fun E s salt t => by unfold createRandomTapes; tk⟩
macro_rules | `(tactic| tk_leaf) => `(tactic| exact (createRandomTapes_work _ _ _).2 _ _ _ _)

def tapesToWord_work (e p : Nat) : { w // ∀ E t, Takes e p (tapesToWord E t) w } := ⟨_, fun E t => by unfold tapesToWord; tk⟩
macro_rules | `(tactic| tk_leaf) => `(tactic| exact (tapesToWord_work _ _).2 _ _)

def tapesToWords_work (e p n : Nat) : { w // ∀ E t, Takes e p (tapesToWords E n t) w } :=
  ⟨_, fun E t => by unfold tapesToWords; tk⟩
macro_rules | `(tactic| tk_leaf) => `(tactic| exact (tapesToWords_work _ _ _).2 _ _)

def tapesToParityBits_work (e p n : Nat) : { w // ∀ E o t, Takes e p (tapesToParityBits E o n t) w } :=
  ⟨_, fun E o t => by unfold tapesToParityBits; tk⟩
macro_rules | `(tactic| tk_leaf) => `(tactic| exact (tapesToParityBits_work _ _ _).2 _ _ _)

def setTapeBit_work (e p : Nat) : { w // ∀ t j b v, Takes e p (setTapeBit t j b v) w } :=
  ⟨_, fun t j b v => by unfold setTapeBit; tk⟩
macro_rules | `(tactic| tk_leaf) => `(tactic| exact (setTapeBit_work _ _).2 _ _ _ _)

def auxMpcAND_work (e p : Nat) (P : Params) : { w // ∀ E a b c t, Takes e p (auxMpcAND E P a b c t) w } :=
  ⟨_, fun E a b c t => by unfold auxMpcAND; tk⟩
macro_rules | `(tactic| tk_leaf) => `(tactic| exact (auxMpcAND_work _ _ _).2 _ _ _ _ _)

def auxMpcSbox_work (e p : Nat) (P : Params) : { w // ∀ E i o t, Takes e p (auxMpcSbox E P i o t) w } :=
  ⟨_, fun E i o t => by unfold auxMpcSbox; tk⟩
macro_rules | `(tactic| tk_leaf) => `(tactic| exact (auxMpcSbox_work _ _ _).2 _ _ _ _)

def computeAuxTape_work (e p : Nat) (P : Params) : { w // ∀ E n t i, Takes e p (computeAuxTape E P n t i) w } :=
  ⟨_, fun E n t i => by unfold computeAuxTape; tk⟩
macro_rules | `(tactic| tk_leaf) => `(tactic| exact (computeAuxTape_work _ _ _).2 _ _ _ _)

def getAuxBits_work (e p : Nat) (P : Params) : { w // ∀ o t, Takes e p (getAuxBits P o t) w } :=
  ⟨_, fun o t => by unfold getAuxBits; tk⟩
macro_rules | `(tactic| tk_leaf) => `(tactic| exact (getAuxBits_work _ _ _).2 _ _)

def setAuxBits_work (e p : Nat) (P : Params) : { w // ∀ t i, Takes e p (setAuxBits P t i) w } :=
  ⟨_, fun t i => by unfold setAuxBits; tk⟩
macro_rules | `(tactic| tk_leaf) => `(tactic| exact (setAuxBits_work _ _ _).2 _ _)

/- commitments -/

def commit_work (e q : Nat) [Kind e q] (P : Params) :
    { w // ∀ E d s a salt t j, Takes e (q * rateOf P) (commit E P d s a salt t j) w } :=
  ⟨_, fun E d s a salt t j => by
    unfold commit
    apply takes_option a
    · intro ha; subst ha; tk
    · intro a ha; subst ha; tk⟩
macro_rules | `(tactic| tk_leaf) => `(tactic| exact (commit_work _ _ _).2 _ _ _ _ _ _ _)

def commitInto_work (e q : Nat) [Kind e q] (P : Params) :
    { w // ∀ E c s a salt t j, Takes e (q * rateOf P) (commitInto E P c s a salt t j) w } :=
  ⟨_, fun E c s a salt t j => by unfold commitInto; tk⟩
macro_rules | `(tactic| tk_leaf) => `(tactic| exact (commitInto_work _ _ _).2 _ _ _ _ _ _ _)

def commitH_work (e q : Nat) [Kind e q] (P : Params) :
    { w // ∀ E d c, Takes e (q * rateOf P) (commitH E P d c) w } :=
  ⟨_, fun E d c => by
    unfold commitH
    apply takes_init
    apply tail_seq
    · ad
    apply tail_final (rateOf_pos _); intro r hr
    exact takes_wrN_of _ hr⟩
macro_rules | `(tactic| tk_leaf) => `(tactic| exact (commitH_work _ _ _).2 _ _ _)

def commitV_work (e q : Nat) [Kind e q] (P : Params) (k : Nat) :
    { w // ∀ E d i (m : Msgs), m.pos ≤ k → Takes e (q * rateOf P) (commitV E P d i m) w } :=
  ⟨_, fun E d i m hm => by
    have hk : numBytes m.pos ≤ numBytes k := by unfold numBytes; simp only [beq_iff_eq]; split <;> split <;> omega
    unfold commitV
    apply takes_init
    apply tail_seq (adds_hashUpdate (rateOf_pos _) _ _)
    apply tail_seq
    · apply adds_loop; intro i
      apply adds_step (takes_rd ..)
      intro b _
      exact (adds_hashUpdate (rateOf_pos P) _ _).le
        (Nat.mul_le_mul_left _ (Nat.add_le_add_right (Nat.mul_le_mul_left _ hk) _)) hk
    apply tail_final (rateOf_pos _); intro r hr
    exact takes_wrN_of _ hr⟩
macro_rules | `(tactic| tk_leaf) => `(tactic| exact (commitV_work _ _ _ _).2 _ _ _ _ (by assumption))

/- the online phase -/

def wordToMsgs_work (e p : Nat) (P : Params) : { w // ∀ v m, Takes e p (wordToMsgs P v m) w } :=
  ⟨_, fun v m => by unfold wordToMsgs; tk⟩
macro_rules | `(tactic| tk_leaf) => `(tactic| exact (wordToMsgs_work _ _ _).2 _ _)

theorem post_wordToMsgs {v : U16} {m : Msgs} : Post (wordToMsgs P v m) fun r => r.pos = m.pos + 1 :=
  post_bind fun _ _ => post_pure rfl

def mpcAND16_work (e p : Nat) (P : Params) : { w // ∀ E a b ma mb t m, Takes e p (mpcAND16 E P a b ma mb t m) w } :=
  ⟨_, fun E a b ma mb t m => by
    unfold mpcAND16
    apply takes_option m.unopened
    · intro h; rw [h]; tk
    · intro u h; rw [h]; tk⟩
macro_rules | `(tactic| tk_leaf) => `(tactic| exact (mpcAND16_work _ _ _).2 _ _ _ _ _ _ _)

theorem post_mpcAND16 {a b : Byte} {ma mb : U16} {t : RandomTape} {m : Msgs} :
    Post (mpcAND16 E P a b ma mb t m) fun r => r.2.2.pos = m.pos + 1 := by
  refine post_bind fun _ _ => post_bind fun _ _ => ?_
  cases m.unopened with
  | none => exact post_bind fun _ _ => post_seq post_wordToMsgs fun _ h => post_pure h
  | some u =>
    exact post_bind fun _ _ => post_bind fun _ _ => post_bind fun _ _ => post_bind fun _ _ =>
      post_seq post_wordToMsgs fun _ h => post_pure h

def mpcSbox16_work (e p : Nat) (P : Params) : { w // ∀ E s k t m, Takes e p (mpcSbox16 E P s k t m) w } :=
  ⟨_, fun E s k t m => by unfold mpcSbox16; tk⟩
macro_rules | `(tactic| tk_leaf) => `(tactic| exact (mpcSbox16_work _ _ _).2 _ _ _ _ _)

theorem post_mpcSbox16 {s : Buf} {k : List U16} {t : RandomTape} {m : Msgs} :
    Post (mpcSbox16 E P s k t m) fun r => r.2.2.pos = m.pos + 3 * P.numSboxes := by
  refine post_loop_idx (fun i (r : Buf × RandomTape × Msgs) => r.2.2.pos = m.pos + 3 * i) rfl fun i _ r hr => ?_
  refine post_bind fun _ _ => post_bind fun _ _ => post_bind fun _ _ => post_bind fun _ _ => post_bind fun _ _ => post_bind fun _ _ => ?_
  refine post_seq post_mpcAND16 fun r1 h1 => post_seq post_mpcAND16 fun r2 h2 => post_seq post_mpcAND16 fun r3 h3 => ?_
  refine post_bind fun _ _ => post_bind fun _ _ => post_bind fun _ _ => post_pure ?_
  have h1 : r1.2.2.pos = r.2.2.pos + 1 := h1
  have h2 : r2.2.2.pos = r1.2.2.pos + 1 := h2
  have h3 : r3.2.2.pos = r2.2.2.pos + 1 := h3
  show r3.2.2.pos = m.pos + 3 * (i + 1)
  omega

def simulateOnline_work (e p : Nat) (P : Params) : { w // ∀ E n k t m pl pk, Takes e p (simulateOnline E P n k t m pl pk) w } :=
  ⟨_, fun E n k t m pl pk => by unfold simulateOnline; tk⟩
macro_rules | `(tactic| tk_leaf) => `(tactic| exact (simulateOnline_work _ _ _).2 _ _ _ _ _ _ _)

theorem post_simulateOnline {n : Nat} {k : Buf} {t : RandomTape} {m : Msgs} {pl pk : Buf} :
    Post (simulateOnline E P n k t m pl pk) fun r => r.2.2.pos = m.pos + P.numRounds * (3 * P.numSboxes) := by
  refine post_bind fun _ _ => post_bind fun _ _ => post_seq (R := fun r => r.2.2.2.pos = m.pos + P.numRounds * (3 * P.numSboxes)) ?_
    fun r hr => post_bind fun _ _ => post_bind fun _ _ => post_pure hr
  refine post_loopFrom_idx (fun i (r : Buf × Buf × RandomTape × Msgs) => r.2.2.2.pos = m.pos + i * (3 * P.numSboxes)) ?_
    fun i _ r hr => ?_
  · simp
  · refine post_bind fun _ _ => post_seq post_mpcSbox16 fun r' h' => ?_
    refine post_bind fun _ _ => post_bind fun _ _ => post_bind fun _ _ => post_bind fun _ _ => post_pure ?_
    show r'.2.2.pos = _
    rw [h', hr]; ring

/- lists of challenges -/

def containsU16_work (e p n : Nat) : { w // ∀ l v, Takes e p (containsU16 l n v) w } :=
  ⟨_, fun l v => by unfold containsU16; tk⟩
macro_rules | `(tactic| tk_leaf) => `(tactic| exact (containsU16_work _ _ _).2 _ _)

def indexOfU16_work (e p n : Nat) : { w // ∀ l v, Takes e p (indexOfU16 l n v) w } :=
  ⟨_, fun l v => by unfold indexOfU16; tk⟩
macro_rules | `(tactic| tk_leaf) => `(tactic| exact (indexOfU16_work _ _ _).2 _ _)

def getMissingLeavesList_work (e p : Nat) (P : Params) : { w // ∀ l, Takes e p (getMissingLeavesList P l) w } :=
  ⟨_, fun l => by unfold getMissingLeavesList; tk⟩
macro_rules | `(tactic| tk_leaf) => `(tactic| exact (getMissingLeavesList_work _ _ _).2 _)

def proofsSize_work (e p : Nat) (P : Params) : { w // ∀ c d k s, Takes e p (proofsSize P c d (fun _ => pure k) s) w } :=
  ⟨_, fun c d k s => by unfold proofsSize; tk⟩
macro_rules | `(tactic| tk_leaf) => `(tactic| exact (proofsSize_work _ _ _).2 _ _ _ _)

def bitsToChunks_work (e p n len cap : Nat) : { w // ∀ i, Takes e p (bitsToChunks n i len cap) w } :=
  ⟨_, fun i => by unfold bitsToChunks; tk⟩
macro_rules | `(tactic| tk_leaf) => `(tactic| exact (bitsToChunks_work _ _ _ _ _).2 _)

theorem post_gather {f : Nat → M α} (n : Nat) : Post (gather f n) fun r => r.length = n := by
  induction n with
  | zero => exact post_pure rfl
  | succ n ih => exact post_seq ih fun a ha => post_bind fun _ _ => post_pure (by simp [ha])

theorem post_bitsToChunks {n len cap : Nat} {i : Buf} :
    Post (bitsToChunks n i len cap) fun r => r.length ≤ len * 8 / n :=
  post_bind fun _ _ => post_bind fun _ _ r h => (post_gather _ r h).le
macro_rules | `(tactic| tk_post) => `(tactic| apply takes_seq post_bitsToChunks)

theorem takes_foldL_both {l : List α} {f : σ → α → M σ} {c : Nat} {s : σ} (n : Nat) (hl : l.length ≤ n) (I : σ → Prop) (hs : I s)
    (hI : ∀ s, I s → ∀ x, Post (f s x) I) (h : ∀ s x, I s → Takes e p (f s x) c) :
    Takes e p (foldL l f s) (n * (c + e) + e) :=
  (takes_foldL_inv I hI h hs).mono (Nat.add_le_add_right (Nat.mul_le_mul_right _ hl) _)

def appendUnique_work (e p n : Nat) : { w // ∀ l v, l.length ≤ n → Takes e p (appendUnique n l v) w } :=
  ⟨_, fun l v h => by unfold appendUnique; tk⟩
macro_rules | `(tactic| tk_leaf) => `(tactic| exact (appendUnique_work _ _ _).2 _ _ (by assumption))

theorem post_appendUnique {n v : Nat} {l : List Nat} (h : l.length ≤ n) : Post (appendUnique n l v) fun r => r.length ≤ n :=
  post_bind fun _ _ => post_ite (fun _ => post_pure h) fun _ =>
    post_ite (fun h => post_pure (by rw [List.length_append]; exact h)) fun _ => post_ub

def scanC_work (e p : Nat) (P : Params) (k : Nat) :
    { w // ∀ ch l, ch.length ≤ k → l.length ≤ P.numOpenedRounds → Takes e p (scanC P ch l) w } :=
  ⟨_, fun ch l hch hl => by
    unfold scanC
    apply takes_foldL_both k hch (fun l => l.length ≤ P.numOpenedRounds) hl
    · exact fun s hs x => post_ite (fun _ => post_pure hs) fun _ => post_ite (fun _ => post_appendUnique hs) fun _ => post_pure hs
    · intro s x hs
      tk⟩

theorem post_scanC {ch l : List Nat} (hl : l.length ≤ P.numOpenedRounds) :
    Post (scanC P ch l) fun r => r.length ≤ P.numOpenedRounds :=
  post_foldL _ hl fun _ _ hs => post_ite (fun _ => post_pure hs) fun _ =>
    post_ite (fun _ => post_appendUnique hs) fun _ => post_pure hs

def rehash_work (e q : Nat) [Kind e q] (P : Params) : { w // ∀ E h, Takes e (q * rateOf P) (rehash E P h) w } :=
  ⟨_, fun E h => by unfold rehash; tk⟩
macro_rules | `(tactic| tk_leaf) => `(tactic| exact (rehash_work _ _ _).2 _ _)

def fillCStep (e q : Nat) [Kind e q] (P : Params) (bits cap : Nat) : Nat :=
  e + (bitsToChunks_work e (q * rateOf P) bits P.digestSizeBytes cap).1 +
    (scanC_work e (q * rateOf P) P (P.digestSizeBytes * 8 / bits)).1 + (rehash_work e q P).1

theorem takes_fillC (e q : Nat) [Kind e q] (P : Params) (bits cap n : Nat) (h : Buf) (l : List Nat) (hl : l.length ≤ P.numOpenedRounds) :
    Takes e (q * rateOf P) (fillC E P bits cap n h l) (n * fillCStep e q P bits cap + e) := by
  induction n generalizing h l with
  | zero => exact (takes_ite (fun _ => takes_diverge) fun _ => takes_pure _).mono (by simp)
  | succ n ih =>
    refine (takes_ite (fun _ => takes_bind (takes_publish _) fun _ _ => takes_seq post_bitsToChunks ((bitsToChunks_work ..).2 _)
      fun ch hch => takes_seq (post_scanC hl) ((scanC_work ..).2 _ _ hch hl) fun l' hl' => takes_bind ((rehash_work ..).2 _ _)
      fun _ _ => ih _ _ hl') fun _ => takes_pure _).mono ?_
    rw [Nat.add_mul n 1, Nat.one_mul]
    simp only [fillCStep]
    omega

def scanP_work (e p : Nat) (P : Params) (k : Nat) :
    { w // ∀ ch l, ch.length ≤ k → Takes e p (scanP P ch l) w } :=
  ⟨_, fun ch l hch => by
    unfold scanP
    apply takes_foldL_of k hch
    intro s x
    tk⟩

def fillPStep (e q : Nat) [Kind e q] (P : Params) (bits cap : Nat) : Nat :=
  e + (bitsToChunks_work e (q * rateOf P) bits P.digestSizeBytes cap).1 +
    (scanP_work e (q * rateOf P) P (P.digestSizeBytes * 8 / bits)).1 + (rehash_work e q P).1

theorem takes_fillP (e q : Nat) [Kind e q] (P : Params) (bits cap n : Nat) (h : Buf) (l : List Nat) :
    Takes e (q * rateOf P) (fillP E P bits cap n h l) (n * fillPStep e q P bits cap + e) := by
  induction n generalizing h l with
  | zero => exact (takes_ite (fun _ => takes_diverge) fun _ => takes_pure _).mono (by simp)
  | succ n ih =>
    refine (takes_ite (fun _ => takes_bind (takes_publish _) fun _ _ => takes_seq post_bitsToChunks ((bitsToChunks_work ..).2 _)
      fun ch hch => takes_bind ((scanP_work ..).2 _ _ hch) fun l' hl' => takes_bind ((rehash_work ..).2 _ _)
      fun _ _ => ih _ _) fun _ => takes_pure _).mono ?_
    rw [Nat.add_mul n 1, Nat.one_mul]
    simp only [fillPStep]
    omega

def expandChallengeHash_work (e q : Nat) [Kind e q] (P : Params) (fuel : Nat) :
    { w // ∀ E h, E.fuel = fuel → Takes e (q * rateOf P) (expandChallengeHash E P h) w } :=
  ⟨_, fun E h hf => by
    unfold expandChallengeHash
    rw [hf]
    apply takes_bind (takes_memcpy ..); intro _ _
    apply takes_bind (takes_fillC e q P _ _ fuel _ _ (Nat.zero_le _)); intro _ _
    apply takes_bind (takes_fillP e q P _ _ fuel _ _); intro _ _
    exact takes_pure _⟩
macro_rules | `(tactic| tk_leaf) => `(tactic| exact (expandChallengeHash_work _ _ _ _).2 _ _ (by assumption))

def HCPhash_work (e q : Nat) [Kind e q] (P : Params) (mlen : Nat) :
    { w // ∀ E d c h salt pk pl m, Takes e (q * rateOf P) (HCPhash E P d c h salt pk pl m mlen) w } :=
  ⟨_, fun E d c h salt pk pl m => by
    unfold HCPhash
    apply takes_bind (takes_assertM _); intro _ _
    apply takes_init
    apply tail_seq
    · ad
    apply tail_seq (adds_hashUpdate (rateOf_pos _) _ _)
    apply tail_seq (adds_hashUpdate (rateOf_pos _) _ _)
    apply tail_seq (adds_hashUpdate (rateOf_pos _) _ _)
    apply tail_seq (adds_hashUpdate (rateOf_pos _) _ _)
    apply tail_seq (adds_hashUpdate (rateOf_pos _) _ _)
    apply tail_final (rateOf_pos _); intro r hr
    exact takes_wrN_of _ hr⟩
macro_rules | `(tactic| tk_leaf) => `(tactic| exact (HCPhash_work _ _ _ _).2 _ _ _ _ _ _ _ _)

/- /repo/picnic3_impl.c `verify_picnic3` -/

def verifySeeds_work (e q : Nat) [Kind e q] (P : Params) :
    { w // ∀ E sig t i, Takes e (q * rateOf P) (verifySeeds E P sig t i) w } :=
  ⟨_, fun E sig t i => by unfold verifySeeds; tk⟩
macro_rules | `(tactic| tk_leaf) => `(tactic| exact (verifySeeds_work _ _ _).2 _ _ _ _)

def verifyCommit_work (e q : Nat) [Kind e q] (P : Params) :
    { w // ∀ E sig t i, Takes e (q * rateOf P) (verifyCommit E P sig t i) w } :=
  ⟨_, fun E sig t i => by unfold verifyCommit; tk⟩
macro_rules | `(tactic| tk_leaf) => `(tactic| exact (verifyCommit_work _ _ _).2 _ _ _ _)

theorem post_simulateOnline_le {n : Nat} {k : Buf} {t : RandomTape} {m : Msgs} {pl pk : Buf} (h : m.pos = 0) :
    Post (simulateOnline E P n k t m pl pk) fun r => r.2.2.pos ≤ P.numRounds * (3 * P.numSboxes) := fun r hr =>
  (post_simulateOnline r hr).le.trans (by rw [h, Nat.zero_add])
macro_rules | `(tactic| tk_post) => `(tactic| apply takes_seq (post_simulateOnline_le rfl))

def verifyOnline_work (e q : Nat) [Kind e q] (P : Params) :
    { w // ∀ E sig t pk pl i, Takes e (q * rateOf P) (verifyOnline E P sig t pk pl i) w } :=
  ⟨_, fun E sig t pk pl i => by unfold verifyOnline; tk⟩
macro_rules | `(tactic| tk_leaf) => `(tactic| exact (verifyOnline_work _ _ _).2 _ _ _ _ _ _)

def verifyPicnic3_work (e q : Nat) [Kind e q] (P : Params) (mlen : Nat) :
    { w // ∀ E sig pk pl m, Takes e (q * rateOf P) (verifyPicnic3 E P sig pk pl m mlen) w } :=
  ⟨_, fun E sig pk pl m => by unfold verifyPicnic3; tk⟩

/- /repo/picnic3_impl.c `deserializeSignature2` -/

macro_rules | `(tactic| tk_leaf) => `(tactic| exact takes_rdN_of (by assumption))

def deserializeProof2_work (e p : Nat) (P : Params) (k : Nat) :
    { w // ∀ E c d n b t o, n ≤ k → Takes e p (deserializeProof2 E P c d n b t o) w } :=
  ⟨_, fun E c d n b t o h => by unfold deserializeProof2; tk⟩
macro_rules | `(tactic| tk_leaf) => `(tactic| exact (deserializeProof2_work _ _ _ _).2 _ _ _ _ _ _ _ (by assumption))

def deserializeProofs2_work (e p : Nat) (P : Params) (k : Nat) :
    { w // ∀ E c d n b o, n ≤ k → Takes e p (deserializeProofs2 E P c d n b o) w } :=
  ⟨_, fun E c d n b o h => by unfold deserializeProofs2; tk⟩
macro_rules | `(tactic| tk_leaf) => `(tactic| exact (deserializeProofs2_work _ _ _ _).2 _ _ _ _ _ _ (by assumption))

def deserializeSignature2_work (e q : Nat) [Kind e q] (P : Params) (fuel : Nat) :
    { w // ∀ E sig b n, E.fuel = fuel → Takes e (q * rateOf P) (deserializeSignature2 E P sig b n) w } :=
  ⟨_, fun E sig b n hf => by unfold deserializeSignature2; tk⟩

/- /repo/picnic.c `picnic_verify` -/

def verifyZkb_work (e q : Nat) [Kind e q] (P : Params) (mlen fuel : Nat) :
    { w // ∀ E pk msg b n, E.fuel = fuel → getParamSet pk.params = some P → isPicnic3 pk.params = false →
      Takes e (q * rateOf P) (picnicVerify E (some pk) msg mlen b n) w } :=
  ⟨_, fun E pk msg b n hf hP h3 => by
    apply takes_bind
    · tk
    · intro pk' hpk'
      rw [out_deref] at hpk'
      cases hpk'
      apply takes_bind
      · tk
      · intro _ _
        simp only [hP, h3, Bool.not_false]
        apply takes_bind' (takes_tell _)
        intro _ _
        simp only [if_true]
        apply takes_bind
        · tk
        · intro o _
          apply takes_bind
          · tk
          · intro _ _
            apply takes_option o
            · intro h; subst h; tk
            · intro sig h; subst h
              apply takes_bind
              · exact (verify_work e q P mlen fuel).2 E _ _ _ _ hf
              · intro _ _; tk⟩

def verify3_work (e q : Nat) [Kind e q] (P : Params) (mlen fuel : Nat) :
    { w // ∀ E pk msg b n, E.fuel = fuel → getParamSet pk.params = some P → isPicnic3 pk.params = true →
      Takes e (q * rateOf P) (picnicVerify E (some pk) msg mlen b n) w } :=
  ⟨_, fun E pk msg b n hf hP h3 => by
    apply takes_bind
    · tk
    · intro pk' hpk'
      rw [out_deref] at hpk'
      cases hpk'
      apply takes_bind
      · tk
      · intro _ _
        simp only [hP, h3, Bool.not_true]
        apply takes_bind' (takes_tell _)
        intro _ _
        simp only [Bool.false_eq_true, if_false]
        apply takes_bind
        · exact (deserializeSignature2_work e q P fuel).2 E _ _ _ hf
        · intro o _
          apply takes_bind
          · tk
          · intro _ _
            apply takes_option o
            · intro h; subst h; tk
            · intro sig h; subst h
              apply takes_bind
              · exact (verifyPicnic3_work e q P mlen).2 E _ _ _ _
              · intro _ _; tk⟩

/- how the bounds grow with the length of the message and the number of rehashes -/

theorem verifyZkb_linear (e q : Nat) [Kind e q] (P : Params) (mlen fuel : Nat) :
    (verifyZkb_work e q P mlen fuel).1 ≤ (verifyZkb_work e q P 0 0).1 + (15 * e + q) * mlen +
      fuel * ((h3Scan_work e (q * rateOf P) P).1 + e + (rehash3_work e q P).1) := by
  have h : (verify_work e q P mlen fuel).1 = (verify_work e q P 0 0).1 + (15 * e + q) * mlen +
      fuel * ((h3Scan_work e (q * rateOf P) P).1 + e + (rehash3_work e q P).1) := by
    simp only [verify_work, H3_linear e q P mlen fuel]
    ring
  simp only [verifyZkb_work, h]
  omega

theorem HCPhash_linear (e q : Nat) [Kind e q] (P : Params) (mlen : Nat) :
    (HCPhash_work e q P mlen).1 = (HCPhash_work e q P 0).1 + (15 * e + q) * mlen := by
  simp only [HCPhash_work]
  ring

theorem expandChallengeHash_linear (e q : Nat) [Kind e q] (P : Params) (fuel : Nat) :
    (expandChallengeHash_work e q P fuel).1 = (expandChallengeHash_work e q P 0).1 +
      fuel * ((expandChallengeHash_work e q P 1).1 - (expandChallengeHash_work e q P 0).1) := by
  simp only [expandChallengeHash_work]
  generalize fillCStep e q P _ _ = a
  generalize fillPStep e q P _ _ = b
  generalize e * _ = c
  have : c + c + (1 * a + e + (1 * b + e + 0)) - (c + c + (0 * a + e + (0 * b + e + 0))) = a + b := by omega
  rw [this]
  ring

theorem verify3_linear (e q : Nat) [Kind e q] (P : Params) (mlen fuel : Nat) :
    (verify3_work e q P mlen fuel).1 ≤ (verify3_work e q P 0 0).1 + (15 * e + q) * mlen +
      fuel * ((expandChallengeHash_work e q P 1).1 - (expandChallengeHash_work e q P 0).1) := by
  have h : (verifyPicnic3_work e q P mlen).1 ≤ (verifyPicnic3_work e q P 0).1 + (15 * e + q) * mlen := by
    simp only [verifyPicnic3_work, HCPhash_linear e q P mlen]
    omega
  have h' : (deserializeSignature2_work e q P fuel).1 ≤ (deserializeSignature2_work e q P 0).1 +
      fuel * ((expandChallengeHash_work e q P 1).1 - (expandChallengeHash_work e q P 0).1) := by
    simp only [deserializeSignature2_work, expandChallengeHash_linear e q P fuel]
    omega
  simp only [verify3_work]
  omega

end Picnic.Leak
