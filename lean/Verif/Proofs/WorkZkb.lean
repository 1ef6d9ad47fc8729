import Verif.Proofs.WorkHash
import Mathlib.Tactic.CasesM

/-
The work of ZKB++ verification.  The number in each statement is found by Lean from the proof: it is the sum over the
statements of the function, the maximum over the cases of a test, and the product over the iterations of a loop.  It
depends on the parameter set only.
-/

namespace Picnic.Leak

variable {e p q : Nat} {P : Params} {α β : Type}

theorem takes_seq {x : LM α} {f : α → LM β} {n m : Nat} {Q : α → Prop} (hP : Post x Q) (h : Takes e p x n)
    (h' : ∀ a, Q a → Takes e p (f a) m) : Takes e p (x >>= f) (n + m) := takes_bind h fun a ha => h' a (hP a ha)

theorem takes_cases {x : LM α} {n m : Nat} (c : Prop) (h : c → Takes e p x n) (h' : ¬ c → Takes e p x m) :
    Takes e p x (max n m) := by
  by_cases hc : c
  · exact (h hc).mono (Nat.le_max_left ..)
  · exact (h' hc).mono (Nat.le_max_right ..)

theorem takes_wrN_zeros (b : Buf) (i n : Nat) : Takes e p (wrN b i (zeros n)) (e * (n + 1)) :=
  takes_wrN_of n (by simp [zeros])

theorem takes_memcpy_if (d : Buf) (i : Nat) (s : Buf) (j : Nat) (c : Prop) [Decidable c] (a b : Nat) :
    Takes e p (memcpy d i s j (if c then a else b)) (e * (max a b + 1) + e * (max a b + 1)) := by
  refine (takes_memcpy ..).mono (Nat.add_le_add ?_ ?_) <;> refine Nat.mul_le_mul_left _ (Nat.add_le_add_right ?_ 1) <;>
    split <;> first | exact Nat.le_max_left .. | exact Nat.le_max_right ..

/-- what is known of the functions that are called; extended below -/
syntax "tk_leaf" : tactic
macro_rules | `(tactic| tk_leaf) => `(tactic| first
  | exact takes_pure _
  | exact takes_ok _
  | exact takes_ub _
  | exact takes_abort
  | exact takes_publish _
  | exact takes_note _
  | exact takes_assertM _
  | exact takes_deref _
  | exact takes_rd _ _
  | exact takes_wr _ _ _
  | exact takes_rdN _ _ _
  | exact takes_memcpy _ _ _ _ _
  | exact takes_memcpy_if _ _ _ _ _ _ _
  | exact takes_memeq _ _ _
  | exact takes_ldw _ _
  | exact takes_stw _ _ _
  | exact takes_u16ofBytes _
  | exact takes_hashAll _ (by dsimp only [List.map, intLE, List.cons_append, List.nil_append] <;> rfl)
  | exact takes_wrN_zeros _ _ _
  | exact takes_wrN_of _ (by assumption))

/-- what is known of the results of the functions that are called; extended below -/
syntax "tk_post" : tactic
macro_rules | `(tactic| tk_post) => `(tactic| apply takes_seq post_hashAll)

open Lean Elab Tactic Meta in
/-- distinguish the cases of a `match` on a variable of type `Option` -/
elab "tk_opt" : tactic => withMainContext do
  let x := (← instantiateMVars (← getMainTarget)).getAppArgs[3]!
  let some m ← matchMatcherApp? x.consumeMData | throwError "no match"
  let some d := m.discrs[0]? | throwError "no match"
  unless d.isFVar do throwError "not a variable"
  let stx ← Term.exprToSyntax d
  evalTactic (← `(tactic| apply takes_option $stx <;>
    first | (intro a h; subst h; try dsimp only) | (intro h; subst h; try dsimp only) | skip))

/-- one step of a proof that a run takes at most so many steps -/
macro "tk_step" : tactic => `(tactic| with_reducible first
  | tk_leaf
  | (tk_post <;> try (intro _ _))
  | (apply takes_bind <;> try (intro _ _))
  | (apply takes_ite <;> try (intro _))
  | (apply takes_loop; intro _ _)
  | (apply takes_loopFrom; intro _ _)
  | (apply takes_loopDown; intro _ _)
  | (apply takes_collect; intro _)
  | (apply takes_collectOpt; intro _)
  | (casesm _ × _; try dsimp only)
  | dsimp only
  | tk_opt)

macro "tk" : tactic => `(tactic| repeat' tk_step)

/- /repo/picnic_impl.c, LowMC -/

def getBit_work (e p : Nat) : { n // ∀ b i, Takes e p (getBit b i) n } := ⟨_, fun b i => by unfold getBit; tk⟩
macro_rules | `(tactic| tk_leaf) => `(tactic| exact (getBit_work _ _).2 _ _)

def setBit_work (e p : Nat) : { n // ∀ b i v, Takes e p (setBit b i v) n } := ⟨_, fun b i v => by unfold setBit; tk⟩
macro_rules | `(tactic| tk_leaf) => `(tactic| exact (setBit_work _ _).2 _ _ _)

def zeroTrailingBits_work (e p n : Nat) : { k // ∀ b, Takes e p (zeroTrailingBits b n) k } :=
  ⟨_, fun b => by unfold zeroTrailingBits; tk⟩
macro_rules | `(tactic| tk_leaf) => `(tactic| exact (zeroTrailingBits_work _ _ _).2 _)

def arePaddingBitsZero_work (e p n : Nat) : { k // ∀ b, Takes e p (arePaddingBitsZero b n) k } :=
  ⟨_, fun b => by unfold arePaddingBitsZero; tk⟩
macro_rules | `(tactic| tk_leaf) => `(tactic| exact (arePaddingBitsZero_work _ _ _).2 _)

def xorArray_work (e p n : Nat) : { k // ∀ o a b, Takes e p (xorArray o a b n) k } :=
  ⟨_, fun o a b => by unfold xorArray; tk⟩
macro_rules | `(tactic| tk_leaf) => `(tactic| exact (xorArray_work _ _ _).2 _ _ _)

def xorThree_work (e p n : Nat) : { k // ∀ o a b c, Takes e p (xorThree o a b c n) k } :=
  ⟨_, fun o a b c => by unfold xorThree; tk⟩
macro_rules | `(tactic| tk_leaf) => `(tactic| exact (xorThree_work _ _ _).2 _ _ _ _)

def matrixRow_work (e p : Nat) (P : Params) : { k // ∀ s m i, Takes e p (matrixRow s m P i) k } :=
  ⟨_, fun s m i => by unfold matrixRow; tk⟩
macro_rules | `(tactic| tk_leaf) => `(tactic| exact (matrixRow_work _ _ _).2 _ _ _)

def matrixMul_work (e p : Nat) (P : Params) : { k // ∀ t o s m, Takes e p (matrixMul t o s m P) k } :=
  ⟨_, fun t o s m => by unfold matrixMul; tk⟩
macro_rules | `(tactic| tk_leaf) => `(tactic| exact (matrixMul_work _ _ _).2 _ _ _ _)

def mpcXor_work (e p n k : Nat) : { w // ∀ s i, Takes e p (mpcXor s i n k) w } := ⟨_, fun s i => by unfold mpcXor; tk⟩
macro_rules | `(tactic| tk_leaf) => `(tactic| exact (mpcXor_work _ _ _ _).2 _ _)

def mpcMatrixMul_work (e p : Nat) (P : Params) (k : Nat) :
    { w // ∀ E t o s m, Takes e p (mpcMatrixMul E P t o s m k) w } := ⟨_, fun E t o s m => by unfold mpcMatrixMul; tk⟩
macro_rules | `(tactic| tk_leaf) => `(tactic| exact (mpcMatrixMul_work _ _ _ _).2 _ _ _ _ _)

def mpcMatrixMulInPlace_work (e p : Nat) (P : Params) (k : Nat) :
    { w // ∀ E t s m, Takes e p (mpcMatrixMulInPlace E P t s m k) w } :=
  ⟨_, fun E t s m => by unfold mpcMatrixMulInPlace; tk⟩
macro_rules | `(tactic| tk_leaf) => `(tactic| exact (mpcMatrixMulInPlace_work _ _ _ _).2 _ _ _ _)

def readSboxBits_work (e p k : Nat) : { w // ∀ s i, Takes e p (readSboxBits s i k) w } :=
  ⟨_, fun s i => by unfold readSboxBits; tk⟩
macro_rules | `(tactic| tk_leaf) => `(tactic| exact (readSboxBits_work _ _ _).2 _ _)

def writeSboxBits_work (e p k : Nat) : { w // ∀ s i a b c ab bc ca, Takes e p (writeSboxBits s i k a b c ab bc ca) w } :=
  ⟨_, fun s i a b c ab bc ca => by unfold writeSboxBits; tk⟩
macro_rules | `(tactic| tk_leaf) => `(tactic| exact (writeSboxBits_work _ _ _).2 _ _ _ _ _ _ _ _)

def mpcXorConstantVerify_work (e p n : Nat) : { w // ∀ s i c, Takes e p (mpcXorConstantVerify s i n c) w } :=
  ⟨_, fun s i c => by unfold mpcXorConstantVerify; tk⟩
macro_rules | `(tactic| tk_leaf) => `(tactic| exact (mpcXorConstantVerify_work _ _ _).2 _ _ _)

def mpcANDVerify_work (e p : Nat) : { w // ∀ a b r v v', Takes e p (mpcANDVerify a b r v v') w } :=
  ⟨_, fun a b r v v' => by unfold mpcANDVerify; tk⟩
macro_rules | `(tactic| tk_leaf) => `(tactic| exact (mpcANDVerify_work _ _).2 _ _ _ _ _)

def mpcSubstitutionVerify_work (e p : Nat) (P : Params) :
    { w // ∀ s r v v', Takes e p (mpcSubstitutionVerify P s r v v') w } :=
  ⟨_, fun s r v v' => by unfold mpcSubstitutionVerify; tk⟩
macro_rules | `(tactic| tk_leaf) => `(tactic| exact (mpcSubstitutionVerify_work _ _ _).2 _ _ _ _)

def mpcLowMCVerify_work (e p : Nat) (P : Params) :
    { w // ∀ E t v v' r tmp pl c, Takes e p (mpcLowMCVerify E P t v v' r tmp pl c) w } :=
  ⟨_, fun E t v v' r tmp pl c => by unfold mpcLowMCVerify; tk⟩
macro_rules | `(tactic| tk_leaf) => `(tactic| exact (mpcLowMCVerify_work _ _ _).2 _ _ _ _ _ _ _ _)

/- /repo/picnic_impl.c, commitments and challenges -/

section

variable (e q : Nat) [Kind e q] (P : Params)

def createRandomTape_work (n : Nat) :
    { w // ∀ E s salt r k t, Takes e (q * rateOf P) (createRandomTape E P s salt r k t n) w } :=
  ⟨_, fun E s salt r k t => by unfold createRandomTape; tk⟩
macro_rules | `(tactic| tk_leaf) => `(tactic| exact (createRandomTape_work _ _ _ _).2 _ _ _ _ _ _)

def setTape_work (e p n : Nat) : { w // ∀ t j s o, Takes e p (setTape t j s o n) w } :=
  ⟨_, fun t j s o => by unfold setTape; tk⟩
macro_rules | `(tactic| tk_leaf) => `(tactic| exact (setTape_work _ _ _).2 _ _ _ _)

def createTapeInto_work (n : Nat) :
    { w // ∀ E s salt r k t j, Takes e (q * rateOf P) (createTapeInto E P s salt r k t j n) w } :=
  ⟨_, fun E s salt r k t j => by unfold createTapeInto; tk⟩
macro_rules | `(tactic| tk_leaf) => `(tactic| exact (createTapeInto_work _ _ _ _).2 _ _ _ _ _ _ _)

def commitView_work : { w // ∀ E s v h, Takes e (q * rateOf P) (commitView E P s v h) w } :=
  ⟨_, fun E s v h => by unfold commitView; tk⟩
macro_rules | `(tactic| tk_leaf) => `(tactic| exact (commitView_work _ _ _).2 _ _ _ _)

def unruhG_work : { w // ∀ E k s v o, Takes e (q * rateOf P) (unruhG E P k s v o) w } :=
  ⟨_, fun E k s v o => by
    apply takes_cases (k = 2) <;> (try (intro hk; unfold unruhG; simp only [hk, if_true, if_false])) <;> tk⟩
macro_rules | `(tactic| tk_leaf) => `(tactic| exact (unruhG_work _ _ _).2 _ _ _ _ _)

def getChallenge_work (e p : Nat) : { w // ∀ c i, Takes e p (getChallenge c i) w } :=
  ⟨_, fun c i => by unfold getChallenge; tk⟩
macro_rules | `(tactic| tk_leaf) => `(tactic| exact (getChallenge_work _ _).2 _ _)

def setChallenge_work (e p : Nat) : { w // ∀ c i t, Takes e p (setChallenge c i t) w } :=
  ⟨_, fun c i t => by unfold setChallenge; tk⟩
macro_rules | `(tactic| tk_leaf) => `(tactic| exact (setChallenge_work _ _).2 _ _ _)

def h3Scan_work (e p : Nat) (P : Params) : { w // ∀ h s, Takes e p (h3Scan P h s) w } :=
  ⟨_, fun h s => by unfold h3Scan; tk⟩
macro_rules | `(tactic| tk_leaf) => `(tactic| exact (h3Scan_work _ _ _).2 _ _)

def rehash3_work : { w // ∀ E h, Takes e (q * rateOf P)
    (hashAll E P HASH_PREFIX_1 [(h, P.digestSizeBytes)] P.digestSizeBytes) w } := ⟨_, fun E h => by tk⟩

theorem takes_h3Loop (n : Nat) (E : Env) (h : Buf) (s : H3State) :
    Takes e (q * rateOf P) (h3Loop E P n h s) (n * ((h3Scan_work e (q * rateOf P) P).1 + e + (rehash3_work e q P).1)) := by
  induction n generalizing h s with
  | zero => exact Nat.zero_le _
  | succ n ih =>
    refine (takes_bind (takes_publish _) fun _ _ => takes_bind ((h3Scan_work _ _ _).2 _ _) fun _ _ =>
      takes_ite (fun _ => takes_pure _) fun _ => takes_bind ((rehash3_work _ _ _).2 _ _) fun _ _ => ih _ _).mono ?_
    rw [Nat.succ_mul]; omega

/- the message and the limit on the number of rehashes enter the bounds of `H3` -/

/-- the sequence of updates -/
macro "ad" : tactic => `(tactic| repeat' (with_reducible first
  | exact adds_pure
  | exact adds_hashUpdate (rateOf_pos _) _ _
  | apply adds_seq
  | (apply adds_loop; intro _)
  | (apply adds_ite <;> try (intro _))
  | (apply adds_step <;> try (intro _ _))
  | tk_leaf))

def hashUpdateTriples_adds (T k : Nat) (len : Nat → Nat) (hk : ∀ j, len j ≤ k) :
    { w : Nat × Nat // ∀ E xs, Adds e q (rateOf P) (fun c => hashUpdateTriples E c xs T len) w.1 w.2 } :=
  ⟨⟨_, _⟩, fun E xs => by
    unfold hashUpdateTriples
    apply adds_loop; intro i
    apply adds_step
    tk
    intro row _
    apply adds_loop; intro i
    apply adds_step
    tk
    intro b _
    exact (adds_hashUpdate (rateOf_pos P) _ _).le (Nat.mul_le_mul_left _ (Nat.add_le_add_right (Nat.mul_le_mul_left _ (hk _)) _)) (hk _)⟩

/-- one step of a hash computation -/
macro "tl" : tactic => `(tactic| with_reducible first
  | (apply tail_final (rateOf_pos _); intro _ _)
  | apply tail_seq
  | (apply tail_step <;> try (intro _ _)))

def H3_work (mlen fuel : Nat) : { w : Nat // ∀ E co pl vo as cb salt msg gs, E.fuel = fuel →
    Takes e (q * rateOf P) (H3 E P co pl vo as cb salt msg mlen gs) w } :=
  ⟨_, fun E co pl vo as cb salt msg gs hf => by
    unfold H3
    rw [hf]
    apply takes_bind (takes_wr ..); intro cb _
    apply takes_init
    apply tail_seq ((hashUpdateTriples_adds e q P _ P.stateSizeBytes _ (fun _ => Nat.le_refl _)).2 E _)
    apply tail_seq ((hashUpdateTriples_adds e q P _ P.digestSizeBytes _ (fun _ => Nat.le_refl _)).2 E _)
    apply tail_seq
    · apply adds_ite
      · intro _
        apply adds_step (takes_deref _); intro gs _
        exact (hashUpdateTriples_adds e q P _ (max P.unruhGWithInputBytes P.unruhGWithoutInputBytes) _
          (fun j => by split; exacts [Nat.le_max_left .., Nat.le_max_right ..])).2 E _
      · intro _
        exact adds_pure
    apply tail_seq (adds_hashUpdate (rateOf_pos _) _ _)
    apply tail_seq (adds_hashUpdate (rateOf_pos _) _ _)
    apply tail_seq (adds_hashUpdate (rateOf_pos _) _ _)
    apply tail_seq (adds_hashUpdate (rateOf_pos _) _ _)
    apply tail_final (rateOf_pos _); intro r _
    exact takes_h3Loop e q P fuel E _ _⟩

theorem H3_linear (mlen fuel : Nat) : (H3_work e q P mlen fuel).1 = (H3_work e q P 0 0).1 + (15 * e + q) * mlen +
    fuel * ((h3Scan_work e (q * rateOf P) P).1 + e + (rehash3_work e q P).1) := by
  simp only [H3_work]
  ring

def verifyProofTapes_work : { w // ∀ E pr v v' c salt r tmp t,
    Takes e (q * rateOf P) (verifyProofTapes E P pr v v' c salt r tmp t) w } :=
  ⟨_, fun E pr v v' c salt r tmp t => by unfold verifyProofTapes; tk⟩
macro_rules | `(tactic| tk_leaf) => `(tactic| exact (verifyProofTapes_work _ _ _).2 _ _ _ _ _ _ _ _ _)

def verifyProof_work : { w // ∀ E pr v v' c salt r tmp pl t,
    Takes e (q * rateOf P) (verifyProof E P pr v v' c salt r tmp pl t) w } :=
  ⟨_, fun E pr v v' c salt r tmp pl t => by unfold verifyProof; tk⟩
macro_rules | `(tactic| tk_leaf) => `(tactic| exact (verifyProof_work _ _ _).2 _ _ _ _ _ _ _ _ _ _)

def verifyRound_work : { w // ∀ E sig pk pl i, Takes e (q * rateOf P) (verifyRound E P sig pk pl i) w } :=
  ⟨_, fun E sig pk pl i => by unfold verifyRound; tk⟩
macro_rules | `(tactic| tk_leaf) => `(tactic| exact (verifyRound_work _ _ _).2 _ _ _ _ _)

/-- what the calls of `verify` cost, given the length of the message and the number of rehashes granted -/
def verify_work (mlen fuel : Nat) : { w // ∀ E sig pk pl msg, E.fuel = fuel →
    Takes e (q * rateOf P) (verify E P sig pk pl msg mlen) w } :=
  ⟨_, fun E sig pk pl msg hf => by
    unfold verify
    apply takes_bind
    · tk
    · intro rounds _
      apply takes_bind
      · exact (H3_work e q P mlen fuel).2 E _ _ _ _ _ _ _ _ hf
      · intro _ _; tk⟩

def computeInputShareSize_work (e p : Nat) (P : Params) (n : Nat) :
    { w // ∀ c, Takes e p (computeInputShareSize P c n) w } := ⟨_, fun c => by unfold computeInputShareSize; tk⟩
macro_rules | `(tactic| tk_leaf) => `(tactic| exact (computeInputShareSize_work _ _ _ _).2 _)

def isChallengeValid_work (e p : Nat) (P : Params) :
    { w // ∀ c, Takes e p (isChallengeValid P c) w } := ⟨_, fun c => by unfold isChallengeValid; tk⟩
macro_rules | `(tactic| tk_leaf) => `(tactic| exact (isChallengeValid_work _ _ _).2 _)

def takeInto_work (e p n : Nat) : { w // ∀ d s o, Takes e p (takeInto d s o n) w } :=
  ⟨_, fun d s o => by unfold takeInto; tk⟩
macro_rules | `(tactic| tk_leaf) => `(tactic| exact (takeInto_work _ _ _).2 _ _ _)

def takeIntoIf_work (e p a b : Nat) : { w // ∀ d s o (c : Prop) (_ : Decidable c), Takes e p (takeInto d s o (if c then a else b)) w } :=
  ⟨_, fun d s o c _ => by unfold takeInto; tk⟩
macro_rules | `(tactic| tk_leaf) => `(tactic| exact (takeIntoIf_work _ _ _ _).2 _ _ _ _ _)

def deserializeProof_work (e p : Nat) (P : Params) :
    { w // ∀ s c i pr o, Takes e p (deserializeProof P s c i pr o) w } :=
  ⟨_, fun s c i pr o => by unfold deserializeProof; tk⟩
macro_rules | `(tactic| tk_leaf) => `(tactic| exact (deserializeProof_work _ _ _).2 _ _ _ _ _)

def deserializeProofs_work (e p : Nat) (P : Params) :
    { w // ∀ ps s c o, Takes e p (deserializeProofs P ps s c o) w } :=
  ⟨_, fun ps s c o => by unfold deserializeProofs; tk⟩
macro_rules | `(tactic| tk_leaf) => `(tactic| exact (deserializeProofs_work _ _ _).2 _ _ _ _)

def deserializeSignature_work (e p : Nat) (P : Params) :
    { w // ∀ sig b n, Takes e p (deserializeSignature P sig b n) w } :=
  ⟨_, fun sig b n => by unfold deserializeSignature; tk⟩
macro_rules | `(tactic| tk_leaf) => `(tactic| exact (deserializeSignature_work _ _ _).2 _ _ _)

end

end Picnic.Leak
