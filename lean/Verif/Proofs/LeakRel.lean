import Verif.Model.LeakApi
import Verif.Model.LeakKeccakP
import Verif.Proofs.LeakAttr
import Verif.Proofs.Hash
import Mathlib.Tactic.CasesM
import Mathlib.Data.List.Forall2

/-
Two runs side by side: if the values they publish agree, then so do their observations.
-/

namespace Picnic.Leak

open Lean Elab Tactic Meta

variable {α β σ : Type}

/-- the two runs end in the same way, with results related by `R` -/
def OutRel (R : α → β → Prop) : Outcome α → Outcome β → Prop
  | .ok a, .ok b => R a b
  | .ub k, .ub l => k = l
  | .abort, .abort => True
  | .diverge, .diverge => True
  | _, _ => False

/-- If the published values of the two runs agree (whatever is published afterwards), then the runs make the same
observations, publish the same number of values, and end in the same way with related results. -/
def Rel (R : α → β → Prop) (m : LM α) (n : LM β) : Prop :=
  ∀ r s, m.pub ++ r = n.pub ++ s → m.tr = n.tr ∧ r = s ∧ OutRel R m.out n.out

theorem Rel.mono {R S : α → β → Prop} {m : LM α} {n : LM β} (h : Rel R m n) (hS : ∀ a b, R a b → S a b) : Rel S m n := by
  intro r s e
  obtain ⟨h1, h2, h3⟩ := h r s e
  refine ⟨h1, h2, ?_⟩
  revert h3
  cases m.out <;> cases n.out <;> simp only [OutRel, imp_self]
  exact hS _ _

theorem rel_ok {R : α → β → Prop} {a : α} {b : β} (h : R a b) : Rel R (LM.ok a) (LM.ok b) :=
  fun _ _ e => ⟨rfl, e, h⟩

theorem rel_pure {R : α → β → Prop} {a : α} {b : β} (h : R a b) : Rel R (pure a : LM α) (pure b : LM β) := rel_ok h

theorem rel_ub {R : α → β → Prop} {k : UB} : Rel R (LM.ub k) (LM.ub k) := fun _ _ e => ⟨rfl, e, rfl⟩
theorem rel_abort {R : α → β → Prop} : Rel R LM.abort LM.abort := fun _ _ e => ⟨rfl, e, trivial⟩
theorem rel_diverge {R : α → β → Prop} : Rel R LM.diverge LM.diverge := fun _ _ e => ⟨rfl, e, trivial⟩

theorem rel_refl (m : LM α) : Rel Eq m m := by
  intro r s e
  refine ⟨rfl, List.append_cancel_left e, ?_⟩
  cases m.out <;> simp [OutRel]

theorem rel_bind' {α' β' : Type} {R : α → β → Prop} {S : α' → β' → Prop} {m : LM α} {n : LM β} {f : α → LM α'} {g : β → LM β'}
    (h : Rel R m n) (hf : ∀ a b, R a b → Rel S (f a) (g b)) : Rel S (LM.bind m f) (LM.bind n g) := by
  intro r s e
  unfold LM.bind at e ⊢
  rcases hm : m.out with a | k | _ | _ <;> rcases hn : n.out with b | l | _ | _ <;> simp only [hm, hn, List.append_assoc] at e ⊢ <;>
    (have := h _ _ e; rw [hm, hn] at this; obtain ⟨h1, h2, h3⟩ := this)
  case ok.ok =>
    obtain ⟨k1, k2, k3⟩ := hf a b h3 _ _ h2
    exact ⟨by rw [h1, k1], k2, k3⟩
  all_goals first | exact h3.elim | exact ⟨h1, h2, h3⟩

theorem rel_bind {α' β' : Type} {R : α → β → Prop} {S : α' → β' → Prop} {m : LM α} {n : LM β} {f : α → LM α'} {g : β → LM β'}
    (h : Rel R m n) (hf : ∀ a b, R a b → Rel S (f a) (g b)) : Rel S (m >>= f) (n >>= g) := rel_bind' h hf

theorem rel_tell {e : Ev} : Rel (fun _ _ => True) (LM.tell e) (LM.tell e) := fun _ _ e => ⟨rfl, e, trivial⟩

theorem rel_publish (p q : Pub) : Rel (fun _ _ => p = q) (LM.publish p) (LM.publish q) := by
  intro r s e
  simp only [LM.publish, List.cons_append, List.nil_append, List.cons.injEq] at e
  exact ⟨rfl, e.2, e.1⟩

theorem rel_note {b c : Bool} (h : b = c) : Rel (fun _ _ => True) (note b) (note c) := by
  subst h; exact rel_tell

theorem rel_ite {R : α → β → Prop} {c d : Prop} [Decidable c] [Decidable d] {m m' : LM α} {n n' : LM β} (h : c ↔ d)
    (h1 : c → d → Rel R m n) (h2 : ¬ c → ¬ d → Rel R m' n') : Rel R (LM.ite c m m') (LM.ite d n n') := by
  unfold LM.ite
  rw [show decide c = decide d from decide_eq_decide.2 h]
  refine rel_bind' rel_tell fun _ _ _ => ?_
  by_cases hc : c
  · rw [if_pos hc, if_pos (h.1 hc)]; exact h1 hc (h.1 hc)
  · rw [if_neg hc, if_neg (fun hd => hc (h.2 hd))]; exact h2 hc fun hd => hc (h.2 hd)

theorem rel_assertM {b c : Bool} (h : b = c) : Rel (fun _ _ => b = true) (assertM b) (assertM c) := by
  subst h
  unfold assertM
  exact rel_ite Iff.rfl (fun h _ => rel_ok h) fun _ _ => rel_abort

/-! ### values that look the same to the observer -/

/-- `le a b`: the two values agree in everything that is public by itself: lengths, positions, flags, shapes; bytes
and words may be different. -/
class Low (α : Type) where
  le : α → α → Prop

export Low (le)

instance {n : Nat} : Low (BitVec n) := ⟨fun _ _ => True⟩
instance : Low Nat := ⟨Eq⟩
instance : Low Int := ⟨Eq⟩
instance : Low Bool := ⟨Eq⟩
instance : Low Unit := ⟨fun _ _ => True⟩
instance [Low α] : Low (List α) := ⟨List.Forall₂ le⟩
instance [Low α] [Low β] : Low (α × β) := ⟨fun a b => le a.1 b.1 ∧ le a.2 b.2⟩
instance [Low α] : Low (Option α) := ⟨fun a b => match a, b with
  | some a, some b => le a b
  | none, none => True
  | _, _ => False⟩
instance : Low View := ⟨fun a b => le a.inputShare b.inputShare ∧ le a.communicatedBits b.communicatedBits ∧
  le a.outputShare b.outputShare⟩
instance : Low RandomTape := ⟨fun a b => le a.tape b.tape ∧ a.pos = b.pos⟩
instance : Low Msgs := ⟨fun a b => le a.msgs b.msgs ∧ a.pos = b.pos ∧ a.unopened = b.unopened⟩
instance : Low Tree := ⟨fun a b => a.depth = b.depth ∧ le a.nodes b.nodes ∧ a.dataSize = b.dataSize ∧ a.haveNode = b.haveNode ∧
  a.existsNode = b.existsNode ∧ a.numNodes = b.numNodes ∧ a.numLeaves = b.numLeaves⟩
instance : Low Proof := ⟨fun a b => le a.seed1 b.seed1 ∧ le a.seed2 b.seed2 ∧ le a.inputShare b.inputShare ∧
  le a.communicatedBits b.communicatedBits ∧ le a.view3Commitment b.view3Commitment ∧ le a.view3UnruhG b.view3UnruhG⟩
instance : Low Signature := ⟨fun a b => le a.proofs b.proofs ∧ le a.challengeBits b.challengeBits ∧ le a.salt b.salt⟩
instance : Low H3State := ⟨fun a b => le a.challengeBits b.challengeBits ∧ a.round = b.round ∧ a.done = b.done⟩
instance : Low SignRound := ⟨fun a b => le a.seeds b.seeds ∧ le a.views b.views ∧ le a.hashes b.hashes ∧ le a.gs b.gs⟩
instance : Low Prep := ⟨fun a b => le a.seeds b.seeds ∧ le a.tapes b.tapes ∧ le a.input b.input ∧ le a.C b.C⟩
instance : Low Proof2 := ⟨fun a b => le a.seedInfo b.seedInfo ∧ a.seedInfoLen = b.seedInfoLen ∧ le a.aux b.aux ∧ le a.C b.C ∧
  le a.input b.input ∧ le a.msgs b.msgs⟩
instance : Low Signature2 := ⟨fun a b => le a.salt b.salt ∧ le a.iSeedInfo b.iSeedInfo ∧ a.iSeedInfoLen = b.iSeedInfoLen ∧
  le a.cvInfo b.cvInfo ∧ a.cvInfoLen = b.cvInfoLen ∧ le a.challengeHash b.challengeHash ∧ a.challengeC = b.challengeC ∧
  a.challengeP = b.challengeP ∧ le a.proofs b.proofs⟩
instance : Low PublicKey := ⟨fun a b => a.params = b.params ∧ le a.plaintext b.plaintext ∧ le a.ciphertext b.ciphertext⟩
instance : Low PrivateKey := ⟨fun a b => a.params = b.params ∧ le a.data b.data ∧ le a.pk b.pk⟩
/-- a hash object: the bytes of the state are not public -/
instance : Low HashInstance := ⟨fun a b => (a.state.length = 200 ∧ b.state.length = 200) ∧ a.rate = b.rate ∧
  a.byteIOIndex = b.byteIOIndex ∧ a.squeezing = b.squeezing ∧ a.fixedOutputLength = b.fixedOutputLength ∧
  a.delimitedSuffix = b.delimitedSuffix⟩


@[lw] theorem le_bv {n : Nat} (a b : BitVec n) : le a b ↔ True := Iff.rfl
@[lw] theorem le_nat (a b : Nat) : le a b ↔ a = b := Iff.rfl
@[lw] theorem le_int (a b : Int) : le a b ↔ a = b := Iff.rfl
@[lw] theorem le_bool (a b : Bool) : le a b ↔ a = b := Iff.rfl
@[lw] theorem le_unit (a b : Unit) : le a b ↔ True := Iff.rfl
@[lw] theorem le_prod [Low α] [Low β] (a b : α × β) : le a b ↔ le a.1 b.1 ∧ le a.2 b.2 := Iff.rfl
@[lw] theorem le_some [Low α] (a b : α) : le (some a) (some b) ↔ le a b := Iff.rfl
@[lw] theorem le_none [Low α] : le (none : Option α) none ↔ True := Iff.rfl
@[lw] theorem le_none_some [Low α] (a : α) : le none (some a) ↔ False := Iff.rfl
@[lw] theorem le_some_none [Low α] (a : α) : le (some a) none ↔ False := Iff.rfl
@[lw] theorem le_view (a b : View) : le a b ↔ le a.inputShare b.inputShare ∧ le a.communicatedBits b.communicatedBits ∧
  le a.outputShare b.outputShare := Iff.rfl
@[lw] theorem le_tape (a b : RandomTape) : le a b ↔ le a.tape b.tape ∧ a.pos = b.pos := Iff.rfl
@[lw] theorem le_msgs (a b : Msgs) : le a b ↔ le a.msgs b.msgs ∧ a.pos = b.pos ∧ a.unopened = b.unopened := Iff.rfl
@[lw] theorem le_tree (a b : Tree) : le a b ↔ a.depth = b.depth ∧ le a.nodes b.nodes ∧ a.dataSize = b.dataSize ∧
  a.haveNode = b.haveNode ∧ a.existsNode = b.existsNode ∧ a.numNodes = b.numNodes ∧ a.numLeaves = b.numLeaves := Iff.rfl
@[lw] theorem le_proof (a b : Proof) : le a b ↔ le a.seed1 b.seed1 ∧ le a.seed2 b.seed2 ∧ le a.inputShare b.inputShare ∧
  le a.communicatedBits b.communicatedBits ∧ le a.view3Commitment b.view3Commitment ∧ le a.view3UnruhG b.view3UnruhG := Iff.rfl
@[lw] theorem le_sig (a b : Signature) : le a b ↔ le a.proofs b.proofs ∧ le a.challengeBits b.challengeBits ∧
  le a.salt b.salt := Iff.rfl
@[lw] theorem le_h3 (a b : H3State) : le a b ↔ le a.challengeBits b.challengeBits ∧ a.round = b.round ∧ a.done = b.done := Iff.rfl
@[lw] theorem le_round (a b : SignRound) : le a b ↔ le a.seeds b.seeds ∧ le a.views b.views ∧ le a.hashes b.hashes ∧
  le a.gs b.gs := Iff.rfl
@[lw] theorem le_prep (a b : Prep) : le a b ↔ le a.seeds b.seeds ∧ le a.tapes b.tapes ∧ le a.input b.input ∧ le a.C b.C := Iff.rfl
@[lw] theorem le_proof2 (a b : Proof2) : le a b ↔ le a.seedInfo b.seedInfo ∧ a.seedInfoLen = b.seedInfoLen ∧ le a.aux b.aux ∧
  le a.C b.C ∧ le a.input b.input ∧ le a.msgs b.msgs := Iff.rfl
@[lw] theorem le_sig2 (a b : Signature2) : le a b ↔ le a.salt b.salt ∧ le a.iSeedInfo b.iSeedInfo ∧ a.iSeedInfoLen = b.iSeedInfoLen ∧
  le a.cvInfo b.cvInfo ∧ a.cvInfoLen = b.cvInfoLen ∧ le a.challengeHash b.challengeHash ∧ a.challengeC = b.challengeC ∧
  a.challengeP = b.challengeP ∧ le a.proofs b.proofs := Iff.rfl
@[lw] theorem le_pk (a b : PublicKey) : le a b ↔ a.params = b.params ∧ le a.plaintext b.plaintext ∧
  le a.ciphertext b.ciphertext := Iff.rfl
@[lw] theorem le_sk (a b : PrivateKey) : le a b ↔ a.params = b.params ∧ le a.data b.data ∧ le a.pk b.pk := Iff.rfl
@[lw] theorem le_hash (a b : HashInstance) : le a b ↔ (a.state.length = 200 ∧ b.state.length = 200) ∧ a.rate = b.rate ∧
  a.byteIOIndex = b.byteIOIndex ∧ a.squeezing = b.squeezing ∧ a.fixedOutputLength = b.fixedOutputLength ∧
  a.delimitedSuffix = b.delimitedSuffix := Iff.rfl

theorem le_list [Low α] (a b : List α) : le a b ↔ List.Forall₂ le a b := Iff.rfl

@[lw] theorem le_buf {n : Nat} (a b : List (BitVec n)) : le a b ↔ a.length = b.length := by
  rw [le_list]
  constructor
  · exact fun h => h.length_eq
  · intro h
    refine List.forall₂_iff_get.2 ⟨h, fun i _ _ => trivial⟩

@[lw] theorem le_nats (a b : List Nat) : le a b ↔ a = b := by
  rw [le_list]; exact List.forall₂_eq_eq_eq ▸ Iff.rfl

@[lw] theorem le_bools (a b : List Bool) : le a b ↔ a = b := by
  rw [le_list]; exact List.forall₂_eq_eq_eq ▸ Iff.rfl

@[lw] theorem le_optnat (a b : Option Nat) : le a b ↔ a = b := by
  cases a <;> cases b <;> simp [Low.le]

@[lw] theorem le_optnats (a b : List (Option Nat)) : le a b ↔ a = b := by
  have : (le : Option Nat → Option Nat → Prop) = Eq := by funext x y; exact propext (le_optnat x y)
  rw [le_list, this, List.forall₂_eq_eq_eq]

@[lw] theorem le_optnatss (a b : List (List (Option Nat))) : le a b ↔ a = b := by
  have : (le : List (Option Nat) → List (Option Nat) → Prop) = Eq := by funext x y; exact propext (le_optnats x y)
  rw [le_list, this, List.forall₂_eq_eq_eq]

@[lw] theorem le_nil [Low α] : le ([] : List α) [] ↔ True := by simp [le_list]
@[lw] theorem le_cons [Low α] (a b : α) (l m : List α) : le (a :: l) (b :: m) ↔ le a b ∧ le l m := by simp [le_list]

theorem le_length [Low α] {a b : List α} (h : le a b) : a.length = b.length := List.Forall₂.length_eq h

theorem le_append [Low α] {a b c d : List α} (h : le a b) (h' : le c d) : le (a ++ c) (b ++ d) := List.rel_append h h'

theorem le_map [Low α] [Low β] {a b : List α} {f g : α → β} (h : le a b) (hf : ∀ x y, le x y → le (f x) (g y)) :
    le (a.map f) (b.map g) := by
  rw [le_list, List.forall₂_map_left_iff, List.forall₂_map_right_iff]
  exact List.Forall₂.imp (fun x y => hf x y) h

theorem le_map_range [Low α] {f g : Nat → α} (n : Nat) (hf : ∀ i < n, le (f i) (g i)) :
    le ((List.range n).map f) ((List.range n).map g) := by
  rw [le_list, List.forall₂_map_left_iff, List.forall₂_map_right_iff]
  exact List.forall₂_same.2 fun i hi => hf i (List.mem_range.1 hi)

theorem le_replicate [Low α] {a b : α} (n : Nat) (h : le a b) : le (List.replicate n a) (List.replicate n b) := by
  induction n with
  | zero => exact List.Forall₂.nil
  | succ n ih => exact List.Forall₂.cons h ih

theorem le_take [Low α] {a b : List α} (n : Nat) (h : le a b) : le (a.take n) (b.take n) := List.forall₂_take n h
theorem le_drop [Low α] {a b : List α} (n : Nat) (h : le a b) : le (a.drop n) (b.drop n) := List.forall₂_drop n h

theorem le_set [Low α] {a b : List α} {x y : α} (i : Nat) (h : le a b) (hx : le x y) : le (a.set i x) (b.set i y) := by
  rw [le_list, List.forall₂_iff_get] at *
  refine ⟨by simpa using h.1, fun k h1 h2 => ?_⟩
  simp only [List.get_eq_getElem, List.getElem_set]
  split
  · exact hx
  · exact h.2 k _ _

theorem le_getElem? [Low α] {a b : List α} (h : le a b) (i : Nat) : le (a[i]?) (b[i]?) := by
  rw [le_list, List.forall₂_iff_get] at h
  by_cases hi : i < a.length
  · rw [List.getElem?_eq_getElem hi, List.getElem?_eq_getElem (h.1 ▸ hi)]; exact h.2 i hi (h.1 ▸ hi)
  · rw [List.getElem?_eq_none (by omega), List.getElem?_eq_none (by omega)]; trivial

/-- types with a reflexive relation: all except hash objects -/
class LowR (α : Type) [Low α] : Prop where
  refl : ∀ a : α, le a a

instance {n : Nat} : LowR (BitVec n) := ⟨fun _ => trivial⟩
instance : LowR Nat := ⟨fun _ => rfl⟩
instance : LowR Bool := ⟨fun _ => rfl⟩
instance [Low α] [LowR α] : LowR (List α) := ⟨fun a => List.forall₂_same.2 fun x _ => LowR.refl x⟩
instance [Low α] [LowR α] [Low β] [LowR β] : LowR (α × β) := ⟨fun a => ⟨LowR.refl a.1, LowR.refl a.2⟩⟩
instance [Low α] [LowR α] : LowR (Option α) := ⟨fun a => by cases a; exacts [trivial, LowR.refl (α := α) _]⟩

instance : LowR Msgs := ⟨fun _ => ⟨LowR.refl _, rfl, rfl⟩⟩
instance : LowR Tree := ⟨fun _ => ⟨rfl, LowR.refl _, rfl, rfl, rfl, rfl, rfl⟩⟩

/-! ### automation -/

/-- the lemma `rel_f` for the function `f` -/
def relName (n : Name) : Name :=
  match n with
  | .str p s => if p == ``Picnic.Leak.LM then .str `Picnic.Leak ("rel_" ++ s) else .str p ("rel_" ++ s)
  | _ => .anonymous

/-- apply the lemma about the function the two runs start with -/
elab "relf" : tactic => withMainContext do
  let g ← getMainGoal
  let t ← instantiateMVars (← g.getType)
  let t := t.consumeMData
  unless t.isAppOf ``Rel do throwError "relf: not a goal about two runs"
  let m := (t.getArg! 3).consumeMData
  let env ← getEnv
  let find (m : Expr) : Option Name := match m.getAppFn.consumeMData with
    | .const n _ => if env.contains (relName n) then some (relName n) else none
    | _ => none
  if m.isAppOf ``Bind.bind then
    let x := (m.getArg! 4).consumeMData
    let y := ((t.getArg! 4).consumeMData.getArg! 4).consumeMData
    if x == y && (x.isAppOf ``rd || x.isAppOf `Picnic.Leak.getChallenge) then
      evalTactic (← `(tactic| refine rel_bind (rel_refl _) ?_))
      return
    match if x.isAppOf ``LM.ite then none else find x with
    | some n =>
      let gs ← g.apply (← mkConstWithFreshMVarLevels ``rel_bind)
      match gs with
      | h :: rest =>
        let hs ← h.apply (← mkConstWithFreshMVarLevels n)
        replaceMainGoal (← (hs ++ rest).filterM fun g => not <$> g.isAssigned)
      | _ => throwError "relf"
    | none => evalTactic (← `(tactic| refine rel_bind (R := Low.le) ?_ ?_))
  else if m.isAppOf ``Pure.pure then
    evalTactic (← `(tactic| refine rel_pure ?_))
  else match find m with
    | some n => do
      let hs ← g.apply (← mkConstWithFreshMVarLevels n)
      replaceMainGoal (← hs.filterM fun g => not <$> g.isAssigned)
    | none => do
      -- the induction hypothesis
      for d in ← getLCtx do
        unless d.isImplementationDetail do
          let concl := d.type.consumeMData.getForallBody.consumeMData
          if concl.isAppOf ``Rel && (concl.getArg! 3).getAppFn.consumeMData == m.getAppFn.consumeMData then
            let hs ← g.apply d.toExpr
            replaceMainGoal (← hs.filterM fun g => not <$> g.isAssigned)
            return
      throwError "relf: no lemma for {m.getAppFn}"

/-- close a goal that says that two values look the same -/
syntax "lowx" : tactic

macro "low" : tactic => `(tactic| first
  | assumption
  | trivial
  | rfl
  | (simp only [lw, *]; done)
  | (simp [lw, *]; done)
  | (exact le_length (by assumption))
  | (exact LowR.refl _)
  | lowx
  | (exact le_replicate _ (by simp only [lw, *])))

/-- the goal begins with a quantifier -/
elab "is_pi" : tactic => withMainContext do
  let t ← instantiateMVars (← (← getMainGoal).getType)
  unless t.consumeMData.isForall do throwError "not a quantifier"

/-- introduce the results of the first step -/
macro "relin" : tactic => `(tactic| (
  is_pi
  intro _
  intros
  try casesm* _ × _, Option _, HashInstance, Tree
  all_goals
    try simp only [lw, Option.some.injEq, Pub.flag.injEq, Pub.byte.injEq, Pub.bytes.injEq] at *
    try casesm* _ ∧ _
    try subst_vars
    try dsimp only))

macro "rel1" : tactic => `(tactic| first
  | relf
  | relin
  | low)

macro "rel" : tactic => `(tactic| repeat' rel1)

/-! ### memory and loops -/

theorem rel_rd [Low α] {a b : List α} {i j : Nat} (h : le a b) (hi : i = j) : Rel le (rd a i) (rd b j) := by
  subst hi
  refine rel_bind' rel_tell fun _ _ _ => ?_
  have := le_getElem? h i
  cases h1 : a[i]? <;> cases h2 : b[i]? <;> rw [h1, h2] at this <;> simp only [lw] at this
  · exact rel_ub
  · exact rel_ok this

/-- reading the same array gives the same value -/
theorem rel_rd_eq {a : List α} {i : Nat} : Rel Eq (rd a i) (rd a i) := rel_refl _

theorem rel_wr [Low α] {a b : List α} {i j : Nat} {x y : α} (h : le a b) (hi : i = j) (hx : le x y) :
    Rel le (wr a i x) (wr b j y) := by
  subst hi
  refine rel_bind' rel_tell fun _ _ _ => ?_
  rw [le_length h]
  split
  · exact rel_ok (le_set i h hx)
  · exact rel_ub

theorem rel_rdN {a b : Buf} {i j n m : Nat} (h : le a b) (hi : i = j) (hn : n = m) : Rel le (rdN a i n) (rdN b j m) := by
  subst hi hn
  refine rel_bind' rel_tell fun _ _ _ => ?_
  rw [le_length h]
  split
  · exact rel_ok (le_take n (le_drop i h))
  · exact rel_ub

theorem rel_wrN {a b : Buf} {i j : Nat} {x y : Buf} (h : le a b) (hi : i = j) (hx : le x y) :
    Rel le (wrN a i x) (wrN b j y) := by
  subst hi
  unfold wrN
  rw [le_length hx]
  refine rel_bind' rel_tell fun _ _ _ => ?_
  rw [le_length h]
  split
  · refine rel_ok (le_append (le_append (le_take _ h) hx) (le_drop _ h))
  · exact rel_ub

theorem rel_memcpy {a b : Buf} {i i' j j' n n' : Nat} {x y : Buf} (h : le a b) (hi : i = i') (hx : le x y) (hj : j = j')
    (hn : n = n') : Rel le (memcpy a i x j n) (memcpy b i' y j' n') := by
  unfold memcpy
  exact rel_bind (rel_rdN hx hj hn) fun c d hc => rel_wrN h hi hc

/-- the result of a comparison is not public by itself -/
theorem rel_memeq {a b : Buf} {n n' : Nat} {x y : Buf} (h : le a b) (hx : le x y) (hn : n = n') :
    Rel (fun _ _ => True) (memeq a x n) (memeq b y n') := by
  unfold memeq
  refine rel_bind (rel_rdN h rfl hn) fun c d hc => rel_bind (rel_rdN hx rfl hn) fun c d hc => rel_pure trivial

theorem rel_iterate {R : σ → σ → Prop} {f g : Nat → σ → M σ} {n : Nat} {s t : σ} (hf : ∀ i < n, ∀ s t, R s t → Rel R (f i s) (g i t))
    (h : R s t) : Rel R (iterate f n s) (iterate g n t) := by
  induction n with
  | zero => exact rel_ok h
  | succ n ih => exact rel_bind (ih fun i hi => hf i (by omega)) fun a b hab => hf n (by omega) a b hab

theorem rel_loopR (R : σ → σ → Prop) {f g : Nat → σ → M σ} {n m : Nat} {s t : σ} (hn : n = m)
    (hf : ∀ i < n, ∀ s t, R s t → Rel R (f i s) (g i t)) (h : R s t) : Rel R (loop f n s) (loop g m t) := by
  subst hn
  exact rel_bind rel_tell fun _ _ _ => rel_iterate hf h

theorem rel_loop [Low σ] {f g : Nat → σ → M σ} {n m : Nat} {s t : σ} (hn : n = m)
    (hf : ∀ i < n, ∀ s t, le s t → Rel le (f i s) (g i t)) (h : le s t) : Rel le (loop f n s) (loop g m t) := rel_loopR _ hn hf h

theorem rel_loopFrom [Low σ] {f g : Nat → σ → M σ} {lo lo' hi hi' : Nat} {s t : σ} (hlo : lo = lo') (hhi : hi = hi')
    (hf : ∀ i, lo ≤ i ∧ i < hi → ∀ s t, le s t → Rel le (f i s) (g i t)) (h : le s t) :
    Rel le (loopFrom lo hi f s) (loopFrom lo' hi' g t) := by
  subst hlo hhi
  exact rel_bind rel_tell fun _ _ _ => rel_iterate (fun i hi => hf _ (by omega)) h

theorem rel_loopDown [Low σ] {f g : Nat → σ → M σ} {n m : Nat} {s t : σ} (hn : n = m)
    (hf : ∀ i, 0 < i ∧ i ≤ n → ∀ s t, le s t → Rel le (f i s) (g i t)) (h : le s t) :
    Rel le (loopDown f n s) (loopDown g m t) := by
  subst hn
  refine rel_bind rel_tell fun _ _ _ => ?_
  induction n generalizing s t with
  | zero => exact rel_ok h
  | succ n ih => exact rel_bind (hf (n + 1) (by omega) s t h) fun a b hab => ih (fun i hi => hf i (by omega)) hab

theorem rel_collect [Low α] {f g : Nat → M α} {n m : Nat} (hn : n = m) (hf : ∀ i < n, Rel le (f i) (g i)) :
    Rel le (collect f n) (collect g m) := by
  subst hn
  refine rel_bind rel_tell fun _ _ _ => ?_
  induction n with
  | zero => exact rel_ok List.Forall₂.nil
  | succ n ih =>
    refine rel_bind (ih fun i hi => hf i (by omega)) fun a b hab => rel_bind (hf n (by omega)) fun x y hxy => rel_pure ?_
    exact le_append hab (List.Forall₂.cons hxy List.Forall₂.nil)

theorem rel_foldL [Low α] [Low σ] {l m : List α} {f g : σ → α → M σ} {s t : σ} (hl : le l m)
    (hf : ∀ x y s t, le x y → le s t → Rel le (f s x) (g t y)) (h : le s t) : Rel le (foldL l f s) (foldL m g t) := by
  induction hl generalizing s t with
  | nil => exact rel_bind (rel_note rfl) fun _ _ _ => rel_pure h
  | cons hx hl ih => exact rel_bind (rel_note rfl) fun _ _ _ => rel_bind (hf _ _ _ _ hx h) fun a b hab => ih hab

theorem rel_ldw {a b : Buf} {i j : Nat} (h : le a b) (hi : i = j) : Rel le (ldw a i) (ldw b j) := by
  unfold ldw; rel

theorem rel_stw {a b : Buf} {i j : Nat} {x y : U32} (h : le a b) (hi : i = j) : Rel le (stw a i x) (stw b j y) := by
  unfold stw; rel

theorem rel_u16ofBytes {a b : Buf} (h : le a b) : Rel le (u16ofBytes a) (u16ofBytes b) := by
  unfold u16ofBytes; rel

end Picnic.Leak
