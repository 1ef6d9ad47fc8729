import Lean.Elab.Tactic.Basic
import Verif.Proofs.Heap

/-
Triples for the functions of picnic_types.c and tree.c.
-/

namespace Picnic.Heap

theorem rest_left {F x G a : Multiset ℕ} (h : F = x + G) : a + F = x + (a + G) := by rw [h]; abel
theorem rest_right {F x G a : Multiset ℕ} (h : F = x + G) : F + a = x + (G + a) := by rw [h]; abel
theorem rest_zero {F x G : Multiset ℕ} (h : F = x + G) : F = x + G := h

theorem Ptr.in_of {p : Ptr} {F : Multiset ℕ} (h : p.IsBlk) (hF : p.own ≤ F) : p.In F := ⟨h, hF⟩

theorem le_self {F : Multiset ℕ} : F ≤ F := le_rfl
theorem le_left {F G H : Multiset ℕ} (h : F ≤ G) : F ≤ G + H := h.trans (Multiset.le_add_right _ _)
theorem le_right {F G H : Multiset ℕ} (h : F ≤ H) : F ≤ G + H := h.trans (Multiset.le_add_left _ _)

/-- `a ≤ a + b + ...` -/
syntax "le_sum" : tactic
macro_rules | `(tactic| le_sum) => `(tactic| first
  | with_reducible exact Multiset.le_add_right _ _
  | with_reducible assumption
  | with_reducible exact le_self
  | with_reducible exact Multiset.le_add_right _ _
  | with_reducible exact Multiset.le_add_left _ _
  | (with_reducible refine le_left ?_; le_sum)
  | (with_reducible refine le_right ?_; le_sum))

/-- `F = a + ?G` where `a` is a summand of `F` -/
syntax "rest" : tactic
macro_rules | `(tactic| rest) => `(tactic| first
  | with_reducible exact rfl
  | with_reducible exact (add_zero _).symm
  | (with_reducible apply rest_left; rest)
  | (with_reducible apply rest_right; rest))

/-- a live pointer -/
syntax "inn" : tactic
macro_rules | `(tactic| inn) => `(tactic| first
  | with_reducible exact Ptr.in_of (by with_reducible assumption) (by le_sum)
  | with_reducible exact Ptr.In.mono (by with_reducible assumption) (by le_sum))

syntax "innC" : tactic
macro_rules | `(tactic| innC) => `(tactic| first
  | with_reducible exact InC.none
  | with_reducible exact InC.some (by inn)
  | with_reducible exact InC.mono (by assumption) (by le_sum))

syntax "okp" : tactic
macro_rules | `(tactic| okp) => `(tactic| first | with_reducible assumption | exact Ptr.ok_null | exact Ptr.IsBlk.ok (by with_reducible assumption))

open Lean Elab Tactic in
/-- Succeeds if the next statement calls the given function. -/
elab "hd " x:ident : tactic => withMainContext do
  let t := (← instantiateMVars (← getMainTarget)).consumeMData
  let m := (← Meta.whnfCore (t.getAppArgs.getD 1 default)).consumeMData
  let y := (m.getAppArgs.getD 4 default).consumeMData
  match y.getAppFn.constName? with
  | some n => unless n.getString! == x.getId.eraseMacroScopes.getString! do throwError "another statement: {n}"
  | none => throwError "not a call"

/-- Symbolic execution of the next statement. -/
syntax "hstep" : tactic
macro_rules | `(tactic| hstep) => `(tactic| (hd touch; with_reducible refine Tr.bind (tr_touch (by inn)) ?_; intro _ LL hh; subst LL))
macro_rules | `(tactic| hstep) => `(tactic| (hd touchC; with_reducible refine Tr.bind (tr_touchC (by innC)) ?_; intro _ LL hh; subst LL))
macro_rules | `(tactic| hstep) => `(tactic| (hd malloc; with_reducible refine Tr.bind tr_malloc ?_; intro _ LL hh; obtain ⟨_, hh⟩ := hh; subst LL))
macro_rules | `(tactic| hstep) => `(tactic| (hd free; with_reducible refine Tr.bind (tr_free' (by okp) (by rest)) ?_; intro _ LL hh; subst LL))

/-- The last statement. -/
syntax "hlast" : tactic
macro_rules | `(tactic| hlast) => `(tactic| (with_reducible refine Tr.mono (tr_touch (by inn)) ?_; intro _ LL hh; subst LL; first | rfl | abel))
macro_rules | `(tactic| hlast) => `(tactic| (with_reducible refine Tr.mono (tr_free' (by okp) (by rest)) ?_; intro _ LL hh; subst LL; first | rfl | abel))

/-! ### Objects -/

def HShares.own (s : HShares) : Multiset ℕ := s.self.own + s.shares.own
structure HShares.Good (s : HShares) : Prop where
  self : s.self.IsBlk
  shares : s.shares.IsBlk

theorem tr_allocateShares {n : ℕ} {F : Multiset ℕ} : Tr (allocateShares n) F fun s L => s.Good ∧ L = s.own + F := by
  unfold allocateShares
  hstep; hstep; hstep
  exact Tr.pure ⟨⟨by assumption, by assumption⟩, by unfold HShares.own; abel⟩

theorem tr_freeShares {s : HShares} {F G : Multiset ℕ} (h : s.Good) (e : F = s.own + G) : Tr (freeShares s) F fun _ L => L = G := by
  obtain ⟨h1, h2⟩ := h
  subst e
  unfold freeShares HShares.own
  hstep; hstep; hlast

def HView.own (v : HView) : Multiset ℕ := v.inputShare.own + (v.communicatedBits.own + v.outputShare.own)
structure HView.Good (v : HView) : Prop where
  inputShare : v.inputShare.IsBlk
  communicatedBits : v.communicatedBits.IsBlk
  outputShare : v.outputShare.IsBlk

theorem tr_allocateView {P : Params} {c : Ptr} {F : Multiset ℕ} (hc : c.In F) : Tr (allocateView P c) F fun v L => v.Good ∧ L = v.own + F := by
  unfold allocateView
  hstep; hstep; hstep; hstep; hstep; hstep
  exact Tr.pure ⟨⟨by assumption, by assumption, by assumption⟩, by unfold HView.own; abel⟩

theorem tr_freeView {c : Ptr} {v : HView} {F G : Multiset ℕ} (h : v.Good) (hc : c.In G) (e : F = v.own + G) :
    Tr (freeView c v) F fun _ L => L = G := by
  obtain ⟨h1, h2, h3⟩ := h
  subst e
  unfold freeView HView.own
  hstep; hstep; hstep; hstep; hstep; hlast

theorem tr_useView {c : Ptr} {v : HView} {F : Multiset ℕ} (h : v.Good) (hc : c.In F) (hv : v.own ≤ F) : Tr (useView c v) F fun _ L => L = F := by
  obtain ⟨h1, h2, h3⟩ := h
  have a1 : v.inputShare.own ≤ F := le_trans (by unfold HView.own; le_sum) hv
  have a2 : v.communicatedBits.own ≤ F := le_trans (by unfold HView.own; le_sum) hv
  have a3 : v.outputShare.own ≤ F := le_trans (by unfold HView.own; le_sum) hv
  unfold useView
  hstep; hstep; hstep; hlast

def HTape.own (t : HTape) : Multiset ℕ := t.tape.own + t.slab.own
structure HTape.Good (t : HTape) : Prop where
  tape : t.tape.IsBlk
  slab : t.slab.IsBlk

theorem tr_allocateRandomTape {P : Params} {c : Option Ptr} {F : Multiset ℕ} (hc : InC c F) :
    Tr (allocateRandomTape P c) F fun t L => t.Good ∧ L = t.own + F := by
  unfold allocateRandomTape
  hstep; hstep; hstep; hstep; hstep; hstep
  exact Tr.pure ⟨⟨by assumption, by assumption⟩, by unfold HTape.own; abel⟩

theorem tr_freeRandomTape {c : Option Ptr} {t : HTape} {F G : Multiset ℕ} (h : t.Good) (e : F = t.own + G) (hc : InC c G) :
    Tr (freeRandomTape c t) F fun _ L => L = G := by
  obtain ⟨h1, h2⟩ := h
  subst e
  unfold freeRandomTape HTape.own
  hstep; hstep; hstep; hstep; hlast

theorem tr_useTape {c : Option Ptr} {t : HTape} {F : Multiset ℕ} (h : t.Good) (hc : InC c F) (ht : t.own ≤ F) : Tr (useTape c t) F fun _ L => L = F := by
  obtain ⟨h1, h2⟩ := h
  have a1 : t.tape.own ≤ F := le_trans (by unfold HTape.own; le_sum) ht
  have a2 : t.slab.own ≤ F := le_trans (by unfold HTape.own; le_sum) ht
  unfold useTape
  hstep; hstep; hlast

def HProof2.own (p : HProof2) : Multiset ℕ := p.seedInfo.own + (p.C.own + (p.input.own + (p.aux.own + p.msgs.own)))
/-- Pointers that may be released. -/
structure HProof2.Good (p : HProof2) : Prop where
  seedInfo : p.seedInfo.Ok
  C : p.C.Ok
  input : p.input.Ok
  aux : p.aux.Ok
  msgs : p.msgs.Ok
/-- A proof with all buffers. -/
structure HProof2.Full (p : HProof2) : Prop where
  seedInfo : p.seedInfo.IsBlk
  C : p.C.IsBlk
  input : p.input.IsBlk
  aux : p.aux.IsBlk
  msgs : p.msgs.IsBlk

theorem HProof2.Full.good {p : HProof2} (h : p.Full) : p.Good := ⟨h.1.ok, h.2.ok, h.3.ok, h.4.ok, h.5.ok⟩
theorem HProof2.good_zero : HProof2.zero.Good := ⟨.inl rfl, .inl rfl, .inl rfl, .inl rfl, .inl rfl⟩
theorem HProof2.own_zero : HProof2.zero.own = 0 := rfl

theorem tr_allocateProof2 {P : Params} {c : Ptr} {F : Multiset ℕ} (hc : c.In F) : Tr (allocateProof2 P c) F fun p L =>
    (p.seedInfo = .null ∧ p.C.IsBlk ∧ p.input.IsBlk ∧ p.aux.IsBlk ∧ p.msgs.IsBlk) ∧ L = p.own + F := by
  unfold allocateProof2
  hstep; hstep; hstep; hstep; hstep; hstep; hstep; hstep; hstep
  exact Tr.pure ⟨⟨rfl, by assumption, by assumption, by assumption, by assumption⟩, by unfold HProof2.own; simp only [show Ptr.own .null = 0 from rfl]; abel⟩

theorem tr_freeProof2 {c : Ptr} {p : HProof2} {F G : Multiset ℕ} (h : p.Good) (hc : c.In G) (e : F = p.own + G) :
    Tr (freeProof2 c p) F fun _ L => L = G := by
  obtain ⟨h1, h2, h3, h4, h5⟩ := h
  subst e
  unfold freeProof2 HProof2.own
  hstep; hstep; hstep; hstep; hstep; hstep; hstep; hstep; hstep; hlast

def HProof.own (p : HProof) : Multiset ℕ :=
  p.seed1.own + (p.seed2.own + (p.inputShare.own + (p.communicatedBits.own + (p.view3Commitment.own + p.view3UnruhG.own))))
structure HProof.Good (P : Params) (p : HProof) : Prop where
  seed1 : p.seed1.IsBlk
  seed2 : p.seed2.IsBlk
  inputShare : p.inputShare.IsBlk
  communicatedBits : p.communicatedBits.IsBlk
  view3Commitment : p.view3Commitment.IsBlk
  view3UnruhG : p.view3UnruhG.Ok
  unruh : P.unruhGWithInputBytes > 0 → p.view3UnruhG.IsBlk

theorem tr_allocateProof {P : Params} {c : Ptr} {F : Multiset ℕ} (hc : c.In F) : Tr (allocateProof P c) F fun p L => p.Good P ∧ L = p.own + F := by
  unfold allocateProof
  hstep; hstep; hstep; hstep; hstep; hstep; hstep; hstep; hstep; hstep
  by_cases h : P.unruhGWithInputBytes > 0
  · rw [if_pos h]
    hstep; hstep
    exact Tr.pure ⟨⟨by assumption, by assumption, by assumption, by assumption, by assumption, by okp, fun _ => by assumption⟩, by unfold HProof.own; abel⟩
  · rw [if_neg h]
    refine Tr.bind (Tr.pure (Q := fun p L => p = .null ∧ L = _) ⟨rfl, rfl⟩) ?_
    rintro _ LL ⟨rfl, hh⟩; subst LL
    hstep
    exact Tr.pure ⟨⟨by assumption, by assumption, by assumption, by assumption, by assumption, Ptr.ok_null, fun h' => absurd h' h⟩,
      by unfold HProof.own; simp only [show Ptr.own .null = 0 from rfl]; abel⟩

theorem tr_freeProof {P : Params} {c : Ptr} {p : HProof} {F G : Multiset ℕ} (h : p.Good P) (hc : c.In G) (e : F = p.own + G) :
    Tr (freeProof c p) F fun _ L => L = G := by
  obtain ⟨h1, h2, h3, h4, h5, h6, -⟩ := h
  subst e
  unfold freeProof HProof.own
  hstep; hstep; hstep; hstep; hstep; hstep; hstep; hstep; hstep; hstep; hstep; hlast

theorem tr_useProof {P : Params} {c : Ptr} {p : HProof} {F : Multiset ℕ} (h : p.Good P) (hc : c.In F) (hp : p.own ≤ F) :
    Tr (useProof P c p) F fun _ L => L = F := by
  obtain ⟨h1, h2, h3, h4, h5, -, h6⟩ := h
  have a1 : p.seed1.own ≤ F := le_trans (by unfold HProof.own; le_sum) hp
  have a2 : p.seed2.own ≤ F := le_trans (by unfold HProof.own; le_sum) hp
  have a3 : p.inputShare.own ≤ F := le_trans (by unfold HProof.own; le_sum) hp
  have a4 : p.communicatedBits.own ≤ F := le_trans (by unfold HProof.own; le_sum) hp
  have a5 : p.view3Commitment.own ≤ F := le_trans (by unfold HProof.own; le_sum) hp
  have a6 : p.view3UnruhG.own ≤ F := le_trans (by unfold HProof.own; le_sum) hp
  unfold useProof
  hstep; hstep; hstep; hstep; hstep; hstep
  by_cases h : P.unruhGWithInputBytes > 0
  · have := h6 h
    rw [if_pos h]; hlast
  · rw [if_neg h]; exact Tr.pure rfl

def HSig.own (s : HSig) : Multiset ℕ := s.proofs.own + (ownL HProof.own s.proof + (s.challengeBits.own + s.salt.own))
structure HSig.Good (P : Params) (s : HSig) : Prop where
  proofs : s.proofs.IsBlk
  len : s.proof.length = P.numMPCRounds
  proof : ∀ i, ∀ hi : i < s.proof.length, s.proof[i].Good P
  challengeBits : s.challengeBits.IsBlk
  salt : s.salt.IsBlk

theorem tr_allocateSignature {P : Params} {c : Option Ptr} {F : Multiset ℕ} (hc : InC c F) :
    Tr (allocateSignature P c) F fun s L => s.Good P ∧ L = s.own + F := by
  unfold allocateSignature
  hstep
  rename_i p hp
  hstep
  refine Tr.bind (tr_collectH (own := HProof.own) (good := fun _ p => p.Good P) fun i hi G hG => ?_) ?_
  · have hc' := hc.mono (le_trans (Multiset.le_add_left F p.own) hG)
    have hp' : p.In G := ⟨hp, le_trans (Multiset.le_add_right _ _) hG⟩
    hstep
    exact tr_allocateProof hp'
  · rintro l _ ⟨h1, h2, rfl⟩
    hstep; hstep; hstep; hstep
    exact Tr.pure ⟨⟨by assumption, h1, h2, by assumption, by assumption⟩, by unfold HSig.own; abel⟩

theorem tr_freeSignature {P : Params} {c : Option Ptr} {s : HSig} {F G : Multiset ℕ} (h : s.Good P) (hc : InC c G) (e : F = s.own + G) :
    Tr (freeSignature P c s) F fun _ L => L = G := by
  obtain ⟨h1, h2, h3, h4, h5⟩ := h
  unfold freeSignature
  have e' : F = ownL HProof.own s.proof + (s.proofs.own + (s.challengeBits.own + (s.salt.own + G))) := by rw [e, HSig.own]; abel
  rw [e']
  refine Tr.bind (tr_forH_free (fun i hi K hK => ?_) _ h2.symm) ?_
  · have hc' : InC c K := hc.mono (le_trans (by le_sum) hK)
    have hs : s.proofs.In K := ⟨h1, le_trans (by le_sum) hK⟩
    hstep
    refine Tr.bind (tr_getH_eq hi) ?_
    rintro _ LL ⟨rfl, hh⟩; subst LL
    exact tr_freeProof (h3 i hi) hs rfl
  · rintro _ LL hh; subst LL
    hstep; hstep; hstep; hstep; hstep; hlast

def HSig2.own (s : HSig2) : Multiset ℕ := s.salt.own + (s.iSeedInfo.own + (s.cvInfo.own + (s.challengeC.own + (s.challengeP.own + (s.challengeHash.own +
  (s.proofs.own + ownL HProof2.own s.proof))))))
structure HSig2.Good (P : Params) (s : HSig2) : Prop where
  salt : s.salt.IsBlk
  iSeedInfo : s.iSeedInfo.Ok
  cvInfo : s.cvInfo.Ok
  challengeC : s.challengeC.IsBlk
  challengeP : s.challengeP.IsBlk
  challengeHash : s.challengeHash.IsBlk
  proofs : s.proofs.IsBlk
  len : s.proof.length = P.numMPCRounds
  proof : ∀ i, ∀ hi : i < s.proof.length, s.proof[i].Good

theorem ownL_replicate_zero {α : Type} {own : α → Multiset ℕ} {x : α} (h : own x = 0) (n : ℕ) : ownL own (List.replicate n x) = 0 := by
  induction n with
  | zero => rfl
  | succ n ih => rw [List.replicate_succ', ownL_snoc, ih, h, add_zero]

/-- The signature right after its allocation. -/
def HSig2.Fresh (P : Params) (s : HSig2) : Prop :=
  s.iSeedInfo = .null ∧ s.cvInfo = .null ∧ s.proof = List.replicate P.numMPCRounds HProof2.zero

theorem tr_allocateSignature2 {P : Params} {c : Option Ptr} {F : Multiset ℕ} (hc : InC c F) :
    Tr (allocateSignature2 P c) F fun s L => (s.Good P ∧ s.Fresh P) ∧ L = s.own + F := by
  unfold allocateSignature2
  hstep; hstep; hstep; hstep; hstep; hstep; hstep; hstep; hstep; hstep
  refine Tr.pure ⟨⟨⟨by assumption, .inl rfl, .inl rfl, by assumption, by assumption, by assumption, by assumption, by simp, fun i hi => ?_⟩, rfl, rfl, rfl⟩, ?_⟩
  · dsimp only
    rw [List.getElem_replicate]
    exact HProof2.good_zero
  · unfold HSig2.own
    dsimp only
    rw [ownL_replicate_zero HProof2.own_zero]
    simp only [show Ptr.own .null = 0 from rfl]
    abel

theorem tr_freeSignature2 {P : Params} {c : Option Ptr} {s : HSig2} {F G : Multiset ℕ} (h : s.Good P) (hc : InC c G) (e : F = s.own + G) :
    Tr (freeSignature2 P c s) F fun _ L => L = G := by
  obtain ⟨h1, h2, h3, h4, h5, h6, h7, h8, h9⟩ := h
  unfold freeSignature2
  have e' : F = s.salt.own + (s.iSeedInfo.own + (s.cvInfo.own + (s.challengeC.own + (s.challengeP.own + (s.challengeHash.own +
    (ownL HProof2.own s.proof + (s.proofs.own + G))))))) := by rw [e, HSig2.own]; abel
  rw [e']
  hstep; hstep; hstep; hstep; hstep; hstep; hstep; hstep; hstep; hstep; hstep; hstep
  refine Tr.bind (tr_forH_free (fun i hi K hK => ?_) _ h8.symm) ?_
  · have hc' : InC c K := hc.mono (le_trans (by le_sum) hK)
    have hs : s.proofs.In K := ⟨h7, le_trans (by le_sum) hK⟩
    hstep
    refine Tr.bind (tr_getH_eq hi) ?_
    rintro _ LL ⟨rfl, hh⟩; subst LL
    exact tr_freeProof2 (h9 i hi) hs rfl
  · rintro _ LL hh; subst LL
    hstep; hlast

def HSeeds.own (s : HSeeds) : Multiset ℕ := s.self.own + (s.slab1.own + (s.slab2.own + s.slab3.own))
structure HSeeds.Good (s : HSeeds) : Prop where
  self : s.self.IsBlk
  slab1 : s.slab1.IsBlk
  slab2 : s.slab2.IsBlk
  slab3 : s.slab3.IsBlk

theorem tr_allocateSeeds {P : Params} {F : Multiset ℕ} : Tr (allocateSeeds P) F fun s L => s.Good ∧ L = s.own + F := by
  unfold allocateSeeds
  hstep; hstep; hstep; hstep; hstep; hstep
  exact Tr.pure ⟨⟨by assumption, by assumption, by assumption, by assumption⟩, by unfold HSeeds.own; abel⟩

theorem tr_freeSeeds {s : HSeeds} {F G : Multiset ℕ} (h : s.Good) (e : F = s.own + G) : Tr (freeSeeds s) F fun _ L => L = G := by
  obtain ⟨h1, h2, h3, h4⟩ := h
  subst e
  unfold freeSeeds HSeeds.own
  hstep; hstep; hstep; hstep; hstep; hstep; hstep; hlast

def HArr.own (a : HArr) : Multiset ℕ := a.self.own + a.slab.own
structure HArr.Good (a : HArr) : Prop where
  self : a.self.IsBlk
  slab : a.slab.IsBlk

theorem tr_allocateCommitments {P : Params} {F : Multiset ℕ} : Tr (allocateCommitments P) F fun s L => s.Good ∧ L = s.own + F := by
  unfold allocateCommitments
  hstep; hstep; hstep; hstep; hstep
  exact Tr.pure ⟨⟨by assumption, by assumption⟩, by unfold HArr.own; abel⟩

theorem tr_freeCommitments {s : HArr} {F G : Multiset ℕ} (h : s.Good) (e : F = s.own + G) : Tr (freeCommitments s) F fun _ L => L = G := by
  obtain ⟨h1, h2⟩ := h
  subst e
  unfold freeCommitments HArr.own
  hstep; hstep; hlast

theorem tr_useArr {a : HArr} {F : Multiset ℕ} (h : a.Good) (hv : a.own ≤ F) : Tr (useArr a) F fun _ L => L = F := by
  obtain ⟨h1, h2⟩ := h
  have a1 : a.self.own ≤ F := le_trans (by unfold HArr.own; le_sum) hv
  have a2 : a.slab.own ≤ F := le_trans (by unfold HArr.own; le_sum) hv
  unfold useArr
  hstep; hlast

theorem tr_allocateCommitments2 {P : Params} {F : Multiset ℕ} : Tr (allocateCommitments2 P) F fun p L => p.IsBlk ∧ L = p.own + F := by
  unfold allocateCommitments2
  hstep; hstep
  exact Tr.pure ⟨by assumption, rfl⟩

theorem tr_freeCommitments2 {p : Ptr} {F G : Multiset ℕ} (h : p.Ok) (e : F = p.own + G) : Tr (freeCommitments2 p) F fun _ L => L = G := by
  subst e
  rcases h with rfl | ⟨i, rfl⟩
  · exact Tr.pure (zero_add _)
  · exact tr_free (.inr ⟨i, rfl⟩)

theorem tr_allocateInputs {P : Params} {F : Multiset ℕ} : Tr (allocateInputs P) F fun p L => p.IsBlk ∧ L = p.own + F := by
  unfold allocateInputs
  hstep; hstep
  exact Tr.pure ⟨by assumption, rfl⟩

theorem tr_freeInputs {p : Ptr} {F G : Multiset ℕ} (h : p.IsBlk) (e : F = p.own + G) : Tr (freeInputs p) F fun _ L => L = G :=
  tr_free' h.ok e

theorem tr_allocateMsgs {P : Params} {F : Multiset ℕ} : Tr (allocateMsgs P) F fun s L => s.Good ∧ L = s.own + F := by
  unfold allocateMsgs
  hstep; hstep; hstep; hstep
  exact Tr.pure ⟨⟨by assumption, by assumption⟩, by unfold HArr.own; abel⟩

theorem tr_freeMsgs {s : HArr} {F G : Multiset ℕ} (h : s.Good) (e : F = s.own + G) : Tr (freeMsgs s) F fun _ L => L = G :=
  tr_freeCommitments h e

def HRow.own (r : HRow) : Multiset ℕ := r.self.own + ownL HView.own r.view
structure HRow.Good (r : HRow) : Prop where
  self : r.self.IsBlk
  len : r.view.length = 3
  view : ∀ i, ∀ hi : i < r.view.length, r.view[i].Good

def HViews.own (v : HViews) : Multiset ℕ := v.self.own + ownL HRow.own v.row
structure HViews.Good (P : Params) (v : HViews) : Prop where
  self : v.self.IsBlk
  len : v.row.length = P.numMPCRounds
  row : ∀ i, ∀ hi : i < v.row.length, v.row[i].Good

theorem tr_allocateViews {P : Params} {F : Multiset ℕ} : Tr (allocateViews P) F fun v L => v.Good P ∧ L = v.own + F := by
  unfold allocateViews
  hstep
  rename_i p hp
  refine Tr.bind (tr_collectH (own := HRow.own) (good := fun _ r => r.Good) fun i hi G hG => ?_) ?_
  · have hp' : p.In G := ⟨hp, le_trans (Multiset.le_add_right _ _) hG⟩
    hstep
    rename_i r hr
    hstep
    refine Tr.bind (tr_collectH (own := HView.own) (good := fun _ v => v.Good) fun i hi K hK => ?_) ?_
    · have hp'' : p.In K := hp'.mono (le_trans (Multiset.le_add_left _ _) hK)
      have hr' : r.In K := ⟨hr, le_trans (Multiset.le_add_right _ _) hK⟩
      hstep
      exact tr_allocateView hr'
    · rintro l _ ⟨h1, h2, rfl⟩
      exact Tr.pure ⟨⟨hr, h1, h2⟩, by unfold HRow.own; abel⟩
  · rintro l _ ⟨h1, h2, rfl⟩
    exact Tr.pure ⟨⟨hp, h1, h2⟩, by unfold HViews.own; abel⟩

theorem tr_freeViews {P : Params} {v : HViews} {F G : Multiset ℕ} (h : v.Good P) (e : F = v.own + G) : Tr (freeViews P v) F fun _ L => L = G := by
  obtain ⟨h1, h2, h3⟩ := h
  unfold freeViews
  have e' : F = ownL HRow.own v.row + (v.self.own + G) := by rw [e, HViews.own]; abel
  rw [e']
  refine Tr.bind (tr_forH_free (fun i hi K hK => ?_) _ h2.symm) ?_
  · have hv : v.self.In K := ⟨h1, le_trans (by le_sum) hK⟩
    refine Tr.bind (tr_getH_eq hi) ?_
    rintro _ LL ⟨rfl, hh⟩; subst LL
    obtain ⟨r1, r2, r3⟩ := h3 i hi
    have e2 : v.row[i].own + K = ownL HView.own v.row[i].view + (v.row[i].self.own + K) := by rw [HRow.own]; abel
    rw [e2]
    refine Tr.bind (tr_forH_free (fun j hj K' hK' => ?_) _ r2.symm) ?_
    · have hv' : v.self.In K' := hv.mono (le_trans (Multiset.le_add_left _ _) hK')
      have hr' : v.row[i].self.In K' := ⟨r1, le_trans (Multiset.le_add_right _ _) hK'⟩
      hstep
      refine Tr.bind (tr_getH_eq hj) ?_
      rintro _ LL ⟨rfl, hh⟩; subst LL
      exact tr_freeView (r3 j hj) hr' rfl
    · rintro _ LL hh; subst LL
      hstep; hlast
  · rintro _ LL hh; subst LL
    hlast

theorem tr_allocateGCommitments {P : Params} {F : Multiset ℕ} : Tr (allocateGCommitments P) F fun s L =>
    ((P.transform = .UR → s.Good) ∧ (P.transform ≠ .UR → s.self = .null ∧ s.own = 0)) ∧ L = s.own + F := by
  unfold allocateGCommitments
  by_cases h : P.transform = .UR
  · rw [if_pos h]
    hstep; hstep; hstep
    exact Tr.pure ⟨⟨fun _ => ⟨by assumption, by assumption⟩, fun h' => absurd h h'⟩, by unfold HArr.own; abel⟩
  · rw [if_neg h]
    exact Tr.pure ⟨⟨fun h' => absurd h' h, fun _ => ⟨rfl, by simp [HArr.own, Ptr.own]⟩⟩, by simp [HArr.own, Ptr.own]⟩

theorem tr_freeGCommitments {P : Params} {s : HArr} {F G : Multiset ℕ}
    (h : (P.transform = .UR → s.Good) ∧ (P.transform ≠ .UR → s.self = .null ∧ s.own = 0)) (e : F = s.own + G) :
    Tr (freeGCommitments s) F fun _ L => L = G := by
  obtain ⟨h1, h2⟩ := h
  subst e
  unfold freeGCommitments
  by_cases h : P.transform = .UR
  · obtain ⟨⟨i, hi⟩, g2⟩ := h1 h
    unfold HArr.own
    rw [hi]
    have hi : (Ptr.blk i).IsBlk := ⟨i, rfl⟩
    dsimp only
    hstep; hstep; hlast
  · obtain ⟨g1, g2⟩ := h2 h
    rw [g1, g2]
    exact Tr.pure (zero_add _)

/-! ### Trees -/

def HTree.own (t : HTree) : Multiset ℕ := t.self.own + (t.nodes.own + (t.slab.own + (t.haveNode.own + t.exists'.own)))
structure HTree.Good (t : HTree) : Prop where
  self : t.self.IsBlk
  nodes : t.nodes.IsBlk
  slab : t.slab.IsBlk
  haveNode : t.haveNode.IsBlk
  exists' : t.exists'.IsBlk

theorem HTree.own_null : HTree.null.own = 0 := rfl

theorem tr_createTree {n m : ℕ} {F : Multiset ℕ} : Tr (createTree n m) F fun t L => t.Good ∧ L = t.own + F := by
  unfold createTree
  hstep; hstep; hstep; hstep; hstep; hstep; hstep; hstep; hstep; hstep; hstep
  exact Tr.pure ⟨⟨by assumption, by assumption, by assumption, by assumption, by assumption⟩, by unfold HTree.own; abel⟩

theorem tr_freeTree {t : HTree} {F G : Multiset ℕ} (h : t.Good ∨ t = HTree.null) (e : F = t.own + G) : Tr (freeTree t) F fun _ L => L = G := by
  rcases h with ⟨h1, h2, h3, h4, h5⟩ | rfl
  · subst e
    unfold freeTree HTree.own
    obtain ⟨i, hi⟩ := h1
    rw [hi]
    have hi : (Ptr.blk i).IsBlk := ⟨i, rfl⟩
    dsimp only
    hstep; hstep; hstep; hstep; hstep; hstep; hstep; hstep; hstep; hlast
  · exact Tr.pure (by rw [e, HTree.own_null, zero_add])

theorem tr_useTree {t : HTree} {F : Multiset ℕ} (h : t.Good) (hv : t.own ≤ F) : Tr (useTree t) F fun _ L => L = F := by
  obtain ⟨h1, h2, h3, h4, h5⟩ := h
  have a1 : t.self.own ≤ F := le_trans (by unfold HTree.own; le_sum) hv
  have a2 : t.nodes.own ≤ F := le_trans (by unfold HTree.own; le_sum) hv
  have a3 : t.slab.own ≤ F := le_trans (by unfold HTree.own; le_sum) hv
  have a4 : t.haveNode.own ≤ F := le_trans (by unfold HTree.own; le_sum) hv
  have a5 : t.exists'.own ≤ F := le_trans (by unfold HTree.own; le_sum) hv
  unfold useTree
  hstep; hstep; hstep; hstep; hlast

macro_rules | `(tactic| hstep) => `(tactic| (hd useTree; with_reducible refine Tr.bind (tr_useTree (by assumption) (by le_sum)) ?_; intro _ LL hh; subst LL))
macro_rules | `(tactic| hstep) => `(tactic| (hd useArr; with_reducible refine Tr.bind (tr_useArr (by assumption) (by le_sum)) ?_; intro _ LL hh; subst LL))
macro_rules | `(tactic| hstep) => `(tactic| (hd useTape; with_reducible refine Tr.bind (tr_useTape (by assumption) (by innC) (by le_sum)) ?_; intro _ LL hh; subst LL))
macro_rules | `(tactic| hstep) => `(tactic| (hd useView; with_reducible refine Tr.bind (tr_useView (by assumption) (by inn) (by le_sum)) ?_; intro _ LL hh; subst LL))
macro_rules | `(tactic| hstep) => `(tactic| (hd createTree; with_reducible refine Tr.bind tr_createTree ?_; intro _ LL hh; obtain ⟨_, hh⟩ := hh; subst LL))
macro_rules | `(tactic| hstep) => `(tactic| (hd freeTree; with_reducible refine Tr.bind (tr_freeTree (by first | exact Or.inl (by assumption) | exact Or.inr rfl) (by rest)) ?_; intro _ LL hh; subst LL))

theorem tr_generateSeeds {P : Params} {n : ℕ} {r s : Ptr} {F : Multiset ℕ} (hr : r.In F) (hs : s.In F) : Tr (generateSeeds P n r s) F fun t L => t.Good ∧ L = t.own + F := by
  unfold generateSeeds
  hstep; hstep; hstep; hstep
  exact Tr.pure ⟨by assumption, rfl⟩

theorem tr_getRevealedNodes {t : HTree} {c : Option Ptr} {n : ℕ} {F : Multiset ℕ} (ht : t.Good) (hF : t.own ≤ F) (hc : InC c F) :
    Tr (getRevealedNodes t c n) F fun p L => p.IsBlk ∧ L = p.own + F := by
  unfold getRevealedNodes
  hstep; hstep; hstep; hstep; hstep; hstep; hstep; hstep; hstep; hstep; hstep; hstep
  exact Tr.pure ⟨by assumption, rfl⟩

macro_rules | `(tactic| hstep) => `(tactic| (hd getRevealedNodes; with_reducible refine Tr.bind (tr_getRevealedNodes (by assumption) (by le_sum) (by innC)) ?_; intro _ LL hh; obtain ⟨_, hh⟩ := hh; subst LL))

theorem tr_revealSeedsSize {P : Params} {m : ℕ} {c : Option Ptr} {n : ℕ} {F : Multiset ℕ} (hc : InC c F) : Tr (revealSeedsSize P m c n) F fun _ L => L = F := by
  unfold revealSeedsSize
  hstep; hstep; hstep; hlast

theorem tr_revealSeeds {t : HTree} {c : Option Ptr} {n : ℕ} {o : Ptr} {F : Multiset ℕ} (ht : t.Good) (hF : t.own ≤ F) (hc : InC c F) (ho : o.In F) :
    Tr (revealSeeds t c n o) F fun _ L => L = F := by
  unfold revealSeeds
  hstep; hstep; hstep; hstep; hlast

theorem tr_reconstructSeeds {t : HTree} {c : Option Ptr} {n : ℕ} {i s : Ptr} {ok : Bool} {F : Multiset ℕ} (ht : t.Good) (hF : t.own ≤ F) (hc : InC c F) (hi : i.In F)
    (hs : s.In F) : Tr (reconstructSeeds t c n i s ok) F fun b L => b = ok ∧ L = F := by
  unfold reconstructSeeds
  hstep; hstep; hstep; hstep
  cases ok with
  | true =>
    rw [if_pos rfl]
    hstep; hstep
    exact Tr.pure ⟨rfl, rfl⟩
  | false =>
    rw [if_neg (by decide)]
    hstep
    exact Tr.pure ⟨rfl, rfl⟩

theorem tr_buildMerkleTree {t : HTree} {l s : Ptr} {F : Multiset ℕ} (ht : t.Good) (hF : t.own ≤ F) (hl : l.In F) (hs : s.In F) :
    Tr (buildMerkleTree t l s) F fun _ L => L = F := by
  unfold buildMerkleTree
  hstep; hstep; hlast

theorem tr_getRevealedMerkleNodes {t : HTree} {l : Ptr} {F : Multiset ℕ} (ht : t.Good) (hF : t.own ≤ F) (hl : l.In F) :
    Tr (getRevealedMerkleNodes t l) F fun p L => p.IsBlk ∧ L = p.own + F := by
  unfold getRevealedMerkleNodes
  have h1 : t.self.In F := ⟨ht.1, le_trans (by unfold HTree.own; le_sum) hF⟩
  hstep; hstep; hstep; hstep; hstep; hstep; hstep; hstep; hstep
  exact Tr.pure ⟨by assumption, rfl⟩

macro_rules | `(tactic| hstep) => `(tactic| (hd getRevealedMerkleNodes; with_reducible refine Tr.bind (tr_getRevealedMerkleNodes (by assumption) (by le_sum) (by inn)) ?_; intro _ LL hh; obtain ⟨_, hh⟩ := hh; subst LL))

theorem tr_openMerkleTreeSize {P : Params} {n : ℕ} {l : Ptr} {F : Multiset ℕ} (hl : l.In F) : Tr (openMerkleTreeSize P n l) F fun _ L => L = F := by
  unfold openMerkleTreeSize
  hstep; hstep; hstep; hlast

theorem tr_openMerkleTree {t : HTree} {l : Ptr} {n : ℕ} {F : Multiset ℕ} (ht : t.Good) (hF : t.own ≤ F) (hl : l.In F) :
    Tr (openMerkleTree t l n) F fun p L => p.IsBlk ∧ L = p.own + F := by
  unfold openMerkleTree
  hstep; hstep; hstep; hstep; hstep; hstep
  exact Tr.pure ⟨by assumption, rfl⟩

theorem tr_addMerkleNodes {t : HTree} {l i : Ptr} {ok : Bool} {F : Multiset ℕ} (ht : t.Good) (hF : t.own ≤ F) (hl : l.In F) (hi : i.In F) :
    Tr (addMerkleNodes t l i ok) F fun b L => b = ok ∧ L = F := by
  unfold addMerkleNodes
  hstep; hstep; hstep; hstep; hstep
  exact Tr.pure ⟨rfl, rfl⟩

theorem tr_verifyMerkleTree {t : HTree} {l s : Ptr} {ok : Bool} {F : Multiset ℕ} (ht : t.Good) (hF : t.own ≤ F) (hl : l.In F) (hs : s.In F) :
    Tr (verifyMerkleTree t l s ok) F fun b L => b = ok ∧ L = F := by
  unfold verifyMerkleTree
  hstep; hstep; hstep
  exact Tr.pure ⟨rfl, rfl⟩

end Picnic.Heap
