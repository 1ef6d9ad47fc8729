import Verif.Spec.Soundness

/-
Vocabulary for forgers that ask for challenges adaptively.  It does not refer to the model.
-/

namespace Spec

open Classical in
/-- Reading challenges of type `B` off answers of type `A`: every answer has at most one challenge, and all challenges have the same
number of answers. -/
structure Fair {A B : Type} [Fintype A] (R : A → B → Prop) : Prop where
  unique : ∀ a e e', R a e → R a e' → e = e'
  uniform : ∀ e e', (Finset.univ.filter fun a => R a e).card = (Finset.univ.filter fun a => R a e').card

/-- A forger that asks for `q` challenges and gets answers of type `A` (from which the challenges are read); `ω` are the answers.  Question `i` (a first message of type `F`) and the
strings that have been hashed before it depend on the earlier answers only.  The strings that have been hashed at the end depend
on all answers. -/
structure Forger (q : ℕ) (A F : Type) where
  ask : Fin q → (Fin q → A) → F
  before : Fin q → (Fin q → A) → Set Bytes
  after : (Fin q → A) → Set Bytes
  ask_earlier : ∀ i ω ω', (∀ j < i, ω j = ω' j) → ask i ω = ask i ω'
  before_earlier : ∀ i ω ω', (∀ j < i, ω j = ω' j) → before i ω = before i ω'
  before_after : ∀ i ω, before i ω ⊆ after ω

namespace Picnic1

variable (I : Inst)

/-- A first message: salt, output shares and commitments. -/
structure First where
  salt : Bytes
  outs : ℕ → ℕ → Bytes
  coms : ℕ → ℕ → Bytes

/-- The digests that occur in a first message or in a string for a commitment to a view in `L`. -/
def Inst.Named (f : First) (L : Set Bytes) (d : Bytes) : Prop :=
  (∃ t < I.T, ∃ j < 3, d = f.coms t j) ∨ ∃ v, I.viewString v ∈ L ∧ d = I.hash (seedString v) I.digest

variable {q : ℕ} {A : Type} (R : A → (Fin I.T → Fin 3) → Prop) (F : Forger q A First)

/-- At the end, the forger can answer one of the challenges. -/
def Inst.Forges (ct pt : Bytes) (ω : Fin q → A) : Prop :=
  ∃ i e, R (ω i) e ∧ I.Answerable ct pt (F.ask i ω).salt (F.ask i ω).outs (F.ask i ω).coms (F.after ω) e

/-- Two of the strings that the forger has hashed collide. -/
def Inst.Collides (ω : Fin q → A) : Prop := ∃ x ∈ F.after ω, ∃ y ∈ F.after ω, I.Collide x y

/-- The forger has found a preimage: it asked a question and later hashed a new string whose digest had been named before the
question or in it. -/
def Inst.Inverts (ω : Fin q → A) : Prop :=
  ∃ i, ∃ x ∈ F.after ω, x ∉ F.before i ω ∧ I.Named (F.ask i ω) (F.before i ω) (I.hash x I.digest)

/-- The strings that the forger has hashed reveal a secret key. -/
def Inst.Knows (ct pt : Bytes) (ω : Fin q → A) : Prop := ∃ i, I.Reveals ct pt (F.ask i ω).coms (F.after ω)

end Picnic1

namespace Picnic3

variable (I : Inst)

/-- A first message: salt, root of the Merkle tree and digests of the commitments. -/
structure First where
  salt : Bytes
  root : Bytes
  digests : ℕ → Bytes

/-- The digests that occur in a first message, in a string for the digest of commitments in `L`, or in a string for a node of the
Merkle tree in `L`. -/
inductive Inst.Named (f : First) (L : Set Bytes) : Bytes → Prop
  | root : Inst.Named f L f.root
  | digests (t : ℕ) : t < I.T → Inst.Named f L (f.digests t)
  | com (v : Round) (j : ℕ) : comString v ∈ L → (∀ i < 16, (v.com i).length = I.digest) → j < 16 → Inst.Named f L (v.com j)
  | left (h : ℕ → Bytes) (x : ℕ) : I.nodeString f.salt h x ∈ L → (h (2 * x)).length = I.digest → Inst.Named f L (h (2 * x))
  | right (h : ℕ → Bytes) (x : ℕ) : I.nodeString f.salt h x ∈ L → 2 * x + 1 < 2 ^ I.depth + I.T → (h (2 * x + 1)).length = I.digest →
      Inst.Named f L (h (2 * x + 1))

/-- The challenges: vectors with `u` unopened parties. -/
abbrev Inst.Vector := {e : Fin I.T → Option (Fin 16) // IsVector I.u e}

variable {q : ℕ} {A : Type} (R : A → I.Vector → Prop) (F : Forger q A First)

/-- At the end, the forger can answer one of the challenges. -/
def Inst.Forges (ct pt : Bytes) (ω : Fin q → A) : Prop :=
  ∃ i e, R (ω i) e ∧ I.Answerable ct pt (F.ask i ω).salt (F.ask i ω).root (F.ask i ω).digests (F.after ω) e.1

/-- Two of the strings that the forger has hashed collide. -/
def Inst.Collides (ω : Fin q → A) : Prop := ∃ x ∈ F.after ω, ∃ y ∈ F.after ω, I.Collide x y

/-- The forger has found a preimage: it asked a question and later hashed a new string whose digest had been named before the
question or in it. -/
def Inst.Inverts (ω : Fin q → A) : Prop :=
  ∃ i, ∃ x ∈ F.after ω, x ∉ F.before i ω ∧ I.Named (F.ask i ω) (F.before i ω) (I.hash x I.digest)

/-- The strings that the forger has hashed reveal a secret key. -/
def Inst.Knows (ct pt : Bytes) (ω : Fin q → A) : Prop :=
  ∃ i, I.Reveals ct pt (F.ask i ω).salt (F.ask i ω).digests (F.after ω)

end Picnic3

end Spec
