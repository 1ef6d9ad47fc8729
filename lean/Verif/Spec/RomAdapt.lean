import Verif.Spec.RomForge

/-
C62, C63: procedures that choose the messages that are signed for them, one after the other.  It does not refer to the model.
-/

namespace Spec.Rom

open Spec.Challenge Spec.Picnic1

variable {N M : ℕ} {α : Type}

/-- A procedure that asks an oracle, and has messages signed.  What it asks for and which messages it has signed may depend on all that it has learned before. -/
inductive Player (N M : ℕ) (α : Type)
  | done (r : α)
  | ask (x : Arg N) (next : Val M → Player N M α)
  | sign (m : Bytes) (next : Bytes → Player N M α)

/-- A procedure that has nothing signed. -/
def Player.ofAdv : Adv N M α → Player N M α
  | .done r => .done r
  | .ask x next => .ask x fun v => ofAdv (next v)

/-- The procedure asks the oracle at most `Q` times and has at most `k` messages signed; these have at most `l` bytes, and are different from each other and
from the messages `seen`. -/
def Player.Within (l : ℕ) : Player N M α → (seen : List Bytes) → (k Q : ℕ) → Prop
  | done _, _, _, _ => True
  | ask _ next, seen, k, Q => 0 < Q ∧ ∀ v, (next v).Within l seen k (Q - 1)
  | sign m next, seen, k, Q => 0 < k ∧ m.length ≤ l ∧ m ∉ seen ∧ ∀ s, (next s).Within l (m :: seen) (k - 1) Q

/-- The procedure has exactly `k` messages signed. -/
def Player.Uses : Player N M α → ℕ → Prop
  | done _, k => k = 0
  | ask _ next, k => ∀ v, (next v).Uses k
  | sign _ next, k => 0 < k ∧ ∀ s, (next s).Uses (k - 1)

/-- All results of the procedure are in `S`. -/
def Player.Ends (S : Set α) : Player N M α → Prop
  | done r => r ∈ S
  | ask _ next => ∀ v, (next v).Ends S
  | sign _ next => ∀ s, (next s).Ends S

variable (I : Inst)

/-- The messages that have been signed and the result, with the signer.  There is no result if one of the searches for a challenge does not end. -/
noncomputable def Player.real (O : Oracle N M) (sk ct pt : Bytes) : Player N M α → Option (List Bytes × α)
  | done r => some ([], r)
  | ask x next => (next (O x)).real O sk ct pt
  | sign m next => (Rom.real I O sk ct pt m).bind fun p => ((next p.sig).real O sk ct pt).map fun y => (m :: y.1, y.2)

/-- What is left when the simulator has signed: the messages and the result, the oracle, what the procedure has asked for, and what the simulator has written
into. -/
structure Course (N M : ℕ) (α : Type) where
  result : Option (List Bytes × α)
  oracle : Oracle N M
  asked : Set Bytes
  written : Set Bytes

/-- With the simulator, which uses the oracle that the time before has left.  `a` are the answers that it has chosen. -/
noncomputable def Player.sim (ct pt : Bytes) : Player N M α → {k : ℕ} → Oracle N M → (Fin k → Answers I M) → Course N M α
  | done r, _, O, _ => ⟨some ([], r), O, ∅, ∅⟩
  | ask x next, _, O, a =>
    let c := (next (O x)).sim ct pt O a
    { c with asked := insert x.1 c.asked }
  | sign _ _, 0, O, _ => ⟨none, O, ∅, ∅⟩
  | sign m next, _ + 1, O, a =>
    match Rom.sim I O (a 0) ct pt m with
    | none => ⟨none, O, ∅, ∅⟩
    | some p =>
      let c := (next p.sig).sim ct pt p.oracle fun i => a i.succ
      { c with
        result := c.result.map fun y => (m :: y.1, y.2)
        written := c.written ∪ {x | ∃ q, Shown p.e q ∧ x = point I (hash O · I.digest) [] ct pt m (a 0) (simView I ct pt (a 0) p.e) q} }

/-- A string that the procedure has asked for, or that the simulator has written into, begins with a key that fits the public key. -/
def Course.Shows (ct pt : Bytes) (c : Course N M α) : Prop := ∃ y ∈ c.asked ∪ c.written, Rom.Fits I ct pt (y.take I.blk)

/-- The procedure makes a valid signature on a message that has not been signed for it. -/
def ForgesAfter (O : Oracle N M) (sk ct pt : Bytes) (P : Player N M (Bytes × Bytes)) : Prop :=
  ∃ ms r, P.real I O sk ct pt = some (ms, r) ∧ r.1 ∉ ms ∧ Valid I O ct pt r.1 r.2

/-- The procedure betrays a key: a string that it asks for, that the simulator writes into, or that is hashed when its signature is verified begins with one;
or three shares are in the strings that it asks for, that the simulator writes into, or that are hashed for the opened views of its signature. -/
def BetraysAfter (ct pt : Bytes) (c : Course N M (Bytes × Bytes)) : Prop :=
  c.Shows I ct pt ∨ ∃ ms r, c.result = some (ms, r) ∧
    ((∃ y ∈ Checked I c.oracle ct pt r.1 r.2, Rom.Fits I ct pt (y.take I.blk)) ∨
      Reveal I ct pt (c.asked ∪ c.written ∪
        {x | ∃ a b, ValidBy I c.oracle ct pt r.1 r.2 a b ∧ ∃ t < I.T, x = viewText I c.oracle (a t) ∨ x = viewText I c.oracle (b t)}))

end Spec.Rom
