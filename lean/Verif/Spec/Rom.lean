import Mathlib.Data.Real.Basic
import Mathlib.Data.Set.Finite.List
import Mathlib.Data.Fintype.EquivFin
import Mathlib.Data.Fintype.BigOperators
import Verif.Spec.Domains

/-
C62: signatures of the ZKB++ parameter sets with a random oracle in place of SHAKE, and a simulator that does not know the secret key.  It does not
refer to the model.
-/

namespace Spec.Rom

open Spec.Challenge Spec.Picnic1

/-! ### The oracle

Arguments are the strings of at most `N` bytes, values have `M` bytes; a shorter hash value is the beginning of the value.  An oracle is a table, so
there are finitely many and one can be chosen at random. -/

abbrev Arg (N : ℕ) := {m : Bytes // m.length ≤ N}
abbrev Val (M : ℕ) := Fin (8 * M) → ZMod 2
abbrev Oracle (N M : ℕ) := Arg N → Val M

noncomputable instance (N : ℕ) : Fintype (Arg N) :=
  have : Finite (BitVec 8) := Finite.of_injective BitVec.toFin fun _ _ h => BitVec.eq_of_toFin_eq h
  (List.finite_length_le (BitVec 8) N).fintype

variable {N M : ℕ}

def bits (v : Val M) : Bits := fun i => if h : i < 8 * M then v ⟨i, h⟩ else 0

def bytes (n : ℕ) (v : Val M) : Bytes := ofBits n (bits v)

def ask (O : Oracle N M) (m : Bytes) : Val M := if h : m.length ≤ N then O ⟨m, h⟩ else 0

def hash (O : Oracle N M) (m : Bytes) (n : ℕ) : Bytes := bytes n (ask O m)

/-- SHAKE as such a table. -/
def shakeTable (I : Inst) (N M : ℕ) : Oracle N M := fun x i => toBits (I.hash x.1 M) i

/-- Share of the elements of a finite set that have a property. -/
noncomputable def prob {Ω : Type} [Fintype Ω] (Q : Ω → Prop) : ℝ :=
  open Classical in ((Finset.univ.filter Q).card : ℝ) / Fintype.card Ω

/-! ### The questions of a signer -/

/-- What a signer asks, apart from hashing seeds and the chain of digests of the challenge: the seeds, tapes, commitments, values of G, and the digest
from which the challenge is read. -/
inductive Query (T : ℕ) (unruh : Bool)
  | secrets
  | tape (t : Fin T) (j : Fin 3)
  | com (t : Fin T) (j : Fin 3)
  | g (h : unruh = true) (t : Fin T) (j : Fin 3)
  | digest
  deriving DecidableEq

/-- There are finitely many questions. -/
noncomputable instance (T : ℕ) (u : Bool) : Fintype (Query T u) :=
  Fintype.ofInjective (β := Option (Option (Fin 3 × Fin T × Fin 3))) (fun
    | .secrets => none
    | .digest => some none
    | .tape t j => some (some (0, t, j))
    | .com t j => some (some (1, t, j))
    | .g _ t j => some (some (2, t, j))) fun x y h => by cases x <;> cases y <;> simp_all

variable (I : Inst)

/-- Answers to these questions. -/
abbrev Answers (M : ℕ) := Query I.T I.unruh → Val M

variable {I} in
def secrets (a : Answers I M) : Bytes := bytes (3 * I.T * I.seed + 32) (a .secrets)

variable {I} in
def seed (a : Answers I M) (t j : ℕ) : Bytes := I.seedOf (secrets a) t j

variable {I} in
def salt (a : Answers I M) : Bytes := I.saltOf (secrets a)

/-- Number of bytes of the tape of party `j`, and the bit at which the random bits for the gates begin. -/
def tapeLen (j : ℕ) : ℕ := if j = 2 then I.gate else I.blk + I.gate
def offset (j : ℕ) : ℕ := if j = 2 then 0 else 8 * I.blk

/-- Key share of party `j`, random bits for its gates. -/
def keyBits (sk : Bytes) (a : Answers I M) (t : Fin I.T) (j : ℕ) : Bits :=
  if j = 0 then trunc I.X.n (bits (a (.tape t 0))) else if j = 1 then trunc I.X.n (bits (a (.tape t 1)))
  else trunc (8 * I.blk) (toBits sk + trunc I.X.n (bits (a (.tape t 0))) + trunc I.X.n (bits (a (.tape t 1))))

def tapeBits (a : Answers I M) (t : Fin I.T) (j : ℕ) : Bits :=
  trunc (8 * I.gate) fun p => bits (a (.tape t (Fin.ofNat 3 j))) (offset I j + p)

/-- The gate bits of the three parties after `r` rounds. -/
def gates (X : LowMC) (pt : Bits) (key tape : ℕ → Bits) : ℕ → ℕ → Bits
  | 0, _ => 0
  | r + 1, j => fun p =>
    if 3 * X.m * r ≤ p ∧ p < 3 * X.m * (r + 1) then
      let s := Zkb.share X (j = 0) (key j) (gates X pt key tape r j) pt r
      let s' := Zkb.share X ((j + 1) % 3 = 0) (key ((j + 1) % 3)) (gates X pt key tape r ((j + 1) % 3)) pt r
      let k := p % (3 * X.m) / 3
      let i := p % (3 * X.m) % 3
      Zkb.andShare (Zkb.gateL s k i) (Zkb.gateR s k i) (Zkb.gateL s' k i) (Zkb.gateR s' k i) (tape j p) (tape ((j + 1) % 3) p)
    else gates X pt key tape r j p

def gateBits (sk pt : Bytes) (a : Answers I M) (t : Fin I.T) (j : ℕ) : Bits :=
  gates I.X (toBits pt) (keyBits I sk a t) (tapeBits I a t) I.X.r j

/-- The view of party `j` of repetition `t`. -/
def view (sk pt : Bytes) (a : Answers I M) (t : Fin I.T) (j : ℕ) : View where
  seed := seed a t j
  key := ofBits I.blk (keyBits I sk a t j)
  gates := ofBits I.gate (gateBits I sk pt a t j)
  out := ofBits I.blk (Zkb.output I.X (toBits pt) j ⟨keyBits I sk a t j, gateBits I sk pt a t j, tapeBits I a t j⟩)

/-- The string for each question; `h` is the function with which seeds are hashed, `v` are the views. -/
def point (h : Bytes → Bytes) (sk ct pt msg : Bytes) (a : Answers I M) (v : Fin I.T → ℕ → View) : Query I.T I.unruh → Bytes
  | .secrets => I.secretString sk ct pt msg
  | .tape t j => Use.text (T := I.T) I (.tape (h (Use.text (T := I.T) I (.tapeSeed (seed a t j)))) (salt a) t j (tapeLen I j))
  | .com t j => Use.text (T := I.T) I (.com (h (Use.text (T := I.T) I (.comSeed (seed a t j)))) (v t j).key (v t j).gates (v t j).out)
  | .g _ t j => Use.text (T := I.T) I (.g (h (Use.text (T := I.T) I (.gSeed (seed a t j)))) (if j = 2 then some (v t j).key else none) (v t j).gates)
  | .digest => Use.text I (.challenge (fun t j => (v t j).out) (fun t j => bytes I.digest (a (.com t j)))
      (if h : I.unruh = true then some fun t j => bytes (I.gLen j) (a (.g h t j)) else none) ct pt (salt a) msg)

/-- The challenge that is read off the digest `d` and the chain that begins with it. -/
noncomputable def challenge (O : Oracle N M) (d : Bytes) : Option (List ℕ) :=
  open Classical in
  if h : ∃ e, IsChallenge I.T (fun d => hash O (Use.text (T := I.T) I (.next d)) I.digest) d e then some h.choose else none

/-- The signature for given answers, views and challenge. -/
def signature (a : Answers I M) (v : Fin I.T → ℕ → View) (e : List ℕ) : Bytes :=
  I.encode e (salt a) fun t =>
    if h : t < I.T then
      let c := e.getD t 0
      { com := bytes I.digest (a (.com ⟨t, h⟩ (Fin.ofNat 3 (c + 2))))
        g := if hu : I.unruh = true then bytes (I.gLen ((c + 2) % 3)) (a (.g hu ⟨t, h⟩ (Fin.ofNat 3 (c + 2)))) else []
        gates := (v ⟨t, h⟩ ((c + 1) % 3)).gates
        seed0 := (v ⟨t, h⟩ c).seed
        seed1 := (v ⟨t, h⟩ ((c + 1) % 3)).seed
        key := if c = 0 then [] else (v ⟨t, h⟩ 2).key }
    else ⟨[], [], [], [], [], []⟩

/-- What is left after a signature has been made: the signature and the oracle; and for the following definition the seeds and the challenge. -/
structure Play (N M : ℕ) where
  sig : Bytes
  oracle : Oracle N M
  secrets : Bytes
  e : List ℕ

/-! ### The signer -/

/-- The answers that the oracle gives.  The string for the seeds depends on nothing, those for the tapes on the seeds, those for commitments and G on
the tapes, that for the digest on the commitments and G: so the answers are known after four rounds of questions. -/
def answers (O : Oracle N M) (sk ct pt msg : Bytes) : Answers I M :=
  (fun a q => ask O (point I (hash O · I.digest) sk ct pt msg a (view I sk pt a) q))^[4] fun _ => 0

/-- The signer.  There is no result if the search for a challenge does not end. -/
noncomputable def real (O : Oracle N M) (sk ct pt msg : Bytes) : Option (Play N M) :=
  let a := answers I O sk ct pt msg
  (challenge I O (bytes I.digest (a .digest))).map fun e => ⟨signature I a (view I sk pt a) e, O, secrets a, e⟩

/-! ### The simulator -/

/-- The views of the simulator: those of a signer with the empty key; the output share of the unopened party is changed such that the shares add up to
the ciphertext. -/
def simView (ct pt : Bytes) (a : Answers I M) (e : List ℕ) (t : Fin I.T) (j : ℕ) : View :=
  let c := e.getD t 0
  if j = (c + 2) % 3 then
    { view I [] pt a t j with out := ofBits I.blk (toBits (view I [] pt a t c).out + toBits (view I [] pt a t ((c + 1) % 3)).out + toBits ct) }
  else view I [] pt a t j

/-- The questions that concern opened parties, and that for the digest. -/
def Shown {T : ℕ} {u : Bool} (e : List ℕ) : Query T u → Prop
  | .secrets => False
  | .tape t j | .com t j | .g _ t j => (j : ℕ) ≠ (e.getD t 0 + 2) % 3
  | .digest => True

/-- The simulator chooses an oracle and the answers to the questions, so also the challenge, at random and only then sets the answers of the oracle to
the questions that concern opened parties and the digest.  It is not given the secret key. -/
noncomputable def sim (O : Oracle N M) (a : Answers I M) (ct pt msg : Bytes) : Option (Play N M) :=
  open Classical in
  (challenge I O (bytes I.digest (a .digest))).map fun e =>
    let pts := point I (hash O · I.digest) [] ct pt msg a (simView I ct pt a e)
    ⟨signature I a (simView I ct pt a e) e, fun x => if h : ∃ q, Shown e q ∧ pts q = x then a h.choose else O x, secrets a, e⟩

/-! ### The observer -/

/-- The strings that an observer cannot ask for without knowing the secret key or the seed of an unopened party. -/
def Secret (O : Oracle N M) (sk ct pt msg s : Bytes) (e : List ℕ) : Set Bytes :=
  {m | m = I.secretString sk ct pt msg ∨ ∃ t < I.T,
    let h := (e.getD t 0 + 2) % 3
    let d := fun x => hash O (Use.text (T := I.T) I x) I.digest
    m = Use.text (T := I.T) I (.tape (d (.tapeSeed (I.seedOf s t h))) (I.saltOf s) t h (tapeLen I h)) ∨
    (∃ key gates out, m = Use.text (T := I.T) I (.com (d (.comSeed (I.seedOf s t h))) key gates out)) ∨
    (I.unruh = true ∧ ∃ key gates, m = Use.text (T := I.T) I (.g (d (.gSeed (I.seedOf s t h))) key gates))}

/-- What an observer can see: the signature, and the oracle apart from these strings. -/
noncomputable def observe (sk ct pt msg : Bytes) (p : Play N M) : Bytes × (Arg N → Option (Val M)) :=
  open Classical in
  (p.sig, fun x => if x.1 ∈ Secret I p.oracle sk ct pt msg p.secrets p.e then none else some (p.oracle x))

/-! ### Adversaries -/

/-- A procedure that asks an oracle. -/
inductive Adv (N M : ℕ) (α : Type)
  | done (r : α)
  | ask (x : Arg N) (next : Val M → Adv N M α)

/-- Its result. -/
def Adv.run {α : Type} (O : Oracle N M) : Adv N M α → α
  | done r => r
  | ask x next => (next (O x)).run O

/-- What it asks for. -/
def Adv.asked {α : Type} (O : Oracle N M) : Adv N M α → List (Arg N)
  | done _ => []
  | ask x next => x :: (next (O x)).asked O

/-- A signature was made, and with it and the oracle the procedure has a result in `S`. -/
def Gets {α : Type} (A : Bytes → Adv N M α) (S : Set α) (p : Option (Play N M)) : Prop := ∃ x, p = some x ∧ (A x.sig).run x.oracle ∈ S

/-- A signature was made, and with it and the oracle the procedure asks for the string `m`. -/
def Asks {α : Type} (A : Bytes → Adv N M α) (m : Bytes) (p : Option (Play N M)) : Prop := ∃ x, p = some x ∧ ∃ y ∈ (A x.sig).asked x.oracle, y.1 = m

/-- A key that fits the public key. -/
def Fits (ct pt k : Bytes) : Prop := ct = ofBits I.blk (I.X.enc (toBits k) (toBits pt))

/-- A signature was made, and with it and the oracle the procedure has a key that fits the public key as its result, or asks for a string that begins
with one. -/
def Finds (ct pt : Bytes) (A : Bytes → Adv N M Bytes) (p : Option (Play N M)) : Prop :=
  ∃ x, p = some x ∧ (Fits I ct pt ((A x.sig).run x.oracle) ∨ ∃ y ∈ (A x.sig).asked x.oracle, Fits I ct pt (y.1.take I.blk))

/-! ### Several signatures with the same key -/

/-- The signatures of `k` messages; none if one of the searches for a challenge does not end. -/
noncomputable def realAll (O : Oracle N M) (sk ct pt : Bytes) : (k : ℕ) → (Fin k → Bytes) → Option (List Bytes)
  | 0, _ => some []
  | k + 1, ms => (real I O sk ct pt (ms 0)).bind fun p => (realAll O sk ct pt k fun i => ms i.succ).map (p.sig :: ·)

/-- The signer, with the oracle. -/
noncomputable def realMany (O : Oracle N M) (sk ct pt : Bytes) {k : ℕ} (ms : Fin k → Bytes) : Option (List Bytes × Oracle N M) :=
  (realAll I O sk ct pt k ms).map (·, O)

/-- The simulator is used for one message after the other, each time with the oracle that the time before has left. -/
noncomputable def simMany (O : Oracle N M) (ct pt : Bytes) : {k : ℕ} → (Fin k → Bytes) → (Fin k → Answers I M) → Option (List Bytes × Oracle N M)
  | 0, _, _ => some ([], O)
  | _ + 1, ms, a => (simMany O ct pt (fun i => ms i.succ) fun i => a i.succ).bind fun r => (sim I r.2 (a 0) ct pt (ms 0)).map fun p => (p.sig :: r.1, p.oracle)

/-- With the signatures and the oracle the procedure has a result in `S`. -/
def GetsMany {α : Type} (A : List Bytes → Adv N M α) (S : Set α) (p : Option (List Bytes × Oracle N M)) : Prop := ∃ x, p = some x ∧ (A x.1).run x.2 ∈ S

/-- With the signatures and the oracle the procedure asks for one of the strings with the secret key. -/
def AsksMany {α : Type} (A : List Bytes → Adv N M α) (sk ct pt : Bytes) {k : ℕ} (ms : Fin k → Bytes) (p : Option (List Bytes × Oracle N M)) : Prop :=
  ∃ x, p = some x ∧ ∃ y ∈ (A x.1).asked x.2, ∃ i, y.1 = I.secretString sk ct pt (ms i)

/-- With the signatures and the oracle the procedure has a key that fits the public key as its result, or asks for a string that begins with one. -/
def FindsMany (ct pt : Bytes) (A : List Bytes → Adv N M Bytes) (p : Option (List Bytes × Oracle N M)) : Prop :=
  ∃ x, p = some x ∧ (Fits I ct pt ((A x.1).run x.2) ∨ ∃ y ∈ (A x.1).asked x.2, Fits I ct pt (y.1.take I.blk))

end Spec.Rom
