import Verif.Spec.Rom

/-
C63: validity of ZKB++ signatures with a random oracle in place of SHAKE, and forgers.  It does not refer to the model.
-/

namespace Spec.Rom

open Spec.Challenge Spec.Picnic1

variable {N M : ℕ} (I : Inst) (O : Oracle N M)

/-! ### Validity

These are the definitions of `Spec.Picnic1` with the oracle for the hash function. -/

/-- The hash value of a string that is hashed by signers and verifiers. -/
def hashUse (u : Use I.T) (n : ℕ) : Bytes := hash O (Use.text I u) n

def tapeOf (seed salt : Bytes) (t j len : ℕ) : Bytes := hashUse I O (.tape (hashUse I O (.tapeSeed seed) I.digest) salt t j len) len

def keyShareOf (seed salt : Bytes) (t j : ℕ) : Bytes :=
  ofBits I.blk (trunc I.X.n (toBits ((tapeOf I O seed salt t j (I.blk + I.gate)).take I.blk)))

def gateTapeOf (seed salt : Bytes) (t j : ℕ) : Bytes :=
  if j = 2 then tapeOf I O seed salt t 2 I.gate else (tapeOf I O seed salt t j (I.blk + I.gate)).drop I.blk

def bitViewOf (salt : Bytes) (t j : ℕ) (v : View) : Zkb.View := ⟨toBits v.key, toBits v.gates, toBits (gateTapeOf I O v.seed salt t j)⟩

/-- The string that is hashed for the commitment to a view. -/
def viewText (v : View) : Bytes := Use.text (T := I.T) I (.com (hashUse I O (.comSeed v.seed) I.digest) v.key v.gates v.out)

def commitOf (v : View) : Bytes := hash O (viewText I O v) I.digest

def gOf (j : ℕ) (v : View) : Bytes :=
  hashUse I O (.g (hashUse I O (.gSeed v.seed) I.digest) (if j = 2 then some v.key else none) v.gates) (I.gLen j)

/-- `a`, `b` are the views of parties `e`, `e + 1` that the opening describes. -/
structure OpenedBy (pt salt : Bytes) (t e : ℕ) (o : Opening) (a b : View) : Prop where
  seed0 : a.seed = o.seed0
  seed1 : b.seed = o.seed1
  key0 : a.key = if e = 2 then o.key else keyShareOf I O o.seed0 salt t e
  key1 : b.key = if e = 1 then o.key else keyShareOf I O o.seed1 salt t ((e + 1) % 3)
  gates0 : a.gates.length = I.gate
  pad0 : ZeroPad (3 * I.X.m * I.X.r) a.gates
  gates1 : b.gates = o.gates
  consistent : Zkb.Consistent I.X (toBits pt) e (bitViewOf I O salt t e a) (bitViewOf I O salt t ((e + 1) % 3) b)
  out0 : a.out = ofBits I.blk (Zkb.output I.X (toBits pt) e (bitViewOf I O salt t e a))
  out1 : b.out = ofBits I.blk (Zkb.output I.X (toBits pt) ((e + 1) % 3) (bitViewOf I O salt t ((e + 1) % 3) b))

/-- The string from whose hash value a verifier reads the challenge. -/
def challengeText (ct pt msg : Bytes) (e : List ℕ) (salt : Bytes) (o : ℕ → Opening) (a b : ℕ → View) : Bytes :=
  Use.text (T := I.T) I (.challenge
    (fun t j => arrange (e.getD t 0) (a t).out (b t).out (ofBits I.blk (toBits (a t).out + toBits (b t).out + toBits ct)) j)
    (fun t j => arrange (e.getD t 0) (commitOf I O (a t)) (commitOf I O (b t)) (o t).com j)
    (if I.unruh then some fun t j => arrange (e.getD t 0) (gOf I O (e.getD t 0) (a t)) (gOf I O ((e.getD t 0 + 1) % 3) (b t)) (o t).g j else none)
    ct pt salt msg)

/-- `sig` is a valid signature on `msg` for the public key (`ct`, `pt`), and `a`, `b` are the views that a verifier computes. -/
def ValidBy (ct pt msg sig : Bytes) (a b : ℕ → View) : Prop :=
  ∃ (e : List ℕ) (salt : Bytes) (o : ℕ → Opening),
    sig = I.encode e salt o ∧ salt.length = 32 ∧
    (∀ t < I.T, I.Fits (e.getD t 0) (o t) ∧ (e.getD t 0 ≠ 0 → ZeroPad I.X.n (o t).key) ∧ OpenedBy I O pt salt t (e.getD t 0) (o t) (a t) (b t)) ∧
    IsChallenge I.T (fun d => hashUse I O (.next d) I.digest) (hash O (challengeText I O ct pt msg e salt o a b) I.digest) e

/-- `sig` is a valid signature on `msg` for the public key (`ct`, `pt`). -/
def Valid (ct pt msg sig : Bytes) : Prop := ∃ a b, ValidBy I O ct pt msg sig a b

/-! ### Keys -/

/-- The bits are those of a key that fits the public key. -/
def IsKeyBits (ct pt : Bytes) (κ : Bits) : Prop := ∀ i < I.X.n, I.X.enc κ (toBits pt) i = toBits ct i

/-- The key share in the string that is hashed for the commitment to a view. -/
def shareIn (x : Bytes) : Bits := toBits ((x.drop (1 + I.digest)).take I.blk)

/-- The key shares in three of the strings add up to a key that fits the public key. -/
def Reveal (ct pt : Bytes) (L : Set Bytes) : Prop := ∃ x ∈ L, ∃ y ∈ L, ∃ z ∈ L, IsKeyBits I ct pt (shareIn I x + shareIn I y + shareIn I z)

/-! ### Forgers -/

/-- The strings that a procedure asks for, and those that are hashed for the commitments to the views in the signature that it makes. -/
def Hashed (ct pt : Bytes) (A : Adv N M (Bytes × Bytes)) : Set Bytes :=
  {x | (∃ y ∈ A.asked O, y.1 = x) ∨ ∃ a b, ValidBy I O ct pt (A.run O).1 (A.run O).2 a b ∧ ∃ t < I.T, x = viewText I O (a t) ∨ x = viewText I O (b t)}

/-- The procedure makes a message and a valid signature on it. -/
def Forges (ct pt : Bytes) (A : Adv N M (Bytes × Bytes)) : Prop := Valid I O ct pt (A.run O).1 (A.run O).2

/-! ### Forgers that know signatures -/

/-- The strings that the simulator writes into the oracle. -/
def Written (ct pt : Bytes) {k : ℕ} (ms : Fin k → Bytes) (a : Fin k → Answers I M) : Set Bytes :=
  {x | ∃ i e q, challenge I O (bytes I.digest (a i .digest)) = some e ∧ Shown e q ∧ x = point I (hash O · I.digest) [] ct pt (ms i) (a i) (simView I ct pt (a i) e) q}

/-- The strings that are hashed when a signature is verified, apart from those of the chain of digests of the challenge. -/
def Checked (ct pt msg sig : Bytes) : Set Bytes :=
  {x | ∃ (e : List ℕ) (salt : Bytes) (o : ℕ → Opening),
    (sig = I.encode e salt o ∧ salt.length = 32 ∧ e.length = I.T ∧ (∀ v ∈ e, v < 3) ∧ ∀ t < I.T, I.Fits (e.getD t 0) (o t)) ∧
    ((∃ t < I.T, ∃ s j, (s = (o t).seed0 ∧ j = e.getD t 0 ∨ s = (o t).seed1 ∧ j = (e.getD t 0 + 1) % 3) ∧
        (x = Use.text (T := I.T) I (.tapeSeed s) ∨ x = Use.text (T := I.T) I (.comSeed s) ∨ x = Use.text (T := I.T) I (.gSeed s) ∨
          x = Use.text (T := I.T) I (.tape (hashUse I O (.tapeSeed s) I.digest) salt t j (tapeLen I j)))) ∨
      (∃ t < I.T, ∃ a b v j, OpenedBy I O pt salt t (e.getD t 0) (o t) a b ∧ (v = a ∧ j = e.getD t 0 ∨ v = b ∧ j = (e.getD t 0 + 1) % 3) ∧
        (x = viewText I O v ∨
          I.unruh = true ∧ x = Use.text (T := I.T) I (.g (hashUse I O (.gSeed v.seed) I.digest) (if j = 2 then some v.key else none) v.gates))) ∨
      ∃ a b, (∀ t < I.T, OpenedBy I O pt salt t (e.getD t 0) (o t) (a t) (b t)) ∧ x = challengeText I O ct pt msg e salt o a b)}

/-- With the signatures of some messages the procedure makes a valid signature on another message. -/
def ForgesNew (sk ct pt : Bytes) {k : ℕ} (ms : Fin k → Bytes) (A : List Bytes → Adv N M (Bytes × Bytes)) : Prop :=
  ∃ l, realAll I O sk ct pt k ms = some l ∧ (∀ i, ((A l).run O).1 ≠ ms i) ∧ Forges I O ct pt (A l)

/-- With simulated signatures the procedure betrays a key: three shares are in the strings that it asks for, that are hashed for the opened views of its
signature, or that the simulator has written; or a string that it asks for, or that is hashed when its signature is verified, begins with a key. -/
def Betrays (ct pt : Bytes) {k : ℕ} (ms : Fin k → Bytes) (a : Fin k → Answers I M) (A : List Bytes → Adv N M (Bytes × Bytes)) : Prop :=
  ∃ x, simMany I O ct pt ms a = some x ∧ (Reveal I ct pt (Hashed I x.2 ct pt (A x.1) ∪ Written I O ct pt ms a) ∨
    (∃ y ∈ (A x.1).asked x.2, Rom.Fits I ct pt (y.1.take I.blk)) ∨
    ∃ y ∈ Checked I x.2 ct pt ((A x.1).run x.2).1 ((A x.1).run x.2).2, Rom.Fits I ct pt (y.take I.blk))

end Spec.Rom
