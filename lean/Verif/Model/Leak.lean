import Verif.Model.Base

/-
The leakage model: C code run on a machine that lets an observer see, besides the result, which way every branch
goes and which array elements are read and written, in order.  The files Leak*.lean restate the functions of the
other model files in this monad; Proofs/LeakErase shows that forgetting the observations gives back those functions.

An observation does not name the array that is accessed: at each point of the program text the array is fixed,
except where it is selected from an array of pointers, and then the index of the selection is an observation of its
own.  Loops over a range announce their bounds.  Observations of `memcpy` and `memcmp` give offset and length; the
result of `memcmp` becomes visible through the branch that uses it, a position of the first difference is not
modelled.  Arithmetic on values (XOR, AND, shifts by amounts computed from indices) is not observable.
-/

namespace Picnic.Leak

/-- What an observer sees of one step. -/
inductive Ev where
  | read (i : Nat)             -- element i of an array is read
  | write (i : Nat)            -- element i of an array is written
  | readN (off n : Nat)        -- n bytes at offset off are read
  | writeN (off n : Nat)       -- n bytes at offset off are written
  | branch (b : Bool)          -- outcome of a test
  | range (lo hi : Nat)        -- a loop from lo to hi starts
  | permute                    -- the Keccak permutation is called
  deriving DecidableEq, Repr, Inhabited

/-- A value that the code makes public: tests and data that end up in the signature or are recomputed by every
verifier.  Recording it has no effect on the run. -/
inductive Pub where
  | flag (b : Bool)
  | bytes (b : Buf)
  | byte (b : Byte)
  deriving DecidableEq, Repr, Inhabited

/-- A run: result, observations, published values. -/
structure LM (α : Type) where
  out : Outcome α
  tr : List Ev
  pub : List Pub

namespace LM

def ok {α : Type} (a : α) : LM α := ⟨.ok a, [], []⟩
def ub {α : Type} (k : UB) : LM α := ⟨.ub k, [], []⟩
def abort {α : Type} : LM α := ⟨.abort, [], []⟩
def diverge {α : Type} : LM α := ⟨.diverge, [], []⟩

/-- sequential composition: the observations follow each other, an error stops the run -/
def bind {α β : Type} (x : LM α) (f : α → LM β) : LM β :=
  match x.out with
  | .ok a => ⟨(f a).out, x.tr ++ (f a).tr, x.pub ++ (f a).pub⟩
  | .ub k => ⟨.ub k, x.tr, x.pub⟩
  | .abort => ⟨.abort, x.tr, x.pub⟩
  | .diverge => ⟨.diverge, x.tr, x.pub⟩

instance : Monad LM where
  pure := LM.ok
  bind := LM.bind

/-- make one observation -/
def tell (e : Ev) : LM Unit := ⟨.ok (), [e], []⟩

/-- publish a value -/
def publish (p : Pub) : LM Unit := ⟨.ok (), [], [p]⟩

/-- a conditional statement: the outcome of the test is observed -/
def ite {α : Type} (c : Prop) [Decidable c] (a b : LM α) : LM α :=
  LM.bind (tell (.branch (decide c))) fun _ => if c then a else b

end LM

abbrev M := LM

/-- a conditional whose test is observed -/
macro "ifB " c:term " then " a:term " else " b:term : term => `(LM.ite $c $a $b)

/-- a test whose outcome selects a value (`c ? x : y`, `&&`, or a NULL test) -/
def note (b : Bool) : M Unit := LM.tell (.branch b)

/-- `assert(b)` -/
def assertM (b : Bool) : M Unit := ifB b = true then .ok () else .abort

/-- `b[i]` as an rvalue, for arrays of any element type -/
def rd {α : Type} (b : List α) (i : Nat) : M α :=
  LM.bind (LM.tell (.read i)) fun _ =>
    match b[i]? with
    | some x => .ok x
    | none => .ub .oobRead

/-- `b[i] = v` -/
def wr {α : Type} (b : List α) (i : Nat) (v : α) : M (List α) :=
  LM.bind (LM.tell (.write i)) fun _ => if i < b.length then .ok (b.set i v) else .ub .oobWrite

/-- Read `n` bytes at `src + off`. -/
def rdN (src : Buf) (off n : Nat) : M Buf :=
  LM.bind (LM.tell (.readN off n)) fun _ =>
    if off + n ≤ src.length then .ok ((src.drop off).take n) else .ub .oobRead

/-- Store the bytes `data` at `dst + off`. -/
def wrN (dst : Buf) (off : Nat) (data : Buf) : M Buf :=
  LM.bind (LM.tell (.writeN off data.length)) fun _ =>
    if off + data.length ≤ dst.length then .ok (dst.take off ++ data ++ dst.drop (off + data.length))
    else .ub .oobWrite

/-- `memcpy(dst + doff, src + soff, n)` -/
def memcpy (dst : Buf) (doff : Nat) (src : Buf) (soff n : Nat) : M Buf := do
  let d ← rdN src soff n
  wrN dst doff d

/-- `memcmp(a, b, n) == 0` -/
def memeq (a b : Buf) (n : Nat) : M Bool := do
  let x ← rdN a 0 n
  let y ← rdN b 0 n
  pure (x == y)

/-- the iterations of `loop` -/
def iterate {σ : Type} (f : Nat → σ → M σ) : Nat → σ → M σ
  | 0, s => .ok s
  | n + 1, s => do
    let s' ← iterate f n s
    f n s'

/-- `for (i = 0; i < n; i++) s = f(i, s)` -/
def loop {σ : Type} (f : Nat → σ → M σ) (n : Nat) (s : σ) : M σ := do
  LM.tell (.range 0 n)
  iterate f n s

/-- `for (i = lo; i < hi; i++) s = f(i, s)` -/
def loopFrom {σ : Type} (lo hi : Nat) (f : Nat → σ → M σ) (s : σ) : M σ := do
  LM.tell (.range lo hi)
  iterate (fun k => f (lo + k)) (hi - lo) s

/-- the iterations of `loopDown` -/
def iterateDown {σ : Type} (f : Nat → σ → M σ) : Nat → σ → M σ
  | 0, s => .ok s
  | n + 1, s => do
    let s' ← f (n + 1) s
    iterateDown f n s'

/-- `for (i = hi; i > 0; i--) s = f(i, s)` -/
def loopDown {σ : Type} (f : Nat → σ → M σ) (n : Nat) (s : σ) : M σ := do
  LM.tell (.range n 0)
  iterateDown f n s

/-- the iterations of `collect` -/
def gather {α : Type} (f : Nat → M α) : Nat → M (List α)
  | 0 => .ok []
  | n + 1 => do
    let l ← gather f n
    let x ← f n
    pure (l ++ [x])

/-- `for (i = 0; i < n; i++) out[i] = f(i)`: collect the results of independent iterations. -/
def collect {α : Type} (f : Nat → M α) (n : Nat) : M (List α) := do
  LM.tell (.range 0 n)
  gather f n

/-- `for (x : l) s = f(s, x)` over the elements of a list -/
def foldL {α σ : Type} (l : List α) (f : σ → α → M σ) (s : σ) : M σ :=
  match l with
  | [] => do
    note false
    pure s
  | x :: l => do
    note true
    let s ← f s x
    foldL l f s

/-- Load the 32-bit word `((uint32_t*)b)[i]` (little endian machine). -/
def ldw (b : Buf) (i : Nat) : M U32 := do
  let b0 ← rd b (4 * i)
  let b1 ← rd b (4 * i + 1)
  let b2 ← rd b (4 * i + 2)
  let b3 ← rd b (4 * i + 3)
  pure (b3 ++ b2 ++ b1 ++ b0)

/-- Store the 32-bit word `((uint32_t*)b)[i] = w` (little endian machine). -/
def stw (b : Buf) (i : Nat) (w : U32) : M Buf := do
  let b ← wr b (4 * i) (w.extractLsb' 0 8)
  let b ← wr b (4 * i + 1) (w.extractLsb' 8 8)
  let b ← wr b (4 * i + 2) (w.extractLsb' 16 8)
  wr b (4 * i + 3) (w.extractLsb' 24 8)

/-- The `uint16_t` stored in two bytes of memory (little endian machine). -/
def u16ofBytes (b : Buf) : M U16 := do
  let b0 ← rd b 0
  let b1 ← rd b 1
  pure (b1 ++ b0)

end Picnic.Leak
