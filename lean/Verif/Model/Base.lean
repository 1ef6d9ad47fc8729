/-
Base layer of the model: outcomes of C code, byte buffers, bounds-checked memory accesses, loops.

Nothing here corresponds to a function of /repo; it fixes the meaning of the C constructs used by the
other model files.
-/

namespace Picnic

/-- Kinds of undefined behaviour distinguished by the model. -/
inductive UB where
  | oobRead    -- read outside of an allocated object
  | oobWrite   -- write outside of an allocated object
  | nullDeref  -- dereference of a NULL pointer
  | badFree    -- free() of an uninitialised pointer
  | uninit     -- use of an uninitialised array element (only for the index arrays of tree.c)
  | overlap    -- memcpy between overlapping areas (only in Model/Overlap)
  deriving DecidableEq, Repr, Inhabited

/-- Result of running a piece of C code. -/
inductive Outcome (α : Type) where
  | ok (a : α)        -- returns normally
  | ub (k : UB)       -- undefined behaviour
  | abort             -- a failing `assert` (NDEBUG is not defined by the project's makefile)
  | diverge           -- endless loop / sampling loop did not stop within the granted iterations
  deriving DecidableEq, Repr, Inhabited

abbrev M := Outcome

namespace Outcome

def bind {α β : Type} (x : Outcome α) (f : α → Outcome β) : Outcome β :=
  match x with
  | ok a => f a
  | ub k => ub k
  | abort => abort
  | diverge => diverge

instance : Monad Outcome where
  pure := Outcome.ok
  bind := Outcome.bind

end Outcome

abbrev Byte := BitVec 8
/-- A C byte buffer; its length is the number of bytes allocated. -/
abbrev Buf := List Byte
abbrev U16 := BitVec 16
abbrev U32 := BitVec 32

/-- `assert(b)` -/
def assertM (b : Bool) : M Unit := if b then .ok () else .abort

/-- `b[i]` as an rvalue, for arrays of any element type -/
def rd {α : Type} (b : List α) (i : Nat) : M α :=
  match b[i]? with
  | some x => .ok x
  | none => .ub .oobRead

/-- `b[i] = v` -/
def wr {α : Type} (b : List α) (i : Nat) (v : α) : M (List α) :=
  if i < b.length then .ok (b.set i v) else .ub .oobWrite

/-- Read `n` bytes at `src + off`. -/
def rdN (src : Buf) (off n : Nat) : M Buf :=
  if off + n ≤ src.length then .ok ((src.drop off).take n) else .ub .oobRead

/-- Store the bytes `data` at `dst + off`. -/
def wrN (dst : Buf) (off : Nat) (data : Buf) : M Buf :=
  if off + data.length ≤ dst.length then
    .ok (dst.take off ++ data ++ dst.drop (off + data.length))
  else .ub .oobWrite

/-- `memcpy(dst + doff, src + soff, n)` -/
def memcpy (dst : Buf) (doff : Nat) (src : Buf) (soff n : Nat) : M Buf := do
  let d ← rdN src soff n
  wrN dst doff d

/-- `memcmp(a, b, n) == 0` -/
def memeq (a b : Buf) (n : Nat) : M Bool := do
  let x ← rdN a 0 n
  let y ← rdN b 0 n
  pure (x == y)

/-- `for (i = 0; i < n; i++) s = f(i, s)` -/
def loop {σ : Type} (f : Nat → σ → M σ) : Nat → σ → M σ
  | 0, s => .ok s
  | n + 1, s => do
    let s' ← loop f n s
    f n s'

/-- `for (i = lo; i < hi; i++) s = f(i, s)` -/
def loopFrom {σ : Type} (lo hi : Nat) (f : Nat → σ → M σ) (s : σ) : M σ :=
  loop (fun k => f (lo + k)) (hi - lo) s

/-- `for (i = hi; i > 0; i--) s = f(i, s)` -/
def loopDown {σ : Type} (f : Nat → σ → M σ) : Nat → σ → M σ
  | 0, s => .ok s
  | n + 1, s => do
    let s' ← f (n + 1) s
    loopDown f n s'

/-- `for (i = 0; i < n; i++) out[i] = f(i)`: collect the results of independent iterations. -/
def collect {α : Type} (f : Nat → M α) : Nat → M (List α)
  | 0 => .ok []
  | n + 1 => do
    let l ← collect f n
    let x ← f n
    pure (l ++ [x])

/-- `calloc(n, 1)` -/
def zeros (n : Nat) : Buf := List.replicate n 0

/-- Load the 32-bit word `((uint32_t*)b)[i]` (little endian machine). -/
def ldw (b : Buf) (i : Nat) : M U32 := do
  let b0 ← rd b (4 * i)
  let b1 ← rd b (4 * i + 1)
  let b2 ← rd b (4 * i + 2)
  let b3 ← rd b (4 * i + 3)
  pure (b3 ++ b2 ++ b1 ++ b0)

/-- Store the 32-bit word `((uint32_t*)b)[i] = w` (little endian machine). -/
def stw (b : Buf) (i : Nat) (w : U32) : M Buf := do
  let b ← wr b (4 * i) (w.extractLsb' 0 8)
  let b ← wr b (4 * i + 1) (w.extractLsb' 8 8)
  let b ← wr b (4 * i + 2) (w.extractLsb' 16 8)
  wr b (4 * i + 3) (w.extractLsb' 24 8)

/-- The two bytes in memory of a `uint16_t` (little endian machine). -/
def u16bytes (w : U16) : Buf := [w.extractLsb' 0 8, w.extractLsb' 8 8]

/-- The `uint16_t` stored in two bytes of memory (little endian machine). -/
def u16ofBytes (b : Buf) : M U16 := do
  let b0 ← rd b 0
  let b1 ← rd b 1
  pure (b1 ++ b0)

end Picnic
