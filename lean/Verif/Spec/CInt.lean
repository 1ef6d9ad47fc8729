import Mathlib.Algebra.Order.Ring.Int
import Mathlib.Data.Int.Basic

/-
Integer arithmetic of C (C11 6.3.1 conversions, 6.5.5-6.5.9 operators) on a machine with 32-bit `int` and 64-bit `size_t` (LP64), next to
ordinary arithmetic of the integers.
-/

namespace Spec.CInt

/-- Integer types: `uint8_t`, `uint16_t`, `int`, `uint32_t` (= `unsigned int`), `ptrdiff_t` (= `long`), `size_t` (= `unsigned long`). -/
inductive Ty where
  | u8 | u16 | i32 | u32 | i64 | u64
  deriving DecidableEq, Repr

namespace Ty

/-- Number of bits. -/
def width : Ty → Nat
  | u8 => 8 | u16 => 16 | i32 => 32 | u32 => 32 | i64 => 64 | u64 => 64

def signed : Ty → Bool
  | i32 | i64 => true
  | _ => false

/-- Smallest and largest value. -/
def min (t : Ty) : ℤ := if t.signed then -2 ^ (t.width - 1) else 0
def max (t : Ty) : ℤ := if t.signed then 2 ^ (t.width - 1) - 1 else 2 ^ t.width - 1

def Holds (t : Ty) (v : ℤ) : Prop := t.min ≤ v ∧ v ≤ t.max

instance (t : Ty) (v : ℤ) : Decidable (t.Holds v) := inferInstanceAs (Decidable (_ ∧ _))

/-- Integer promotion (C11 6.3.1.1p2). -/
def promote : Ty → Ty
  | u8 | u16 => i32
  | t => t

/-- Usual arithmetic conversions of two promoted types (C11 6.3.1.8): the wider type; of equal width the unsigned one. -/
def usual (a b : Ty) : Ty :=
  let a := a.promote
  let b := b.promote
  if a.width < b.width then b else if b.width < a.width then a else if a.signed then b else a

end Ty

/-- Conversion of a value to a type (C11 6.3.1.3): modulo `2^width` for an unsigned type; `none` where the result for a signed type is
implementation-defined. -/
def conv (t : Ty) (v : ℤ) : Option ℤ :=
  if t.signed then if t.Holds v then some v else none
  else some (v % 2 ^ t.width)

/-- Operators. -/
inductive Op where
  | add | sub | mul | div | mod | lt | le | eq
  deriving DecidableEq, Repr

/-- Expressions.  `val t v`: an object or constant of type `t` with a known value; `var x t lo hi`: an object `x` of type `t` about which it is
known that its value is between `lo` and `hi`; `cast`: a conversion, written out or implied by an assignment, an argument or a return. -/
inductive Ex where
  | val (t : Ty) (v : ℤ)
  | var (x : String) (t : Ty) (lo hi : ℤ)
  | bin (o : Op) (a b : Ex)
  | shl (a b : Ex)
  | shr (a b : Ex)
  | cast (t : Ty) (a : Ex)
  deriving DecidableEq, Repr

/-- Type of an expression. -/
def Ex.ty : Ex → Ty
  | val t _ => t
  | var _ t _ _ => t
  | bin o a b =>
    match o with
    | .lt | .le | .eq => .i32
    | _ => Ty.usual a.ty b.ty
  | shl a _ => a.ty.promote
  | shr a _ => a.ty.promote
  | cast t _ => t

/-- An arithmetic result in type `t`: reduced for an unsigned type, undefined (`none`) outside the range of a signed one (C11 6.2.5p9, 6.5p5). -/
def result (t : Ty) (v : ℤ) : Option ℤ :=
  if t.signed then if t.Holds v then some v else none
  else some (v % 2 ^ t.width)

/-- `a o b` once both operands have the type `t`. -/
def apply (o : Op) (t : Ty) (a b : ℤ) : Option ℤ :=
  match o with
  | .add => result t (a + b)
  | .sub => result t (a - b)
  | .mul => result t (a * b)
  | .div => if b = 0 then none else result t (a.tdiv b)
  | .mod => if b = 0 then none else if t.Holds (a.tdiv b) then result t (a.tmod b) else none
  | .lt => some (if a < b then 1 else 0)
  | .le => some (if a ≤ b then 1 else 0)
  | .eq => some (if a = b then 1 else 0)

/-- What the C program computes, for the contents `ρ` of the objects; `none`: undefined or implementation-defined. -/
def Ex.eval (ρ : String → ℤ) : Ex → Option ℤ
  | val t v => if t.Holds v then some v else none
  | var x t _ _ => if t.Holds (ρ x) then some (ρ x) else none
  | bin o a b => do
    let t := Ty.usual a.ty b.ty
    let va ← a.eval ρ
    let vb ← b.eval ρ
    let va ← conv t va
    let vb ← conv t vb
    apply o t va vb
  | shl a b => do
    -- C11 6.5.7p3-4
    let va ← a.eval ρ
    let vb ← b.eval ρ
    if 0 ≤ va ∧ 0 ≤ vb ∧ vb < a.ty.promote.width then result a.ty.promote (va * 2 ^ vb.toNat) else none
  | shr a b => do
    let va ← a.eval ρ
    let vb ← b.eval ρ
    if 0 ≤ va ∧ 0 ≤ vb ∧ vb < a.ty.promote.width then result a.ty.promote (va / 2 ^ vb.toNat) else none
  | cast t a => do
    let va ← a.eval ρ
    conv t va

/-- What the formula means: the same expression over the integers, without types. -/
def Ex.exact (ρ : String → ℤ) : Ex → ℤ
  | val _ v => v
  | var x _ _ _ => ρ x
  | bin o a b =>
    match o with
    | .add => a.exact ρ + b.exact ρ
    | .sub => a.exact ρ - b.exact ρ
    | .mul => a.exact ρ * b.exact ρ
    | .div => a.exact ρ / b.exact ρ
    | .mod => a.exact ρ % b.exact ρ
    | .lt => if a.exact ρ < b.exact ρ then 1 else 0
    | .le => if a.exact ρ ≤ b.exact ρ then 1 else 0
    | .eq => if a.exact ρ = b.exact ρ then 1 else 0
  | shl a b => a.exact ρ * 2 ^ (b.exact ρ).toNat
  | shr a b => a.exact ρ / 2 ^ (b.exact ρ).toNat
  | cast _ a => a.exact ρ

/-- The objects hold values in the stated ranges. -/
def Ex.Within (ρ : String → ℤ) : Ex → Prop
  | val _ _ => True
  | var x _ lo hi => lo ≤ ρ x ∧ ρ x ≤ hi
  | bin _ a b => a.Within ρ ∧ b.Within ρ
  | shl a b => a.Within ρ ∧ b.Within ρ
  | shr a b => a.Within ρ ∧ b.Within ρ
  | cast _ a => a.Within ρ

/-- The expression never overflows, wraps around, divides by zero, shifts too far or loses bits in a conversion: what is computed is what the
formula says. -/
def Ex.Faithful (e : Ex) : Prop := ∀ ρ, e.Within ρ → e.eval ρ = some (e.exact ρ)

end Spec.CInt
