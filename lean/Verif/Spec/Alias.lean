import Verif.Model.Alias

/-
C75: what it means that values are accessed through their own type.
-/

namespace Picnic

open Align

/-- C11 6.5p7 for accesses `l` through types other than character types: an object with a declared type is accessed through this type, and no byte of allocated
storage is accessed through two types.  `decl x t`: byte `x` belongs to an object of declared type `t`. -/
def TypeSafe (decl : Nat → Ty → Prop) (l : List Access) : Prop :=
  (∀ a ∈ l, ∀ x, a.addr ≤ x → x < a.addr + a.size → ∀ t, decl x t → t = a.ty) ∧
  ∀ a ∈ l, ∀ b ∈ l, ∀ x, a.addr ≤ x → x < a.addr + a.size → b.addr ≤ x → x < b.addr + b.size → (∀ t, ¬ decl x t) → a.ty = b.ty

/-- Different objects have no byte in common. -/
def Separate (L : Layout) (P : Params) : Prop := ∀ o o' : Obj, o ≠ o' → ∀ x, o.Has L P x → ¬ o'.Has L P x

end Picnic
