import Verif.Model.Ints
import Verif.Model.Api
import Verif.Proofs.CInt
import Verif.Proofs.ZkbApi
import Verif.Proofs.Tree
import Mathlib.Tactic.IntervalCases

/-
C66: with the library's parameter sets, no integer expression overflows, wraps around or is cut by a conversion.
-/

namespace Picnic

open Spec.CInt Picnic.Ints

/-- Accepted for every function that is reached with the parameter set. -/
def intsOk (p : ℕ) : Bool :=
  match getParamSet p with
  | none => true
  | some P => functions.all fun f => !f.on P || checkAll (f.exprs P)

theorem intsOk_all : ∀ p ∈ List.range 13, intsOk p = true := by decide +kernel

theorem param_lt {p : ℕ} {P : Params} (hP : getParamSet p = some P) : p < 13 := by
  by_contra h
  obtain ⟨q, rfl⟩ : ∃ q, p = q + 13 := ⟨p - 13, by omega⟩
  simp [getParamSet, paramTable] at hP

/-- **C66.** For every parameter set, every function of the library reached with it and every integer expression in it (sizes, indices, loop counters
and their last increment, lengths, 16-bit tags of hash inputs, conversions): whatever values the objects hold within their ranges, the value C computes is
defined and is the value of the formula over the integers. -/
theorem C66_exact (p : ℕ) (P : Params) (hP : getParamSet p = some P) (f : Fn) (hf : f ∈ functions) (hon : f.on P = true) (e : Ex)
    (he : e ∈ f.exprs P) : e.Faithful := by
  have h := intsOk_all p (List.mem_range.mpr (param_lt hP))
  simp only [intsOk, hP, List.all_eq_true] at h
  have h := h f hf
  simp only [hon, Bool.not_true, Bool.false_or] at h
  exact faithful_of_checkAll h e he

/-- The first range stated for `x` in an expression. -/
def rangeOf (x : String) : Ex → Option (ℤ × ℤ)
  | .val _ _ => none
  | .var y _ lo hi => if x = y then some (lo, hi) else none
  | .bin _ a b => (rangeOf x a).or (rangeOf x b)
  | .shl a b => (rangeOf x a).or (rangeOf x b)
  | .shr a b => (rangeOf x a).or (rangeOf x b)
  | .cast _ a => rangeOf x a

/-- All objects at the upper end of their range. -/
def top (e : Ex) : String → ℤ := fun x => ((rangeOf x e).map Prod.snd).getD 0

instance decWithin (ρ : String → ℤ) : (e : Ex) → Decidable (e.Within ρ)
  | .val _ _ => isTrue trivial
  | .var x _ lo hi => inferInstanceAs (Decidable (lo ≤ ρ x ∧ ρ x ≤ hi))
  | .bin _ a b => have := decWithin ρ a; have := decWithin ρ b; inferInstanceAs (Decidable (_ ∧ _))
  | .shl a b => have := decWithin ρ a; have := decWithin ρ b; inferInstanceAs (Decidable (_ ∧ _))
  | .shr a b => have := decWithin ρ a; have := decWithin ρ b; inferInstanceAs (Decidable (_ ∧ _))
  | .cast _ a => decWithin ρ a

def topsOk (p : ℕ) : Bool :=
  match getParamSet p with
  | none => true
  | some P => functions.all fun f => !f.on P || (f.exprs P).all fun e => decide (e.Within (top e))

theorem topsOk_all : ∀ p ∈ List.range 13, topsOk p = true := by decide +kernel

/-- The ranges are not empty: in every expression the objects can all be at the upper end of their range. -/
theorem C66_ranges (p : ℕ) (P : Params) (hP : getParamSet p = some P) (f : Fn) (hf : f ∈ functions) (hon : f.on P = true) (e : Ex)
    (he : e ∈ f.exprs P) : e.Within (top e) := by
  have h := topsOk_all p (List.mem_range.mpr (param_lt hP))
  simp only [topsOk, hP, List.all_eq_true] at h
  have h := h f hf
  simp only [hon, Bool.not_true, Bool.false_or, List.all_eq_true, decide_eq_true_eq] at h
  exact h e he

/-- The formulas of `picnic_signature_size` with their C types give the number the model computes with natural numbers. -/
theorem C66_signature_size (p : ℕ) (P : Params) (hP : getParamSet p = some P) (ρ : String → ℤ) :
    (if isPicnic3 p then sigSize3 P else if P.transform = .UR then sigSizeUR P else sigSizeFS P).eval ρ = some (picnicSignatureSize p : ℤ) := by
  obtain ⟨h1, h2⟩ := getParamSet_bounds hP
  interval_cases p <;> (injection hP with hP; subst hP; exact eval_of_check ρ (by decide +kernel))

/-- The room `serializeSignature` asks for, with its C types, is the number of bytes of the longest signature. -/
theorem C66_serialize (p : ℕ) (P : Params) (hP : getParamSet p = some P) (hz : isPicnic3 p = false) (ρ : String → ℤ) :
    (if P.transform = .UR then bytesRequired1 P + gNo P * Ints.T P else bytesRequired1 P).eval ρ = some (picnicSignatureSize p : ℤ) := by
  obtain ⟨h1, h2⟩ := getParamSet_bounds hP
  interval_cases p <;> first
    | (exfalso; revert hz; decide)
    | (injection hP with hP; subst hP; exact eval_of_check ρ (by decide +kernel))

/-- The number of nodes of a tree, computed with `int` and `size_t` shifts and differences, is the number in the model's tree. -/
theorem C66_tree (p : ℕ) (P : Params) (hP : getParamSet p = some P) (L : ℕ) (hL : L = P.numMPCRounds ∨ L = P.numMPCParties) (ρ : String → ℤ)
    (d : ℕ) (tree : Tree) (ht : createTree L d = .ok tree) : (numNodesEx L).eval ρ = some (tree.numNodes : ℤ) := by
  have hL' : 1 ≤ L ∧ L < 2 ^ 32 := by
    obtain ⟨h1, h2⟩ := getParamSet_bounds hP
    interval_cases p <;> (injection hP with hP; subst hP; rcases hL with rfl | rfl <;> decide)
  have hn : tree.numNodes = nodesOf L := by
    rw [createTree_ok hL'.1 hL'.2] at ht
    injection ht with ht
    subst ht
    have hl := ceilLog2_le hL'.1 hL'.2
    have hp : 1 ≤ 2 ^ ceilLog2 L := Nat.one_le_two_pow
    simp only [mkTree, nodesOf, depthOf, Nat.add_sub_cancel, pow_succ]
    omega
  rw [hn]
  obtain ⟨h1, h2⟩ := getParamSet_bounds hP
  interval_cases p <;> (injection hP with hP; subst hP; rcases hL with rfl | rfl <;> exact eval_of_check ρ (by decide +kernel))

/-- Where the ranges matter: reducing an `int` below zero by an unsigned size, the way `revealSeeds`, `reconstructSeeds` and `addMerkleNodes` look for a
buffer that is too short (/repo/tree.c:317, 345, 526), goes through a value that does not fit in an `int`. -/
theorem C66_short (s n : ℕ) (hs : s ≤ 2 ^ 31 - 1) (hn : n < s) (ρ : String → ℤ) (hρ : ρ "outLen" = n) :
    (toI32 (v "outLen" .i32 0 (s - 1) - fld s)).eval ρ = none := by
  have h1 : Ty.i32.Holds (n : ℤ) := by constructor <;> simp only [Ty.min, Ty.max, Ty.signed, Ty.width] <;> norm_num <;> omega
  have h2 : Ty.u32.Holds (s : ℤ) := by constructor <;> simp only [Ty.min, Ty.max, Ty.signed, Ty.width] <;> norm_num <;> omega
  have h3 : Ty.u32.Holds (n : ℤ) := by constructor <;> simp only [Ty.min, Ty.max, Ty.signed, Ty.width] <;> norm_num <;> omega
  have h4 : ((n : ℤ) - s) % 2 ^ 32 = n - s + 2 ^ 32 := by omega
  have h5 : ¬ Ty.i32.Holds ((n : ℤ) - s + 2 ^ 32) := by
    intro h; have := h.2; simp only [Ty.max, Ty.signed, Ty.width] at this; norm_num at this; omega
  have hu : Ty.usual .i32 .u32 = .u32 := rfl
  show (Ex.cast .i32 (Ex.bin .sub (.var "outLen" .i32 0 ((s - 1 : ℕ) : ℤ)) (.val .u32 s))).eval ρ = none
  have h6 : (n : ℤ) % 2 ^ 32 = n := by omega
  have h7 : (s : ℤ) % 2 ^ 32 = s := by omega
  simp only [Ex.eval, Ex.ty, hρ, h1, h2, if_true, hu, Option.bind_eq_bind, Option.bind_some, conv_of_holds h3, conv_of_holds h2, apply, result,
    Ty.signed, Ty.width, Bool.false_eq_true, if_false, h4, conv, h5, h6, h7]

/-- Not every expression is faithful: a 16-bit tag for 2^16 repetitions or more, an 8-bit counter for 256 parties, and the number of bits of a message
of 2^61 bytes. -/
theorem C66_wrong :
    ¬ (toU16 (v "t" .u64 0 65536)).Faithful ∧ ¬ (Ex.cast .u8 (v "i" .u8 0 255 + 1)).Faithful ∧ ¬ (v "byteLen" .u64 0 (2 ^ 61) * 8).Faithful := by
  refine ⟨fun h => ?_, fun h => ?_, fun h => ?_⟩
  · exact absurd (h (fun _ => 65536) (by decide)) (by decide)
  · exact absurd (h (fun _ => 255) (by decide)) (by decide)
  · exact absurd (h (fun _ => 2 ^ 61) (by decide)) (by decide +kernel)

/-- A case: the tag of the last repetition of Picnic3-L5, and the position of its last auxiliary bit. -/
theorem C66_example : ∃ P, getParamSet 9 = some P ∧ commits ∈ functions ∧ commits.on P = true ∧
    (toU16 (v "t" .u64 0 600)) ∈ commits.exprs P ∧ (toU16 (v "t" .u64 0 600)).Within (fun _ => 600) ∧
    (toU16 (v "t" .u64 0 600)).eval (fun _ => 600) = some 600 := by
  refine ⟨_, rfl, ?_, by decide +kernel, ?_, by decide, by decide⟩
  · simp [functions]
  · decide +kernel

end Picnic
