import Verif.Spec.Tree
import Mathlib.Data.Finset.Card
import Mathlib.Data.Finset.Image
import Mathlib.Order.Interval.Finset.Nat
import Mathlib.Algebra.Order.BigOperators.Group.Finset
import Mathlib.Data.Finset.Union

/-
Facts about the trees of Verif/Spec/Tree.lean.
-/

namespace Spec.Tree

/-- All elements lie at depth D. -/
def AtDepth (D : ℕ) (S : ℕ → Prop) : Prop := ∀ y, S y → 2 ^ D ≤ y ∧ y < 2 ^ (D + 1)

theorem div_pow_range {D k y : ℕ} (hk : k ≤ D) (h1 : 2 ^ D ≤ y) (h2 : y < 2 ^ (D + 1)) :
    2 ^ (D - k) ≤ y / 2 ^ k ∧ y / 2 ^ k < 2 ^ (D - k + 1) := by
  constructor
  · rw [Nat.le_div_iff_mul_le (by positivity), ← pow_add, Nat.sub_add_cancel hk]; exact h1
  · rw [Nat.div_lt_iff_lt_mul (by positivity), ← pow_add, show D - k + 1 + k = D + 1 by omega]; exact h2

variable {D : ℕ} {S : ℕ → Prop}

theorem up_pos (hS : AtDepth D S) {x : ℕ} (h : Up D S x) : 1 ≤ x := by
  obtain ⟨y, k, hy, hk, rfl⟩ := h
  exact le_trans Nat.one_le_two_pow (div_pow_range hk (hS y hy).1 (hS y hy).2).1

theorem up_lt (hS : AtDepth D S) {x : ℕ} (h : Up D S x) : x < 2 ^ (D + 1) := by
  obtain ⟨y, k, hy, hk, rfl⟩ := h
  exact lt_of_le_of_lt (Nat.div_le_self _ _) (hS y hy).2

theorem up_self {x : ℕ} (h : S x) : Up D S x := ⟨x, 0, h, Nat.zero_le _, by simp⟩

theorem up_leaf (hS : AtDepth D S) {x : ℕ} (hx : 2 ^ D ≤ x) : Up D S x ↔ S x := by
  refine ⟨fun ⟨y, k, hy, hk, e⟩ => ?_, up_self⟩
  have h := div_pow_range hk (hS y hy).1 (hS y hy).2
  rw [e] at h
  have hk0 : k = 0 := by
    by_contra hne
    have : 2 ^ (D - k + 1) ≤ 2 ^ D := Nat.pow_le_pow_right (by omega) (by omega)
    omega
  subst hk0
  rw [pow_zero, Nat.div_one] at e
  exact e ▸ hy

theorem up_parent (hS : AtDepth D S) {x : ℕ} (h : Up D S x) (hx : 2 ≤ x) : Up D S (x / 2) := by
  obtain ⟨y, k, hy, hk, e⟩ := h
  refine ⟨y, k + 1, hy, ?_, by rw [pow_succ, ← Nat.div_div_eq_div_mul, e]⟩
  by_contra hne
  have hkD : k = D := by omega
  subst hkD
  have := div_pow_range hk (hS y hy).1 (hS y hy).2
  rw [e, Nat.sub_self] at this
  omega

theorem up_inner (hS : AtDepth D S) {x : ℕ} (h0 : 1 ≤ x) (hx : x < 2 ^ D) : Up D S x ↔ Up D S (2 * x) ∨ Up D S (2 * x + 1) := by
  constructor
  · rintro ⟨y, k, hy, hk, e⟩
    have hk0 : k ≠ 0 := by
      rintro rfl
      rw [pow_zero, Nat.div_one] at e
      have := (hS y hy).1
      omega
    obtain ⟨k, rfl⟩ := Nat.exists_eq_succ_of_ne_zero hk0
    rw [pow_succ, ← Nat.div_div_eq_div_mul] at e
    have : y / 2 ^ k = 2 * x ∨ y / 2 ^ k = 2 * x + 1 := by omega
    rcases this with h | h
    · exact Or.inl ⟨y, k, hy, by omega, h⟩
    · exact Or.inr ⟨y, k, hy, by omega, h⟩
  · rintro (h | h)
    · have := up_parent hS h (by omega)
      rwa [show 2 * x / 2 = x by omega] at this
    · have := up_parent hS h (by omega)
      rwa [show (2 * x + 1) / 2 = x by omega] at this

theorem up_root (hS : AtDepth D S) : Up D S 1 ↔ ∃ y, S y := by
  refine ⟨fun ⟨y, _, hy, _⟩ => ⟨y, hy⟩, fun ⟨y, hy⟩ => ⟨y, D, hy, le_rfl, ?_⟩⟩
  have := div_pow_range le_rfl (hS y hy).1 (hS y hy).2
  rw [Nat.sub_self] at this
  omega

theorem up_mono {S' : ℕ → Prop} (h : ∀ y, S y → S' y) {x : ℕ} (hu : Up D S x) : Up D S' x := by
  obtain ⟨y, k, hy, hk, e⟩ := hu
  exact ⟨y, k, h y hy, hk, e⟩

theorem leaf_atDepth {n : ℕ} (hn : n ≤ 2 ^ D) : AtDepth D (Leaf D n) := fun y hy => ⟨hy.1, by have := hy.2; rw [pow_succ]; omega⟩

theorem node_lt {n x : ℕ} (h : Node D n x) : x < 2 ^ D + n := by
  obtain ⟨y, k, hy, -, rfl⟩ := h
  exact lt_of_le_of_lt (Nat.div_le_self _ _) hy.2

theorem node_left {n x : ℕ} (hn : n ≤ 2 ^ D) (hx : 1 ≤ x) (h : Node D n (2 * x + 1)) : Node D n (2 * x) := by
  obtain ⟨y, k, hy, hk, e⟩ := h
  have hr := div_pow_range hk (leaf_atDepth hn y hy).1 (leaf_atDepth hn y hy).2
  rw [e] at hr
  have hkD : k < D := by
    by_contra hne
    rw [show D - k = 0 by omega] at hr
    omega
  refine ⟨2 * x * 2 ^ k, k, ⟨?_, ?_⟩, hk, Nat.mul_div_cancel _ (by positivity)⟩
  · have h2 : 2 ^ (D - k) ≤ 2 * x := by
      have : 2 ^ (D - k) = 2 * 2 ^ (D - k - 1) := by rw [← pow_succ']; congr 1; omega
      omega
    calc 2 ^ D = 2 ^ (D - k) * 2 ^ k := by rw [← pow_add, Nat.sub_add_cancel hk]
      _ ≤ 2 * x * 2 ^ k := Nat.mul_le_mul_right _ h2
  · refine lt_of_le_of_lt ?_ hy.2
    have h3 : y / 2 ^ k * 2 ^ k ≤ y := Nat.div_mul_le_self _ _
    rw [e] at h3
    exact le_trans (Nat.mul_le_mul_right _ (by omega)) h3

/-- An inner node of the tree has a left child. -/
theorem node_child {n x : ℕ} (hn : n ≤ 2 ^ D) (h : Node D n x) (hx : x < 2 ^ D) : Node D n (2 * x) := by
  have hp := up_pos (leaf_atDepth hn) h
  rcases (up_inner (leaf_atDepth hn) hp hx).1 h with h | h
  · exact h
  · exact node_left hn hp h

/-- All nodes below a node outside `Up` are outside `Up`. -/
theorem up_of_desc (hS : AtDepth D S) {x k : ℕ} (h : Up D S x) (hx : 1 ≤ x / 2 ^ k) : Up D S (x / 2 ^ k) := by
  induction k with
  | zero => simpa using h
  | succ k ih =>
    rw [pow_succ, ← Nat.div_div_eq_div_mul] at hx ⊢
    exact up_parent hS (ih (by omega)) (by omega)

/-- The highest node above the leaf `y` that is not in `Up`. -/
theorem exists_top (hS : AtDepth D S) (hne : ∃ y, S y) {y : ℕ} (h1 : 2 ^ D ≤ y) (h2 : y < 2 ^ (D + 1)) (hy : ¬ S y) :
    ∃ k < D, ¬ Up D S (y / 2 ^ k) ∧ Up D S (y / 2 ^ (k + 1)) := by
  have hroot : Up D S (y / 2 ^ D) := by
    have := div_pow_range le_rfl h1 h2
    rw [Nat.sub_self] at this
    rw [show y / 2 ^ D = 1 by omega]
    exact (up_root hS).2 hne
  have h0 : ¬ Up D S (y / 2 ^ 0) := by rw [pow_zero, Nat.div_one, up_leaf hS h1]; exact hy
  by_contra hcon
  have : ∀ k ≤ D, ¬ Up D S (y / 2 ^ k) := by
    intro k
    induction k with
    | zero => intro _; exact h0
    | succ k ih => intro hk hu; exact hcon ⟨k, by omega, ih (by omega), hu⟩
  exact this D le_rfl hroot

theorem picked_atDepth {n : ℕ} {l : List ℕ} (hn : n ≤ 2 ^ D) (hl : ∀ h ∈ l, h < n) : AtDepth D (Picked D l) := by
  rintro y ⟨h, hh, rfl⟩
  have := hl h hh
  rw [pow_succ]
  omega

theorem picked_node {n : ℕ} {l : List ℕ} (hl : ∀ h ∈ l, h < n) {x : ℕ} (h : Up D (Picked D l) x) : Node D n x :=
  up_mono (fun y ⟨h, hh, e⟩ => ⟨by omega, by have := hl h hh; omega⟩) h

/-! ### the roots of the maximal subtrees that avoid a set of leaves -/

/-- `x` is the root of a maximal subtree (of the tree with n leaves) without elements of `S`. -/
def Top (D n : ℕ) (S : ℕ → Prop) (x : ℕ) : Prop := Node D n x ∧ 2 ≤ x ∧ ¬ Up D S x ∧ Up D S (x / 2)

/-- A leaf lies in at most one of the subtrees. -/
theorem top_unique {n : ℕ} (hS : AtDepth D S) {y a b : ℕ} (ha : Top D n S (y / 2 ^ a)) (hb : Top D n S (y / 2 ^ b)) : a = b := by
  have key : ∀ a b : ℕ, a < b → Top D n S (y / 2 ^ a) → Top D n S (y / 2 ^ b) → False := by
    intro a b hab ha hb
    have e : y / 2 ^ b = y / 2 ^ a / 2 / 2 ^ (b - (a + 1)) := by
      rw [Nat.div_div_eq_div_mul, ← pow_succ', Nat.div_div_eq_div_mul, ← pow_add]; congr 2; omega
    have h1 : 1 ≤ y / 2 ^ b := by have := hb.2.1; omega
    have := up_of_desc hS ha.2.2.2 (k := b - (a + 1)) (by rw [← e]; exact h1)
    rw [← e] at this
    exact hb.2.2.1 this
  rcases Nat.lt_trichotomy a b with h | h | h
  · exact (key a b h ha hb).elim
  · exact h
  · exact (key b a h hb ha).elim

/-- A leaf outside of `S` lies in one of the subtrees. -/
theorem top_exists {n : ℕ} (hn : n ≤ 2 ^ D) (hS : AtDepth D S) (hne : ∃ y, S y) {y : ℕ} (h : Leaf D n y) (hy : ¬ S y) :
    ∃ k < D, Top D n S (y / 2 ^ k) := by
  have hd := leaf_atDepth hn y h
  obtain ⟨k, hk, h1, h2⟩ := exists_top hS hne hd.1 hd.2 hy
  have hr := div_pow_range hk.le hd.1 hd.2
  have h2k : 2 ≤ 2 ^ (D - k) := by
    calc 2 = 2 ^ 1 := rfl
      _ ≤ 2 ^ (D - k) := Nat.pow_le_pow_right (by omega) (by omega)
  refine ⟨k, hk, ⟨y, k, h, hk.le, rfl⟩, by omega, h1, ?_⟩
  rw [Nat.div_div_eq_div_mul, ← pow_succ]
  exact h2

open Finset Classical in
/-- The nodes at depth ℓ on the paths from `S` to the root. -/
noncomputable def level (D : ℕ) (S : ℕ → Prop) (ℓ : ℕ) : Finset ℕ := (Ico (2 ^ ℓ) (2 ^ (ℓ + 1))).filter (Up D S)

open Classical in
theorem level_card_pow (ℓ : ℕ) : (level D S ℓ).card ≤ 2 ^ ℓ := by
  refine (Finset.card_filter_le _ _).trans ?_
  rw [Nat.card_Ico, pow_succ]
  omega

open Classical in
theorem level_card_mono (hS : AtDepth D S) {ℓ : ℕ} (hl : ℓ < D) : (level D S ℓ).card ≤ (level D S (ℓ + 1)).card := by
  have h : level D S ℓ ⊆ (level D S (ℓ + 1)).image (· / 2) := by
    intro x hx
    simp only [level, Finset.mem_filter, Finset.mem_Ico, Finset.mem_image] at hx ⊢
    obtain ⟨⟨h1, h2⟩, h3⟩ := hx
    have hp : 1 ≤ 2 ^ ℓ := Nat.one_le_two_pow
    have hlt : x < 2 ^ D := lt_of_lt_of_le h2 (Nat.pow_le_pow_right (by omega) (by omega))
    rw [pow_succ 2 ℓ] at h2 ⊢
    rw [pow_succ 2 (ℓ + 1), pow_succ 2 ℓ]
    rcases (up_inner hS (by omega) hlt).1 h3 with h | h
    · exact ⟨2 * x, ⟨⟨by omega, by omega⟩, h⟩, by omega⟩
    · exact ⟨2 * x + 1, ⟨⟨by omega, by omega⟩, h⟩, by omega⟩
  exact (Finset.card_le_card h).trans Finset.card_image_le

theorem level_card_le (hS : AtDepth D S) {ℓ : ℕ} (hl : ℓ ≤ D) : (level D S ℓ).card ≤ (level D S D).card := by
  obtain ⟨k, rfl⟩ := Nat.exists_eq_add_of_le hl
  have : ∀ j, ℓ + j ≤ ℓ + k → (level (ℓ + k) S ℓ).card ≤ (level (ℓ + k) S (ℓ + j)).card := by
    intro j
    induction j with
    | zero => intro _; rfl
    | succ j ih => intro h; exact (ih (by omega)).trans (level_card_mono hS (by omega))
  exact this k le_rfl

open Finset Classical in
/-- The subtree roots at depth ℓ. -/
noncomputable def topLevel (D n : ℕ) (S : ℕ → Prop) (ℓ : ℕ) : Finset ℕ := (Ico (2 ^ ℓ) (2 ^ (ℓ + 1))).filter (Top D n S)

open Classical in
theorem topLevel_card {n ℓ : ℕ} (hS : AtDepth D S) (hl : ℓ < D) :
    (topLevel D n S (ℓ + 1)).card + (level D S (ℓ + 1)).card ≤ 2 * (level D S ℓ).card := by
  have hdis : Disjoint (topLevel D n S (ℓ + 1)) (level D S (ℓ + 1)) := by
    rw [Finset.disjoint_left]
    intro x h1 h2
    simp only [topLevel, level, Finset.mem_filter] at h1 h2
    exact h1.2.2.2.1 h2.2
  rw [← Finset.card_union_of_disjoint hdis]
  have h : topLevel D n S (ℓ + 1) ∪ level D S (ℓ + 1) ⊆ (level D S ℓ).image (2 * ·) ∪ (level D S ℓ).image (2 * · + 1) := by
    intro x hx
    have hx' : (2 ^ (ℓ + 1) ≤ x ∧ x < 2 ^ (ℓ + 1 + 1)) ∧ Up D S (x / 2) := by
      simp only [topLevel, level, Finset.mem_union, Finset.mem_filter, Finset.mem_Ico] at hx
      rcases hx with ⟨h1, h2⟩ | ⟨h1, h2⟩
      · exact ⟨h1, h2.2.2.2⟩
      · refine ⟨h1, up_parent hS h2 ?_⟩
        have : 2 ^ (ℓ + 1) = 2 * 2 ^ ℓ := pow_succ' 2 ℓ
        have : 1 ≤ 2 ^ ℓ := Nat.one_le_two_pow
        omega
    obtain ⟨⟨h1, h2⟩, h3⟩ := hx'
    have hm : x / 2 ∈ level D S ℓ := by
      simp only [level, Finset.mem_filter, Finset.mem_Ico]
      rw [pow_succ 2 (ℓ + 1)] at h2
      rw [pow_succ 2 ℓ] at h1 h2 ⊢
      exact ⟨⟨by omega, by omega⟩, h3⟩
    simp only [Finset.mem_union, Finset.mem_image]
    rcases Nat.mod_two_eq_zero_or_one x with h | h
    · exact Or.inl ⟨x / 2, hm, by omega⟩
    · exact Or.inr ⟨x / 2, hm, by omega⟩
  refine (Finset.card_le_card h).trans ((Finset.card_union_le _ _).trans ?_)
  have a := Finset.card_image_le (s := level D S ℓ) (f := (2 * ·))
  have b := Finset.card_image_le (s := level D S ℓ) (f := (2 * · + 1))
  omega

open Finset Classical in
theorem tops_card {n : ℕ} (hS : AtDepth D S) : ∀ d ≤ D, ∑ ℓ ∈ range d, (topLevel D n S (ℓ + 1)).card + (level D S d).card ≤
    (level D S 0).card + ∑ ℓ ∈ range d, (level D S ℓ).card := by
  intro d
  induction d with
  | zero => intro _; simp
  | succ d ih =>
    intro h
    have h1 := ih (by omega)
    have h2 := topLevel_card (n := n) hS (ℓ := d) (by omega)
    rw [sum_range_succ, sum_range_succ]
    omega

open Finset Classical in
/-- A set of subtree roots is small: at most ∑_{ℓ<D} min(2^ℓ, u) + 1 - u if `S` has u elements. -/
theorem tops_bound {n u : ℕ} (hn : n ≤ 2 ^ D) (hS : AtDepth D S) (hne : ∃ y, S y) (hu : (level D S D).card = u) (R : Finset ℕ) (hR : ∀ x ∈ R, Top D n S x) :
    R.card + u ≤ 1 + ∑ ℓ ∈ range D, min (2 ^ ℓ) u := by
  have h1 : R ⊆ (range D).biUnion fun ℓ => topLevel D n S (ℓ + 1) := by
    intro x hx
    obtain ⟨⟨y, k, hy, hk, e⟩, h2, h3, h4⟩ := hR x hx
    have hd := div_pow_range hk (leaf_atDepth hn y hy).1 (leaf_atDepth hn y hy).2
    rw [e] at hd
    have hkD : k < D := by
      by_contra hcon
      rw [show D - k = 0 by omega] at hd
      omega
    simp only [mem_biUnion, mem_range, topLevel, mem_filter, mem_Ico]
    refine ⟨D - k - 1, by omega, ⟨?_, ?_⟩, ⟨y, k, hy, hk, e⟩, h2, h3, h4⟩
    · rw [show D - k - 1 + 1 = D - k by omega]; exact hd.1
    · rw [show D - k - 1 + 1 = D - k by omega]; exact hd.2
  have h2 : R.card ≤ ∑ ℓ ∈ range D, (topLevel D n S (ℓ + 1)).card := (card_le_card h1).trans card_biUnion_le
  have h3 := tops_card (n := n) hS D le_rfl
  have h4 : (level D S 0).card ≤ 1 := by simpa using level_card_pow (D := D) (S := S) 0
  have h5 : ∑ ℓ ∈ range D, (level D S ℓ).card ≤ ∑ ℓ ∈ range D, min (2 ^ ℓ) u := by
    refine sum_le_sum fun ℓ hl => ?_
    have := level_card_le hS (mem_range.1 hl).le
    have := level_card_pow (D := D) (S := S) ℓ
    omega
  omega

open Finset Classical in
/-- Any family of distinct nodes such that no leaf is below two of them has at most n members. -/
theorem antichain_card {n : ℕ} (R : Finset ℕ) (hN : ∀ x ∈ R, Node D n x)
    (hR : ∀ x ∈ R, ∀ x' ∈ R, ∀ y a b, y / 2 ^ a = x → y / 2 ^ b = x' → x = x') : R.card ≤ n := by
  choose! f hf using hN
  have : R.card ≤ (Ico (2 ^ D) (2 ^ D + n)).card := by
    refine card_le_card_of_injOn f (fun x hx => ?_) fun x hx x' hx' e => ?_
    · obtain ⟨k, h, -⟩ := hf x hx
      exact mem_coe.2 (mem_Ico.2 h)
    · obtain ⟨k, -, -, h1⟩ := hf x hx
      obtain ⟨k', -, -, h2⟩ := hf x' hx'
      exact hR x hx x' hx' (f x) k k' h1 (by rw [e]; exact h2)
  simpa using this

/-- The other child of the same parent. -/
def sib (x : ℕ) : ℕ := if x % 2 = 0 then x + 1 else x - 1

/-- A subtree root is the sibling of a node on a path. -/
theorem top_sib (hS : AtDepth D S) {n x : ℕ} (h : Top D n S x) (hD : x < 2 ^ (D + 1)) : Up D S (sib x) := by
  obtain ⟨h1, h2, h3, h4⟩ := h
  rw [up_inner hS (by omega) (by rw [pow_succ] at hD; omega)] at h4
  unfold sib
  rcases Nat.mod_two_eq_zero_or_one x with h | h
  · rw [if_pos h]
    rcases h4 with h4 | h4
    · exact absurd (by rwa [show 2 * (x / 2) = x by omega] at h4) h3
    · rwa [show 2 * (x / 2) + 1 = x + 1 by omega] at h4
  · rw [if_neg (by omega)]
    rcases h4 with h4 | h4
    · rwa [show 2 * (x / 2) = x - 1 by omega] at h4
    · exact absurd (by rwa [show 2 * (x / 2) + 1 = x by omega] at h4) h3

theorem sib_sib {x : ℕ} (h : 2 ≤ x) : sib (sib x) = x := by
  unfold sib
  split_ifs <;> omega

theorem sib_half {x : ℕ} (h : 2 ≤ x) : sib x / 2 = x / 2 := by
  unfold sib
  split_ifs <;> omega

end Spec.Tree
