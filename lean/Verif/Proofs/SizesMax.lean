import Verif.Proofs.SizesNum

/-
Bounds for the length of Picnic3 signatures, and a long signature.
-/

namespace Picnic

open Finset Spec Spec.Tree Spec.Sizes

/-- Last node at depth `ℓ`. -/
def lastNode (D n ℓ : ℕ) : ℕ := (2 ^ D + n - 1) / 2 ^ (D - ℓ)

/-- Number of nodes at depth `ℓ` that have two children; the last node is the only one that may have only one. -/
def twins (D n ℓ : ℕ) : ℕ := lastNode D n ℓ + 1 - 2 ^ ℓ - (if lastNode D n (ℓ + 1) % 2 = 0 then 1 else 0)

theorem le_lastNode {D n ℓ x : ℕ} (hn : n ≤ 2 ^ D) (h1 : 2 ^ ℓ ≤ x) (h2 : x < 2 ^ (ℓ + 1)) {S : ℕ → Prop} (hS : ∀ y, S y → Leaf D n y) (h : Up D S x) :
    x ≤ lastNode D n ℓ := by
  obtain ⟨y, k, hy, hk, rfl⟩ := h
  obtain ⟨hy1, hy2⟩ := hS y hy
  have hr := div_pow_range hk hy1 (by rw [pow_succ]; omega)
  have hkl : D - k = ℓ := by
    by_contra hne
    rcases Nat.lt_or_gt_of_ne hne with h | h
    · have : 2 ^ (D - k + 1) ≤ 2 ^ ℓ := Nat.pow_le_pow_right (by omega) (by omega)
      omega
    · have : 2 ^ (ℓ + 1) ≤ 2 ^ (D - k) := Nat.pow_le_pow_right (by omega) (by omega)
      omega
  unfold lastNode
  rw [show D - ℓ = k by omega]
  exact Nat.div_le_div_right (by omega)

theorem lastNode_half {D n ℓ : ℕ} (hl : ℓ < D) : lastNode D n (ℓ + 1) / 2 = lastNode D n ℓ := by
  unfold lastNode
  rw [Nat.div_div_eq_div_mul, ← pow_succ, show D - (ℓ + 1) + 1 = D - ℓ by omega]

open Classical in
/-- The children of the marked nodes at depth `ℓ`. -/
theorem children_card {D n ℓ : ℕ} {S : ℕ → Prop} (hn : n ≤ 2 ^ D) (hS : ∀ y, S y → Leaf D n y) (hl : ℓ < D) :
    (topLevel D n S (ℓ + 1)).card + (Tree.level D S (ℓ + 1)).card ≤ (Tree.level D S ℓ).card + min (twins D n ℓ) (Tree.level D S ℓ).card := by
  have hA : AtDepth D S := fun y hy => leaf_atDepth hn y (hS y hy)
  set b := lastNode D n ℓ with hb
  set W := (Tree.level D S ℓ).filter fun x => 2 * x + 1 ≤ lastNode D n (ℓ + 1) with hW
  have hdis : Disjoint (topLevel D n S (ℓ + 1)) (Tree.level D S (ℓ + 1)) := by
    rw [disjoint_left]
    intro x h1 h2
    simp only [topLevel, Tree.level, mem_filter] at h1 h2
    exact h1.2.2.2.1 h2.2
  have h : topLevel D n S (ℓ + 1) ∪ Tree.level D S (ℓ + 1) ⊆ (Tree.level D S ℓ).image (2 * ·) ∪ W.image (2 * · + 1) := by
    intro x hx
    have hx' : (2 ^ (ℓ + 1) ≤ x ∧ x < 2 ^ (ℓ + 1 + 1)) ∧ Up D S (x / 2) ∧ x ≤ lastNode D n (ℓ + 1) := by
      simp only [topLevel, Tree.level, mem_union, mem_filter, mem_Ico] at hx
      rcases hx with ⟨h1, h2⟩ | ⟨h1, h2⟩
      · exact ⟨h1, h2.2.2.2, le_lastNode hn h1.1 h1.2 (fun _ h => h) h2.1⟩
      · refine ⟨h1, up_parent hA h2 ?_, le_lastNode hn h1.1 h1.2 hS h2⟩
        have : 2 ^ (ℓ + 1) = 2 * 2 ^ ℓ := pow_succ' 2 ℓ
        have : 1 ≤ 2 ^ ℓ := Nat.one_le_two_pow
        omega
    obtain ⟨⟨h1, h2⟩, h3, h4⟩ := hx'
    have hm : x / 2 ∈ Tree.level D S ℓ := by
      simp only [Tree.level, mem_filter, mem_Ico]
      rw [pow_succ 2 (ℓ + 1)] at h2
      rw [pow_succ 2 ℓ] at h1 h2 ⊢
      exact ⟨⟨by omega, by omega⟩, h3⟩
    simp only [mem_union, mem_image]
    rcases Nat.mod_two_eq_zero_or_one x with h | h
    · exact Or.inl ⟨x / 2, hm, by omega⟩
    · exact Or.inr ⟨x / 2, by rw [hW, mem_filter]; exact ⟨hm, by omega⟩, by omega⟩
  have h1 := (card_le_card h).trans (card_union_le _ _)
  rw [card_union_of_disjoint hdis] at h1
  have h2 := card_image_le (s := Tree.level D S ℓ) (f := (2 * ·))
  have h3 := card_image_le (s := W) (f := (2 * · + 1))
  have h4 : W.card ≤ (Tree.level D S ℓ).card := card_filter_le _ _
  have h5 : W.card ≤ twins D n ℓ := by
    have hh := lastNode_half (n := n) hl
    unfold twins
    have : W ⊆ Ico (2 ^ ℓ) (b + 1 - (if lastNode D n (ℓ + 1) % 2 = 0 then 1 else 0)) := by
      intro x hx
      rw [hW, mem_filter, Tree.level, mem_filter, mem_Ico] at hx
      rw [mem_Ico]
      refine ⟨hx.1.1.1, ?_⟩
      split_ifs <;> omega
    refine (card_le_card this).trans ?_
    rw [Nat.card_Ico]
    omega
  have h6 : W.card ≤ min (twins D n ℓ) (Tree.level D S ℓ).card := le_min h5 h4
  omega

open Classical in
/-- As `tops_bound`, with the number of nodes at each depth that have two children. -/
theorem tops_bound' {D n u : ℕ} {S : ℕ → Prop} (hn : n ≤ 2 ^ D) (hS : ∀ y, S y → Leaf D n y) (hu : (level D S D).card = u) (R : Finset ℕ) (hR : ∀ x ∈ R, Top D n S x) :
    R.card + u ≤ 1 + ∑ ℓ ∈ range D, min (twins D n ℓ) u := by
  have hA : AtDepth D S := fun y hy => leaf_atDepth hn y (hS y hy)
  have h1 : R ⊆ (range D).biUnion fun ℓ => topLevel D n S (ℓ + 1) := by
    intro x hx
    obtain ⟨⟨y, k, hy, hk, e⟩, h2, h3, h4⟩ := hR x hx
    have hd := div_pow_range hk (leaf_atDepth hn y hy).1 (leaf_atDepth hn y hy).2
    rw [e] at hd
    have hkD : k < D := by
      by_contra hcon
      rw [show D - k = 0 by omega] at hd
      omega
    simp only [mem_biUnion, mem_range, topLevel, mem_filter, mem_Ico]
    refine ⟨D - k - 1, by omega, ⟨?_, ?_⟩, ⟨y, k, hy, hk, e⟩, h2, h3, h4⟩
    · rw [show D - k - 1 + 1 = D - k by omega]; exact hd.1
    · rw [show D - k - 1 + 1 = D - k by omega]; exact hd.2
  have h2 : R.card ≤ ∑ ℓ ∈ range D, (topLevel D n S (ℓ + 1)).card := (card_le_card h1).trans card_biUnion_le
  have h3 : ∀ d ≤ D, ∑ ℓ ∈ range d, (topLevel D n S (ℓ + 1)).card + (Tree.level D S d).card ≤
      (Tree.level D S 0).card + ∑ ℓ ∈ range d, min (twins D n ℓ) u := by
    intro d
    induction d with
    | zero => intro _; simp
    | succ d ih =>
      intro h
      have h1 := ih (by omega)
      have h2 := children_card hn hS (ℓ := d) (by omega)
      have h3 : min (twins D n d) (Tree.level D S d).card ≤ min (twins D n d) u := by
        refine min_le_min le_rfl ?_
        rw [← hu]
        exact level_card_le hA (by omega)
      rw [sum_range_succ, sum_range_succ]
      omega
  have h4 : (level D S 0).card ≤ 1 := by simpa using level_card_pow (D := D) (S := S) 0
  have h5 := h3 D le_rfl
  omega

theorem cut_bound {D T u : ℕ} (hT : T ≤ 2 ^ D) (e : Vec T u) :
    cut D e.1 + u ≤ 1 + ∑ ℓ ∈ range D, min (twins D T ℓ) u := by
  classical
  rw [cut_eq]
  refine tops_bound' (S := OpenLeaf D e.1) hT ?_ ?_ _ fun x hx => ?_
  · rintro y ⟨t, -, rfl⟩
    exact ⟨Nat.le_add_right _ _, Nat.add_lt_add_left t.2 _⟩
  · have he := e.2
    unfold Picnic3.IsVector at he
    refine Eq.trans ?_ he
    symm
    refine card_bij (fun t _ => 2 ^ D + t.1) (fun t ht => ?_) (fun a _ b _ h => Fin.ext (by omega)) fun y hy => ?_
    · rw [mem_filter] at ht
      rw [Tree.level, mem_filter, mem_Ico]
      have := t.2
      exact ⟨⟨by omega, by rw [pow_succ]; omega⟩, up_self ⟨t, ht.2, rfl⟩⟩
    · rw [Tree.level, mem_filter, mem_Ico] at hy
      obtain ⟨t, ht, rfl⟩ := (up_leaf (openLeaf_atDepth hT e.1) hy.1.1).1 hy.2
      exact ⟨t, by rw [mem_filter]; exact ⟨mem_univ _, ht⟩, rfl⟩
  · rw [mem_filter, mem_Ico] at hx
    exact ⟨hx.2.1, hx.1.1, hx.2.2⟩

/-! ### long signatures -/

/-- Challenge: the repetitions in `L` are opened, party 0 is the unopened one. -/
def opensOf (T : ℕ) (L : List ℕ) (t : Fin T) : Option (Fin 16) := if t.1 ∈ L then some 0 else none

theorem opensOf_lasts (T : ℕ) (L : List ℕ) : lasts (opensOf T L) = 0 := by
  unfold lasts
  rw [card_eq_zero, filter_eq_empty_iff]
  intro t _
  unfold opensOf
  split_ifs
  · decide
  · simp

theorem opensOf_vector {T u : ℕ} {L : List ℕ} (h1 : L.Nodup) (h2 : ∀ i ∈ L, i < T) (h3 : L.length = u) : Picnic3.IsVector u (opensOf T L) := by
  unfold Picnic3.IsVector
  rw [← h3, ← List.toFinset_card_of_nodup h1]
  refine card_bij (fun t _ => t.1) (fun t ht => ?_) (fun a _ b _ h => Fin.ext h) fun y hy => ?_
  · rw [mem_filter] at ht
    rw [List.mem_toFinset]
    by_contra hn
    simp [opensOf, hn] at ht
  · rw [List.mem_toFinset] at hy
    exact ⟨⟨y, h2 y hy⟩, by rw [mem_filter]; exact ⟨mem_univ _, by simp [opensOf, hy]⟩, rfl⟩

/-- Computes `Up`. -/
def opensUp (D : ℕ) (L : List ℕ) (x : ℕ) : Bool :=
  let p := 2 ^ (D - Nat.log 2 x)
  L.any fun i => Nat.beq ((2 ^ D + i) / p) x

theorem opensUp_iff {D T x : ℕ} (hT : T ≤ 2 ^ D) {L : List ℕ} (hL : ∀ i ∈ L, i < T) (hx : 1 ≤ x) (hx2 : x < 2 ^ (D + 1)) :
    Up D (OpenLeaf D (opensOf T L)) x ↔ opensUp D L x = true := by
  rw [up_iff hT _ hx hx2, not_disjoint_iff]
  unfold opensUp
  simp only [List.any_eq_true, Nat.beq_eq, below, supp, mem_filter, mem_univ, true_and]
  constructor
  · rintro ⟨t, h1, h2⟩
    unfold opensOf at h1
    split_ifs at h1 with h
    · exact ⟨t.1, h, h2⟩
    · simp at h1
  · rintro ⟨i, h1, h2⟩
    exact ⟨⟨i, hL i h1⟩, by simp [opensOf, h1], h2⟩

theorem node_cnt {D T x : ℕ} (hT : T ≤ 2 ^ D) (hx : 1 ≤ x) (hx2 : x < 2 ^ (D + 1)) : Node D T x ↔ cntBelow D T x ≠ 0 := by
  rw [node_iff hT, ← card_below hx hx2, card_ne_zero]

theorem opens_cut {D T k : ℕ} (hT : T ≤ 2 ^ D) {L : List ℕ} (hL : ∀ i ∈ L, i < T)
    (h : ((Ico 2 (2 ^ D + T)).filter fun x => (!decide (cntBelow D T x = 0) && (!opensUp D L x && opensUp D L (x / 2))) = true).card = k) : cut D (opensOf T L) = k := by
  classical
  rw [cut_eq, ← h]
  refine congrArg card (Finset.ext fun x => ?_)
  rw [mem_filter, mem_filter]
  refine and_congr_right fun hx => ?_
  rw [mem_Ico] at hx
  have hx2 : x < 2 ^ (D + 1) := by rw [pow_succ]; omega
  rw [node_cnt hT (by omega) hx2, opensUp_iff hT hL (by omega) hx2, opensUp_iff hT hL (by omega) (by omega)]
  simp

/-- Repetitions opened in a longest signature. -/
def longest : ℕ → List ℕ
  | 7 => [7, 15, 23, 31, 39, 47, 55, 63, 71, 79, 87, 95, 103, 111, 119, 127, 135, 143, 151, 159, 167, 175, 183, 191, 199, 207, 211, 215, 219, 223, 227, 231, 235, 239,
      243, 247]
  | 8 => [7, 15, 23, 31, 39, 47, 55, 63, 71, 79, 87, 95, 103, 111, 119, 127, 135, 143, 151, 159, 167, 175, 183, 191, 199, 207, 215, 223, 231, 239, 247, 255, 263, 271,
      279, 287, 295, 303, 311, 319, 327, 335, 343, 351, 359, 367, 375, 383, 391, 399, 407, 415]
  | 9 => [15, 31, 47, 63, 79, 95, 111, 119, 127, 135, 143, 151, 159, 167, 175, 183, 191, 199, 207, 215, 223, 231, 239, 247, 255, 263, 271, 279, 287, 295, 303, 311, 319,
      327, 335, 343, 351, 359, 367, 375, 383, 391, 399, 407, 415, 423, 431, 439, 447, 455, 463, 471, 479, 487, 495, 503, 511, 519, 527, 535, 543, 551, 559, 567, 575,
      583, 591, 599]
  | _ => []

theorem longest_cut_7 : cut 8 (opensOf 250 (longest 7)) = 99 := opens_cut (by norm_num) (by decide) (by decide +kernel)
theorem longest_cut_8 : cut 9 (opensOf 419 (longest 8)) = 157 := opens_cut (by norm_num) (by decide) (by decide +kernel)
theorem longest_cut_9 : cut 10 (opensOf 601 (longest 9)) = 212 := opens_cut (by norm_num) (by decide) (by decide +kernel)

theorem longest_7 : Picnic3.IsVector 36 (opensOf 250 (longest 7)) := opensOf_vector (by decide) (by decide) rfl
theorem longest_8 : Picnic3.IsVector 52 (opensOf 419 (longest 8)) := opensOf_vector (by decide +kernel) (by decide) rfl
theorem longest_9 : Picnic3.IsVector 68 (opensOf 601 (longest 9)) := opensOf_vector (by decide +kernel) (by decide +kernel) rfl

theorem longest_mem {t : ℕ} (ht : t < 419) : t ∈ longest 8 ↔ t % 8 = 7 ∧ t < 416 := by
  revert t
  decide +kernel

end Picnic
