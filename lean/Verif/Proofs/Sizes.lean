import Mathlib.Data.Nat.Factorial.Basic
import Mathlib.Data.Nat.Choose.Basic
import Verif.Proofs.Soundness
import Verif.Proofs.Merkle4
import Verif.Spec.Sizes

/-
Sums over all challenges of Picnic3.
-/

namespace Picnic

open Finset Spec Spec.Tree Spec.Sizes

variable {T u : ℕ}

/-! ### vectors and their supports -/

abbrev Vec (T u : ℕ) := {e : Fin T → Option (Fin 16) // Picnic3.IsVector u e}

def supp (e : Fin T → Option (Fin 16)) : Finset (Fin T) := univ.filter fun t => (e t).isSome

theorem card_fiber (S : Finset (Fin T)) : (univ.filter fun e : Fin T → Option (Fin 16) => supp e = S).card = 16 ^ S.card := by
  classical
  have : (univ.filter fun e : Fin T → Option (Fin 16) => supp e = S) = Fintype.piFinset fun t => if t ∈ S then univ.erase none else {none} := by
    ext e
    rw [mem_filter, Fintype.mem_piFinset]
    constructor
    · rintro ⟨-, h2⟩ t
      have ht : t ∈ S ↔ (e t).isSome := by rw [← h2]; simp [supp]
      split_ifs with h
      · rw [mem_erase]
        exact ⟨Option.isSome_iff_ne_none.1 (ht.1 h), mem_univ _⟩
      · rw [mem_singleton]
        simpa using fun hc => h (ht.2 hc)
    · intro h
      refine ⟨mem_univ _, ?_⟩
      ext t
      have := h t
      simp only [supp, mem_filter, mem_univ, true_and]
      split_ifs at this with ht
      · rw [mem_erase] at this
        simp only [ht, iff_true]
        exact Option.isSome_iff_ne_none.2 this.1
      · rw [mem_singleton] at this
        simp [this, ht]
  rw [this, Fintype.card_piFinset]
  rw [prod_congr rfl (g := fun t => if t ∈ S then 16 else 1) fun t _ => by split_ifs <;> simp]
  rw [prod_ite_mem, univ_inter, prod_const]

/-- The number of vectors without entries in `A`. -/
theorem card_avoid (A : Finset (Fin T)) : (univ.filter fun e : Vec T u => Disjoint (supp e.1) A).card = (T - A.card).choose u * 16 ^ u := by
  classical
  have h1 : (univ.filter fun e : Vec T u => Disjoint (supp e.1) A).card =
      (univ.filter fun e : Fin T → Option (Fin 16) => supp e ∈ powersetCard u Aᶜ).card := by
    refine card_bij (fun e _ => e.1) (fun e he => ?_) (fun a _ b _ h => Subtype.ext h) fun e he => ?_
    · rw [mem_filter] at he ⊢
      refine ⟨mem_univ _, ?_⟩
      rw [mem_powersetCard]
      exact ⟨subset_compl_iff_disjoint_right.2 he.2, e.2⟩
    · rw [mem_filter, mem_powersetCard] at he
      exact ⟨⟨e, he.2.2⟩, by rw [mem_filter]; exact ⟨mem_univ _, subset_compl_iff_disjoint_right.1 he.2.1⟩, rfl⟩
  rw [h1, card_eq_sum_card_fiberwise (f := supp) (t := powersetCard u Aᶜ) (fun e he => by simpa using he)]
  have h2 : ∀ S ∈ powersetCard u Aᶜ, ((univ.filter fun e : Fin T → Option (Fin 16) => supp e ∈ powersetCard u Aᶜ).filter fun e => supp e = S).card = 16 ^ u := by
    intro S hS
    rw [filter_filter, ← (mem_powersetCard.1 hS).2, ← card_fiber S]
    congr 1
    ext e
    simp only [mem_filter, mem_univ, true_and]
    constructor
    · exact fun h => h.2
    · intro h
      rw [h]
      refine ⟨?_, rfl⟩
      rw [(mem_powersetCard.1 hS).2]
      exact hS
  rw [sum_congr rfl h2, sum_const, card_powersetCard, card_compl, Fintype.card_fin, smul_eq_mul]

theorem card_vec : Fintype.card (Vec T u) = T.choose u * 16 ^ u := by
  have := card_avoid (T := T) (u := u) ∅
  simpa using this

/-- One in sixteen unopened parties is the last one. -/
theorem sum_lasts : 16 * ∑ e : Vec T u, lasts e.1 = u * Fintype.card (Vec T u) := by
  classical
  -- the number of vectors with a given entry at `t` does not depend on the entry
  have hk : ∀ (t : Fin T) (k : Fin 16), (univ.filter fun e : Vec T u => e.1 t = some k).card = (univ.filter fun e : Vec T u => e.1 t = some 15).card := by
    intro t k
    have hv : ∀ e : Vec T u, Picnic3.IsVector u fun t => (e.1 t).map (Equiv.swap k 15) := fun e => by
      have := e.2
      unfold Picnic3.IsVector at this ⊢
      simpa using this
    refine card_bij (fun e _ => ⟨fun t => (e.1 t).map (Equiv.swap k 15), hv e⟩) (fun e he => ?_) (fun a _ b _ h => ?_) fun e he => ?_
    · rw [mem_filter] at he ⊢
      refine ⟨mem_univ _, ?_⟩
      change (e.1 t).map _ = _
      rw [he.2]; simp
    · refine Subtype.ext (funext fun s => ?_)
      have := congrFun (congrArg Subtype.val h) s
      exact Option.map_injective (Equiv.injective _) this
    · rw [mem_filter] at he
      refine ⟨⟨fun t => (e.1 t).map (Equiv.swap k 15), hv e⟩, ?_, ?_⟩
      · rw [mem_filter]
        refine ⟨mem_univ _, ?_⟩
        change (e.1 t).map _ = _
        rw [he.2]; simp
      · refine Subtype.ext (funext fun s => ?_)
        change ((e.1 s).map _).map _ = _
        rw [Option.map_map, show (⇑(Equiv.swap k (15 : Fin 16)) ∘ ⇑(Equiv.swap k 15)) = id from funext fun a => Equiv.swap_apply_self _ _ a, Option.map_id]
        rfl
  have hsome : ∀ t : Fin T, 16 * (univ.filter fun e : Vec T u => e.1 t = some 15).card = (univ.filter fun e : Vec T u => (e.1 t).isSome).card := by
    intro t
    have : (univ.filter fun e : Vec T u => (e.1 t).isSome) = (univ : Finset (Fin 16)).biUnion fun k => univ.filter fun e : Vec T u => e.1 t = some k := by
      ext e
      simp only [mem_filter, mem_univ, true_and, mem_biUnion]
      exact Option.isSome_iff_exists
    rw [this, card_biUnion (fun a _ b _ hab => by
      refine disjoint_left.2 fun e ha hb => ?_
      rw [mem_filter] at ha hb
      rw [ha.2] at hb
      exact hab (Option.some.inj hb.2)), sum_congr rfl fun k _ => hk t k]
    simp
  have h1 : ∑ e : Vec T u, lasts e.1 = ∑ t : Fin T, (univ.filter fun e : Vec T u => e.1 t = some 15).card := by
    simp only [lasts, card_filter]
    exact sum_comm
  have h2 : ∑ t : Fin T, (univ.filter fun e : Vec T u => (e.1 t).isSome).card = u * Fintype.card (Vec T u) := by
    simp only [card_filter]
    rw [sum_comm]
    have : ∀ e : Vec T u, (∑ t : Fin T, if (e.1 t).isSome then 1 else 0) = u := fun e => by
      have := e.2
      unfold Picnic3.IsVector at this
      rw [card_filter] at this
      exact this
    rw [sum_congr rfl fun e _ => this e, sum_const, smul_eq_mul, card_univ, Nat.mul_comm]
  rw [h1, mul_sum, sum_congr rfl fun t _ => hsome t, h2]

theorem lasts_le (e : Vec T u) : lasts e.1 ≤ u := by
  have := e.2
  unfold Picnic3.IsVector at this
  refine le_trans (card_le_card fun t ht => ?_) this.le
  rw [mem_filter] at ht ⊢
  exact ⟨mem_univ _, by rw [ht.2]; rfl⟩

/-- One in three challenges of ZKB++ is 0. -/
theorem sum_zeros : 3 * ∑ e : Fin T → Fin 3, zeroCount e = T * 3 ^ T := by
  classical
  have hk : ∀ (t : Fin T) (k : Fin 3), (univ.filter fun e : Fin T → Fin 3 => e t = k).card = (univ.filter fun e : Fin T → Fin 3 => e t = 0).card := by
    intro t k
    refine card_bij (fun e _ => fun s => Equiv.swap k 0 (e s)) (fun e he => ?_) (fun a _ b _ h => ?_) fun e he => ?_
    · rw [mem_filter] at he ⊢
      exact ⟨mem_univ _, by beta_reduce; rw [he.2]; simp⟩
    · exact funext fun s => (Equiv.swap k 0).injective (congrFun h s)
    · rw [mem_filter] at he
      refine ⟨fun s => Equiv.swap k 0 (e s), ?_, funext fun s => Equiv.swap_apply_self _ _ _⟩
      rw [mem_filter]
      exact ⟨mem_univ _, by beta_reduce; rw [he.2]; simp⟩
  have hall : ∀ t : Fin T, 3 * (univ.filter fun e : Fin T → Fin 3 => e t = 0).card = 3 ^ T := by
    intro t
    have : (univ : Finset (Fin T → Fin 3)) = (univ : Finset (Fin 3)).biUnion fun k => univ.filter fun e => e t = k := by
      ext e
      simp
    have hc : (univ : Finset (Fin T → Fin 3)).card = 3 ^ T := by simp
    rw [← hc]
    conv_rhs => rw [this]
    rw [card_biUnion (fun a _ b _ hab => by
      refine disjoint_left.2 fun e ha hb => ?_
      rw [mem_filter] at ha hb
      exact hab (ha.2.symm.trans hb.2)), sum_congr rfl fun k _ => hk t k]
    simp
  have h1 : ∑ e : Fin T → Fin 3, zeroCount e = ∑ t : Fin T, (univ.filter fun e : Fin T → Fin 3 => e t = 0).card := by
    simp only [zeroCount, card_filter]
    exact sum_comm
  rw [h1, mul_sum, sum_congr rfl fun t _ => hall t]
  simp

/-! ### the leaves below a node -/

/-- Leaves (of `T`) below node `x` of a tree of depth `D`. -/
def below (D T x : ℕ) : Finset (Fin T) := univ.filter fun t => (2 ^ D + t.1) / 2 ^ (D - Nat.log 2 x) = x

/-- Their number. -/
def cntBelow (D T x : ℕ) : ℕ :=
  let p := 2 ^ (D - Nat.log 2 x)
  min ((x + 1) * p) (2 ^ D + T) - x * p

theorem log_of_div {D y k : ℕ} (hk : k ≤ D) (h1 : 2 ^ D ≤ y) (h2 : y < 2 ^ (D + 1)) : Nat.log 2 (y / 2 ^ k) = D - k := by
  have := div_pow_range hk h1 h2
  exact Nat.log_eq_of_pow_le_of_lt_pow this.1 this.2

theorem openLeaf_atDepth {D : ℕ} (hT : T ≤ 2 ^ D) (e : Fin T → Option (Fin 16)) : AtDepth D (OpenLeaf D e) := by
  rintro y ⟨t, -, rfl⟩
  have := t.2
  rw [pow_succ]
  omega

theorem up_iff {D x : ℕ} (hT : T ≤ 2 ^ D) (e : Fin T → Option (Fin 16)) (hx : 1 ≤ x) (hx2 : x < 2 ^ (D + 1)) :
    Up D (OpenLeaf D e) x ↔ ¬ Disjoint (supp e) (below D T x) := by
  rw [not_disjoint_iff]
  constructor
  · rintro ⟨y, k, ⟨t, ht, rfl⟩, hk, h⟩
    refine ⟨t, by simpa [supp] using ht, ?_⟩
    have h3 := log_of_div (y := 2 ^ D + t) hk (by omega) (by have := t.2; rw [pow_succ]; omega)
    rw [h] at h3
    simp only [below, mem_filter, mem_univ, true_and]
    rw [h3, show D - (D - k) = k by omega, h]
  · rintro ⟨t, ht, hb⟩
    simp only [below, mem_filter, mem_univ, true_and] at hb
    exact ⟨_, _, ⟨t, by simpa [supp] using ht, rfl⟩, Nat.sub_le _ _, hb⟩

theorem node_iff {D x : ℕ} (hT : T ≤ 2 ^ D) : Node D T x ↔ (below D T x).Nonempty := by
  constructor
  · rintro ⟨y, k, hy, hk, h⟩
    refine ⟨⟨y - 2 ^ D, by have := hy.2; have := hy.1; omega⟩, ?_⟩
    have h3 := log_of_div hk hy.1 (by have := hy.2; rw [pow_succ]; omega)
    rw [h] at h3
    simp only [below, mem_filter, mem_univ, true_and]
    rw [h3, show D - (D - k) = k by omega, Nat.add_sub_cancel' hy.1, h]
  · rintro ⟨t, hb⟩
    simp only [below, mem_filter, mem_univ, true_and] at hb
    exact ⟨_, _, ⟨Nat.le_add_right _ _, Nat.add_lt_add_left t.2 _⟩, Nat.sub_le _ _, hb⟩

theorem card_below {D x : ℕ} (hx : 1 ≤ x) (hx2 : x < 2 ^ (D + 1)) : (below D T x).card = cntBelow D T x := by
  have hlog : Nat.log 2 x ≤ D := by
    have := Nat.log_lt_of_lt_pow (b := 2) (by omega) hx2
    omega
  unfold cntBelow
  generalize hp : 2 ^ (D - Nat.log 2 x) = p
  have hp0 : 0 < p := by rw [← hp]; positivity
  have hge : 2 ^ D ≤ x * p := by
    calc 2 ^ D = 2 ^ Nat.log 2 x * 2 ^ (D - Nat.log 2 x) := by rw [← pow_add]; congr 1; omega
      _ ≤ x * p := by rw [hp]; exact Nat.mul_le_mul_right _ (Nat.pow_log_le_self 2 (by omega))
  rw [← Nat.card_Ico]
  refine card_bij (fun t _ => 2 ^ D + t.1) (fun t ht => ?_) (fun a _ b _ h => Fin.ext (by omega)) fun y hy => ?_
  · simp only [below, mem_filter, mem_univ, true_and, hp] at ht
    rw [Nat.div_eq_iff hp0] at ht
    have := t.2
    rw [mem_Ico, lt_min_iff, Nat.add_mul, Nat.one_mul]
    omega
  · rw [mem_Ico, lt_min_iff, Nat.add_mul, Nat.one_mul] at hy
    refine ⟨⟨y - 2 ^ D, by omega⟩, ?_, by change 2 ^ D + (y - 2 ^ D) = y; omega⟩
    simp only [below, mem_filter, mem_univ, true_and, hp]
    rw [Nat.div_eq_iff hp0]
    omega

/-! ### the number of nodes outside the paths -/

/-- Vectors (divided by 16 ^ u) for which node `x` counts. -/
def topsAt (D T u x : ℕ) : ℕ := if cntBelow D T x = 0 then 0 else (T - cntBelow D T x).choose u - (T - cntBelow D T (x / 2)).choose u

theorem below_sub {D x : ℕ} (hx : 2 ≤ x) (hx2 : x < 2 ^ (D + 1)) : below D T x ⊆ below D T (x / 2) := by
  intro t ht
  have hlog : Nat.log 2 x ≤ D := by
    have := Nat.log_lt_of_lt_pow (b := 2) (by omega) hx2
    omega
  have hl : Nat.log 2 x = Nat.log 2 (x / 2) + 1 := Nat.log_of_one_lt_of_le (by omega) hx
  simp only [below, mem_filter, mem_univ, true_and] at ht ⊢
  rw [show D - Nat.log 2 (x / 2) = (D - Nat.log 2 x) + 1 by omega, pow_succ, ← Nat.div_div_eq_div_mul, ht]

open Classical in
theorem card_top {D x : ℕ} (hT : T ≤ 2 ^ D) (hx : 2 ≤ x) (hx2 : x < 2 ^ D + T) :
    (univ.filter fun e : Vec T u => Node D T x ∧ ¬ Up D (OpenLeaf D e.1) x ∧ Up D (OpenLeaf D e.1) (x / 2)).card = topsAt D T u x * 16 ^ u := by
  have hx3 : x < 2 ^ (D + 1) := by rw [pow_succ]; omega
  unfold topsAt
  rw [← card_below (by omega) hx3, ← card_below (by omega : 1 ≤ x / 2) (by omega)]
  split_ifs with h0
  · rw [card_eq_zero] at h0
    rw [Nat.zero_mul, card_eq_zero, filter_eq_empty_iff]
    rintro e - ⟨hn, -⟩
    rw [node_iff hT, h0] at hn
    exact not_nonempty_empty hn
  · have hn : Node D T x := (node_iff hT).2 (card_ne_zero.1 h0)
    rw [Nat.sub_mul, ← card_avoid, ← card_avoid, ← card_sdiff_of_subset]
    · refine congrArg card (Finset.ext fun e => ?_)
      simp only [mem_filter, mem_univ, true_and, mem_sdiff]
      rw [up_iff hT e.1 (by omega) hx3, up_iff hT e.1 (by omega) (by omega), not_not]
      exact ⟨fun h => h.2, fun h => ⟨hn, h⟩⟩
    · intro e he
      simp only [mem_filter, mem_univ, true_and] at he ⊢
      exact disjoint_of_subset_right (below_sub hx hx3) he

theorem cut_eq {D : ℕ} (e : Fin T → Option (Fin 16)) [DecidablePred fun x => Node D T x ∧ ¬ Up D (OpenLeaf D e) x ∧ Up D (OpenLeaf D e) (x / 2)] :
    cut D e = ((Ico 2 (2 ^ D + T)).filter fun x => Node D T x ∧ ¬ Up D (OpenLeaf D e) x ∧ Up D (OpenLeaf D e) (x / 2)).card := by
  rw [cut, ← Set.ncard_coe_finset]
  congr 1
  ext x
  simp only [Set.mem_setOf_eq, coe_filter, mem_Ico]
  exact ⟨fun h => ⟨⟨h.1, node_lt h.2.1⟩, h.2⟩, fun h => ⟨h.1.1, h.2⟩⟩

theorem sum_cut {D : ℕ} (hT : T ≤ 2 ^ D) : ∑ e : Vec T u, cut D e.1 = (∑ x ∈ Ico 2 (2 ^ D + T), topsAt D T u x) * 16 ^ u := by
  classical
  rw [sum_mul, sum_congr rfl fun (e : Vec T u) _ => cut_eq e.1]
  simp only [card_filter]
  rw [sum_comm]
  refine sum_congr rfl fun x hx => ?_
  rw [mem_Ico] at hx
  rw [← card_filter, ← card_top hT hx.1 hx.2]

/-- With falling factorials, for computing. -/
def topsAtF (D T u x : ℕ) : ℕ :=
  if cntBelow D T x = 0 then 0 else (T - cntBelow D T x).descFactorial u - (T - cntBelow D T (x / 2)).descFactorial u

def topsSum (D T u : ℕ) : ℕ := ((List.range' 2 (2 ^ D + T - 2)).map (topsAtF D T u)).sum

theorem tops_fact {D : ℕ} : u.factorial * ∑ x ∈ Ico 2 (2 ^ D + T), topsAt D T u x = topsSum D T u := by
  unfold topsSum
  have h : ∀ x, topsAtF D T u x = u.factorial * topsAt D T u x := by
    intro x
    unfold topsAt topsAtF
    split_ifs
    · rfl
    · rw [Nat.mul_sub, Nat.descFactorial_eq_factorial_mul_choose, Nat.descFactorial_eq_factorial_mul_choose]
  rw [mul_sum, sum_congr rfl fun x _ => (h x).symm]
  rw [Nat.Ico_eq_range']
  rfl

end Picnic
