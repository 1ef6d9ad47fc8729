import Verif.Proofs.RomProb

/-
C63: hash values at several strings.
-/

namespace Picnic.Rom

open Spec Spec.Rom Spec.Picnic1

variable {N M : ℕ}

/-- Bits added to the hash values of some strings. -/
noncomputable def bumps {r n : ℕ} (pts : Fin r → Bytes) (k : Fin r → Fin n → ZMod 2) (O : Oracle N M) : Oracle N M :=
  open Classical in fun x => if h : ∃ j, x.1 = pts j then bump 0 n (k h.choose) (O x) else O x

theorem bumps_off {r n : ℕ} {pts : Fin r → Bytes} {k : Fin r → Fin n → ZMod 2} {O : Oracle N M} {x : Arg N} (h : ∀ j, x.1 ≠ pts j) : bumps pts k O x = O x := by
  unfold bumps
  rw [dif_neg]
  rintro ⟨j, hj⟩
  exact h j hj

theorem bumps_at {r n : ℕ} {pts : Fin r → Bytes} (hinj : Function.Injective pts) {k : Fin r → Fin n → ZMod 2} {O : Oracle N M} {x : Arg N} {j : Fin r}
    (h : x.1 = pts j) : bumps pts k O x = bump 0 n (k j) (O x) := by
  unfold bumps
  have hex : ∃ j, x.1 = pts j := ⟨j, h⟩
  rw [dif_pos hex, hinj (hex.choose_spec.symm.trans h)]

/-- If `E` fixes the beginnings of the hash values of some strings, which do not depend on these values, and `F` holds whatever the values are. -/
theorem prob_points {r n : ℕ} (hM : n ≤ M) (pts val : Oracle N M → Fin r → Bytes) {E F : Oracle N M → Prop} (hlen : ∀ O, E O → ∀ j, (pts O j).length ≤ N)
    (hinj : ∀ O, E O → Function.Injective (pts O)) (hE : ∀ O, E O → ∀ j, Rom.hash O (pts O j) n = val O j)
    (hF : ∀ O O', E O → (∀ x : Arg N, (∀ j, x.1 ≠ pts O j) → O' x = O x) → F O' ∧ pts O' = pts O ∧ val O' = val O) :
    prob E ≤ prob F / 2 ^ (8 * n * r) := by
  classical
  let K := Fin r → Fin (8 * n) → ZMod 2
  have hK : (Fintype.card K : ℝ) = 2 ^ (8 * n * r) := by
    rw [Fintype.card_fun, Nat.cast_pow, card_keys, Fintype.card_fin, ← pow_mul]
  have h1 : (Finset.univ.filter E ×ˢ (Finset.univ : Finset K)).card ≤ (Finset.univ.filter F).card := by
    refine Finset.card_le_card_of_injOn (fun x => bumps (pts x.1) x.2 x.1) ?_ ?_
    · rintro ⟨O, k⟩ hx
      simp only [Finset.coe_product, Set.mem_prod, Finset.mem_coe, Finset.mem_filter, Finset.mem_univ, true_and, and_true] at hx
      simp only [Finset.coe_filter, Finset.mem_univ, true_and, Set.mem_ofPred_eq]
      exact (hF O _ hx fun x hx => bumps_off hx).1
    · rintro ⟨O, k⟩ hx ⟨O', k'⟩ hx' he
      simp only [Finset.coe_product, Set.mem_prod, Finset.mem_coe, Finset.mem_filter, Finset.mem_univ, true_and, and_true] at hx hx'
      dsimp only at he
      obtain ⟨-, p1, v1⟩ := hF O (bumps (pts O) k O) hx fun x hx => bumps_off hx
      obtain ⟨-, p2, v2⟩ := hF O' (bumps (pts O') k' O') hx' fun x hx => bumps_off hx
      have hp : pts O = pts O' := by rw [← p1, he, p2]
      have hv : val O = val O' := by rw [← v1, he, v2]
      have hat : ∀ j (x : Arg N), x.1 = pts O j → O x = O' x ∧ k j = k' j := fun j x hxj => by
        have e1 := congrFun he x
        rw [bumps_at (hinj O hx) hxj, bumps_at (hinj O' hx') (by rw [← hp]; exact hxj)] at e1
        refine bump_inj (by omega) e1 fun i _ hi => ?_
        have h2 : Rom.hash O x.1 n = Rom.hash O' x.1 n := by
          rw [hxj, hE O hx, hp, hE O' hx', hv]
        have := congrFun (congrArg toBits h2) i
        unfold Rom.hash bytes at this
        rw [toBits_ofBits, toBits_ofBits, Spec.trunc, Spec.trunc, if_pos (by omega), if_pos (by omega)] at this
        unfold ask at this
        rwa [dif_pos x.2, dif_pos x.2] at this
      refine Prod.ext (funext fun x => ?_) (funext fun j => (hat j ⟨pts O j, hlen O hx j⟩ rfl).2)
      by_cases hxj : ∃ j, x.1 = pts O j
      · obtain ⟨j, hj⟩ := hxj
        exact (hat j x hj).1
      · push Not at hxj
        have := congrFun he x
        rwa [bumps_off hxj, bumps_off (by rw [← hp]; exact hxj)] at this
  rw [Finset.card_product, Finset.card_univ] at h1
  unfold prob
  rw [← hK]
  have hKp : (0 : ℝ) < Fintype.card K := by exact_mod_cast Fintype.card_pos
  rw [div_right_comm]
  refine div_le_div_of_nonneg_right ?_ (Nat.cast_nonneg _)
  rw [le_div_iff₀ hKp]
  exact_mod_cast h1

/-- One string. -/
theorem prob_point {n : ℕ} (hM : n ≤ M) (m y : Oracle N M → Bytes) {E : Oracle N M → Prop} (hlen : ∀ O, E O → (m O).length ≤ N)
    (hE : ∀ O, E O → Rom.hash O (m O) n = y O)
    (hF : ∀ O O', E O → (∀ x : Arg N, x.1 ≠ m O → O' x = O x) → m O' = m O ∧ y O' = y O) : prob E ≤ 1 / 2 ^ (8 * n) := by
  have := prob_points (r := 1) hM (fun O _ => m O) (fun O _ => y O) (E := E) (F := fun _ => True) (fun O h _ => hlen O h) (fun O h a b _ => Subsingleton.elim a b)
    (fun O h _ => hE O h) fun O O' h hx => by
      obtain ⟨e1, e2⟩ := hF O O' h fun x hxm => hx x fun _ => hxm
      exact ⟨trivial, funext fun _ => e1, funext fun _ => e2⟩
  rw [mul_one] at this
  refine le_trans this (div_le_div_of_nonneg_right ?_ (by positivity))
  unfold prob
  simp

end Picnic.Rom
