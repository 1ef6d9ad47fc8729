import Verif.Spec.Domains
import Mathlib.Tactic.Ring

/-
Lemmas for C59.
-/

namespace Picnic

open Spec

theorem int16_inj {x y : ℕ} (hx : x < 2 ^ 16) (hy : y < 2 ^ 16) (h : Picnic1.int16 x = Picnic1.int16 y) : x = y := by
  unfold Picnic1.int16 at h
  injection h with h1 h2
  injection h2 with h2
  have h1 := congrArg BitVec.toNat h1
  have h2 := congrArg BitVec.toNat h2
  simp only [BitVec.toNat_ofNat] at h1 h2
  omega

theorem int16_len (x : ℕ) : (Picnic1.int16 x).length = 2 := rfl

/-- Blocks of the same lengths can be told apart. -/
theorem flatMap_inj {α : Type} {f g : α → Bytes} : ∀ {l : List α}, (∀ a ∈ l, (f a).length = (g a).length) → l.flatMap f = l.flatMap g → ∀ a ∈ l, f a = g a
  | [], _, _, _, h => by simp at h
  | b :: l, hl, h, a, ha => by
    rw [List.flatMap_cons, List.flatMap_cons] at h
    obtain ⟨h1, h2⟩ := List.append_inj h (hl b List.mem_cons_self)
    rcases List.mem_cons.1 ha with rfl | ha
    · exact h1
    · exact flatMap_inj (fun a ha => hl a (List.mem_cons_of_mem _ ha)) h2 a ha

theorem flatMap_len {α : Type} {f : α → Bytes} {n : ℕ} (l : List α) (h : ∀ a, (f a).length = n) : (l.flatMap f).length = l.length * n := by
  rw [List.length_flatMap, List.map_congr_left (g := fun _ => n) (fun a _ => h a), List.map_const', List.sum_replicate, smul_eq_mul]

theorem flatMap_fin_inj {n m : ℕ} {f g : Fin n → Bytes} (hf : ∀ a, (f a).length = m) (hg : ∀ a, (g a).length = m)
    (h : (List.finRange n).flatMap f = (List.finRange n).flatMap g) : f = g :=
  funext fun a => flatMap_inj (fun a _ => by rw [hf, hg]) h a (List.mem_finRange a)

theorem join_len {T n0 n1 n2 : ℕ} {x : Fin T → Fin 3 → Bytes} (h0 : ∀ t, (x t 0).length = n0) (h1 : ∀ t, (x t 1).length = n1) (h2 : ∀ t, (x t 2).length = n2) :
    (Picnic1.join x).length = T * (n0 + n1 + n2) := by
  unfold Picnic1.join
  rw [flatMap_len (n := n0 + n1 + n2) _ (fun t => by simp only [List.length_append]; rw [h0, h1, h2]), List.length_finRange]

theorem join_inj {T : ℕ} {x y : Fin T → Fin 3 → Bytes} (hl : ∀ t j, (x t j).length = (y t j).length) (h : Picnic1.join x = Picnic1.join y) : x = y := by
  unfold Picnic1.join at h
  funext t
  have := flatMap_inj (fun t _ => by simp only [List.length_append]; rw [hl t 0, hl t 1, hl t 2]) h t (List.mem_finRange t)
  obtain ⟨h1, h2⟩ := List.append_inj this (by simp only [List.length_append]; rw [hl t 0, hl t 1])
  obtain ⟨h0, h1⟩ := List.append_inj h1 (hl t 0)
  funext j
  fin_cases j
  · exact h0
  · exact h1
  · exact h2

end Picnic
