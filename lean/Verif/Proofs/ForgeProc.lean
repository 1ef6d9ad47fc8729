import Verif.Proofs.RomAdv

/-
C63: lists of questions where each depends on the answers to those before it.
-/

namespace Picnic.Rom

open Spec Spec.Rom

variable {N M : ℕ} {α : Type}

variable (N M) in
/-- Each question is determined by the answers to the questions before it. -/
structure Proc where
  asked : Oracle N M → List (Arg N)
  pre : ∀ O O' i, (∀ x ∈ (asked O).take i, O' x = O x) → (asked O').take (i + 1) = (asked O).take (i + 1)

theorem eq_of_takes {l l' : List α} (h : ∀ i, l.length ≤ i → l'.take (i + 1) = l.take (i + 1)) : l' = l := by
  have h1 := h (l.length + l'.length) (by omega)
  rwa [List.take_of_length_le (by omega), List.take_of_length_le (by omega)] at h1

theorem take_append_of_take {l l' m m' : List α} {i : ℕ} (hi : i < l.length) (h : l'.take (i + 1) = l.take (i + 1)) : (l' ++ m').take (i + 1) = (l ++ m).take (i + 1) := by
  have hl : i + 1 ≤ l'.length := by
    have := congrArg List.length h
    rw [List.length_take, List.length_take] at this
    omega
  rw [List.take_append_of_le_length hl, List.take_append_of_le_length hi, h]

namespace Proc

theorem all (P : Proc N M) {O O' : Oracle N M} (h : ∀ x ∈ P.asked O, O' x = O x) : P.asked O' = P.asked O :=
  eq_of_takes fun i _ => P.pre O O' i fun x hx => h x (List.mem_of_mem_take hx)

theorem ofAdv_pre (O O' : Oracle N M) : ∀ (A : Adv N M α) (i : ℕ), (∀ x ∈ (A.asked O).take i, O' x = O x) → (A.asked O').take (i + 1) = (A.asked O).take (i + 1)
  | .done r, _, _ => rfl
  | .ask x next, 0, _ => by simp [Adv.asked]
  | .ask x next, i + 1, h => by
    simp only [Adv.asked, List.take_succ_cons] at h ⊢
    have hx := h x List.mem_cons_self
    rw [hx, ofAdv_pre O O' (next (O x)) i fun y hy => h y (List.mem_cons_of_mem _ hy)]

def ofAdv (A : Adv N M α) : Proc N M := ⟨fun O => A.asked O, fun O O' i h => ofAdv_pre O O' A i h⟩

/-- Further questions that are determined by the answers. -/
def append (P : Proc N M) (f : Oracle N M → List (Arg N)) (hf : ∀ O O', (∀ x ∈ P.asked O, O' x = O x) → f O' = f O) : Proc N M where
  asked O := P.asked O ++ f O
  pre O O' i h := by
    by_cases hi : i < (P.asked O).length
    · refine take_append_of_take hi (P.pre O O' i fun x hx => h x ?_)
      rw [List.take_append_of_le_length hi.le]
      exact hx
    · have h' : ∀ x ∈ P.asked O, O' x = O x := fun x hx => h x (by
        rw [List.take_append, List.take_of_length_le (by omega)]
        exact List.mem_append_left _ hx)
      rw [P.all h', hf O O' h']

end Proc

theorem exists_take (q : α → Bool) : ∀ (l : List α) (j : ℕ), ∃ m, ((l.take m).filter q).length ≤ j ∧ (l.take (m + 1)).filter q = (l.filter q).take (j + 1)
  | [], j => ⟨0, by simp, by simp⟩
  | a :: l, j => by
    cases hq : q a with
    | true =>
      cases j with
      | zero => exact ⟨0, by simp, by simp [hq]⟩
      | succ j =>
        obtain ⟨m, h1, h2⟩ := exists_take q l j
        exact ⟨m + 1, by simpa [hq] using h1, by simp [hq, h2]⟩
    | false =>
      obtain ⟨m, h1, h2⟩ := exists_take q l j
      exact ⟨m + 1, by simpa [hq] using h1, by simp [hq, h2]⟩

theorem take_filter_mem (q : α → Bool) (l : List α) {m j : ℕ} (h : ((l.take m).filter q).length ≤ j) {x : α} (hx : x ∈ l.take m) (hq : q x = true) : x ∈ (l.filter q).take j := by
  have e : l.filter q = (l.take m).filter q ++ (l.drop m).filter q := by rw [← List.filter_append, List.take_append_drop]
  rw [e, List.take_append, List.take_of_length_le h]
  exact List.mem_append_left _ (List.mem_filter.2 ⟨hx, hq⟩)

/-- Questions to an oracle `h` that has the answers of `o` at the questions that are counted, and known answers at the others. -/
theorem filter_pre (P : Proc N M) {h h' : Oracle N M} (q : Arg N → Bool) (o o' : Oracle N M) (h1 : ∀ x, q x = true → h x = o x) (h1' : ∀ x, q x = true → h' x = o' x)
    (h2 : ∀ x, q x = false → h' x = h x) {j : ℕ} (ho : ∀ x ∈ ((P.asked h).filter q).take j, o' x = o x) :
    ((P.asked h').filter q).take (j + 1) = ((P.asked h).filter q).take (j + 1) := by
  have key : ∀ m, (((P.asked h).take m).filter q).length ≤ j → (P.asked h').take (m + 1) = (P.asked h).take (m + 1) := by
    intro m hm
    refine P.pre h h' m fun x hx => ?_
    cases hq : q x with
    | false => exact h2 x hq
    | true => rw [h1 x hq, h1' x hq, ho x (take_filter_mem q _ hm hx hq)]
  obtain ⟨m, hm1, hm2⟩ := exists_take q (P.asked h) j
  have e := key m hm1
  by_cases hl : j + 1 ≤ ((P.asked h).filter q).length
  · have e2 : (P.asked h').filter q = ((P.asked h).filter q).take (j + 1) ++ ((P.asked h').drop (m + 1)).filter q := by
      rw [← hm2, ← e, ← List.filter_append, List.take_append_drop]
    have hl2 : (((P.asked h).filter q).take (j + 1)).length = j + 1 := by rw [List.length_take]; omega
    rw [e2, List.take_append, hl2, Nat.sub_self, List.take_zero, List.append_nil, List.take_take, Nat.min_self]
  · have : P.asked h' = P.asked h := eq_of_takes fun i hi => key i (by rw [List.take_of_length_le hi]; omega)
    rw [this]

end Picnic.Rom
