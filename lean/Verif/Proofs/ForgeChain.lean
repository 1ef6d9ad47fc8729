import Verif.Proofs.ForgePoints
import Verif.Props.Distribution
import Verif.Spec.RomForge

/-
C63: the challenge that is read off the hash value of a new string.
-/

namespace Picnic.Rom

open Spec Spec.Rom Spec.Picnic1 Spec.Challenge

variable {N M : ℕ} {I : Inst}

/-! ### Digests without usable values -/

theorem pairs_nil {b : BitVec 8} (h : ∀ x ∈ pairs b, ¬ x < 3) : b = 255#8 := by
  revert h b
  decide

theorem trits_nil {d d' : Bytes} (h : trits d = []) (h' : trits d' = []) (hl : d.length = d'.length) : d = d' := by
  have key : ∀ d : Bytes, trits d = [] → d = List.replicate d.length 255#8 := fun d h => by
    refine List.eq_replicate_iff.2 ⟨rfl, fun b hb => pairs_nil fun x hx => ?_⟩
    unfold trits at h
    rw [List.filter_eq_nil_iff] at h
    have := h x (List.mem_flatMap.2 ⟨b, hb, hx⟩)
    simpa using this
  rw [key d h, key d' h', hl]

theorem trits_len {L : List Bytes} (h : ∀ d ∈ L, trits d ≠ []) : L.length ≤ (L.flatMap trits).length := by
  induction L with
  | nil => simp
  | cons d L ih =>
    have h1 := ih fun d hd => h d (List.mem_cons_of_mem _ hd)
    have h2 : 0 < (trits d).length := List.length_pos_iff.2 (h d List.mem_cons_self)
    rw [List.flatMap_cons, List.length_append, List.length_cons]
    omega

/-- Different digests have, but for one, at least one usable value each. -/
theorem trits_nodup {n : ℕ} {L : List Bytes} (hl : ∀ d ∈ L, d.length = n) (hn : L.Nodup) : L.length ≤ (L.flatMap trits).length + 1 := by
  induction L with
  | nil => simp
  | cons d L ih =>
    rw [List.flatMap_cons, List.length_append, List.length_cons]
    by_cases hd : trits d = []
    · have := trits_len (L := L) fun d' hd' h' => by
        have e := trits_nil hd h' ((hl d List.mem_cons_self).trans (hl d' (List.mem_cons_of_mem _ hd')).symm)
        rw [e] at hn
        exact (List.nodup_cons.1 hn).1 hd'
      omega
    · have h1 := ih (fun d hd => hl d (List.mem_cons_of_mem _ hd)) (List.nodup_cons.1 hn).2
      have h2 : 0 < (trits d).length := List.length_pos_iff.2 hd
      omega

/-! ### The chain -/

variable (I) in
/-- The digests of the chain that begins with the hash value of `c`, and the strings of which they are hash values. -/
def dgs (O : Oracle N M) (c : Bytes) (j : ℕ) : Bytes := (fun d => hashUse I O (.next d) I.digest)^[j] (Rom.hash O c I.digest)

variable (I) in
def ptAt (O : Oracle N M) (c : Bytes) : ℕ → Bytes
  | 0 => c
  | j + 1 => Use.text (T := I.T) I (.next (dgs I O c j))

theorem hash_len' (O : Oracle N M) (m : Bytes) (n : ℕ) : (Rom.hash O m n).length = n := hash_len _ _ _

theorem hash_ptAt (O : Oracle N M) (c : Bytes) (j : ℕ) : Rom.hash O (ptAt I O c j) I.digest = dgs I O c j := by
  cases j with
  | zero => rfl
  | succ j =>
    unfold dgs
    rw [Function.iterate_succ_apply']
    rfl

theorem dgs_len (O : Oracle N M) (c : Bytes) (j : ℕ) : (dgs I O c j).length = I.digest := by
  rw [← hash_ptAt]
  exact hash_len' _ _ _

theorem next_inj {d d' : Bytes} (h : Use.text (T := I.T) I (.next d) = Use.text (T := I.T) I (.next d')) : d = d' := by
  simpa [Use.text] using h

theorem next_len (d : Bytes) : (Use.text (T := I.T) I (.next d)).length = d.length + 1 := by
  simp only [Use.text, List.length_append, List.length_singleton]
  omega

/-- What is known when a new string is hashed: the string `c`, the strings `Z` that have been hashed before, and the challenges `S` that can be answered.
They do not depend on the hash values of `c` and of strings of a chain that have not been hashed. -/
structure Fresh (N M : ℕ) (I : Inst) (R : ℕ) where
  V : Oracle N M → Prop
  c : Oracle N M → Bytes
  Z : Oracle N M → List Bytes
  S : Oracle N M → Set (Fin I.T → Fin 3)
  hlen : ∀ O, V O → (c O).length ≤ N
  hne : ∀ O, V O → ∀ d : Bytes, d.length = I.digest → c O ≠ Use.text (T := I.T) I (.next d)
  hZ : ∀ O, V O → (Z O).length ≤ R
  hS : ∀ O, V O → ∀ s : Finset (Fin I.T → Fin 3), (∀ e ∈ s, e ∈ S O) → s.card ≤ 2 ^ I.T
  inv : ∀ O O', V O → (∀ x : Arg N, x.1 ≠ c O →
    (∀ d : Bytes, d.length = I.digest → Use.text (T := I.T) I (.next d) ∉ Z O → x.1 ≠ Use.text (T := I.T) I (.next d)) → O' x = O x) →
    V O' ∧ c O' = c O ∧ Z O' = Z O ∧ S O' = S O

variable {R : ℕ} (F : Fresh N M I R)

/-- The digests before number `j` are different, and the strings made of them have not been hashed before. -/
def Fresh.Clean (O : Oracle N M) (j : ℕ) : Prop :=
  (∀ i < j, ∀ l < i, dgs I O (F.c O) i ≠ dgs I O (F.c O) l) ∧ ∀ i < j, Use.text (T := I.T) I (.next (dgs I O (F.c O) i)) ∉ F.Z O

variable {F}

theorem Fresh.Clean.ptAt_ne {O : Oracle N M} {j : ℕ} (hV : F.V O) (h : F.Clean O j) {i : ℕ} (hi : i < j) : ptAt I O (F.c O) i ≠ ptAt I O (F.c O) j := by
  obtain ⟨j, rfl⟩ : ∃ k, j = k + 1 := ⟨j - 1, by omega⟩
  cases i with
  | zero => exact F.hne O hV _ (dgs_len _ _ _)
  | succ i =>
    intro e
    exact h.1 j (by omega) i (by omega) (next_inj (I := I) e).symm

theorem Fresh.Clean.inv {O O' : Oracle N M} {j : ℕ} (hV : F.V O) (h : F.Clean O j) (hO : ∀ x : Arg N, x.1 ≠ ptAt I O (F.c O) j → O' x = O x) :
    F.V O' ∧ F.c O' = F.c O ∧ F.Z O' = F.Z O ∧ F.S O' = F.S O ∧ (∀ i < j, dgs I O' (F.c O') i = dgs I O (F.c O) i) ∧ ptAt I O' (F.c O') j = ptAt I O (F.c O) j := by
  obtain ⟨h1, h2, h3, h4⟩ := F.inv O O' hV fun x hx hn => hO x fun e => by
    cases j with
    | zero => exact hx e
    | succ j => exact hn _ (dgs_len _ _ _) (h.2 j (by omega)) e
  have hask : ∀ i < j, Rom.hash O' (ptAt I O (F.c O) i) I.digest = Rom.hash O (ptAt I O (F.c O) i) I.digest := fun i hi => by
    unfold Rom.hash ask
    split_ifs with hl
    · rw [hO ⟨_, hl⟩ (h.ptAt_ne hV hi)]
    · rfl
  have h5 : ∀ i < j, dgs I O' (F.c O) i = dgs I O (F.c O) i := by
    intro i
    induction i with
    | zero => exact fun hi => hask 0 hi
    | succ i ih =>
      intro hi
      rw [← hash_ptAt O', ← hash_ptAt O]
      have e : ptAt I O' (F.c O) (i + 1) = ptAt I O (F.c O) (i + 1) := by
        simp only [ptAt]
        rw [ih (by omega)]
      rw [e, hask _ hi]
  rw [h2]
  refine ⟨h1, rfl, h3, h4, h5, ?_⟩
  cases j with
  | zero => rfl
  | succ j =>
    simp only [ptAt]
    rw [h5 j (by omega)]

theorem ptAt_len (hN : I.digest + 1 ≤ N) {O : Oracle N M} (hV : F.V O) (j : ℕ) : (ptAt I O (F.c O) j).length ≤ N := by
  cases j with
  | zero => exact F.hlen O hV
  | succ j =>
    simp only [ptAt]
    rw [next_len, dgs_len]
    exact hN

/-- A digest is the same as an earlier one. -/
theorem prob_repeat (hM : I.digest ≤ M) (hN : I.digest + 1 ≤ N) (j l : ℕ) (hl : l < j) :
    prob (fun O => F.V O ∧ F.Clean O j ∧ dgs I O (F.c O) j = dgs I O (F.c O) l) ≤ 1 / 2 ^ (8 * I.digest) := by
  refine prob_point hM (fun O => ptAt I O (F.c O) j) (fun O => dgs I O (F.c O) l) (fun O h => ptAt_len hN h.1 j) (fun O h => ?_) fun O O' h hO => ?_
  · rw [hash_ptAt]
    exact h.2.2
  · obtain ⟨-, -, -, -, h5, h6⟩ := h.2.1.inv h.1 hO
    exact ⟨h6, h5 l hl⟩

/-- The string made of a digest has been hashed before. -/
theorem prob_hit (hM : I.digest ≤ M) (hN : I.digest + 1 ≤ N) (j l : ℕ) :
    prob (fun O => F.V O ∧ F.Clean O j ∧ (F.Z O)[l]? = some (Use.text (T := I.T) I (.next (dgs I O (F.c O) j)))) ≤ 1 / 2 ^ (8 * I.digest) := by
  refine prob_point hM (fun O => ptAt I O (F.c O) j) (fun O => ((F.Z O)[l]?.getD []).drop 1) (fun O h => ptAt_len hN h.1 j) (fun O h => ?_) fun O O' h hO => ?_
  · rw [hash_ptAt]
    beta_reduce
    rw [h.2.2]
    simp only [Option.getD_some, Use.text, List.singleton_append, List.drop_succ_cons, List.drop_zero]
  · obtain ⟨-, -, h3, -, -, h6⟩ := h.2.1.inv h.1 hO
    exact ⟨h6, by beta_reduce; rw [h3]⟩

/-- Either one of the first digests of the chain is not new, or they are clean. -/
theorem clean_or (O : Oracle N M) (n : ℕ) : F.Clean O n ∨ ∃ j < n, F.Clean O j ∧ ((∃ l < j, dgs I O (F.c O) j = dgs I O (F.c O) l) ∨
    Use.text (T := I.T) I (.next (dgs I O (F.c O) j)) ∈ F.Z O) := by
  induction n with
  | zero => exact Or.inl ⟨fun i hi => by omega, fun i hi => by omega⟩
  | succ n ih =>
    rcases ih with h | ⟨j, hj, h⟩
    · by_cases h1 : ∃ l < n, dgs I O (F.c O) n = dgs I O (F.c O) l
      · exact Or.inr ⟨n, by omega, h, Or.inl h1⟩
      by_cases h2 : Use.text (T := I.T) I (.next (dgs I O (F.c O) n)) ∈ F.Z O
      · exact Or.inr ⟨n, by omega, h, Or.inr h2⟩
      push Not at h1
      refine Or.inl ⟨fun i hi l hl => ?_, fun i hi => ?_⟩
      · rcases Nat.lt_or_eq_of_le (Nat.le_of_lt_succ hi) with h' | rfl
        · exact h.1 i h' l hl
        · exact h1 l hl
      · rcases Nat.lt_or_eq_of_le (Nat.le_of_lt_succ hi) with h' | rfl
        · exact h.2 i h'
        · exact h2
    · exact Or.inr ⟨j, by omega, h⟩

theorem prob_unclean (hM : I.digest ≤ M) (hN : I.digest + 1 ≤ N) (n : ℕ) :
    prob (fun O => F.V O ∧ ¬ F.Clean O n) ≤ (n ^ 2 + n * R) / 2 ^ (8 * I.digest) := by
  have h1 : prob (fun O => ∃ i : Fin n × Fin n, (i.2 : ℕ) < i.1 ∧ F.V O ∧ F.Clean O i.1 ∧ dgs I O (F.c O) i.1 = dgs I O (F.c O) i.2) ≤
      Fintype.card (Fin n × Fin n) * (1 / 2 ^ (8 * I.digest)) := prob_exists fun i => by
    by_cases hi : (i.2 : ℕ) < i.1
    · exact le_trans (prob_mono fun O h => h.2) (prob_repeat hM hN i.1 i.2 hi)
    · refine le_trans (prob_mono (Q' := fun _ => False) fun O h => hi h.1) ?_
      unfold prob
      simp
  have h2 : prob (fun O => ∃ i : Fin n × Fin R, F.V O ∧ F.Clean O i.1 ∧ (F.Z O)[(i.2 : ℕ)]? = some (Use.text (T := I.T) I (.next (dgs I O (F.c O) i.1)))) ≤
      Fintype.card (Fin n × Fin R) * (1 / 2 ^ (8 * I.digest)) := prob_exists fun i => prob_hit hM hN i.1 i.2
  refine le_trans (prob_mono (Q' := fun O => _ ∨ _) fun O h => ?_) (le_trans (prob_or _ _) (le_trans (add_le_add h1 h2) (le_of_eq ?_)))
  · obtain ⟨hV, hc⟩ := h
    rcases clean_or (F := F) O n with h | ⟨j, hj, hcl, ⟨l, hl, he⟩ | hz⟩
    · exact absurd h hc
    · exact Or.inl ⟨(⟨j, hj⟩, ⟨l, by omega⟩), hl, hV, hcl, he⟩
    · obtain ⟨l, hl⟩ := List.mem_iff_getElem?.1 hz
      have hlt : l < R := lt_of_lt_of_le (List.getElem?_eq_some_iff.1 hl).1 (F.hZ O hV)
      exact Or.inr ⟨(⟨j, hj⟩, ⟨l, hlt⟩), hV, hcl, hl⟩
  · rw [Fintype.card_prod, Fintype.card_prod, Fintype.card_fin, Fintype.card_fin]
    push_cast
    ring

end Picnic.Rom
