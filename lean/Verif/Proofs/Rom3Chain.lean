import Verif.Proofs.ForgeLucky
import Verif.Proofs.Binding3
import Verif.Props.Termination
import Verif.Spec.RomForge3

/-
C64: the challenge of Picnic3 that is read off the hash value of a new string.
-/

namespace Picnic.Rom3

open Spec Spec.Rom Spec.Challenge Picnic.Rom

variable {N M : ℕ} {I : Picnic3.Inst}

theorem over_hash (O : Oracle N M) (m : Bytes) (n : ℕ) : (over I O).hash m n = Rom.hash O m n := by
  refine List.ext_getElem (by simp [Picnic3.Inst.hash, Rom.hash, Rom.bytes, Picnic1.ofBits]) fun i h1 h2 => ?_
  simp [Picnic3.Inst.hash, over, Rom.hash, Rom.bytes, Picnic1.ofBits]

/-! ### The chain -/

variable (I) in
/-- The digests of the chain that begins with the hash value of `c`, and the strings of which they are hash values. -/
def dgs (O : Oracle N M) (c : Bytes) (j : ℕ) : Bytes := (fun d => Rom.hash O ([1] ++ d) I.digest)^[j] (Rom.hash O c I.digest)

variable (I) in
def ptAt (O : Oracle N M) (c : Bytes) : ℕ → Bytes
  | 0 => c
  | j + 1 => [1] ++ dgs I O c j

theorem hash_ptAt (O : Oracle N M) (c : Bytes) (j : ℕ) : Rom.hash O (ptAt I O c j) I.digest = dgs I O c j := by
  cases j with
  | zero => rfl
  | succ j =>
    unfold dgs
    rw [Function.iterate_succ_apply']
    rfl

theorem dgs_len (O : Oracle N M) (c : Bytes) (j : ℕ) : (dgs I O c j).length = I.digest := by
  rw [← hash_ptAt]
  exact hash_len' _ _ _

theorem next_inj {d d' : Bytes} (h : ([1] ++ d : Bytes) = [1] ++ d') : d = d' := by simpa using h

theorem next_len (d : Bytes) : ([1] ++ d : Bytes).length = d.length + 1 := by simp [Nat.add_comm]

/-- What is known when a new string is hashed: the string `c` and the strings `Z` that have been hashed before.
They do not depend on the hash values of `c` and of strings of a chain that have not been hashed. -/
structure Fresh (N M : ℕ) (I : Picnic3.Inst) (R : ℕ) where
  V : Oracle N M → Prop
  c : Oracle N M → Bytes
  Z : Oracle N M → List Bytes
  hlen : ∀ O, V O → (c O).length ≤ N
  hne : ∀ O, V O → ∀ d : Bytes, d.length = I.digest → c O ≠ [1] ++ d
  hZ : ∀ O, V O → (Z O).length ≤ R
  inv : ∀ O O', V O → (∀ x : Arg N, x.1 ≠ c O → (∀ d : Bytes, d.length = I.digest → [1] ++ d ∉ Z O → x.1 ≠ [1] ++ d) → O' x = O x) →
    V O' ∧ c O' = c O ∧ Z O' = Z O

variable {R : ℕ} (F : Fresh N M I R)

/-- The oracles agree at what is known. -/
def Fresh.Same (O O' : Oracle N M) : Prop :=
  ∀ x : Arg N, x.1 ≠ F.c O → (∀ d : Bytes, d.length = I.digest → [1] ++ d ∉ F.Z O → x.1 ≠ [1] ++ d) → O' x = O x

/-- The digests before number `j` are different, and the strings made of them have not been hashed before. -/
def Fresh.Clean (O : Oracle N M) (j : ℕ) : Prop :=
  (∀ i < j, ∀ l < i, dgs I O (F.c O) i ≠ dgs I O (F.c O) l) ∧ ∀ i < j, [1] ++ dgs I O (F.c O) i ∉ F.Z O

variable {F}

theorem Fresh.Clean.ptAt_ne {O : Oracle N M} {j : ℕ} (hV : F.V O) (h : F.Clean O j) {i : ℕ} (hi : i < j) : ptAt I O (F.c O) i ≠ ptAt I O (F.c O) j := by
  obtain ⟨j, rfl⟩ : ∃ k, j = k + 1 := ⟨j - 1, by omega⟩
  cases i with
  | zero => exact F.hne O hV _ (dgs_len _ _ _)
  | succ i =>
    intro e
    exact h.1 j (by omega) i (by omega) (next_inj e).symm

theorem Fresh.Clean.inv {O O' : Oracle N M} {j : ℕ} (hV : F.V O) (h : F.Clean O j) (hO : ∀ x : Arg N, x.1 ≠ ptAt I O (F.c O) j → O' x = O x) :
    F.V O' ∧ F.c O' = F.c O ∧ F.Z O' = F.Z O ∧ (∀ i < j, dgs I O' (F.c O') i = dgs I O (F.c O) i) ∧ ptAt I O' (F.c O') j = ptAt I O (F.c O) j := by
  obtain ⟨h1, h2, h3⟩ := F.inv O O' hV fun x hx hn => hO x fun e => by
    cases j with
    | zero => exact hx e
    | succ j => exact hn _ (dgs_len _ _ _) (h.2 j (by omega)) e
  have hask : ∀ i < j, Rom.hash O' (ptAt I O (F.c O) i) I.digest = Rom.hash O (ptAt I O (F.c O) i) I.digest := fun i hi => by
    unfold Rom.hash ask
    split_ifs with hl
    · rw [hO ⟨_, hl⟩ (h.ptAt_ne hV hi)]
    · rfl
  have h5 : ∀ i < j, dgs I O' (F.c O) i = dgs I O (F.c O) i := by
    intro i
    induction i with
    | zero => exact fun hi => hask 0 hi
    | succ i ih =>
      intro hi
      rw [← hash_ptAt O', ← hash_ptAt O]
      have e : ptAt I O' (F.c O) (i + 1) = ptAt I O (F.c O) (i + 1) := by
        simp only [ptAt]
        rw [ih (by omega)]
      rw [e, hask _ hi]
  rw [h2]
  refine ⟨h1, rfl, h3, h5, ?_⟩
  cases j with
  | zero => rfl
  | succ j =>
    simp only [ptAt]
    rw [h5 j (by omega)]

theorem ptAt_len (hN : I.digest + 1 ≤ N) {O : Oracle N M} (hV : F.V O) (j : ℕ) : (ptAt I O (F.c O) j).length ≤ N := by
  cases j with
  | zero => exact F.hlen O hV
  | succ j =>
    simp only [ptAt]
    rw [next_len, dgs_len]
    exact hN

/-- A digest is the same as an earlier one. -/
theorem prob_repeat (hM : I.digest ≤ M) (hN : I.digest + 1 ≤ N) (j l : ℕ) (hl : l < j) :
    prob (fun O => F.V O ∧ F.Clean O j ∧ dgs I O (F.c O) j = dgs I O (F.c O) l) ≤ 1 / 2 ^ (8 * I.digest) := by
  refine prob_point hM (fun O => ptAt I O (F.c O) j) (fun O => dgs I O (F.c O) l) (fun O h => ptAt_len hN h.1 j) (fun O h => ?_) fun O O' h hO => ?_
  · rw [hash_ptAt]
    exact h.2.2
  · obtain ⟨-, -, -, h5, h6⟩ := h.2.1.inv h.1 hO
    exact ⟨h6, h5 l hl⟩

/-- The string made of a digest has been hashed before. -/
theorem prob_hit (hM : I.digest ≤ M) (hN : I.digest + 1 ≤ N) (j l : ℕ) :
    prob (fun O => F.V O ∧ F.Clean O j ∧ (F.Z O)[l]? = some ([1] ++ dgs I O (F.c O) j)) ≤ 1 / 2 ^ (8 * I.digest) := by
  refine prob_point hM (fun O => ptAt I O (F.c O) j) (fun O => ((F.Z O)[l]?.getD []).drop 1) (fun O h => ptAt_len hN h.1 j) (fun O h => ?_) fun O O' h hO => ?_
  · rw [hash_ptAt]
    beta_reduce
    rw [h.2.2]
    simp only [Option.getD_some, List.singleton_append, List.drop_succ_cons, List.drop_zero]
  · obtain ⟨-, -, h3, -, h6⟩ := h.2.1.inv h.1 hO
    exact ⟨h6, by beta_reduce; rw [h3]⟩

/-- Either one of the first digests of the chain is not new, or they are clean. -/
theorem clean_or (O : Oracle N M) (n : ℕ) : F.Clean O n ∨ ∃ j < n, F.Clean O j ∧ ((∃ l < j, dgs I O (F.c O) j = dgs I O (F.c O) l) ∨
    [1] ++ dgs I O (F.c O) j ∈ F.Z O) := by
  induction n with
  | zero => exact Or.inl ⟨fun i hi => by omega, fun i hi => by omega⟩
  | succ n ih =>
    rcases ih with h | ⟨j, hj, h⟩
    · by_cases h1 : ∃ l < n, dgs I O (F.c O) n = dgs I O (F.c O) l
      · exact Or.inr ⟨n, by omega, h, Or.inl h1⟩
      by_cases h2 : [1] ++ dgs I O (F.c O) n ∈ F.Z O
      · exact Or.inr ⟨n, by omega, h, Or.inr h2⟩
      push Not at h1
      refine Or.inl ⟨fun i hi l hl => ?_, fun i hi => ?_⟩
      · rcases Nat.lt_or_eq_of_le (Nat.le_of_lt_succ hi) with h' | rfl
        · exact h.1 i h' l hl
        · exact h1 l hl
      · rcases Nat.lt_or_eq_of_le (Nat.le_of_lt_succ hi) with h' | rfl
        · exact h.2 i h'
        · exact h2
    · exact Or.inr ⟨j, by omega, h⟩

theorem prob_unclean (hM : I.digest ≤ M) (hN : I.digest + 1 ≤ N) (n : ℕ) :
    prob (fun O => F.V O ∧ ¬ F.Clean O n) ≤ (n ^ 2 + n * R) / 2 ^ (8 * I.digest) := by
  have h1 : prob (fun O => ∃ i : Fin n × Fin n, (i.2 : ℕ) < i.1 ∧ F.V O ∧ F.Clean O i.1 ∧ dgs I O (F.c O) i.1 = dgs I O (F.c O) i.2) ≤
      Fintype.card (Fin n × Fin n) * (1 / 2 ^ (8 * I.digest)) := prob_exists fun i => by
    by_cases hi : (i.2 : ℕ) < i.1
    · exact le_trans (prob_mono fun O h => h.2) (prob_repeat hM hN i.1 i.2 hi)
    · refine le_trans (prob_mono (Q' := fun _ => False) fun O h => hi h.1) ?_
      unfold prob
      simp
  have h2 : prob (fun O => ∃ i : Fin n × Fin R, F.V O ∧ F.Clean O i.1 ∧ (F.Z O)[(i.2 : ℕ)]? = some ([1] ++ dgs I O (F.c O) i.1)) ≤
      Fintype.card (Fin n × Fin R) * (1 / 2 ^ (8 * I.digest)) := prob_exists fun i => prob_hit hM hN i.1 i.2
  refine le_trans (prob_mono (Q' := fun O => _ ∨ _) fun O h => ?_) (le_trans (prob_or _ _) (le_trans (add_le_add h1 h2) (le_of_eq ?_)))
  · obtain ⟨hV, hc⟩ := h
    rcases clean_or (F := F) O n with h | ⟨j, hj, hcl, ⟨l, hl, he⟩ | hz⟩
    · exact absurd h hc
    · exact Or.inl ⟨(⟨j, hj⟩, ⟨l, by omega⟩), hl, hV, hcl, he⟩
    · obtain ⟨l, hl⟩ := List.mem_iff_getElem?.1 hz
      have hlt : l < R := lt_of_lt_of_le (List.getElem?_eq_some_iff.1 hl).1 (F.hZ O hV)
      exact Or.inr ⟨(⟨j, hj⟩, ⟨l, hlt⟩), hV, hcl, hl⟩
  · rw [Fintype.card_prod, Fintype.card_prod, Fintype.card_fin, Fintype.card_fin]
    push_cast
    ring

theorem digest_all (O : Oracle N M) (c : Bytes) (n : ℕ) :
    texts (fun j : Fin n => digestOfBytes I.digest (dgs I O c j)) = chain (fun d => Rom.hash O ([1] ++ d) I.digest) (Rom.hash O c I.digest) n := by
  unfold texts chain
  refine List.ext_getElem (by simp) fun i h1 h2 => ?_
  simp only [List.getElem_ofFn, List.getElem_map, List.getElem_range]
  exact bytes_digestOfBytes (dgs_len _ _ _)

/-- Clean digests are as good as random ones, for a property that depends on what is known. -/
theorem prob_clean (hM : I.digest ≤ M) (hN : I.digest + 1 ≤ N) {n : ℕ} (P : Oracle N M → (Fin n → Digest I.digest) → Prop) (β : ℝ) (hβ : 0 ≤ β)
    (hP : ∀ O O' D, F.V O → F.Same O O' → P O D → P O' D) (hb : ∀ O, F.V O → prob (P O) ≤ β) :
    prob (fun O => F.V O ∧ F.Clean O n ∧ P O fun j => digestOfBytes I.digest (dgs I O (F.c O) j)) ≤ β := by
  classical
  let B := Fin n → Digest I.digest
  have hB : (Fintype.card B : ℝ) = 2 ^ (8 * I.digest * n) := by
    rw [Fintype.card_fun, Fintype.card_fun, Fintype.card_fin, Fintype.card_fin, Fintype.card_fin]
    rw [← pow_mul, ← pow_mul, mul_assoc]
    push_cast
    rfl
  have h1 : ∀ D : B, prob (fun O => F.V O ∧ F.Clean O n ∧ (∀ j : Fin n, dgs I O (F.c O) j = Spec.Challenge.bytes (D j)) ∧ P O D) ≤
      prob (fun O => F.V O ∧ P O D) / 2 ^ (8 * I.digest * n) := fun D => by
    refine prob_points hM (fun O j => if h : (j : ℕ) = 0 then F.c O else [1] ++ Spec.Challenge.bytes (D ⟨j - 1, by omega⟩))
      (fun O j => Spec.Challenge.bytes (D j)) ?_ ?_ ?_ ?_
    · rintro O ⟨hV, -⟩ j
      beta_reduce
      split_ifs
      · exact F.hlen O hV
      · rw [next_len, digestBytes_len]
        exact hN
    · rintro O ⟨hV, hc, hD, -⟩ i j hij
      beta_reduce at hij
      split_ifs at hij with h1 h2 h2
      · exact Fin.ext (h1.trans h2.symm)
      · exact absurd hij (F.hne O hV _ (digestBytes_len _))
      · exact absurd hij.symm (F.hne O hV _ (digestBytes_len _))
      · have := next_inj hij
        rw [← hD, ← hD] at this
        dsimp only at this
        rcases Nat.lt_trichotomy i j with hlt | he | hlt
        · exact absurd this.symm (hc.1 _ (by omega) _ (by omega))
        · exact Fin.ext he
        · exact absurd this (hc.1 _ (by omega) _ (by omega))
    · rintro O ⟨hV, hc, hD, -⟩ j
      beta_reduce
      split_ifs with h0
      · rw [← hD j, h0]
        exact hash_ptAt O (F.c O) 0
      · rw [← hD j, ← hD]
        obtain ⟨j, hj⟩ := j
        obtain ⟨j, rfl⟩ : ∃ k, j = k + 1 := ⟨j - 1, by simp only at h0; omega⟩
        exact hash_ptAt O (F.c O) (j + 1)
    · rintro O O' ⟨hV, hc, hD, he⟩ hO
      have hs : F.Same O O' := fun x hx hn => hO x fun j => by
        beta_reduce
        split_ifs with h0
        · exact hx
        · refine hn _ (digestBytes_len _) ?_
          rw [← hD]
          exact hc.2 _ (by dsimp only; omega)
      obtain ⟨h1, h2, h3⟩ := F.inv O O' hV hs
      refine ⟨⟨h1, hP O O' D hV hs he⟩, ?_, rfl⟩
      funext j
      beta_reduce
      rw [h2]
  have h2 : prob (fun O => F.V O ∧ F.Clean O n ∧ P O fun j => digestOfBytes I.digest (dgs I O (F.c O) j)) ≤
      ∑ D : B, prob (fun O => F.V O ∧ F.Clean O n ∧ (∀ j : Fin n, dgs I O (F.c O) j = Spec.Challenge.bytes (D j)) ∧ P O D) := by
    refine le_trans (prob_mono fun O h => ?_) (prob_exists_sum _)
    exact ⟨_, h.1, h.2.1, fun j => (bytes_digestOfBytes (dgs_len _ _ _)).symm, h.2.2⟩
  refine h2.trans ((Finset.sum_le_sum fun D _ => h1 D).trans ?_)
  rw [← Finset.sum_div, ← hB, ← prob_sum (fun (O : Oracle N M) (D : B) => F.V O ∧ P O D), ← prob_equiv (Equiv.prodComm B (Oracle N M))]
  have h3 := prob_sum (Ω := B) (B := Oracle N M) fun D O => F.V O ∧ P O D
  refine le_trans (le_of_eq h3) ?_
  have hpos : (0 : ℝ) < Fintype.card (Oracle N M) := by exact_mod_cast Fintype.card_pos
  rw [div_le_iff₀ hpos]
  refine (Finset.sum_le_sum (g := fun _ => β) fun O _ => ?_).trans ?_
  · by_cases hV : F.V O
    · exact le_trans (prob_mono fun D h => h.2) (hb O hV)
    · refine le_trans (prob_mono (Q' := fun _ => False) fun D h => hV h.1) ?_
      have : prob (fun _ : B => False) = 0 := by
        unfold prob
        simp
      rw [this]
      exact hβ
  · rw [Finset.sum_const, Finset.card_univ, nsmul_eq_mul, mul_comm]

/-- A fair way of reading challenges yields one in a small set with small probability. -/
theorem prob_fair {A B : Type} [Fintype A] [Nonempty A] [Fintype B] {r : A → B → Prop} (hf : Fair r) (S : Set B) (m : ℕ) (hm : 0 < m)
    (hS : ∀ s : Finset B, (∀ e ∈ s, e ∈ S) → s.card * m ≤ Fintype.card B) : prob (fun a => ∃ e ∈ S, r a e) ≤ 1 / m := by
  classical
  obtain ⟨hu, hc⟩ := hf
  let c : B → ℕ := fun e => (Finset.univ.filter fun a => r a e).card
  have hr : ∀ e e', c e = c e' := fun e e' => by
    refine Eq.trans ?_ ((hc e e').trans ?_) <;> exact congrArg Finset.card (Finset.filter_congr_decidable ..)
  have h0 : (Finset.univ.filter fun a => ∃ e ∈ S, r a e).card * m ≤ Fintype.card A := by
    by_cases hB : Nonempty B
    · obtain ⟨e0⟩ := hB
      have h3 : Fintype.card B * c e0 ≤ Fintype.card A := by
        have h1 : ∑ e, c e = Fintype.card B * c e0 := by
          rw [Finset.sum_congr rfl fun e _ => hr e e0, Finset.sum_const, Finset.card_univ, smul_eq_mul]
        rw [← h1, ← Finset.card_biUnion]
        · exact Finset.card_le_univ _
        · intro e _ e' _ hne
          rw [Function.onFun, Finset.disjoint_left]
          intro D h h'
          exact hne (hu D e e' (Finset.mem_filter.1 h).2 (Finset.mem_filter.1 h').2)
      have h4 : (Finset.univ.filter fun a => ∃ e ∈ S, r a e).card ≤ (Finset.univ.filter fun e => e ∈ S).card * c e0 := by
        have h5 : (Finset.univ.filter fun a => ∃ e ∈ S, r a e) ⊆
            (Finset.univ.filter fun e => e ∈ S).biUnion fun e => Finset.univ.filter fun a => r a e := by
          intro D hD
          obtain ⟨e, he, hR⟩ := (Finset.mem_filter.1 hD).2
          exact Finset.mem_biUnion.2 ⟨e, Finset.mem_filter.2 ⟨Finset.mem_univ _, he⟩, Finset.mem_filter.2 ⟨Finset.mem_univ _, hR⟩⟩
        refine (Finset.card_le_card h5).trans (Finset.card_biUnion_le.trans ?_)
        rw [Finset.sum_congr rfl fun e _ => hr e e0, Finset.sum_const, smul_eq_mul]
      have h6 := hS (Finset.univ.filter fun e => e ∈ S) fun e he => (Finset.mem_filter.1 he).2
      calc _ ≤ (Finset.univ.filter fun e => e ∈ S).card * c e0 * m := Nat.mul_le_mul_right _ h4
        _ = (Finset.univ.filter fun e => e ∈ S).card * m * c e0 := by ring
        _ ≤ Fintype.card B * c e0 := Nat.mul_le_mul_right _ h6
        _ ≤ _ := h3
    · rw [Finset.filter_false_of_mem fun a _ ⟨e, _⟩ => hB ⟨e⟩]
      simp
  unfold prob
  have hpos : (0 : ℝ) < Fintype.card A := by exact_mod_cast Fintype.card_pos
  rw [div_le_div_iff₀ hpos (by exact_mod_cast hm), one_mul]
  have h1 : ((Finset.univ.filter fun a => ∃ e ∈ S, r a e).card : ℝ) * m ≤ Fintype.card A := by exact_mod_cast h0
  refine le_trans (le_of_eq ?_) h1
  congr!

/-- The challenge for a new string is in a set `S` of the given size with small probability. -/
theorem prob_lucky {p : ℕ} (hI : I.Is p) (hM : I.digest ≤ M) (hN : I.digest + 1 ≤ N) (κ : ℕ) (S : Oracle N M → Set I.Vector)
    (hS : ∀ O O', F.V O → F.Same O O' → S O ⊆ S O') (hc : ∀ O, F.V O → ∀ s : Finset I.Vector, (∀ e ∈ s, e ∈ S O) → s.card * 2 ^ κ ≤ Fintype.card I.Vector)
    (m : ℕ) (hm : 0 < m) :
    prob (fun O => F.V O ∧ ∃ C Q, ∃ e ∈ S O, (over I O).Challenge (Rom.hash O (F.c O) I.digest) C Q ∧ Picnic3.Asks C Q e.1) ≤
      1 / 2 ^ κ + (I.u + 1) / 2 ^ (54 * m) + ((((I.u + 1) * m : ℕ) : ℝ) ^ 2 + ((I.u + 1) * m : ℕ) * R) / 2 ^ (8 * I.digest) := by
  classical
  set n := (I.u + 1) * m with hn
  have h1 := prob_clean (F := F) hM hN (n := n) (fun O D => ∃ e ∈ S O, ∃ C Q, Reads3 I.T 16 I.u (texts D) C Q ∧ Picnic3.Asks C Q e.1) (1 / (2 ^ κ : ℕ)) (by positivity)
    (fun O O' D hV hs ⟨e, he, h⟩ => ⟨e, hS O O' hV hs he, h⟩) fun O hV => prob_fair (C52_p3 I p hI I.digest n) (S O) (2 ^ κ) (by positivity) (hc O hV)
  have h2 := prob_clean (F := F) hM hN (n := n) (fun O D => ¬ ∃ C Q, Reads3 I.T 16 I.u (texts D) C Q) ((I.u + 1) / 2 ^ (54 * m)) (by positivity)
    (fun O O' D hV hs h => h) fun O hV => by
      have := C53_p3 I p hI m hm
      rw [← hn] at this
      unfold prob
      have hpos : (0 : ℝ) < Fintype.card (Fin n → Digest I.digest) := by exact_mod_cast Fintype.card_pos
      rw [div_le_div_iff₀ hpos (by positivity)]
      have h4 : ((Finset.univ.filter fun D : Fin n → Digest I.digest => ¬ ∃ C Q, Reads3 I.T 16 I.u (texts D) C Q).card : ℝ) * 2 ^ (54 * m) ≤
          (I.u + 1) * Fintype.card (Fin n → Digest I.digest) := by exact_mod_cast this
      refine le_trans (le_of_eq ?_) h4
      congr!
  have h3 := prob_unclean (F := F) hM hN n
  push_cast at h1
  refine le_trans (prob_mono (Q' := fun O => (_ ∨ _) ∨ _) fun O h => ?_)
    (le_trans (prob_or _ _) (add_le_add (le_trans (prob_or _ _) (add_le_add h1 h2)) h3))
  by_cases hcl : F.Clean O n
  · refine Or.inl ?_
    obtain ⟨hV, C, Q, e, he, hch, ha⟩ := h
    beta_reduce
    by_cases hr : ∃ C Q, Reads3 I.T 16 I.u (texts fun j : Fin n => digestOfBytes I.digest (dgs I O (F.c O) j)) C Q
    · refine Or.inl ⟨hV, hcl, e, he, ?_⟩
      obtain ⟨C', Q', hr⟩ := hr
      have hr' := hr
      rw [digest_all] at hr'
      have h4 := (C52_chain_p3 _ _ _ _ _ _ _).2 ⟨n, hr'⟩
      have h5 : IsChallenge3 I.T 16 I.u (fun d => Rom.hash O ([1] ++ d) I.digest) (Rom.hash O (F.c O) I.digest) C Q := by
        have := hch
        unfold Picnic3.Inst.Challenge at this
        simp only [over_hash] at this
        exact this
      obtain ⟨rfl, rfl⟩ := Spec.Challenge.isChallenge3_unique h4 h5
      exact ⟨C', Q', hr, ha⟩
    · exact Or.inr ⟨hV, hcl, hr⟩
  · exact Or.inr ⟨h.1, hcl⟩

end Picnic.Rom3
