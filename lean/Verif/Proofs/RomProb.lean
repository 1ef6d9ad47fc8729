import Mathlib.Tactic.Linarith
import Mathlib.Tactic.FieldSimp
import Mathlib.Tactic.GCongr
import Mathlib.Data.Fintype.Pi
import Mathlib.Data.Fintype.Card
import Mathlib.Data.ZMod.Basic
import Mathlib.Algebra.BigOperators.Field
import Verif.Proofs.RomBad

/-
C62: probabilities.
-/

namespace Picnic.Rom

open Spec Spec.Zkb Spec.Rom Spec.Picnic1 Spec.Challenge

section

variable {Ω Ω' : Type} [Fintype Ω] [Fintype Ω']

theorem prob_mono {Q Q' : Ω → Prop} (h : ∀ ω, Q ω → Q' ω) : prob Q ≤ prob Q' := by
  unfold prob
  gcongr
  exact h _

theorem prob_nonneg (Q : Ω → Prop) : 0 ≤ prob Q := by
  unfold prob
  positivity

theorem prob_or (Q Q' : Ω → Prop) : prob (fun ω => Q ω ∨ Q' ω) ≤ prob Q + prob Q' := by
  classical
  unfold prob
  rw [← add_div]
  gcongr
  refine le_trans (Nat.cast_le.2 (Finset.card_le_card (t := Finset.univ.filter Q ∪ Finset.univ.filter Q') fun ω h => by simpa using h)) ?_
  exact_mod_cast Finset.card_union_le _ _

theorem prob_exists {ι : Type} [Fintype ι] {Q : ι → Ω → Prop} {c : ℝ} (h : ∀ i, prob (Q i) ≤ c) : prob (fun ω => ∃ i, Q i ω) ≤ Fintype.card ι * c := by
  classical
  have h1 : prob (fun ω => ∃ i, Q i ω) ≤ ∑ i, prob (Q i) := by
    unfold prob
    rw [← Finset.sum_div]
    gcongr
    refine le_trans (Nat.cast_le.2 (Finset.card_le_card (t := Finset.univ.biUnion fun i => Finset.univ.filter (Q i)) fun ω h => by simpa using h)) ?_
    exact_mod_cast Finset.card_biUnion_le
  calc _ ≤ ∑ i, prob (Q i) := h1
    _ ≤ ∑ _i : ι, c := Finset.sum_le_sum fun i _ => h i
    _ = _ := by simp

theorem prob_congr {Q Q' : Ω → Prop} (h : ∀ ω, Q ω ↔ Q' ω) : prob Q = prob Q' := by
  congr 1
  funext ω
  exact propext (h ω)

theorem prob_split (Q R : Ω → Prop) : prob Q = prob (fun ω => R ω ∧ Q ω) + prob (fun ω => ¬ R ω ∧ Q ω) := by
  classical
  unfold prob
  rw [← add_div]
  congr 1
  have := Finset.card_filter_add_card_filter_not (s := Finset.univ.filter Q) (p := R)
  rw [Finset.filter_filter, Finset.filter_filter] at this
  rw [← Nat.cast_add, ← this]
  simp only [and_comm]

theorem prob_not [Nonempty Ω] (Q : Ω → Prop) : prob (fun ω => ¬ Q ω) = 1 - prob Q := by
  classical
  have h := prob_split (fun _ : Ω => True) Q
  simp only [and_true] at h
  have h1 : prob (fun _ : Ω => True) = 1 := by
    unfold prob
    simp
  linarith

theorem prob_bij {f g : Ω → Ω} (h1 : ∀ ω, g (f ω) = ω) (h2 : ∀ ω, f (g ω) = ω) (Q : Ω → Prop) : prob (fun ω => Q (f ω)) = prob Q := by
  classical
  unfold prob
  congr 2
  refine Finset.card_bij' (fun ω _ => f ω) (fun ω _ => g ω) ?_ ?_ ?_ ?_
  · intro ω h
    simpa using h
  · intro ω h
    simpa [h2] using h
  · intro ω _
    exact h1 ω
  · intro ω _
    exact h2 ω

theorem prob_fst [Nonempty Ω'] (Q : Ω → Prop) : prob (fun ω : Ω × Ω' => Q ω.1) = prob Q := by
  classical
  unfold prob
  have : (Finset.univ.filter fun ω : Ω × Ω' => Q ω.1) = (Finset.univ.filter Q) ×ˢ Finset.univ := by
    ext ω
    simp
  rw [this, Finset.card_product, Finset.card_univ, Fintype.card_prod]
  have : (Fintype.card Ω' : ℝ) ≠ 0 := by exact_mod_cast Fintype.card_ne_zero
  push_cast
  exact mul_div_mul_right _ _ this

theorem prob_le_of_inj {K : Type} [Fintype K] [Nonempty K] {E : Ω → Prop} (g : Ω → K → Ω)
    (h : ∀ ω ω' k k', E ω → E ω' → g ω k = g ω' k' → ω = ω' ∧ k = k') : prob E ≤ 1 / Fintype.card K := by
  classical
  have h1 : (Finset.univ.filter E ×ˢ (Finset.univ : Finset K)).card ≤ (Finset.univ : Finset Ω).card := by
    refine Finset.card_le_card_of_injOn (fun x => g x.1 x.2) (fun _ _ => Finset.mem_coe.2 (Finset.mem_univ _)) ?_
    rintro ⟨ω, k⟩ hx ⟨ω', k'⟩ hx' he
    simp only [Finset.coe_product, Set.mem_prod, Finset.mem_coe, Finset.mem_filter, Finset.mem_univ, true_and, and_true] at hx hx'
    obtain ⟨e1, e2⟩ := h ω ω' k k' hx hx' he
    rw [e1, e2]
  rw [Finset.card_product, Finset.card_univ, Finset.card_univ] at h1
  unfold prob
  have hK : (0 : ℝ) < Fintype.card K := by exact_mod_cast Fintype.card_pos
  by_cases hΩ : Fintype.card Ω = 0
  · rw [hΩ]
    simp
  · have hΩ' : (0 : ℝ) < Fintype.card Ω := by exact_mod_cast Nat.pos_of_ne_zero hΩ
    rw [div_le_div_iff₀ hΩ' hK, one_mul]
    exact_mod_cast h1

end

section

variable {N M : ℕ} {I : Inst}

/-- Adding bits at a place. -/
def bump (o n : ℕ) (k : Fin n → ZMod 2) (v : Val M) : Val M := fun i => v i + if h : o ≤ i ∧ i - o < n then k ⟨i - o, h.2⟩ else 0

theorem bump_inj {o n : ℕ} (hn : o + n ≤ 8 * M) {k k' : Fin n → ZMod 2} {v v' : Val M} (h : bump o n k v = bump o n k' v')
    (hv : ∀ i, o ≤ i → i < o + n → bits v i = bits v' i) : v = v' ∧ k = k' := by
  have e1 : v = v' := by
    funext i
    by_cases hi : o ≤ (i : ℕ) ∧ (i : ℕ) < o + n
    · have := hv i hi.1 hi.2
      rwa [bits_lt _ i.2, bits_lt _ i.2] at this
    · have := congrFun h i
      simp only [bump] at this
      rw [dif_neg (by omega), dif_neg (by omega), add_zero, add_zero] at this
      exact this
  refine ⟨e1, ?_⟩
  subst e1
  funext x
  have := congrFun h ⟨o + x, by omega⟩
  simp only [bump] at this
  rw [dif_pos ⟨by omega, by omega⟩, dif_pos ⟨by omega, by omega⟩] at this
  have := add_left_cancel this
  simpa using this

theorem bump_off {o n : ℕ} {k k' : Fin n → ZMod 2} {v v' : Val M} (h : bump o n k v = bump o n k' v') {i : ℕ} (hi : i < o ∨ o + n ≤ i) :
    bits v i = bits v' i := by
  by_cases hM : i < 8 * M
  · have := congrFun h ⟨i, hM⟩
    simp only [bump] at this
    rw [dif_neg (by omega), dif_neg (by omega), add_zero, add_zero] at this
    rw [bits_lt _ hM, bits_lt _ hM, this]
  · rw [bits_ge _ (by omega), bits_ge _ (by omega)]

theorem card_keys (n : ℕ) : (Fintype.card (Fin n → ZMod 2) : ℝ) = 2 ^ n := by
  rw [Fintype.card_fun, ZMod.card, Fintype.card_fin]
  norm_num

theorem secrets_bits (a : Answers I M) {i : ℕ} (hi : i < 8 * (3 * I.T * I.seed + 32)) : toBits (secrets a) i = bits (a .secrets) i := by
  unfold secrets bytes
  rw [toBits_ofBits, Spec.trunc, if_pos hi]

theorem seed_pos (t : Fin I.T) (j : Fin 3) : (3 * (t : ℕ) + j) * I.seed + I.seed ≤ 3 * I.T * I.seed := by
  rw [← Nat.succ_mul]
  exact Nat.mul_le_mul_right _ (by have := t.2; omega)

theorem seed_bits (a : Answers I M) (t : Fin I.T) (j : Fin 3) {i : ℕ} (hi : i < 8 * I.seed) :
    toBits (seed a t j) i = bits (a .secrets) (8 * ((3 * t + j) * I.seed) + i) := by
  have := seed_pos t j
  rw [← secrets_bits a (by omega)]
  unfold seed Inst.seedOf
  rw [toBits_eq, toBits_eq, bitsOf_take hi, bitsOf_drop]

theorem salt_bits (a : Answers I M) {i : ℕ} (hi : i < 8 * 32) : toBits (salt a) i = bits (a .secrets) (8 * (3 * I.T * I.seed) + i) := by
  rw [← secrets_bits a (by omega)]
  unfold salt Inst.saltOf
  rw [toBits_eq, toBits_eq, bitsOf_drop]

/-- Events for the seeds and the salt. -/
theorem prob_secrets {o n : ℕ} (hn : o + n ≤ 8 * M) {E : Oracle N M × Answers I M → Prop}
    (h : ∀ (O : Oracle N M) (a a' : Answers I M), E (O, a) → E (O, a') → (∀ i, i < o ∨ o + n ≤ i → bits (a .secrets) i = bits (a' .secrets) i) →
      ∀ i, o ≤ i → i < o + n → bits (a .secrets) i = bits (a' .secrets) i) : prob E ≤ 1 / 2 ^ n := by
  rw [← card_keys]
  refine prob_le_of_inj (K := Fin n → ZMod 2) (fun ω k => (ω.1, Function.update ω.2 .secrets (bump o n k (ω.2 .secrets)))) ?_
  rintro ⟨O, a⟩ ⟨O', a'⟩ k k' hE hE' he
  rw [Prod.mk.injEq] at he
  obtain ⟨e1, e2⟩ := he
  dsimp only at e1 e2
  subst e1
  have e3 : bump o n k (a .secrets) = bump o n k' (a' .secrets) := by
    have := congrFun e2 .secrets
    simpa using this
  obtain ⟨e4, e5⟩ := bump_inj hn e3 (h O a a' hE hE' fun i hi => bump_off e3 hi)
  refine ⟨Prod.ext rfl (funext fun q => ?_), e5⟩
  by_cases hq : q = .secrets
  · rw [hq]; exact e4
  · have := congrFun e2 q
    rwa [Function.update_of_ne hq, Function.update_of_ne hq] at this

theorem prob_seeds (hM : 3 * I.T * I.seed + 32 ≤ M) {t t' : Fin I.T} {j j' : Fin 3} (hne : (t, j) ≠ (t', j')) :
    prob (fun ω : Oracle N M × Answers I M => seed ω.2 t j = seed ω.2 t' j') ≤ 1 / 2 ^ (8 * I.seed) := by
  have h1 := seed_pos t j
  have h2 := seed_pos t' j'
  refine prob_secrets (o := 8 * ((3 * t + j) * I.seed)) (by omega) fun O a a' hE hE' hoff i hi hi' => ?_
  have hne' : 3 * (t : ℕ) + j ≠ 3 * t' + j' := fun e => hne (by
    rw [Prod.mk.injEq]
    exact ⟨Fin.ext (by omega), Fin.ext (by omega)⟩)
  have hdis : (3 * (t : ℕ) + j) * I.seed + I.seed ≤ (3 * t' + j') * I.seed ∨ (3 * (t' : ℕ) + j') * I.seed + I.seed ≤ (3 * t + j) * I.seed := by
    rw [← Nat.succ_mul, ← Nat.succ_mul]
    rcases Nat.lt_or_gt_of_ne hne' with h | h
    · exact Or.inl (Nat.mul_le_mul_right _ h)
    · exact Or.inr (Nat.mul_le_mul_right _ h)
  obtain ⟨x, rfl⟩ := Nat.exists_eq_add_of_le hi
  have hx : x < 8 * I.seed := by omega
  dsimp only at hE hE'
  rw [← seed_bits a t j hx, ← seed_bits a' t j hx, hE, hE', seed_bits a t' j' hx, seed_bits a' t' j' hx]
  exact hoff _ (by omega)

theorem prob_salt (hM : 3 * I.T * I.seed + 32 ≤ M) (x : Bytes) : prob (fun ω : Oracle N M × Answers I M => salt ω.2 = x) ≤ 1 / 2 ^ 256 := by
  refine prob_secrets (o := 8 * (3 * I.T * I.seed)) (by omega) fun O a a' hE hE' hoff i hi hi' => ?_
  obtain ⟨y, rfl⟩ := Nat.exists_eq_add_of_le hi
  dsimp only at hE hE'
  rw [← salt_bits a (by omega), ← salt_bits a' (by omega), hE, hE']

/-- Events for a hash value. -/
theorem prob_hash {n : ℕ} (hM : n ≤ M) (m : Answers I M → Bytes) (hm : ∀ a, (m a).length ≤ N) (y : Oracle N M → Answers I M → Bytes)
    {E : Oracle N M × Answers I M → Prop} (hE : ∀ ω, E ω → Rom.hash ω.1 (m ω.2) n = y ω.1 ω.2)
    (hy : ∀ (O O' : Oracle N M) (a : Answers I M), E (O, a) → (∀ x, x ≠ m a → ask O x = ask O' x) → y O a = y O' a) : prob E ≤ 1 / 2 ^ (8 * n) := by
  rw [← card_keys]
  refine prob_le_of_inj (K := Fin (8 * n) → ZMod 2) (fun ω k => (Function.update ω.1 ⟨m ω.2, hm ω.2⟩ (bump 0 (8 * n) k (ω.1 ⟨m ω.2, hm ω.2⟩)), ω.2)) ?_
  rintro ⟨O, a⟩ ⟨O', a'⟩ k k' h h' he
  rw [Prod.mk.injEq] at he
  obtain ⟨e1, e2⟩ := he
  dsimp only at e1 e2
  subst e2
  have e3 : bump 0 (8 * n) k (O ⟨m a, hm a⟩) = bump 0 (8 * n) k' (O' ⟨m a, hm a⟩) := by
    have := congrFun e1 ⟨m a, hm a⟩
    simpa using this
  have hoff : ∀ x : Arg N, x.1 ≠ m a → O x = O' x := fun x hx => by
    have := congrFun e1 x
    have hx' : x ≠ ⟨m a, hm a⟩ := fun e => hx (by rw [e])
    rwa [Function.update_of_ne hx', Function.update_of_ne hx'] at this
  have hys : y O a = y O' a := hy O O' a h fun x hx => by
    unfold ask
    split_ifs with hl
    · exact hoff ⟨x, hl⟩ hx
    · rfl
  have hh := (hE _ h).trans (hys.trans (hE _ h').symm)
  dsimp only at hh
  obtain ⟨e4, e5⟩ := bump_inj (by omega) e3 fun i _ hi => by
    have := congrFun (congrArg toBits hh) i
    unfold Rom.hash bytes at this
    rw [toBits_ofBits, toBits_ofBits, Spec.trunc, Spec.trunc, if_pos (by omega), if_pos (by omega)] at this
    unfold ask at this
    rwa [dif_pos (hm a), dif_pos (hm a)] at this
  refine ⟨Prod.ext (funext fun x => ?_) rfl, e5⟩
  by_cases hx : x.1 = m a
  · have : x = ⟨m a, hm a⟩ := Subtype.ext hx
    rw [this]
    exact e4
  · exact hoff x hx

theorem text_com_ne {s s' : Bytes} (h : s ≠ s') : Use.text (T := I.T) I (.comSeed s) ≠ Use.text (T := I.T) I (.comSeed s') := by
  simpa [Use.text] using h

theorem text_g_ne {s s' : Bytes} (h : s ≠ s') : Use.text (T := I.T) I (.gSeed s) ≠ Use.text (T := I.T) I (.gSeed s') := by
  simpa [Use.text] using h

section

variable (hM : I.digest ≤ M) (hN : I.seed + 1 ≤ N)

include hM hN

theorem prob_coms (t t' : Fin I.T) (j j' : Fin 3) :
    prob (fun ω : Oracle N M × Answers I M => seed ω.2 t j ≠ seed ω.2 t' j' ∧ comDig ω.1 ω.2 t j = comDig ω.1 ω.2 t' j') ≤ 1 / 2 ^ (8 * I.digest) := by
  refine prob_hash hM (fun a => Use.text (T := I.T) I (.comSeed (seed a t j))) (fun a => ?_) (fun O a => comDig O a t' j') (fun ω h => h.2)
    fun O O' a h hx => ?_
  · simp only [Use.text, List.length_append, List.length_singleton]
    rw [seed_len a t j.2]
    omega
  · unfold comDig Rom.hash
    rw [hx _ (text_com_ne (Ne.symm h.1))]

theorem prob_gs (t t' : Fin I.T) (j j' : Fin 3) :
    prob (fun ω : Oracle N M × Answers I M => seed ω.2 t j ≠ seed ω.2 t' j' ∧ gDig ω.1 ω.2 t j = gDig ω.1 ω.2 t' j') ≤ 1 / 2 ^ (8 * I.digest) := by
  refine prob_hash hM (fun a => Use.text (T := I.T) I (.gSeed (seed a t j))) (fun a => ?_) (fun O a => gDig O a t' j') (fun ω h => h.2)
    fun O O' a h hx => ?_
  · simp only [Use.text, List.length_append, List.length_singleton]
    rw [seed_len a t j.2]
    omega
  · unfold gDig Rom.hash
    rw [hx _ (text_g_ne (Ne.symm h.1))]

theorem prob_com (t : Fin I.T) (j : Fin 3) (x : Bytes) : prob (fun ω : Oracle N M × Answers I M => comDig ω.1 ω.2 t j = x) ≤ 1 / 2 ^ (8 * I.digest) := by
  refine prob_hash hM (fun a => Use.text (T := I.T) I (.comSeed (seed a t j))) (fun a => ?_) (fun _ _ => x) (fun ω h => h) fun _ _ _ _ _ => rfl
  simp only [Use.text, List.length_append, List.length_singleton]
  rw [seed_len a t j.2]
  omega

theorem prob_g (t : Fin I.T) (j : Fin 3) (x : Bytes) : prob (fun ω : Oracle N M × Answers I M => gDig ω.1 ω.2 t j = x) ≤ 1 / 2 ^ (8 * I.digest) := by
  refine prob_hash hM (fun a => Use.text (T := I.T) I (.gSeed (seed a t j))) (fun a => ?_) (fun _ _ => x) (fun ω h => h) fun _ _ _ _ _ => rfl
  simp only [Use.text, List.length_append, List.length_singleton]
  rw [seed_len a t j.2]
  omega

end

variable {sk ct pt msg : Bytes}

/-- What makes strings equal has a small probability. -/
theorem prob_apart {p : ℕ} (hI : I.Is p) (hM : 3 * I.T * I.seed + 32 ≤ M) (hM' : I.digest ≤ M) (hN : I.seed + 1 ≤ N) :
    prob (fun ω : Oracle N M × Answers I M => ¬ Apart I sk ct pt msg ω.1 ω.2) ≤ 2 * (3 * I.T) ^ 2 / 2 ^ (8 * I.seed) := by
  have hs := rom_sizes hI
  have hT : 1 ≤ I.T := by
    have hz := zkb_sizes hI
    rcases Nat.eq_zero_or_pos I.T with h | h
    · rw [h] at hz; omega
    · exact h
  let D := Fin I.T × Fin 3
  have h1 : prob (fun ω : Oracle N M × Answers I M => ∃ i : D × D, i.1 ≠ i.2 ∧ seed ω.2 i.1.1 i.1.2 = seed ω.2 i.2.1 i.2.2) ≤
      Fintype.card (D × D) * (1 / 2 ^ (8 * I.seed)) := prob_exists fun i => by
    by_cases hi : i.1 = i.2
    · refine le_trans (prob_mono (Q' := fun _ => False) fun ω h => h.1 hi) ?_
      unfold prob
      simp
    · exact le_trans (prob_mono fun ω h => h.2) (prob_seeds hM hi)
  have h2 : prob (fun ω : Oracle N M × Answers I M => ∃ i : D × D, seed ω.2 i.1.1 i.1.2 ≠ seed ω.2 i.2.1 i.2.2 ∧
      comDig ω.1 ω.2 i.1.1 i.1.2 = comDig ω.1 ω.2 i.2.1 i.2.2) ≤ Fintype.card (D × D) * (1 / 2 ^ (8 * I.digest)) := prob_exists fun i => prob_coms hM' hN _ _ _ _
  have h3 : prob (fun ω : Oracle N M × Answers I M => ∃ i : D × D, seed ω.2 i.1.1 i.1.2 ≠ seed ω.2 i.2.1 i.2.2 ∧
      gDig ω.1 ω.2 i.1.1 i.1.2 = gDig ω.1 ω.2 i.2.1 i.2.2) ≤ Fintype.card (D × D) * (1 / 2 ^ (8 * I.digest)) := prob_exists fun i => prob_gs hM' hN _ _ _ _
  have h4 := prob_salt (N := N) (I := I) hM (((I.secretString sk ct pt msg).drop I.digest).take 32)
  have h5 : prob (fun ω : Oracle N M × Answers I M => ∃ i : D, comDig ω.1 ω.2 i.1 i.2 = ((I.secretString sk ct pt msg).drop 1).take I.digest) ≤
      Fintype.card D * (1 / 2 ^ (8 * I.digest)) := prob_exists fun i => prob_com hM' hN _ _ _
  have h6 : prob (fun ω : Oracle N M × Answers I M => ∃ i : D, gDig ω.1 ω.2 i.1 i.2 = (I.secretString sk ct pt msg).take I.digest) ≤
      Fintype.card D * (1 / 2 ^ (8 * I.digest)) := prob_exists fun i => prob_g hM' hN _ _ _
  have hbad : ∀ ω : Oracle N M × Answers I M, ¬ Apart I sk ct pt msg ω.1 ω.2 →
      (∃ i : D × D, i.1 ≠ i.2 ∧ seed ω.2 i.1.1 i.1.2 = seed ω.2 i.2.1 i.2.2) ∨
      ((∃ i : D × D, seed ω.2 i.1.1 i.1.2 ≠ seed ω.2 i.2.1 i.2.2 ∧ comDig ω.1 ω.2 i.1.1 i.1.2 = comDig ω.1 ω.2 i.2.1 i.2.2) ∨
      ((∃ i : D × D, seed ω.2 i.1.1 i.1.2 ≠ seed ω.2 i.2.1 i.2.2 ∧ gDig ω.1 ω.2 i.1.1 i.1.2 = gDig ω.1 ω.2 i.2.1 i.2.2) ∨
      (salt ω.2 = ((I.secretString sk ct pt msg).drop I.digest).take 32 ∨
      ((∃ i : D, comDig ω.1 ω.2 i.1 i.2 = ((I.secretString sk ct pt msg).drop 1).take I.digest) ∨
      (∃ i : D, gDig ω.1 ω.2 i.1 i.2 = (I.secretString sk ct pt msg).take I.digest))))) := fun ω h => by
    by_contra hn
    push Not at hn
    obtain ⟨n1, n2, n3, n4, n5, n6⟩ := hn
    exact h ⟨fun t t' j j' hne => n1 ((t, j), (t', j')) hne, fun t t' j j' hne => n2 ((t, j), (t', j')) hne,
      fun t t' j j' hne => n3 ((t, j), (t', j')) hne, n4, fun t j => n5 (t, j), fun t j => n6 (t, j)⟩
  have key := le_trans (prob_mono hbad) (le_trans (prob_or _ _) (add_le_add h1 (le_trans (prob_or _ _) (add_le_add h2 (le_trans (prob_or _ _) (add_le_add h3
    (le_trans (prob_or _ _) (add_le_add h4 (le_trans (prob_or _ _) (add_le_add h5 h6))))))))))
  refine le_trans key ?_
  have hcD : (Fintype.card D : ℝ) = 3 * I.T := by
    rw [Fintype.card_prod, Fintype.card_fin, Fintype.card_fin]
    push_cast
    ring
  have hcDD : (Fintype.card (D × D) : ℝ) = (3 * I.T) ^ 2 := by
    rw [Fintype.card_prod]
    push_cast
    rw [hcD]
    ring
  rw [hcD, hcDD, hs.2.2.2.1, show 8 * (2 * I.seed) = 8 * I.seed + 8 * I.seed by ring, pow_add]
  have hb1 : (2 : ℝ) ^ 128 ≤ 2 ^ (8 * I.seed) := pow_le_pow_right₀ (by norm_num) (by omega)
  have hb2 : (2 : ℝ) ^ (8 * I.seed) ≤ 2 ^ 256 := pow_le_pow_right₀ (by norm_num) (by omega)
  have hT1 : (1 : ℝ) ≤ I.T := by exact_mod_cast hT
  have hT2 : (I.T : ℝ) ≤ 512 := by
    have : I.T ≤ 512 := by omega
    exact_mod_cast this
  generalize (2 : ℝ) ^ (8 * I.seed) = b at *
  generalize (I.T : ℝ) = T at *
  have hb : (0 : ℝ) < b := lt_of_lt_of_le (by norm_num) hb1
  have q1 : 1 / (2 : ℝ) ^ 256 ≤ 1 / b := one_div_le_one_div_of_le hb hb2
  have q2 : 1 / (b * b) ≤ 1 / b * (1 / 2 ^ 128) := by
    rw [one_div_mul_one_div]
    exact one_div_le_one_div_of_le (by positivity) (by gcongr)
  have hi : 0 < 1 / b := by positivity
  have h3T : (0 : ℝ) ≤ (3 * T) ^ 2 := by positivity
  have c1 : (3 * T) ^ 2 * (1 / (b * b)) ≤ (3 * T) ^ 2 * (1 / b * (1 / 2 ^ 128)) := mul_le_mul_of_nonneg_left q2 h3T
  have c2 : (3 * T) * (1 / (b * b)) ≤ (3 * T) * (1 / b * (1 / 2 ^ 128)) := mul_le_mul_of_nonneg_left q2 (by positivity)
  have c3 : 2 * ((3 * T) ^ 2 * (1 / b * (1 / 2 ^ 128))) + 1 / b + 2 * ((3 * T) * (1 / b * (1 / 2 ^ 128))) ≤ (3 * T) ^ 2 * (1 / b) := by
    have d1 : (3 * T) ^ 2 * (1 / 2 ^ 128) ≤ 1 := by
      have : (3 * T) ^ 2 ≤ (2 : ℝ) ^ 128 := by nlinarith
      rw [mul_one_div]
      exact (div_le_one (by positivity)).2 this
    have d2 : (3 * T) * (1 / 2 ^ 128) ≤ 1 := by
      have : (3 * T) ≤ (2 : ℝ) ^ 128 := by linarith
      rw [mul_one_div]
      exact (div_le_one (by positivity)).2 this
    have d3 : 9 ≤ (3 * T) ^ 2 := by nlinarith
    have : 2 * ((3 * T) ^ 2 * (1 / 2 ^ 128)) + 1 + 2 * ((3 * T) * (1 / 2 ^ 128)) ≤ (3 * T) ^ 2 := by linarith
    have := mul_le_mul_of_nonneg_right this hi.le
    calc _ = (2 * ((3 * T) ^ 2 * (1 / 2 ^ 128)) + 1 + 2 * ((3 * T) * (1 / 2 ^ 128))) * (1 / b) := by ring
      _ ≤ _ := this
  calc _ = (3 * T) ^ 2 * (1 / b) + (2 * ((3 * T) ^ 2 * (1 / (b * b))) + 1 / (2 : ℝ) ^ 256 + 2 * ((3 * T) * (1 / (b * b)))) := by ring
    _ ≤ (3 * T) ^ 2 * (1 / b) + (3 * T) ^ 2 * (1 / b) := by linarith
    _ = _ := by ring

/-- Two strings are equal with a small probability. -/
theorem prob_bad {p : ℕ} (hI : I.Is p) (hsk : sk.length = I.blk) (hct : ct.length = I.blk) (hpt : pt.length = I.blk) (hM : 3 * I.T * I.seed + 32 ≤ M)
    (hM' : I.digest ≤ M) (hN : I.seed + 1 ≤ N) :
    prob (fun ω : Oracle N M × Answers I M => ¬ Good I sk ct pt msg ω.1 ω.2) ≤ 2 * (3 * I.T) ^ 2 / 2 ^ (8 * I.seed) :=
  le_trans (prob_mono fun _ h ha => h (good_of hI hsk hct hpt ha)) (prob_apart hI hM hM' hN)

end

end Picnic.Rom
