import Verif.Proofs.RomSigner

/-
C62: several signatures; it is unlikely that a signer asks for a string into which the simulator writes for another message, or for the string with the
secret key for another message.
-/

namespace Picnic.Rom

open Spec Spec.Zkb Spec.Rom Spec.Picnic1 Spec.Challenge

variable {N M : ℕ} {I : Inst} {sk ct pt msg : Bytes} {β : Type}

/-- Events for one answer. -/
theorem prob_answer {n : ℕ} (hM : n ≤ M) (q : Query I.T I.unruh) {E : Oracle N M × Answers I M → Prop}
    (h : ∀ (O : Oracle N M) (a a' : Answers I M), E (O, a) → E (O, a') → (∀ q', q' ≠ q → a q' = a' q') → bytes n (a q) = bytes n (a' q)) :
    prob E ≤ 1 / 2 ^ (8 * n) := by
  rw [← card_keys]
  refine prob_le_of_inj (K := Fin (8 * n) → ZMod 2) (fun ω k => (ω.1, Function.update ω.2 q (bump 0 (8 * n) k (ω.2 q)))) ?_
  rintro ⟨O, a⟩ ⟨O', a'⟩ k k' hE hE' he
  rw [Prod.mk.injEq] at he
  obtain ⟨e1, e2⟩ := he
  dsimp only at e1 e2
  subst e1
  have hq : ∀ q', q' ≠ q → a q' = a' q' := fun q' hq => by
    have := congrFun e2 q'
    rwa [Function.update_of_ne hq, Function.update_of_ne hq] at this
  have e3 : bump 0 (8 * n) k (a q) = bump 0 (8 * n) k' (a' q) := by
    have := congrFun e2 q
    simpa using this
  have hb := h O a a' hE hE' hq
  obtain ⟨e4, e5⟩ := bump_inj (by omega) e3 fun i _ hi => by
    have := congrFun (congrArg toBits hb) i
    unfold bytes at this
    rwa [toBits_ofBits, toBits_ofBits, Spec.trunc, Spec.trunc, if_pos (by omega), if_pos (by omega)] at this
  refine ⟨Prod.ext rfl (funext fun q' => ?_), e5⟩
  by_cases hqs : q' = q
  · rw [hqs]; exact e4
  · exact hq q' hqs

theorem T_pos {p : ℕ} (hI : I.Is p) : 0 < I.T := by
  have hz := zkb_sizes hI
  rcases Nat.eq_zero_or_pos I.T with h | h
  · rw [h] at hz; omega
  · exact h

theorem seed_digest {p : ℕ} (hI : I.Is p) : (1 : ℝ) / 2 ^ (8 * I.digest) ≤ 1 / 2 ^ (8 * I.seed) ∧ (1 : ℝ) / 2 ^ 256 ≤ 1 / 2 ^ (8 * I.seed) := by
  have hs := rom_sizes hI
  constructor
  · exact one_div_le_one_div_of_le (by positivity) (pow_le_pow_right₀ (by norm_num) (by omega))
  · exact one_div_le_one_div_of_le (by positivity) (pow_le_pow_right₀ (by norm_num) (by omega))

theorem salt_of_tape {x d s : Bytes} {t j len : ℕ} (hd : d.length = I.digest) (hs : s.length = 32) (h : x = Use.text (T := I.T) I (.tape d s t j len)) :
    (x.drop I.digest).take 32 = s := by
  rw [h]
  simp only [Use.text, List.append_assoc]
  rw [List.drop_append_of_le_length (by omega), List.drop_of_length_le (by omega), List.nil_append, List.take_append_of_le_length (by omega),
    List.take_of_length_le (by omega)]

/-! ### What the simulator writes -/

theorem sim_digest_wf (hct : ct.length = I.blk) (hpt : pt.length = I.blk) (a : Answers I M) (e : List ℕ) :
    Use.WF I (Use.challenge (fun t j => (simView I ct pt a e t j).out) (fun t j => bytes I.digest (a (.com t j)))
      (if h : I.unruh = true then some fun t j => bytes (I.gLen j) (a (.g h t j)) else none) ct pt (salt a) msg) := by
  simp only [Use.WF]
  refine ⟨fun t j => ?_, fun _ _ => bytes_len' _ _, ?_, fun G hG => ?_, hct, hpt, salt_len a⟩
  · unfold simView
    dsimp only
    split_ifs
    · exact ofBits_len' _ _
    · exact ofBits_len' _ _
  · by_cases hu : I.unruh = true
    · rw [dif_pos hu]
      exact hu.symm
    · rw [dif_neg hu]
      simp [hu]
  · by_cases hu : I.unruh = true
    · rw [dif_pos hu, Option.mem_def, Option.some.injEq] at hG
      intro t j
      rw [← hG]
      exact bytes_len' _ _
    · rw [dif_neg hu] at hG
      simp at hG

theorem sim_digest_com {p : ℕ} (hI : I.Is p) (hct : ct.length = I.blk) (hpt : pt.length = I.blk) {O : Oracle N M} {a a' : Answers I M} {e : List ℕ}
    (h : spts I ct pt msg O a e .digest = spts I ct pt msg O a' e .digest) (t : Fin I.T) (j : Fin 3) :
    bytes I.digest (a (.com t j)) = bytes I.digest (a' (.com t j)) := by
  unfold spts at h
  simp only [point] at h
  have := C59_zkb I p hI _ _ (sim_digest_wf hct hpt a e) (sim_digest_wf hct hpt a' e) h
  rw [Use.challenge.injEq] at this
  exact congrFun (congrFun this.2.1 t) j

variable (ct pt msg) in
/-- Something is asked for that the simulator writes. -/
def Clash (L : Local N M I β) (O : Oracle N M) (a : Answers I M) : Prop :=
  ∃ e, challenge I O (bytes I.digest (a .digest)) = some e ∧ ∃ x ∈ L.asked O, ∃ q, Shown e q ∧ spts I ct pt msg O a e q = x.1

theorem prob_clash_salt (hM : 3 * I.T * I.seed + 32 ≤ M) (L : Local N M I β) (i : ℕ) :
    prob (fun ω : Oracle N M × Answers I M => ∃ x, (L.asked ω.1)[i]? = some x ∧ (x.1.drop I.digest).take 32 = salt ω.2) ≤ 1 / 2 ^ 256 := by
  refine prob_secrets (o := 8 * (3 * I.T * I.seed)) (by omega) fun O a a' hE hE' hoff i hi hi' => ?_
  obtain ⟨y, rfl⟩ := Nat.exists_eq_add_of_le hi
  obtain ⟨x, hx, h1⟩ := hE
  obtain ⟨x', hx', h1'⟩ := hE'
  dsimp only at hx hx' h1 h1'
  rw [hx, Option.some.injEq] at hx'
  rw [← salt_bits a (by omega), ← salt_bits a' (by omega), ← h1, ← h1', hx']

theorem prob_clash_seed (hM : 3 * I.T * I.seed + 32 ≤ M) (L : Local N M I β) (t : Fin I.T) (j : Fin 3) (i : ℕ) :
    prob (fun ω : Oracle N M × Answers I M => ∃ k x, (L.asked ω.1)[i]? = some x ∧ x.1 = seedText I k (seed ω.2 t j)) ≤ 1 / 2 ^ (8 * I.seed) := by
  have h1 := seed_pos t j
  refine prob_secrets (o := 8 * ((3 * t + j) * I.seed)) (by omega) fun O a a' hE hE' hoff i hi hi' => ?_
  obtain ⟨k, x, hx, he⟩ := hE
  obtain ⟨k', x', hx', he'⟩ := hE'
  dsimp only at hx hx' he he'
  rw [hx, Option.some.injEq] at hx'
  rw [← hx', he] at he'
  have hse := seedText_inj he'
  obtain ⟨y, rfl⟩ := Nat.exists_eq_add_of_le hi
  have hy : y < 8 * I.seed := by omega
  rw [← seed_bits a t _ hy, ← seed_bits a' t _ hy, hse]

theorem prob_clash_digest (hM : I.digest ≤ M) (hN : I.seed + 1 ≤ N) (L : Local N M I β) (t : Fin I.T) (j k : Fin 3) (i : ℕ) :
    prob (fun ω : Oracle N M × Answers I M => (∀ x ∈ L.asked ω.1, x.1 ≠ seedText I k (seed ω.2 t j)) ∧
      ∃ x, (L.asked ω.1)[i]? = some x ∧ Rom.hash ω.1 (seedText I k (seed ω.2 t j)) I.digest = digestOf I k x.1) ≤ 1 / 2 ^ (8 * I.digest) := by
  refine prob_hash hM (fun a => seedText I k (seed a t j)) (fun a => ?_) (fun O a => ((L.asked O)[i]?).elim [] fun x => digestOf I k x.1) (fun ω hE => ?_)
    (fun O O' a hE hoff => ?_)
  · rw [seedText_len, seed_len a t j.2]
    omega
  · obtain ⟨-, x, hx, he⟩ := hE
    rw [hx, Option.elim_some, he]
  · obtain ⟨hno, -⟩ := hE
    dsimp only at hno hoff ⊢
    have := (L.congr O O' (fun x hx => by
      have := hoff x.1 (hno x hx)
      unfold ask at this
      rwa [dif_pos x.2, dif_pos x.2] at this) fun d _ => hoff _ (Ne.symm (seedText_next k _ d))).2
    rw [this]

theorem prob_clash_com {p : ℕ} (hI : I.Is p) (hct : ct.length = I.blk) (hpt : pt.length = I.blk) (hM : I.digest ≤ M) (L : Local N M I β) (i : ℕ) :
    prob (fun ω : Oracle N M × Answers I M => ∃ e, challenge I ω.1 (bytes I.digest (ω.2 .digest)) = some e ∧
      ∃ x, (L.asked ω.1)[i]? = some x ∧ spts I ct pt msg ω.1 ω.2 e .digest = x.1) ≤ 1 / 2 ^ (8 * I.digest) := by
  refine prob_answer hM (.com ⟨0, T_pos hI⟩ 0) ?_
  rintro O a a' ⟨e, he, x, hx, h⟩ ⟨e', he', x', hx', h'⟩ hq
  dsimp only at he he' hx hx' h h'
  rw [← hq .digest (by simp), he, Option.some.injEq] at he'
  rw [hx, Option.some.injEq] at hx'
  subst he' hx'
  exact sim_digest_com hI hct hpt (h.trans h'.symm) _ _

theorem prob_clash {p : ℕ} (hI : I.Is p) (hct : ct.length = I.blk) (hpt : pt.length = I.blk) (hM : 3 * I.T * I.seed + 32 ≤ M) (hM' : I.digest ≤ M)
    (hN : I.seed + 1 ≤ N) {R : ℕ} (L : Local N M I β) (hL : ∀ O, (L.asked O).length ≤ R) :
    prob (fun ω : Oracle N M × Answers I M => Clash ct pt msg L ω.1 ω.2) ≤ (12 * I.T + 2) * R / 2 ^ (8 * I.seed) := by
  have h1 := prob_exists (ι := Fin R) (Q := fun i (ω : Oracle N M × Answers I M) => ∃ x, (L.asked ω.1)[(i : ℕ)]? = some x ∧ (x.1.drop I.digest).take 32 = salt ω.2)
    fun i => prob_clash_salt hM L i
  have h2 := prob_exists (ι := Fin I.T × Fin 3 × Fin R) (Q := fun u (ω : Oracle N M × Answers I M) => ∃ k x, (L.asked ω.1)[(u.2.2 : ℕ)]? = some x ∧
    x.1 = seedText I k (seed ω.2 u.1 u.2.1)) fun u => prob_clash_seed hM L u.1 u.2.1 u.2.2
  have h3 := prob_exists (ι := Fin I.T × Fin 3 × Fin 3 × Fin R) (Q := fun u (ω : Oracle N M × Answers I M) =>
    (∀ x ∈ L.asked ω.1, x.1 ≠ seedText I u.2.2.1 (seed ω.2 u.1 u.2.1)) ∧
      ∃ x, (L.asked ω.1)[(u.2.2.2 : ℕ)]? = some x ∧ Rom.hash ω.1 (seedText I u.2.2.1 (seed ω.2 u.1 u.2.1)) I.digest = digestOf I u.2.2.1 x.1)
    fun u => prob_clash_digest hM' hN L u.1 u.2.1 u.2.2.1 u.2.2.2
  have h4 := prob_exists (ι := Fin R) (Q := fun i (ω : Oracle N M × Answers I M) => ∃ e, challenge I ω.1 (bytes I.digest (ω.2 .digest)) = some e ∧
      ∃ x, (L.asked ω.1)[(i : ℕ)]? = some x ∧ spts I ct pt msg ω.1 ω.2 e .digest = x.1) fun i => prob_clash_com hI hct hpt hM' L i
  have hcov : ∀ ω : Oracle N M × Answers I M, Clash ct pt msg L ω.1 ω.2 →
      (∃ i : Fin R, ∃ x, (L.asked ω.1)[(i : ℕ)]? = some x ∧ (x.1.drop I.digest).take 32 = salt ω.2) ∨
      ((∃ u : Fin I.T × Fin 3 × Fin R, ∃ k x, (L.asked ω.1)[(u.2.2 : ℕ)]? = some x ∧ x.1 = seedText I k (seed ω.2 u.1 u.2.1)) ∨
      ((∃ u : Fin I.T × Fin 3 × Fin 3 × Fin R, (∀ x ∈ L.asked ω.1, x.1 ≠ seedText I u.2.2.1 (seed ω.2 u.1 u.2.1)) ∧
        ∃ x, (L.asked ω.1)[(u.2.2.2 : ℕ)]? = some x ∧ Rom.hash ω.1 (seedText I u.2.2.1 (seed ω.2 u.1 u.2.1)) I.digest = digestOf I u.2.2.1 x.1) ∨
      (∃ i : Fin R, ∃ e, challenge I ω.1 (bytes I.digest (ω.2 .digest)) = some e ∧
        ∃ x, (L.asked ω.1)[(i : ℕ)]? = some x ∧ spts I ct pt msg ω.1 ω.2 e .digest = x.1))) := by
    rintro ⟨O, a⟩ ⟨e, he, x, hx, q, hq, h⟩
    dsimp only at he hx h ⊢
    obtain ⟨i, hi, hxi⟩ := List.getElem_of_mem hx
    have hget : (L.asked O)[i]? = some x := by rw [List.getElem?_eq_getElem hi, hxi]
    have hiR : i < R := lt_of_lt_of_le hi (hL O)
    have hdig : ∀ (t : Fin I.T) (j k : Fin 3), Rom.hash O (seedText I k (seed a t j)) I.digest = digestOf I k x.1 →
        (∃ u : Fin I.T × Fin 3 × Fin R, ∃ k x, (L.asked O)[(u.2.2 : ℕ)]? = some x ∧ x.1 = seedText I k (seed a u.1 u.2.1)) ∨
        (∃ u : Fin I.T × Fin 3 × Fin 3 × Fin R, (∀ x ∈ L.asked O, x.1 ≠ seedText I u.2.2.1 (seed a u.1 u.2.1)) ∧
        ∃ x, (L.asked O)[(u.2.2.2 : ℕ)]? = some x ∧ Rom.hash O (seedText I u.2.2.1 (seed a u.1 u.2.1)) I.digest = digestOf I u.2.2.1 x.1) := by
      intro t j k hk
      by_cases hno : ∀ x ∈ L.asked O, x.1 ≠ seedText I k (seed a t j)
      · exact Or.inr ⟨(t, j, k, ⟨i, hiR⟩), hno, x, hget, hk⟩
      · push Not at hno
        obtain ⟨z, hz, hze⟩ := hno
        obtain ⟨i', hi', hzi⟩ := List.getElem_of_mem hz
        exact Or.inl ⟨(t, j, ⟨i', lt_of_lt_of_le hi' (hL O)⟩), k, z, by dsimp only; rw [List.getElem?_eq_getElem hi', hzi], hze⟩
    cases q with
    | secrets => exact hq.elim
    | tape t j =>
      unfold spts at h
      simp only [point] at h
      exact Or.inl ⟨⟨i, hiR⟩, x, hget, salt_of_tape (hash_len _ _ _) (salt_len a) h.symm⟩
    | com t j =>
      unfold spts at h
      simp only [point] at h
      rcases hdig t j 1 (digestOf_com (hash_len _ _ _) h.symm).symm with h | h
      · exact Or.inr (Or.inl h)
      · exact Or.inr (Or.inr (Or.inl h))
    | g hu t j =>
      unfold spts at h
      simp only [point] at h
      rcases hdig t j 2 (digestOf_g (hash_len _ _ _) h.symm).symm with h | h
      · exact Or.inr (Or.inl h)
      · exact Or.inr (Or.inr (Or.inl h))
    | digest => exact Or.inr (Or.inr (Or.inr ⟨⟨i, hiR⟩, e, he, x, hget, h⟩))
  have key := le_trans (prob_mono hcov) (le_trans (prob_or _ _) (add_le_add h1 (le_trans (prob_or _ _) (add_le_add h2 (le_trans (prob_or _ _) (add_le_add h3 h4))))))
  refine le_trans key ?_
  obtain ⟨q1, q2⟩ := seed_digest hI
  simp only [Fintype.card_prod, Fintype.card_fin]
  push_cast
  have m1 : (R : ℝ) * (1 / 2 ^ 256) ≤ R * (1 / 2 ^ (8 * I.seed)) := mul_le_mul_of_nonneg_left q2 (by positivity)
  have m2 : (I.T * (3 * (3 * R)) : ℝ) * (1 / 2 ^ (8 * I.digest)) ≤ (I.T * (3 * (3 * R)) : ℝ) * (1 / 2 ^ (8 * I.seed)) := mul_le_mul_of_nonneg_left q1 (by positivity)
  have m3 : (R : ℝ) * (1 / 2 ^ (8 * I.digest)) ≤ R * (1 / 2 ^ (8 * I.seed)) := mul_le_mul_of_nonneg_left q1 (by positivity)
  calc _ ≤ (R : ℝ) * (1 / 2 ^ (8 * I.seed)) + ((I.T * (3 * R) : ℝ) * (1 / 2 ^ (8 * I.seed)) + ((I.T * (3 * (3 * R)) : ℝ) * (1 / 2 ^ (8 * I.seed)) + R * (1 / 2 ^ (8 * I.seed)))) := by
        linarith
    _ = _ := by ring

/-! ### What the signer asks -/

theorem digest_com {p : ℕ} (hI : I.Is p) (hct : ct.length = I.blk) (hpt : pt.length = I.blk) {O : Oracle N M} {a a' : Answers I M}
    (h : pts I sk ct pt msg O a .digest = pts I sk ct pt msg O a' .digest) (t : Fin I.T) (j : Fin 3) :
    bytes I.digest (a (.com t j)) = bytes I.digest (a' (.com t j)) := by
  rw [pts_use O a (by simp), pts_use O a' (by simp)] at h
  have := C59_zkb I p hI _ _ (use_wf hI hct hpt O a (by simp)) (use_wf hI hct hpt O a' (by simp)) h
  simp only [useOf] at this
  rw [Use.challenge.injEq] at this
  exact congrFun (congrFun this.2.1 t) j

theorem prob_pts_eq {p : ℕ} (hI : I.Is p) (hct : ct.length = I.blk) (hpt : pt.length = I.blk) (hM : 3 * I.T * I.seed + 32 ≤ M) (hM' : I.digest ≤ M)
    (hN : I.seed + 1 ≤ N) {S : Bytes} (hS : I.secretString sk ct pt msg ≠ S) :
    prob (fun ω : Oracle N M × Answers I M => ∃ q, pts I sk ct pt msg ω.1 ω.2 q = S) ≤ (6 * I.T + 2) / 2 ^ (8 * I.seed) := by
  have h1 := prob_salt (N := N) (I := I) hM ((S.drop I.digest).take 32)
  have h2 := prob_exists (ι := Fin I.T × Fin 3) (Q := fun i (ω : Oracle N M × Answers I M) => comDig ω.1 ω.2 i.1 i.2 = digestOf I 1 S) fun i => prob_com hM' hN i.1 i.2 _
  have h3 := prob_exists (ι := Fin I.T × Fin 3) (Q := fun i (ω : Oracle N M × Answers I M) => gDig ω.1 ω.2 i.1 i.2 = digestOf I 2 S) fun i => prob_g hM' hN i.1 i.2 _
  have h4 : prob (fun ω : Oracle N M × Answers I M => pts I sk ct pt msg ω.1 ω.2 .digest = S) ≤ 1 / 2 ^ (8 * I.digest) :=
    prob_answer hM' (.com ⟨0, T_pos hI⟩ 0) fun O a a' h h' _ => digest_com hI hct hpt (h.trans h'.symm) _ _
  have hcov : ∀ ω : Oracle N M × Answers I M, (∃ q, pts I sk ct pt msg ω.1 ω.2 q = S) →
      salt ω.2 = (S.drop I.digest).take 32 ∨ ((∃ i : Fin I.T × Fin 3, comDig ω.1 ω.2 i.1 i.2 = digestOf I 1 S) ∨
      ((∃ i : Fin I.T × Fin 3, gDig ω.1 ω.2 i.1 i.2 = digestOf I 2 S) ∨ pts I sk ct pt msg ω.1 ω.2 .digest = S)) := by
    rintro ⟨O, a⟩ ⟨q, hq⟩
    dsimp only at hq ⊢
    cases q with
    | secrets =>
      unfold pts at hq
      simp only [point] at hq
      exact absurd hq hS
    | tape t j =>
      unfold pts at hq
      simp only [point] at hq
      exact Or.inl (salt_of_tape (hash_len _ _ _) (salt_len a) hq.symm).symm
    | com t j =>
      unfold pts at hq
      simp only [point] at hq
      exact Or.inr (Or.inl ⟨(t, j), (digestOf_com (hash_len _ _ _) hq.symm).symm⟩)
    | g hu t j =>
      unfold pts at hq
      simp only [point] at hq
      exact Or.inr (Or.inr (Or.inl ⟨(t, j), (digestOf_g (hash_len _ _ _) hq.symm).symm⟩))
    | digest => exact Or.inr (Or.inr (Or.inr hq))
  refine le_trans (le_trans (prob_mono hcov) (le_trans (prob_or _ _) (add_le_add h1 (le_trans (prob_or _ _) (add_le_add h2 (le_trans (prob_or _ _) (add_le_add h3 h4))))))) ?_
  obtain ⟨q1, q2⟩ := seed_digest hI
  simp only [Fintype.card_prod, Fintype.card_fin]
  push_cast
  have m2 : (I.T * 3 : ℝ) * (1 / 2 ^ (8 * I.digest)) ≤ (I.T * 3 : ℝ) * (1 / 2 ^ (8 * I.seed)) := mul_le_mul_of_nonneg_left q1 (by positivity)
  calc _ ≤ (1 : ℝ) / 2 ^ (8 * I.seed) + ((I.T * 3 : ℝ) * (1 / 2 ^ (8 * I.seed)) + ((I.T * 3 : ℝ) * (1 / 2 ^ (8 * I.seed)) + 1 / 2 ^ (8 * I.seed))) := by linarith
    _ = _ := by ring

/-- A signer is unlikely to ask for a given string other than that with its secret key and message. -/
theorem prob_signer_asks {p : ℕ} (hI : I.Is p) (hsk : sk.length = I.blk) (hct : ct.length = I.blk) (hpt : pt.length = I.blk)
    (hN : 3 * I.T * (I.digest + I.seed + I.gate + 2 * I.blk) + 2 * I.blk + msg.length + 33 ≤ N) (hM : 3 * I.T * I.seed + 32 ≤ M) (hM' : I.digest ≤ M)
    {S : Bytes} (hS : I.secretString sk ct pt msg ≠ S) (hl : I.seed + 1 < S.length) :
    prob (fun O : Oracle N M => S ∈ signerTexts I sk ct pt msg O) ≤ (18 * I.T ^ 2 + 6 * I.T + 2) / 2 ^ (8 * I.seed) := by
  have hN1 := seed_N hI hN
  have hlen := pts_len (M := M) hI hsk hct hpt hN
  have hbad := prob_bad (N := N) (M := M) (sk := sk) (ct := ct) (pt := pt) (msg := msg) hI hsk hct hpt hM hM' hN1
  have hbad' : prob (fun ω : Oracle N M × Answers I M => ¬ Good I sk ct pt msg ω.1 (answers I ω.1 sk ct pt msg)) ≤ 2 * (3 * I.T) ^ 2 / 2 ^ (8 * I.seed) := by
    have := prob_swap (I := I) (sk := sk) (ct := ct) (pt := pt) (msg := msg) hlen fun _ _ => True
    simp only [and_true] at this
    rw [prob_not] at hbad ⊢
    rw [this]
    exact hbad
  have h2 := prob_swap (I := I) (sk := sk) (ct := ct) (pt := pt) (msg := msg) hlen fun O a => ∃ q, pts I sk ct pt msg O a q = S
  have h3 := prob_pts_eq (N := N) (M := M) hI hct hpt hM hM' hN1 hS
  have h4 : prob (fun ω : Oracle N M × Answers I M => Good I sk ct pt msg ω.1 ω.2 ∧ ∃ q, pts I sk ct pt msg (prog I sk ct pt msg ω.1 ω.2) ω.2 q = S) ≤
      prob (fun ω : Oracle N M × Answers I M => ∃ q, pts I sk ct pt msg ω.1 ω.2 q = S) := prob_mono fun ω h => by
    obtain ⟨hg, q, hq⟩ := h
    unfold prog at hq
    rw [pts_write hg] at hq
    exact ⟨q, hq⟩
  rw [← prob_fst (Ω' := Answers I M)]
  have hcov : ∀ ω : Oracle N M × Answers I M, S ∈ signerTexts I sk ct pt msg ω.1 → ¬ Good I sk ct pt msg ω.1 (answers I ω.1 sk ct pt msg) ∨
      (Good I sk ct pt msg ω.1 (answers I ω.1 sk ct pt msg) ∧ ∃ q, pts I sk ct pt msg ω.1 (answers I ω.1 sk ct pt msg) q = S) := fun ω h => by
    by_cases hg : Good I sk ct pt msg ω.1 (answers I ω.1 sk ct pt msg)
    · refine Or.inr ⟨hg, ?_⟩
      unfold signerTexts at h
      rw [List.mem_append, List.mem_map] at h
      rcases h with ⟨q, -, hq⟩ | h
      · exact ⟨q, hq⟩
      · have := seedTexts_seed _ h
        omega
    · exact Or.inl hg
  refine le_trans (prob_mono hcov) (le_trans (prob_or _ _) ?_)
  rw [h2]
  calc _ ≤ 2 * (3 * (I.T : ℝ)) ^ 2 / 2 ^ (8 * I.seed) + (6 * I.T + 2) / 2 ^ (8 * I.seed) := add_le_add hbad' (le_trans h4 h3)
    _ = _ := by ring

theorem prob_signers_ask {p : ℕ} (hI : I.Is p) (hsk : sk.length = I.blk) (hct : ct.length = I.blk) (hpt : pt.length = I.blk) {k : ℕ} (ms : Fin k → Bytes)
    (hN : ∀ i, 3 * I.T * (I.digest + I.seed + I.gate + 2 * I.blk) + 2 * I.blk + (ms i).length + 33 ≤ N) (hM : 3 * I.T * I.seed + 32 ≤ M) (hM' : I.digest ≤ M)
    (hne : ∀ i, ms i ≠ msg) :
    prob (fun O : Oracle N M => ∃ x ∈ signersAsked I sk ct pt O k ms, x.1 = I.secretString sk ct pt msg) ≤ k * ((18 * I.T ^ 2 + 6 * I.T + 2) / 2 ^ (8 * I.seed)) := by
  have hs := rom_sizes hI
  have h := prob_exists (ι := Fin k) (Q := fun i (O : Oracle N M) => I.secretString sk ct pt msg ∈ signerTexts I sk ct pt (ms i) O) fun i =>
    prob_signer_asks (N := N) (M := M) hI hsk hct hpt (hN i) hM hM' (S := I.secretString sk ct pt msg)
      (fun he => hne i (C59_zkb_secrets I _ _ _ _ _ _ _ _ hsk hsk hct hct hpt hpt he).2.2.2) (by
        rw [secretString_len hsk hct hpt]
        omega)
  rw [Fintype.card_fin] at h
  refine le_trans (prob_mono fun O hO => ?_) h
  obtain ⟨x, hx, he⟩ := hO
  obtain ⟨i, hi⟩ := mem_signersAsked hx
  exact ⟨i, he ▸ hi⟩

end Picnic.Rom
