import Verif.Proofs.AdaptPatch

/-
C62: how likely an adversary asks for a secret string after some values of the oracle have become known.
-/

namespace Picnic.Rom

open Spec Spec.Zkb Spec.Rom Spec.Picnic1 Spec.Challenge

variable {N M : ℕ} {I : Inst} {sk ct pt msg : Bytes} {α : Type} {D : List Bytes} {π : Arg N → Option (Val M)}

/-- The adversary asks for a string that is made of the seed of the unopened party of a repetition. -/
theorem prob_ask_seedD (hM : 3 * I.T * I.seed + 32 ≤ M) (A : Bytes → Local N M I α) (t : Fin I.T) (i : ℕ) :
    prob (fun ω : Oracle N M × Answers I M => ∃ k x, (asks I ct pt msg A (patch π ω.1) ω.2)[i]? = some x ∧ x.1 = seedText I k (seed ω.2 t (closed (patch π ω.1) ω.2 t))) ≤
      1 / 2 ^ (8 * I.seed) := by
  have hh : ∀ (O : Oracle N M) (a a' : Answers I M), (∀ q, q ≠ .secrets → a q = a' q) → closed O a t = closed O a' t := fun O a a' h => by
    unfold closed
    rw [h .digest (by simp)]
  refine prob_secrets' (n := 8 * I.seed) (fun O a => 8 * ((3 * t + closed (patch π O) a t) * I.seed)) (fun O a => ?_) (fun O a a' h => by rw [hh (patch π O) a a' h]) ?_
  · have := seed_pos t (closed (patch π O) a t)
    omega
  · rintro O a a' ⟨k, x, hx, he⟩ ⟨k', x', hx', he'⟩ hq hoff i hi hi'
    dsimp only at hx he hx' he' hi hi' hoff
    generalize patch π O = O at *
    have h1 := seed_pos t (closed O a t)
    have hasks : asks I ct pt msg A O a = asks I ct pt msg A O a' := by
      have hd : a .digest = a' .digest := hq _ (by simp)
      rcases h : challenge I O (bytes I.digest (a .digest)) with _ | e
      · rw [asks_none A h, asks_none A (by rw [← hd]; exact h)]
      · rw [asks_some A h, asks_some A (by rw [← hd]; exact h)]
        have h3 : ∀ t, e.getD t 0 < 3 := fun t => challenge_lt h t
        have hsalt : salt a = salt a' := bytes_ext' (by rw [salt_len, salt_len]) fun i hi => by
          rw [salt_len] at hi
          rw [salt_bits a hi, salt_bits a' hi]
          exact hoff _ (by omega)
        have hseed : ∀ (t' : Fin I.T) (j : ℕ), j < 3 → j ≠ (e.getD t' 0 + 2) % 3 → seed a t' j = seed a' t' j := fun t' j hj hne => by
          refine bytes_ext' (by rw [seed_len _ _ hj, seed_len _ _ hj]) fun i hi => ?_
          rw [seed_len _ _ hj] at hi
          have h2 := seed_pos t' ⟨j, hj⟩
          have e1 := seed_bits a t' ⟨j, hj⟩ hi
          have e2 := seed_bits a' t' ⟨j, hj⟩ hi
          dsimp only at e1 e2
          rw [e1, e2]
          have hd := seed_disj (I := I) (t := t) (t' := t') (j := closed O a t) (j' := ⟨j, hj⟩) (fun hc => hne (by
            rw [Prod.mk.injEq] at hc
            rw [← hc.1, ← closed_eq h t, hc.2]))
          dsimp only at hd
          exact hoff _ (by omega)
        obtain ⟨e1, e2⟩ := sim_seed (ct := ct) (pt := pt) (msg := msg) O h3 hq hsalt hseed
        rw [e1, e2]
    rw [← hasks, hx, Option.some.injEq] at hx'
    rw [← hx', he, ← hh O a a' hq] at he'
    have hse := seedText_inj he'
    obtain ⟨y, rfl⟩ := Nat.exists_eq_add_of_le hi
    have hy : y < 8 * I.seed := by omega
    rw [← seed_bits a t _ hy, ← seed_bits a' t _ hy, hse]

/-- The adversary asks for a string with the digest of a seed without having asked for this digest. -/
theorem prob_ask_digestD (hM : I.digest ≤ M) (hN : I.seed + 1 ≤ N) (hD : Covers I D π) (A : Bytes → Local N M I α) (t : Fin I.T) (k : Fin 3) (i : ℕ) :
    prob (fun ω : Oracle N M × Answers I M => ¬ SeedIn D ω.2 ∧ Distinct I ω.2 ∧ (∀ x ∈ asks I ct pt msg A (patch π ω.1) ω.2, x.1 ≠ seedText I k (seed ω.2 t (closed (patch π ω.1) ω.2 t))) ∧
      ∃ x, (asks I ct pt msg A (patch π ω.1) ω.2)[i]? = some x ∧ Rom.hash (patch π ω.1) (seedText I k (seed ω.2 t (closed (patch π ω.1) ω.2 t))) I.digest = digestOf I k x.1) ≤
      1 / 2 ^ (8 * I.digest) := by
  have hch : ∀ (O O' : Oracle N M) (a : Answers I M) (s : Bytes), (∀ x : Arg N, x.1 ≠ seedText I k s → O x = O' x) →
      challenge I O (bytes I.digest (a .digest)) = challenge I O' (bytes I.digest (a .digest)) := fun O O' a s h => by
    refine challenge_next (fun d _ => ?_) (bytes_len' _ _)
    unfold ask
    split_ifs with hl
    · exact h ⟨_, hl⟩ (Ne.symm (seedText_next k s d))
    · rfl
  have hh : ∀ (O O' : Oracle N M) (a : Answers I M) (s : Bytes), (∀ x : Arg N, x.1 ≠ seedText I k s → O x = O' x) → closed O a t = closed O' a t := fun O O' a s h => by
    unfold closed
    rw [hch O O' a s h]
  have hup : ∀ (O O' : Oracle N M) (s : Bytes), (∀ x : Arg N, x.1 ≠ seedText I k s → O x = O' x) → ∀ x : Arg N, x.1 ≠ seedText I k s → patch π O x = patch π O' x :=
    fun O O' s h x hx => patch_congr (h x hx)
  refine prob_hash' hM (fun O a => seedText I k (seed a t (closed (patch π O) a t))) (fun O a => ?_) (fun O a v => ?_)
    (fun O a => ((asks I ct pt msg A (patch π O) a)[i]?).elim [] fun x => digestOf I k x.1) (fun ω hE => ?_) (fun O O' a hE hoff hm => ?_)
  · rw [seedText_len, seed_len a t (closed (patch π O) a t).2]
    omega
  · have := hh (patch π O) (patch π (Function.update O ⟨seedText I k (seed a t (closed (patch π O) a t)), by rw [seedText_len, seed_len a t (closed (patch π O) a t).2]; omega⟩ v)) a
      (seed a t (closed (patch π O) a t)) (hup _ _ _ fun x hx => (Function.update_of_ne (fun hc => hx (by rw [hc])) _ _).symm)
    rw [← this]
  · obtain ⟨hin, -, -, x, hx, he⟩ := hE
    rw [hx, Option.elim_some, ← he, patch_hash hD hin]
  · obtain ⟨-, hdis, hno, -⟩ := hE
    dsimp only at hoff hm hno hdis ⊢
    replace hoff := hup _ _ _ hoff
    generalize patch π O = O at *
    generalize patch π O' = O' at *
    have hc := hch O O' a _ hoff
    have : asks I ct pt msg A O a = asks I ct pt msg A O' a := by
      rcases h : challenge I O (bytes I.digest (a .digest)) with _ | e
      · rw [asks_none A h, asks_none A (by rw [← hc]; exact h)]
      · rw [asks_some A h] at hno
        rw [asks_some A h, asks_some A (by rw [← hc]; exact h)]
        have hsw : ∀ x : Arg N, x.1 ≠ seedText I k (seed a t (closed O a t)) →
            swrite I O a e (spts I ct pt msg O a e) x = swrite I O' a e (spts I ct pt msg O' a e) x := fun x hx => by
          refine sim_hash (k := k) (s := seed a t (closed O a t)) a e (fun m hm => ?_) (fun t' j hj => ?_) hx
          · unfold ask
            split_ifs with hl
            · exact hoff ⟨m, hl⟩ hm
            · rfl
          · refine hdis t' t j _ fun hp => hj ?_
            rw [Prod.mk.injEq] at hp
            rw [hp.2, hp.1]
            exact closed_eq h t
        refine (Local.congr _ _ _ (fun x hx => hsw x (hno x hx)) fun d _ => ?_).2
        unfold ask
        split_ifs with hl
        · exact hsw ⟨_, hl⟩ (Ne.symm (seedText_next k _ d))
        · rfl
    rw [this]


variable (I) in
/-- The bound for the questions of an adversary. -/
noncomputable def hitBoundD (R Q : ℕ) : ℝ := ((3 * I.T) ^ 2 + 3 * I.T * R + 4 * I.T * Q) / 2 ^ (8 * I.seed)

theorem prob_hitsD {p : ℕ} (hI : I.Is p) (hct : ct.length = I.blk) (hpt : pt.length = I.blk) (hM : 3 * I.T * I.seed + 32 ≤ M) (hM' : I.digest ≤ M)
    (hN : I.seed + 1 ≤ N) (hD : Covers I D π) {Q : ℕ} {A : Bytes → Local N M I α} (hA : ∀ s O, ((A s).asked O).length ≤ Q) (b : Prop)
    (V W : Oracle N M × Answers I M → Play N M → Prop) :
    prob (fun ω : Oracle N M × Answers I M => (sim I (patch π ω.1) ω.2 ct pt msg).elim b fun x => V ω x ∧ (W ω x ∨ Hit sk ct pt msg A x)) ≤
      prob (fun ω : Oracle N M × Answers I M => (sim I (patch π ω.1) ω.2 ct pt msg).elim b fun x => V ω x ∧ (W ω x ∨
        ∃ y ∈ (A x.sig).asked x.oracle, y.1 = I.secretString sk ct pt msg)) + hitBoundD I D.length Q := by
  unfold hitBoundD
  have hs := rom_sizes hI
  have h0 := prob_seedIn (N := N) (I := I) hM D
  have h1 := prob_exists (ι := Fin I.T × Fin Q) (Q := fun ti (ω : Oracle N M × Answers I M) => ∃ k x, (asks I ct pt msg A (patch π ω.1) ω.2)[(ti.2 : ℕ)]? = some x ∧
    x.1 = seedText I k (seed ω.2 ti.1 (closed (patch π ω.1) ω.2 ti.1))) fun ti => prob_ask_seedD hM A ti.1 ti.2
  have h2 := prob_exists (ι := Fin I.T × Fin 3 × Fin Q) (Q := fun u (ω : Oracle N M × Answers I M) => ¬ SeedIn D ω.2 ∧ Distinct I ω.2 ∧
    (∀ x ∈ asks I ct pt msg A (patch π ω.1) ω.2, x.1 ≠ seedText I u.2.1 (seed ω.2 u.1 (closed (patch π ω.1) ω.2 u.1))) ∧
      ∃ x, (asks I ct pt msg A (patch π ω.1) ω.2)[(u.2.2 : ℕ)]? = some x ∧
        Rom.hash (patch π ω.1) (seedText I u.2.1 (seed ω.2 u.1 (closed (patch π ω.1) ω.2 u.1))) I.digest = digestOf I u.2.1 x.1)
    fun u => prob_ask_digestD hM' hN hD A u.1 u.2.1 u.2.2
  have h3 : prob (fun ω : Oracle N M × Answers I M => ¬ Distinct I ω.2) ≤ (3 * I.T) ^ 2 / 2 ^ (8 * I.seed) := by
    have := prob_exists (ι := (Fin I.T × Fin 3) × (Fin I.T × Fin 3)) (Q := fun u (ω : Oracle N M × Answers I M) => u.1 ≠ u.2 ∧ seed ω.2 u.1.1 u.1.2 = seed ω.2 u.2.1 u.2.2)
      (c := 1 / 2 ^ (8 * I.seed)) fun u => by
        by_cases hu : u.1 = u.2
        · have : prob (fun ω : Oracle N M × Answers I M => u.1 ≠ u.2 ∧ seed ω.2 u.1.1 u.1.2 = seed ω.2 u.2.1 u.2.2) = 0 := by
            unfold prob
            simp [hu]
          rw [this]
          positivity
        · exact le_trans (prob_mono fun ω h => h.2) (prob_seeds hM (t := u.1.1) (j := u.1.2) (t' := u.2.1) (j' := u.2.2) hu)
    refine le_trans (prob_mono fun ω h => ?_) (le_trans this (le_of_eq ?_))
    · unfold Distinct at h
      push Not at h
      obtain ⟨t, t', j, j', hne, he⟩ := h
      exact ⟨((t, j), (t', j')), hne, he⟩
    · simp only [Fintype.card_prod, Fintype.card_fin]
      push_cast
      ring
  have hpow : (1 : ℝ) / 2 ^ (8 * I.digest) ≤ 1 / 2 ^ (8 * I.seed) := (seed_digest hI).1
  simp only [Fintype.card_prod, Fintype.card_fin] at h1 h2
  push_cast at h1 h2
  have h2' : (I.T * (3 * Q) : ℝ) * (1 / 2 ^ (8 * I.digest)) ≤ (I.T * (3 * Q)) * (1 / 2 ^ (8 * I.seed)) := mul_le_mul_of_nonneg_left hpow (by positivity)
  refine le_trans (prob_mono (Q' := fun ω : Oracle N M × Answers I M => ((sim I (patch π ω.1) ω.2 ct pt msg).elim b fun x => V ω x ∧ (W ω x ∨ ∃ y ∈ (A x.sig).asked x.oracle,
      y.1 = I.secretString sk ct pt msg)) ∨ SeedIn D ω.2 ∨ ¬ Distinct I ω.2 ∨
    (∃ (ti : Fin I.T × Fin Q), ∃ k x, (asks I ct pt msg A (patch π ω.1) ω.2)[(ti.2 : ℕ)]? = some x ∧ x.1 = seedText I k (seed ω.2 ti.1 (closed (patch π ω.1) ω.2 ti.1))) ∨
    (∃ (u : Fin I.T × Fin 3 × Fin Q), ¬ SeedIn D ω.2 ∧ Distinct I ω.2 ∧
      (∀ x ∈ asks I ct pt msg A (patch π ω.1) ω.2, x.1 ≠ seedText I u.2.1 (seed ω.2 u.1 (closed (patch π ω.1) ω.2 u.1))) ∧
      ∃ x, (asks I ct pt msg A (patch π ω.1) ω.2)[(u.2.2 : ℕ)]? = some x ∧
        Rom.hash (patch π ω.1) (seedText I u.2.1 (seed ω.2 u.1 (closed (patch π ω.1) ω.2 u.1))) I.digest = digestOf I u.2.1 x.1)) fun ω h => ?_) ?_
  · by_cases hin : SeedIn D ω.2
    · exact Or.inr (Or.inl hin)
    rcases hx : sim I (patch π ω.1) ω.2 ct pt msg with _ | x
    · rw [hx] at h
      exact Or.inl h
    · rw [hx, Option.elim_some] at h
      rw [Option.elim_some]
      obtain ⟨hv, h⟩ := h
      rcases h with h | h
      · exact Or.inl ⟨hv, Or.inl h⟩
      · rcases hits_cases hI hct hpt hA (patch π ω.1) ω.2 hx h with h | h | h | ⟨u, h⟩
        · exact Or.inl ⟨hv, Or.inr h⟩
        · exact Or.inr (Or.inr (Or.inl h))
        · exact Or.inr (Or.inr (Or.inr (Or.inl h)))
        · exact Or.inr (Or.inr (Or.inr (Or.inr ⟨u, hin, h⟩)))
  · refine le_trans (prob_or _ _) ?_
    refine add_le_add le_rfl ?_
    refine le_trans (prob_or _ _) (le_trans (add_le_add h0 (le_trans (prob_or _ _) (add_le_add h3 (le_trans (prob_or _ _) (add_le_add h1 (le_trans h2 h2')))))) (le_of_eq ?_))
    generalize (2 : ℝ) ^ (8 * I.seed) = b
    ring

end Picnic.Rom
