import Verif.Proofs.RomClash

/-
C62: several signatures, by induction on their number.
-/

namespace Picnic.Rom

open Spec Spec.Zkb Spec.Rom Spec.Picnic1 Spec.Challenge

variable {N M : ℕ} {I : Inst} {sk ct pt msg : Bytes} {α : Type}

section

variable {Ω Ω' B : Type} [Fintype Ω] [Fintype Ω'] [Fintype B]

theorem prob_equiv (f : Ω ≃ Ω') (Q : Ω' → Prop) : prob (fun ω => Q (f ω)) = prob Q := by
  classical
  unfold prob
  rw [Fintype.card_congr f]
  congr 2
  refine Finset.card_bij' (fun ω _ => f ω) (fun ω _ => f.symm ω) ?_ ?_ ?_ ?_
  · intro ω h
    simpa using h
  · intro ω h
    simpa using h
  · intro ω _
    simp
  · intro ω _
    simp

theorem prob_sum (F : Ω → B → Prop) : prob (fun ω : Ω × B => F ω.1 ω.2) = (∑ b, prob fun x => F x b) / Fintype.card B := by
  classical
  unfold prob
  rw [← Finset.sum_div, div_div, Fintype.card_prod]
  push_cast
  congr 1
  rw [← Nat.cast_sum]
  congr 1
  simp only [Finset.card_filter]
  rw [Fintype.sum_prod_type_right]

/-- Averages of probabilities. -/
theorem prob_avg [Nonempty B] {F : Ω → B → Prop} {G : Ω' → B → Prop} {c : ℝ} (h : ∀ b, prob (fun x => F x b) ≤ prob (fun y => G y b) + c) :
    prob (fun ω : Ω × B => F ω.1 ω.2) ≤ prob (fun ω : Ω' × B => G ω.1 ω.2) + c := by
  have hB : (0 : ℝ) < Fintype.card B := by exact_mod_cast Fintype.card_pos
  rw [prob_sum, prob_sum, div_le_iff₀ hB, add_mul, div_mul_cancel₀ _ hB.ne']
  calc _ ≤ ∑ b, (prob (fun y => G y b) + c) := Finset.sum_le_sum fun b _ => h b
    _ = _ := by
      rw [Finset.sum_add_distrib, Finset.sum_const, nsmul_eq_mul, Finset.card_univ]
      ring

/-- The first of several choices apart. -/
def consEquiv (k : ℕ) : (Ω × (Fin k → B)) × B ≃ Ω × (Fin (k + 1) → B) where
  toFun x := (x.1.1, Fin.cons x.2 x.1.2)
  invFun y := ((y.1, fun i => y.2 i.succ), y.2 0)
  left_inv x := by simp
  right_inv y := Prod.ext rfl (by
    funext i
    refine Fin.cases ?_ (fun i => ?_) i <;> simp)

end

variable (I) in
/-- The bound. -/
noncomputable def manyBound (k Q : ℕ) : ℝ := k * (4 * I.T * Q + 400 * k * I.T ^ 2) / 2 ^ (8 * I.seed)

theorem many_step {p : ℕ} (hI : I.Is p) (k Q : ℕ) :
    ((3 * (3 * I.T) ^ 2 + 4 * I.T * ((k * (18 * I.T + 2) + Q : ℕ) : ℝ)) / 2 ^ (8 * I.seed) : ℝ) + ((12 * I.T + 2) * ((k * (18 * I.T + 2) : ℕ) : ℝ) / 2 ^ (8 * I.seed) +
      k * ((18 * I.T ^ 2 + 6 * I.T + 2) / 2 ^ (8 * I.seed))) + manyBound I k (9 * I.T + Q) ≤ manyBound I (k + 1) Q := by
  unfold manyBound
  have hT : (1 : ℝ) ≤ I.T := by exact_mod_cast T_pos hI
  have hk : (0 : ℝ) ≤ k := by positivity
  have hQ : (0 : ℝ) ≤ Q := by positivity
  push_cast
  generalize (I.T : ℝ) = T at *
  generalize (k : ℝ) = c at *
  generalize (Q : ℝ) = q at *
  have hb : (0 : ℝ) < 2 ^ (8 * I.seed) := by positivity
  generalize (2 : ℝ) ^ (8 * I.seed) = b at *
  rw [← mul_div_assoc, ← add_div, ← add_div, ← add_div]
  refine div_le_div_of_nonneg_right ?_ hb.le
  have hcT : 0 ≤ c * (T - 1) := mul_nonneg hk (by linarith)
  have hcT2 : 0 ≤ c * T * (T - 1) := mul_nonneg (mul_nonneg hk (by linarith)) (by linarith)
  have hT2 : 0 ≤ T * T := by positivity
  have hcTT : 0 ≤ c * T ^ 2 := by positivity
  nlinarith

/-- Signers and simulators for an adversary who asks at most `Q` questions. -/
theorem many_real_sim {p : ℕ} (hI : I.Is p) (hsk : sk.length = I.blk) (hk : IsKey I sk) (hpt : pt.length = I.blk)
    (hct : ct = Spec.Picnic1.ofBits I.blk (I.X.enc (toBits sk) (toBits pt))) (hM1 : 3 * I.T * I.seed + 32 ≤ M) (hM2 : I.digest ≤ M)
    (hM3 : I.blk + I.gate ≤ M) (b : Prop) : ∀ (k : ℕ) (ms : Fin k → Bytes), Function.Injective ms →
    (∀ i, 3 * I.T * (I.digest + I.seed + I.gate + 2 * I.blk) + 2 * I.blk + (ms i).length + 33 ≤ N) →
    ∀ (Q : ℕ) (A : List Bytes → Local N M I Prop), (∀ l O, ((A l).asked O).length ≤ Q) →
    prob (fun O : Oracle N M => (realAll I O sk ct pt k ms).elim b fun l => (A l).run O) ≤
      prob (fun ω : Oracle N M × (Fin k → Answers I M) => (simMany I ω.1 ct pt ms ω.2).elim b fun x => (A x.1).run x.2 ∨
        ∃ y ∈ (A x.1).asked x.2, ∃ i, y.1 = I.secretString sk ct pt (ms i)) + manyBound I k Q
  | 0, ms, _, _, Q, A, _ => by
    have : manyBound I 0 Q = 0 := by unfold manyBound; simp
    rw [this, add_zero, ← prob_fst (Ω' := Fin 0 → Answers I M)]
    refine prob_mono fun ω h => ?_
    simp only [realAll, simMany, Option.elim_some] at h ⊢
    exact Or.inl h
  | k + 1, ms, hinj, hN, Q, A, hA => by
    have hs := rom_sizes hI
    have hctl : ct.length = I.blk := by rw [hct]; exact ofBits_len' _ _
    have hne : ∀ i : Fin k, ms i.succ ≠ ms 0 := fun i h => absurd (hinj h) (Fin.succ_ne_zero i)
    have hinj' : Function.Injective fun i : Fin k => ms i.succ := fun i i' h => Fin.succ_injective _ (hinj h)
    have h1 := local_real_sim (N := N) (M := M) (msg := ms 0) hI hsk hk hpt hct (hN 0) hM1 hM2 hM3
      (A := withSigners sk ct pt (fun i => ms i.succ) b A) (withSigners_len (fun i => ms i.succ) b hA) b
    have h2 := prob_clash (N := N) (M := M) (msg := ms 0) hI hctl hpt hM1 hM2 (seed_N hI (hN 0)) (signers I sk ct pt fun i => ms i.succ) (signersAsked_len · k _)
    have h3 := prob_signers_ask (N := N) (M := M) (msg := ms 0) hI hsk hctl hpt (fun i => ms i.succ) (fun i => hN i.succ) hM1 hM2 hne
    rw [← prob_fst (Ω' := Answers I M)] at h3
    have h4 : prob (fun ω : Oracle N M × Answers I M => (realAll I ω.1 sk ct pt k fun i => ms i.succ).elim b fun l => (withSim sk ct pt (ms 0) b ω.2 A l).run ω.1) ≤
        prob (fun ω : (Oracle N M × (Fin k → Answers I M)) × Answers I M => (simMany I ω.1.1 ct pt (fun i => ms i.succ) ω.1.2).elim b fun x =>
          (withSim sk ct pt (ms 0) b ω.2 A x.1).run x.2 ∨ ∃ y ∈ (withSim sk ct pt (ms 0) b ω.2 A x.1).asked x.2, ∃ i : Fin k, y.1 = I.secretString sk ct pt (ms i.succ)) +
          manyBound I k (9 * I.T + Q) :=
      prob_avg (F := fun O a => (realAll I O sk ct pt k fun i => ms i.succ).elim b fun l => (withSim sk ct pt (ms 0) b a A l).run O)
        (G := fun (ω : Oracle N M × (Fin k → Answers I M)) a => (simMany I ω.1 ct pt (fun i => ms i.succ) ω.2).elim b fun x =>
          (withSim sk ct pt (ms 0) b a A x.1).run x.2 ∨ ∃ y ∈ (withSim sk ct pt (ms 0) b a A x.1).asked x.2, ∃ i : Fin k, y.1 = I.secretString sk ct pt (ms i.succ)) fun a =>
        many_real_sim hI hsk hk hpt hct hM1 hM2 hM3 b k (fun i => ms i.succ) hinj' (fun i => hN i.succ) (9 * I.T + Q) (withSim sk ct pt (ms 0) b a A) (withSim_len b a hA)
    -- the signer of the first message is replaced
    have e1 : ∀ O : Oracle N M, ((realAll I O sk ct pt (k + 1) ms).elim b fun l => (A l).run O) →
        (real I O sk ct pt (ms 0)).elim b fun x => (withSigners sk ct pt (fun i => ms i.succ) b A x.sig).run x.oracle := fun O h => by
      simp only [realAll] at h
      rcases hr : real I O sk ct pt (ms 0) with _ | x
      · rw [hr] at h
        exact h
      · have ho : x.oracle = O := by
          unfold real at hr
          dsimp only at hr
          rw [Option.map_eq_some_iff] at hr
          obtain ⟨e, -, he⟩ := hr
          rw [← he]
        rw [hr] at h
        simp only [Option.bind_some, Option.elim_some, withSigners, signers, ho] at h ⊢
        cases h' : realAll I O sk ct pt k fun i => ms i.succ with
        | none => rw [h'] at h; exact h
        | some l => rw [h'] at h; exact h
    -- the other signers are asked before the simulator writes
    have e2 : ∀ ω : Oracle N M × Answers I M, ((sim I ω.1 ω.2 ct pt (ms 0)).elim b fun x => (withSigners sk ct pt (fun i => ms i.succ) b A x.sig).run x.oracle ∨
          ∃ y ∈ (withSigners sk ct pt (fun i => ms i.succ) b A x.sig).asked x.oracle, y.1 = I.secretString sk ct pt (ms 0)) →
        ((realAll I ω.1 sk ct pt k fun i => ms i.succ).elim b fun l => (withSim sk ct pt (ms 0) b ω.2 A l).run ω.1) ∨
        (Clash ct pt (ms 0) (signers I sk ct pt fun i => ms i.succ) ω.1 ω.2 ∨
          ∃ x ∈ signersAsked I sk ct pt ω.1 k fun i => ms i.succ, x.1 = I.secretString sk ct pt (ms 0)) := by
      rintro ⟨O, a⟩ h
      dsimp only at h ⊢
      by_cases hcl : Clash ct pt (ms 0) (signers I sk ct pt fun i => ms i.succ) O a
      · exact Or.inr (Or.inl hcl)
      by_cases hse : ∃ x ∈ signersAsked I sk ct pt O k fun i => ms i.succ, x.1 = I.secretString sk ct pt (ms 0)
      · exact Or.inr (Or.inr hse)
      left
      rcases hx : sim I O a ct pt (ms 0) with _ | x
      · rw [hx] at h
        simp only [Option.elim_none] at h
        cases realAll I O sk ct pt k fun i => ms i.succ with
        | none => exact h
        | some l =>
          simp only [Option.elim_some, withSim]
          rw [hx]
          exact h
      rw [hx, Option.elim_some] at h
      have hx' := hx
      rw [sim_eq, Option.map_eq_some_iff] at hx'
      obtain ⟨e, he, hx'⟩ := hx'
      have ho : x.oracle = swrite I O a e (spts I ct pt (ms 0) O a e) := by rw [← hx']
      obtain ⟨g1, g2⟩ := (signers I sk ct pt fun i => ms i.succ).congr O x.oracle (fun y hy => by
        rw [ho]
        unfold swrite
        rw [dif_neg]
        rintro ⟨q, hq, hq'⟩
        exact hcl ⟨e, he, y, hy, q, hq, hq'⟩) fun d hd => by
          rw [ho, swrite_plain hI hctl hpt O a e (plain_next hd)]
      simp only [withSigners] at h
      rw [← g1, ← g2] at h
      simp only [signers, List.mem_append] at h
      cases hr : realAll I O sk ct pt k fun i => ms i.succ with
      | none =>
        rw [hr] at h
        simp only [Option.elim_none] at h ⊢
        rcases h with h | ⟨y, hy | hy, h⟩
        · exact h
        · exact absurd ⟨y, hy, h⟩ hse
        · simp at hy
      | some l =>
        rw [hr] at h
        simp only [Option.elim_some, withSim] at h ⊢
        rw [hx, Option.elim_some]
        rcases h with h | ⟨y, hy | hy, h⟩
        · exact Or.inl h
        · exact absurd ⟨y, hy, h⟩ hse
        · exact Or.inr ⟨y, hy, h⟩
    -- the simulators, one after the other
    have e3 : ∀ ω : (Oracle N M × (Fin k → Answers I M)) × Answers I M, ((simMany I ω.1.1 ct pt (fun i => ms i.succ) ω.1.2).elim b fun x =>
          (withSim sk ct pt (ms 0) b ω.2 A x.1).run x.2 ∨ ∃ y ∈ (withSim sk ct pt (ms 0) b ω.2 A x.1).asked x.2, ∃ i : Fin k, y.1 = I.secretString sk ct pt (ms i.succ)) →
        (simMany I (consEquiv k ω).1 ct pt ms (consEquiv k ω).2).elim b fun x => (A x.1).run x.2 ∨
          ∃ y ∈ (A x.1).asked x.2, ∃ i, y.1 = I.secretString sk ct pt (ms i) := by
      rintro ⟨⟨O, as⟩, a⟩ h
      have hlong : ∀ (m : Bytes) (y : Bytes), y ∈ seedTexts a → y ≠ I.secretString sk ct pt m := fun m y hy hc => by
        have h5 := seedTexts_seed a hy
        have h6 := secretString_len (msg := m) hsk hctl hpt
        rw [hc] at h5
        omega
      simp only [consEquiv, Equiv.coe_fn_mk, simMany, Fin.cons_zero, Fin.cons_succ] at h ⊢
      rcases hr : simMany I O ct pt (fun i => ms i.succ) as with _ | x
      · rw [hr] at h
        exact h
      · rw [hr] at h
        simp only [Option.elim_some, Option.bind_some, withSim, List.mem_append] at h ⊢
        rcases hx : sim I x.2 a ct pt (ms 0) with _ | z
        · rw [hx] at h
          simp only [Option.elim_none, Option.map_none] at h ⊢
          rcases h with h | ⟨y, hy | hy, i, h⟩
          · exact h
          · exact absurd h (hlong _ _ (mem_toArgs.1 hy))
          · simp at hy
        · rw [hx] at h
          simp only [Option.elim_some, Option.map_some] at h ⊢
          rcases h with (h | ⟨y, hy, h⟩) | ⟨y, hy | hy, i, h⟩
          · exact Or.inl h
          · exact Or.inr ⟨y, hy, 0, h⟩
          · exact absurd h (hlong _ _ (mem_toArgs.1 hy))
          · exact Or.inr ⟨y, hy, i.succ, h⟩
    have h5 := prob_mono e1
    have h6 := le_trans (prob_mono e2) (le_trans (prob_or _ _) (add_le_add h4 (le_trans (prob_or _ _) (add_le_add h2 h3))))
    have h7 := prob_mono e3
    rw [prob_equiv (consEquiv k) fun ω : Oracle N M × (Fin (k + 1) → Answers I M) => (simMany I ω.1 ct pt ms ω.2).elim b fun x => (A x.1).run x.2 ∨
          ∃ y ∈ (A x.1).asked x.2, ∃ i, y.1 = I.secretString sk ct pt (ms i)] at h7
    have h8 := many_step hI k Q
    linarith

theorem many_adv {p : ℕ} (hI : I.Is p) (hsk : sk.length = I.blk) (hk : IsKey I sk) (hpt : pt.length = I.blk)
    (hct : ct = Spec.Picnic1.ofBits I.blk (I.X.enc (toBits sk) (toBits pt))) (hM1 : 3 * I.T * I.seed + 32 ≤ M) (hM2 : I.digest ≤ M)
    (hM3 : I.blk + I.gate ≤ M) {k : ℕ} (ms : Fin k → Bytes) (hinj : Function.Injective ms)
    (hN : ∀ i, 3 * I.T * (I.digest + I.seed + I.gate + 2 * I.blk) + 2 * I.blk + (ms i).length + 33 ≤ N)
    {Q : ℕ} {A : List Bytes → Adv N M α} (hA : ∀ l O, ((A l).asked O).length ≤ Q) (S : Set α) :
    prob (fun O : Oracle N M => GetsMany A S (realMany I O sk ct pt ms)) ≤
      prob (fun ω : Oracle N M × (Fin k → Answers I M) => GetsMany A S (simMany I ω.1 ct pt ms ω.2) ∨ AsksMany I A sk ct pt ms (simMany I ω.1 ct pt ms ω.2)) +
        k * (4 * I.T * Q + 400 * k * I.T ^ 2) / 2 ^ (8 * I.seed) ∧
    prob (fun ω : Oracle N M × (Fin k → Answers I M) => GetsMany A S (simMany I ω.1 ct pt ms ω.2)) ≤
      prob (fun O : Oracle N M => GetsMany A S (realMany I O sk ct pt ms)) +
      prob (fun ω : Oracle N M × (Fin k → Answers I M) => AsksMany I A sk ct pt ms (simMany I ω.1 ct pt ms ω.2)) +
        k * (4 * I.T * Q + 400 * k * I.T ^ 2) / 2 ^ (8 * I.seed) := by
  have h1 := many_real_sim (N := N) (M := M) hI hsk hk hpt hct hM1 hM2 hM3 False k ms hinj hN Q (fun l => (Local.ofAdv (A l)).mem S) hA
  have h2 := many_real_sim (N := N) (M := M) hI hsk hk hpt hct hM1 hM2 hM3 True k ms hinj hN Q (fun l => (Local.ofAdv (A l)).mem Sᶜ) hA
  have g0 : ∀ O : Oracle N M, ((realAll I O sk ct pt k ms).elim False fun l => ((Local.ofAdv (I := I) (A l)).mem S).run O) ↔
      GetsMany A S (realMany I O sk ct pt ms) := fun O => by
    unfold realMany
    cases realAll I O sk ct pt k ms with
    | none => simp [GetsMany]
    | some x => simp [GetsMany, Local.mem, Local.ofAdv]
  have g0' : ∀ O : Oracle N M, ((realAll I O sk ct pt k ms).elim True fun l => ((Local.ofAdv (I := I) (A l)).mem Sᶜ).run O) ↔
      ¬ GetsMany A S (realMany I O sk ct pt ms) := fun O => by
    unfold realMany
    cases realAll I O sk ct pt k ms with
    | none => simp [GetsMany]
    | some x => simp [GetsMany, Local.mem, Local.ofAdv]
  have g1 : ∀ y : Option (List Bytes × Oracle N M), (y.elim False fun x => ((Local.ofAdv (I := I) (A x.1)).mem S).run x.2 ∨
      ∃ z ∈ ((Local.ofAdv (I := I) (A x.1)).mem S).asked x.2, ∃ i, z.1 = I.secretString sk ct pt (ms i)) ↔ GetsMany A S y ∨ AsksMany I A sk ct pt ms y := fun y => by
    cases y with
    | none => simp [GetsMany, AsksMany]
    | some x => simp [GetsMany, AsksMany, Local.mem, Local.ofAdv]
  have g3 : ∀ y : Option (List Bytes × Oracle N M), (y.elim True fun x => ((Local.ofAdv (I := I) (A x.1)).mem Sᶜ).run x.2 ∨
      ∃ z ∈ ((Local.ofAdv (I := I) (A x.1)).mem Sᶜ).asked x.2, ∃ i, z.1 = I.secretString sk ct pt (ms i)) ↔ ¬ GetsMany A S y ∨ AsksMany I A sk ct pt ms y := fun y => by
    cases y with
    | none => simp [GetsMany, AsksMany]
    | some x => simp [GetsMany, AsksMany, Local.mem, Local.ofAdv]
  simp only [g0, g1] at h1
  simp only [g0', g3] at h2
  unfold manyBound at h1 h2
  refine ⟨h1, ?_⟩
  have h3 := prob_or (fun ω : Oracle N M × (Fin k → Answers I M) => ¬ GetsMany A S (simMany I ω.1 ct pt ms ω.2)) fun ω => AsksMany I A sk ct pt ms (simMany I ω.1 ct pt ms ω.2)
  rw [prob_not] at h2 h3
  linarith

end Picnic.Rom
