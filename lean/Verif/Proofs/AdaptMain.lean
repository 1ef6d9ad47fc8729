import Verif.Proofs.AdaptGame

/-
C62: signers are replaced by the simulator for procedures that choose the messages, by induction on the procedure.
-/

namespace Picnic.Rom

open Spec Spec.Zkb Spec.Rom Spec.Picnic1 Spec.Challenge

variable {N M : ℕ} {I : Inst} {sk ct pt : Bytes} {α : Type} {G : List Bytes → α → Local N M I Prop} {b : Prop} {D : List Bytes} {π : Arg N → Option (Val M)}

variable (I) in
/-- The bound. -/
noncomputable def adaptBound (k B : ℕ) : ℝ := k * (32 * I.T * B) / 2 ^ (8 * I.seed)

theorem adaptBound_nonneg (k B : ℕ) : 0 ≤ adaptBound I k B := by
  unfold adaptBound
  positivity

theorem prob_all {Ω : Type} [Fintype Ω] [Nonempty Ω] : prob (fun _ : Ω => True) = 1 := by
  have h := prob_not (Ω := Ω) fun _ => False
  rw [prob_no] at h
  simpa using h

/-- A signer hardly asks for the strings of the signers before. -/
theorem prob_again {p : ℕ} (hI : I.Is p) (hsk : sk.length = I.blk) (hct : ct.length = I.blk) (hpt : pt.length = I.blk) {m : Bytes}
    (hN : 3 * I.T * (I.digest + I.seed + I.gate + 2 * I.blk) + 2 * I.blk + m.length + 33 ≤ N) (hM1 : 3 * I.T * I.seed + 32 ≤ M) (hM2 : I.digest ≤ M)
    (hD : Covers I D π) (hsec : I.secretString sk ct pt m ∉ D) {seen : List Bytes} (hseen : ∀ m' ∈ seen, I.secretString sk ct pt m' ∈ D) :
    prob (fun O : Oracle N M => ∃ m' ∈ seen, I.secretString sk ct pt m' ∈ signerTexts I sk ct pt m (patch π O)) ≤
      (18 * I.T ^ 2 + (9 * I.T + 2) * D.length) / 2 ^ (8 * I.seed) := by
  have hs := rom_sizes hI
  have hlen := pts_len (M := M) hI hsk hct hpt hN
  have hN1 := seed_N hI hN
  have hbad := prob_badD (N := N) (M := M) (msg := m) hI hsk hct hpt hM1 hM2 hN1 hD hsec
  have e2 := prob_swapD (N := N) (M := M) (I := I) (sk := sk) (ct := ct) (pt := pt) (msg := m) hD hlen (fun _ _ => True)
  simp only [and_true] at e2
  rw [prob_not, ← e2, ← prob_not] at hbad
  refine le_trans ?_ hbad
  rw [← prob_fst (Ω' := Answers I M)]
  refine prob_mono fun ω h hg => ?_
  obtain ⟨m', hm', h⟩ := h
  unfold signerTexts at h
  rw [List.mem_append, List.mem_map] at h
  rcases h with ⟨q, -, h⟩ | h
  · exact hg.off q (h ▸ hseen m' hm')
  · have h1 := seedTexts_seed _ h
    have h2 := secretString_len_ge (I := I) (ct := ct) (pt := pt) (msg := m') hsk
    omega

theorem adapt_arith {p : ℕ} (hI : I.Is p) {R Q B k : ℕ} (hR : R ≤ B) (hQ : Q ≤ B) (hB : 18 * I.T ≤ B) :
    ((18 * I.T ^ 2 + (9 * I.T + 2) * R) / 2 ^ (8 * I.seed) + stepBound I R Q : ℝ) + adaptBound I k B ≤ adaptBound I (k + 1) B := by
  unfold stepBound adaptBound
  have hT : (1 : ℝ) ≤ I.T := by exact_mod_cast T_pos hI
  have hR' : (R : ℝ) ≤ B := by exact_mod_cast hR
  have hQ' : (Q : ℝ) ≤ B := by exact_mod_cast hQ
  have hB' : (18 : ℝ) * I.T ≤ B := by exact_mod_cast hB
  have hB0 : (0 : ℝ) ≤ B := by positivity
  push_cast
  generalize (I.T : ℝ) = T at *
  generalize (k : ℝ) = c at *
  generalize (Q : ℝ) = q at *
  generalize (R : ℝ) = r at *
  generalize (B : ℝ) = x at *
  have hb : (0 : ℝ) < 2 ^ (8 * I.seed) := by positivity
  generalize (2 : ℝ) ^ (8 * I.seed) = y at *
  rw [← add_div, ← add_div]
  refine div_le_div_of_nonneg_right ?_ hb.le
  have h1 : (21 * T + 4) * r ≤ (21 * T + 4) * x := mul_le_mul_of_nonneg_left hR' (by linarith)
  have h2 : 4 * T * q ≤ 4 * T * x := mul_le_mul_of_nonneg_left hQ' (by linarith)
  have h3 : T * (18 * T) ≤ T * x := mul_le_mul_of_nonneg_left hB' (by linarith)
  have h4 : 1 * x ≤ T * x := mul_le_mul_of_nonneg_right hT hB0
  nlinarith

/-- The simulator, with given answers, when it is known what it asks for. -/
theorem sim_fixed (a : Answers I M) (m : Bytes) (X : Oracle N M) {Y : Oracle N M} (h : ∀ x : Arg N, (x.1 ∈ seedTexts a ∨ ∃ d : Bytes, d.length = I.digest ∧
      x.1 = Use.text (T := I.T) I (.next d)) → Y x = X x) :
    challenge I Y (bytes I.digest (a .digest)) = challenge I X (bytes I.digest (a .digest)) ∧ ∀ e, spts I ct pt m Y a e = spts I ct pt m X a e := by
  have h1 : ∀ x : Bytes, (x ∈ seedTexts a ∨ ∃ d : Bytes, d.length = I.digest ∧ x = Use.text (T := I.T) I (.next d)) → ask Y x = ask X x := fun x hx => by
    unfold ask
    split_ifs with hl
    · exact h ⟨x, hl⟩ hx
    · rfl
  exact ⟨challenge_next (fun d hd => h1 _ (Or.inr ⟨d, hd, rfl⟩)) (bytes_len' _ _),
    fun e => spts_agree (fun t j k => h1 _ (Or.inl (mem_seedTexts a t j k))) e⟩

theorem adapt_real_sim {p : ℕ} (hI : I.Is p) (hsk : sk.length = I.blk) (hk : IsKey I sk) (hpt : pt.length = I.blk)
    (hct : ct = Spec.Picnic1.ofBits I.blk (I.X.enc (toBits sk) (toBits pt))) {l : ℕ}
    (hN : 3 * I.T * (I.digest + I.seed + I.gate + 2 * I.blk) + 2 * I.blk + l + 33 ≤ N) (hM1 : 3 * I.T * I.seed + 32 ≤ M) (hM2 : I.digest ≤ M)
    (hM3 : I.blk + I.gate ≤ M) {g : ℕ} (hG : ∀ seen r O, ((G seen r).asked O).length ≤ g) {B : ℕ} (P : Player N M α) :
    ∀ (seen : List Bytes) (k Q : ℕ) (D : List Bytes) (π : Arg N → Option (Val M)), P.Within l seen k Q → Covers I D π →
      (∀ m ∈ seen, I.secretString sk ct pt m ∈ D) → (∀ m, I.secretString sk ct pt m ∈ D → m ∈ seen) → D.length + Q + g + k * (18 * I.T + 3) ≤ B →
      prob (fun O : Oracle N M => realEv sk ct pt G b (patch π O) P seen) ≤
        prob (fun ω : Oracle N M × (Fin k → Answers I M) => simEv sk ct pt G b P seen D (patch π ω.1) ω.2) + adaptBound I k B := by
  have hs := rom_sizes hI
  have hctl : ct.length = I.blk := by rw [hct]; exact ofBits_len' _ _
  induction P with
  | done r =>
    intro seen k Q D π _ _ _ _ _
    have h0 := adaptBound_nonneg (I := I) k B
    refine le_trans ?_ (le_add_of_nonneg_right h0)
    rw [← prob_fst (Ω' := Fin k → Answers I M)]
    refine prob_mono fun ω h => ?_
    simp only [realEv, simEv] at h ⊢
    exact h
  | ask x next ih =>
    intro seen k Q D π hP hD h1 h2 hB
    obtain ⟨hQ, hP⟩ := hP
    by_cases hx : KeyString I sk ct pt x.1
    · have h0 := adaptBound_nonneg (I := I) k B
      refine le_trans ?_ (le_add_of_nonneg_right h0)
      rw [← prob_fst (Ω' := Fin k → Answers I M)]
      exact prob_mono fun ω _ => Or.inl hx
    · refine mix_le {x} (E := fun O => realEv sk ct pt G b (patch π O) (.ask x next) seen)
        (F := fun O a => simEv sk ct pt G b (.ask x next) seen D (patch π O) a) fun O₀ => ?_
      have hx' : ∀ O : Oracle N M, patch (fixOn {x} π O₀) O x = patch π O₀ x := fun O => fixOn_mem (by simp) π O₀ O
      have hi := ih (patch π O₀ x) seen k (Q - 1) (x.1 :: D) (fixOn {x} π O₀) (hP _)
        (covers_fixOn hD (fun y hy => List.mem_cons_of_mem _ hy) (fun y hy => by
          rw [Set.mem_singleton_iff] at hy
          exact Or.inl (by simp [hy])) O₀)
        (fun m hm => List.mem_cons_of_mem _ (h1 m hm))
        (fun m hm => by
          rcases List.mem_cons.1 hm with h | h
          · exact absurd ⟨m, h.symm⟩ hx
          · exact h2 m h) (by simp only [List.length_cons]; omega)
      refine le_trans (le_of_eq ?_) (le_trans hi (le_of_eq ?_))
      · refine congrArg prob (funext fun O => ?_)
        rw [← patch_fixOn]
        simp only [realEv]
        rw [hx']
        exact propext ⟨fun h => h.resolve_left hx, Or.inr⟩
      · congr 1
        refine congrArg prob (funext fun ω => ?_)
        rw [← patch_fixOn]
        simp only [simEv]
        rw [hx']
        exact propext ⟨Or.inr, fun h => h.resolve_left hx⟩
  | sign m next ih =>
    intro seen k Q D π hP hD h1 h2 hB
    obtain ⟨hk0, hml, hms, hP⟩ := hP
    obtain ⟨k, rfl⟩ : ∃ k', k = k' + 1 := ⟨k - 1, by omega⟩
    simp only [Nat.add_sub_cancel] at hP
    have hBk : D.length + Q + g + k * (18 * I.T + 3) + (18 * I.T + 3) ≤ B := by
      rw [Nat.add_mul, one_mul] at hB
      omega
    have hsec : I.secretString sk ct pt m ∉ D := fun h => hms (h2 m h)
    have hNm : 3 * I.T * (I.digest + I.seed + I.gate + 2 * I.blk) + 2 * I.blk + m.length + 33 ≤ N := by omega
    have hlen : ∀ s (O : Oracle N M), ((realLocal sk ct pt G b (next s) (m :: seen)).asked O).length ≤ B := fun s O => by
      have h := realAsked_len (sk := sk) (ct := ct) (pt := pt) hG l O (next s) (m :: seen) k Q (hP s)
      have h' : k * (18 * I.T + 2) ≤ k * (18 * I.T + 3) := Nat.mul_le_mul_left _ (by omega)
      refine le_trans h ?_
      omega
    have s1 := step_real_sim (N := N) (M := M) hI hsk hk hpt hct hNm hM1 hM2 hM3 hD hsec hlen b
    have s2 := prob_again (N := N) (M := M) hI hsk hctl hpt hNm hM1 hM2 hD hsec h1
    have s3 := adapt_arith hI (k := k) (R := D.length) (Q := B) (B := B) (by omega) le_rfl (by omega)
    -- for fixed answers
    have s4 : ∀ a : Answers I M, prob (fun O : Oracle N M => (sim I (patch π O) a ct pt m).elim b fun x => New ct pt m D (patch π O) a x.e ∧
          realEv sk ct pt G b x.oracle (next x.sig) (m :: seen)) ≤
        prob (fun ω : Oracle N M × (Fin k → Answers I M) => (sim I (patch π ω.1) a ct pt m).elim b fun p => New ct pt m D (patch π ω.1) a p.e ∧
          ((∃ q, Shown p.e q ∧ KeyString I sk ct pt (spts I ct pt m (patch π ω.1) a p.e q)) ∨
            simEv sk ct pt G b (next p.sig) (m :: seen) (knownAfter sk ct pt D m (patch π ω.1) a p.e) p.oracle ω.2)) + adaptBound I k B := by
      intro a
      have h0 := adaptBound_nonneg (I := I) k B
      let S : Set (Arg N) := {x | x.1 ∈ seedTexts a ∨ ∃ d : Bytes, d.length = I.digest ∧ x.1 = Use.text (T := I.T) I (.next d)}
      refine mix_le S (E := fun O => (sim I (patch π O) a ct pt m).elim b fun x => New ct pt m D (patch π O) a x.e ∧
          realEv sk ct pt G b x.oracle (next x.sig) (m :: seen))
        (F := fun O a' => (sim I (patch π O) a ct pt m).elim b fun p => New ct pt m D (patch π O) a p.e ∧
          ((∃ q, Shown p.e q ∧ KeyString I sk ct pt (spts I ct pt m (patch π O) a p.e q)) ∨
            simEv sk ct pt G b (next p.sig) (m :: seen) (knownAfter sk ct pt D m (patch π O) a p.e) p.oracle a')) fun O₀ => ?_
      have hf : ∀ O : Oracle N M, challenge I (patch (fixOn S π O₀) O) (bytes I.digest (a .digest)) = challenge I (patch π O₀) (bytes I.digest (a .digest)) ∧
          ∀ e, spts I ct pt m (patch (fixOn S π O₀) O) a e = spts I ct pt m (patch π O₀) a e :=
        fun O => sim_fixed a m (patch π O₀) fun x hx => fixOn_mem hx π O₀ O
      simp only [← patch_fixOn]
      have hsim : ∀ O : Oracle N M, sim I (patch (fixOn S π O₀) O) a ct pt m = (challenge I (patch π O₀) (bytes I.digest (a .digest))).map fun e =>
          (⟨signature I a (simView I ct pt a e) e, swrite I (patch (fixOn S π O₀) O) a e (spts I ct pt m (patch π O₀) a e), secrets a, e⟩ : Play N M) := fun O => by
        rw [sim_eq, (hf O).1]
        refine congrArg (fun f => Option.map f _) (funext fun e => ?_)
        rw [(hf O).2]
      have hnew : ∀ (O : Oracle N M) e, New ct pt m D (patch (fixOn S π O₀) O) a e ↔ New ct pt m D (patch π O₀) a e := fun O e => by
        unfold New
        rw [(hf O).2]
      have hkn : ∀ (O : Oracle N M) e, knownAfter sk ct pt D m (patch (fixOn S π O₀) O) a e = knownAfter sk ct pt D m (patch π O₀) a e := fun O e => by
        unfold knownAfter shownTexts
        rw [(hf O).2]
      rcases hc : challenge I (patch π O₀) (bytes I.digest (a .digest)) with _ | e
      · simp only [hsim, hc, Option.map_none, Option.elim_none]
        refine le_trans ?_ (le_add_of_nonneg_right h0)
        rw [← prob_fst (Ω' := Fin k → Answers I M)]
      · simp only [hsim, hc, Option.map_some, Option.elim_some, hnew, (hf _).2, hkn, ← patch_fixWrite]
        by_cases hn : New ct pt m D (patch π O₀) a e
        · simp only [hn, true_and]
          by_cases hw : ∃ q, Shown e q ∧ KeyString I sk ct pt (spts I ct pt m (patch π O₀) a e q)
          · refine le_trans ?_ (le_add_of_nonneg_right h0)
            rw [← prob_fst (Ω' := Fin k → Answers I M)]
            exact prob_mono fun ω _ => Or.inl hw
          · have hi := ih (signature I a (simView I ct pt a e) e) (m :: seen) k Q (knownAfter sk ct pt D m (patch π O₀) a e)
              (fixWrite (fixOn S π O₀) a e (spts I ct pt m (patch π O₀) a e)) (hP _)
              (covers_fixWrite (D := knownAfter sk ct pt D m (patch π O₀) a e) (covers_fixOn hD (fun y hy => by
                  unfold knownAfter
                  simp [hy]) (fun y hy => by
                  rcases hy with hy | hy
                  · refine Or.inl ?_
                    unfold knownAfter
                    simp [hy]
                  · exact Or.inr hy) O₀) (fun _ h => h) fun q hq => by
                  have := (mem_shownTexts (ct := ct) (pt := pt) (m := m) (O := patch π O₀) (a := a) (e := e)).2 ⟨q, hq, rfl⟩
                  unfold knownAfter
                  simp [this])
              (fun m' hm' => by
                unfold knownAfter
                rcases List.mem_cons.1 hm' with h | h
                · simp [h]
                · simp [h1 m' h])
              (fun m' hm' => by
                unfold knownAfter at hm'
                rcases List.mem_cons.1 hm' with h | h
                · have := (C59_zkb_secrets I sk ct pt m' sk ct pt m hsk hsk hctl hctl hpt hpt h).2.2.2
                  simp [this]
                · rw [List.mem_append, List.mem_append] at h
                  rcases h with (h | h) | h
                  · have h3 := seedTexts_seed _ h
                    have h4 := secretString_len_ge (I := I) (ct := ct) (pt := pt) (msg := m') hsk
                    omega
                  · obtain ⟨q, hq, h⟩ := mem_shownTexts.1 h
                    exact absurd ⟨q, hq, m', h⟩ hw
                  · exact List.mem_cons_of_mem _ (h2 m' h))
              (by
                have := knownAfter_len (sk := sk) (ct := ct) (pt := pt) D m (patch π O₀) a e
                omega)
            refine le_trans hi ?_
            gcongr ?_ + _
            exact prob_mono fun ω h => Or.inr h
        · simp only [hn, false_and]
          rw [prob_no]
          exact add_nonneg (prob_nonneg _) h0
    have s5 := prob_avg (B := Answers I M) (F := fun O a => (sim I (patch π O) a ct pt m).elim b fun x => New ct pt m D (patch π O) a x.e ∧
          realEv sk ct pt G b x.oracle (next x.sig) (m :: seen))
      (G := fun (ω : Oracle N M × (Fin k → Answers I M)) a => (sim I (patch π ω.1) a ct pt m).elim b fun p => New ct pt m D (patch π ω.1) a p.e ∧
          ((∃ q, Shown p.e q ∧ KeyString I sk ct pt (spts I ct pt m (patch π ω.1) a p.e q)) ∨
            simEv sk ct pt G b (next p.sig) (m :: seen) (knownAfter sk ct pt D m (patch π ω.1) a p.e) p.oracle ω.2)) s4
    have s6 := prob_equiv (consEquiv (Ω := Oracle N M) (B := Answers I M) k)
      fun ω : Oracle N M × (Fin (k + 1) → Answers I M) => simEv sk ct pt G b (.sign m next) seen D (patch π ω.1) ω.2
    have s7 : prob (fun ω : (Oracle N M × (Fin k → Answers I M)) × Answers I M => (sim I (patch π ω.1.1) ω.2 ct pt m).elim b fun p => New ct pt m D (patch π ω.1.1) ω.2 p.e ∧
          ((∃ q, Shown p.e q ∧ KeyString I sk ct pt (spts I ct pt m (patch π ω.1.1) ω.2 p.e q)) ∨
            simEv sk ct pt G b (next p.sig) (m :: seen) (knownAfter sk ct pt D m (patch π ω.1.1) ω.2 p.e) p.oracle ω.1.2)) =
        prob fun ω : Oracle N M × (Fin (k + 1) → Answers I M) => simEv sk ct pt G b (.sign m next) seen D (patch π ω.1) ω.2 := by
      rw [← s6]
      rfl
    have s8 : prob (fun ω : Oracle N M × Answers I M => (sim I (patch π ω.1) ω.2 ct pt m).elim b fun x => New ct pt m D (patch π ω.1) ω.2 x.e ∧
        ((realLocal sk ct pt G b (next x.sig) (m :: seen)).run x.oracle ∨
          ∃ y ∈ (realLocal sk ct pt G b (next x.sig) (m :: seen)).asked x.oracle, y.1 = I.secretString sk ct pt m)) ≤
        prob (fun ω : Oracle N M × Answers I M => (sim I (patch π ω.1) ω.2 ct pt m).elim b fun x => New ct pt m D (patch π ω.1) ω.2 x.e ∧
          realEv sk ct pt G b x.oracle (next x.sig) (m :: seen)) := by
      refine prob_mono fun ω h => ?_
      rcases hx : sim I (patch π ω.1) ω.2 ct pt m with _ | x
      · rwa [hx] at h
      · rw [hx] at h
        obtain ⟨h3, h4 | h4⟩ := h
        · exact ⟨h3, h4⟩
        · exact ⟨h3, realEv_secret _ _ _ m (by simp) h4⟩
    have s9 : prob (fun O : Oracle N M => realEv sk ct pt G b (patch π O) (.sign m next) seen) ≤
        prob (fun O : Oracle N M => ∃ m' ∈ seen, I.secretString sk ct pt m' ∈ signerTexts I sk ct pt m (patch π O)) +
        prob (fun O : Oracle N M => (real I (patch π O) sk ct pt m).elim b fun x => (realLocal sk ct pt G b (next x.sig) (m :: seen)).run x.oracle) := by
      refine le_trans (prob_mono fun O h => ?_) (prob_or _ _)
      rcases h with h | h
      · exact Or.inl h
      · refine Or.inr ?_
        rcases hx : real I (patch π O) sk ct pt m with _ | x
        · simp only [signer, hx] at h
          exact h
        · simp only [signer, hx] at h
          have ho : x.oracle = patch π O := by
            simp only [real, Option.map_eq_some_iff] at hx
            obtain ⟨e, -, hx⟩ := hx
            rw [← hx]
          simp only [Option.elim_some, ho]
          exact h
    rw [s7] at s5
    linarith

end Picnic.Rom
