import Verif.Proofs.RomProb

/-
C62: the difference between signer and simulator.
-/

namespace Picnic.Rom

open Spec Spec.Zkb Spec.Rom Spec.Picnic1 Spec.Challenge

variable {N M : ℕ} {I : Inst} {sk ct pt msg : Bytes}

theorem challenge_text_len {T n0 n1 n2 m0 m1 m2 : ℕ} {outs coms : Fin T → Fin 3 → Bytes} {gs : Option (Fin T → Fin 3 → Bytes)} {ct pt salt msg : Bytes} {g0 g1 g2 : ℕ}
    (ho : ∀ t, (outs t 0).length = n0 ∧ (outs t 1).length = n1 ∧ (outs t 2).length = n2) (hc : ∀ t, (coms t 0).length = m0 ∧ (coms t 1).length = m1 ∧ (coms t 2).length = m2)
    (hg : ∀ G ∈ gs, ∀ t, (G t 0).length = g0 ∧ (G t 1).length = g1 ∧ (G t 2).length = g2) :
    (Use.text I (T := T) (.challenge outs coms gs ct pt salt msg)).length ≤
      1 + T * (n0 + n1 + n2) + T * (m0 + m1 + m2) + T * (g0 + g1 + g2) + ct.length + pt.length + salt.length + msg.length := by
  simp only [Use.text, List.length_append, List.length_singleton]
  rw [join_len (fun t => (ho t).1) (fun t => (ho t).2.1) (fun t => (ho t).2.2), join_len (fun t => (hc t).1) (fun t => (hc t).2.1) (fun t => (hc t).2.2)]
  have : ((gs.map join).getD []).length ≤ T * (g0 + g1 + g2) := by
    cases gs with
    | none => simp
    | some G =>
      have h := hg G rfl
      simp only [Option.map_some, Option.getD_some]
      rw [join_len (fun t => (h t).1) (fun t => (h t).2.1) (fun t => (h t).2.2)]
  omega

/-- The longest string of a question. -/
theorem pts_len {p : ℕ} (hI : I.Is p) (hsk : sk.length = I.blk) (hct : ct.length = I.blk) (hpt : pt.length = I.blk)
    (hN : 3 * I.T * (I.digest + I.seed + I.gate + 2 * I.blk) + 2 * I.blk + msg.length + 33 ≤ N) (O : Oracle N M) (a : Answers I M) (q : Query I.T I.unruh) :
    (pts I sk ct pt msg O a q).length ≤ N := by
  have hs := rom_sizes hI
  have hz := zkb_sizes hI
  have hT : 1 ≤ I.T := by
    rcases Nat.eq_zero_or_pos I.T with h | h
    · rw [h] at hz; omega
    · exact h
  have hN' : 3 * (I.digest + I.seed + I.gate + 2 * I.blk) + 2 * I.blk + msg.length + 33 ≤ N := by
    have : 3 * 1 * (I.digest + I.seed + I.gate + 2 * I.blk) ≤ 3 * I.T * (I.digest + I.seed + I.gate + 2 * I.blk) :=
      Nat.mul_le_mul_right _ (Nat.mul_le_mul_left _ hT)
    omega
  by_cases hq : q = .secrets
  · subst hq
    unfold pts
    simp only [point]
    rw [secretString_len hsk hct hpt]
    omega
  · rw [pts_use O a hq]
    have hw := use_wf (sk := sk) (msg := msg) hI hct hpt O a hq
    cases q with
    | secrets => exact absurd rfl hq
    | tape t j =>
      simp only [useOf, Use.text, List.length_append, int16_len]
      rw [hash_len, salt_len]
      omega
    | com t j =>
      simp only [useOf, Use.WF] at hw
      simp only [useOf, Use.text, List.length_append, List.length_singleton]
      omega
    | g hu t j =>
      simp only [useOf, Use.WF] at hw
      simp only [useOf, Use.text, List.length_append, int16_len]
      have : ((if j = 2 then some (view I sk pt a t j).key else none).getD []).length ≤ I.blk := by
        split_ifs
        · exact le_of_eq (ofBits_len' _ _)
        · simp
      omega
    | digest =>
      simp only [useOf, Use.WF] at hw
      simp only [useOf]
      obtain ⟨w1, w2, -, w4, w5, w6, w7⟩ := hw
      refine le_trans (challenge_text_len (fun t => ⟨w1 t 0, w1 t 1, w1 t 2⟩) (fun t => ⟨w2 t 0, w2 t 1, w2 t 2⟩) (fun G hG t => ⟨w4 G hG t 0, w4 G hG t 1, w4 G hG t 2⟩)) ?_
      rw [w5, w6, w7]
      have e1 : I.T * (I.blk + I.blk + I.blk) + I.T * (I.digest + I.digest + I.digest) + I.T * (I.gLen ↑(0 : Fin 3) + I.gLen ↑(1 : Fin 3) + I.gLen ↑(2 : Fin 3)) ≤
          3 * I.T * (I.digest + I.seed + I.gate + 2 * I.blk) := by
        have : I.gLen ↑(0 : Fin 3) + I.gLen ↑(1 : Fin 3) + I.gLen ↑(2 : Fin 3) ≤ 3 * (I.seed + I.gate + I.blk) := by
          unfold Inst.gLen
          simp only [Fin.val_zero, Fin.val_one, Fin.val_two]
          norm_num
          omega
        calc _ = I.T * (I.blk + I.blk + I.blk + (I.digest + I.digest + I.digest) + (I.gLen ↑(0 : Fin 3) + I.gLen ↑(1 : Fin 3) + I.gLen ↑(2 : Fin 3))) := by ring
          _ ≤ I.T * (3 * (I.digest + I.seed + I.gate + 2 * I.blk)) := Nat.mul_le_mul_left _ (by omega)
          _ = _ := by ring
      omega

/-- Signer and simulator. -/
theorem real_sim {p : ℕ} (hI : I.Is p) (hsk : sk.length = I.blk) (hk : IsKey I sk) (hpt : pt.length = I.blk)
    (hct : ct = Spec.Picnic1.ofBits I.blk (I.X.enc (toBits sk) (toBits pt)))
    (hN : 3 * I.T * (I.digest + I.seed + I.gate + 2 * I.blk) + 2 * I.blk + msg.length + 33 ≤ N) (hM1 : 3 * I.T * I.seed + 32 ≤ M) (hM2 : I.digest ≤ M)
    (hM3 : I.blk + I.gate ≤ M) (A : Set (Option (Bytes × (Arg N → Option (Val M))))) :
    |prob (fun O : Oracle N M => (real I O sk ct pt msg).map (observe I sk ct pt msg) ∈ A) -
      prob (fun ω : Oracle N M × Answers I M => (sim I ω.1 ω.2 ct pt msg).map (observe I sk ct pt msg) ∈ A)| ≤ 2 * (3 * I.T) ^ 2 / 2 ^ (8 * I.seed) := by
  have hs := rom_sizes hI
  have hctl : ct.length = I.blk := by rw [hct]; exact ofBits_len' _ _
  have hlen := pts_len (M := M) hI hsk hctl hpt hN
  have hN1 : I.seed + 1 ≤ N := by
    have hT : 1 ≤ I.T := by
      have hz := zkb_sizes hI
      rcases Nat.eq_zero_or_pos I.T with h | h
      · rw [h] at hz; omega
      · exact h
    have : 3 * 1 * (I.digest + I.seed + I.gate + 2 * I.blk) ≤ 3 * I.T * (I.digest + I.seed + I.gate + 2 * I.blk) :=
      Nat.mul_le_mul_right _ (Nat.mul_le_mul_left _ hT)
    omega
  have hbad := prob_bad (N := N) (M := M) (msg := msg) hI hsk hctl hpt hM1 hM2 hN1
  -- the signer, with unused random values beside
  have e0 : prob (fun O : Oracle N M => (real I O sk ct pt msg).map (observe I sk ct pt msg) ∈ A) =
      prob (fun ω : Oracle N M × Answers I M => (real I ω.1 sk ct pt msg).map (observe I sk ct pt msg) ∈ A) := (prob_fst _).symm
  -- signer and hybrid
  have e1 := prob_swap (N := N) (M := M) (I := I) (sk := sk) (ct := ct) (pt := pt) (msg := msg) hlen
    (fun O a => ((challenge I O (bytes I.digest (a .digest))).map fun e => (⟨signature I a (view I sk pt a) e, O, secrets a, e⟩ : Play N M)).map (observe I sk ct pt msg) ∈ A)
  have e2 := prob_swap (N := N) (M := M) (I := I) (sk := sk) (ct := ct) (pt := pt) (msg := msg) hlen (fun _ _ => True)
  simp only [and_true] at e2
  -- hybrid and simulator
  have e3 : prob (fun ω : Oracle N M × Answers I M => Good I sk ct pt msg ω.1 ω.2 ∧ (hyb I sk ct pt msg ω.1 ω.2).map (observe I sk ct pt msg) ∈ A) =
      prob (fun ω : Oracle N M × Answers I M => Good I sk ct pt msg ω.1 ω.2 ∧ (sim I ω.1 (flip I sk pt [] ω.1 ω.2) ct pt msg).map (observe I sk ct pt msg) ∈ A) :=
    prob_congr fun ω => and_congr_right fun hg => by rw [hyb_sim hM3 hs.1 hk hsk hct ω.1 ω.2 hg]
  have e4 : prob (fun ω : Oracle N M × Answers I M => (sim I ω.1 (flip I sk pt [] ω.1 ω.2) ct pt msg).map (observe I sk ct pt msg) ∈ A) =
      prob (fun ω : Oracle N M × Answers I M => (sim I ω.1 ω.2 ct pt msg).map (observe I sk ct pt msg) ∈ A) :=
    prob_bij (f := fun ω : Oracle N M × Answers I M => (ω.1, flip I sk pt [] ω.1 ω.2)) (g := fun ω => (ω.1, flip I [] pt sk ω.1 ω.2))
      (fun ω => Prod.ext rfl (flip_flip hM3 hs.1 hk isKey_nil ω.1 ω.2)) (fun ω => Prod.ext rfl (flip_flip hM3 hs.1 isKey_nil hk ω.1 ω.2))
      fun ω => (sim I ω.1 ω.2 ct pt msg).map (observe I sk ct pt msg) ∈ A
  have s1 := prob_split (fun ω : Oracle N M × Answers I M => (real I ω.1 sk ct pt msg).map (observe I sk ct pt msg) ∈ A)
    fun ω => Good I sk ct pt msg ω.1 (answers I ω.1 sk ct pt msg)
  have s2 := prob_split (fun ω : Oracle N M × Answers I M => (sim I ω.1 (flip I sk pt [] ω.1 ω.2) ct pt msg).map (observe I sk ct pt msg) ∈ A)
    fun ω => Good I sk ct pt msg ω.1 ω.2
  have b1 : prob (fun ω : Oracle N M × Answers I M => ¬ Good I sk ct pt msg ω.1 (answers I ω.1 sk ct pt msg) ∧ (real I ω.1 sk ct pt msg).map (observe I sk ct pt msg) ∈ A) ≤
      2 * (3 * I.T) ^ 2 / 2 ^ (8 * I.seed) := by
    refine le_trans (prob_mono fun ω h => h.1) ?_
    rw [prob_not, e2, ← prob_not]
    exact hbad
  have b2 : prob (fun ω : Oracle N M × Answers I M => ¬ Good I sk ct pt msg ω.1 ω.2 ∧
      (sim I ω.1 (flip I sk pt [] ω.1 ω.2) ct pt msg).map (observe I sk ct pt msg) ∈ A) ≤ 2 * (3 * I.T) ^ 2 / 2 ^ (8 * I.seed) :=
    le_trans (prob_mono fun ω h => h.1) hbad
  have e5 : prob (fun ω : Oracle N M × Answers I M => Good I sk ct pt msg ω.1 (answers I ω.1 sk ct pt msg) ∧ (real I ω.1 sk ct pt msg).map (observe I sk ct pt msg) ∈ A) =
      prob (fun ω : Oracle N M × Answers I M => Good I sk ct pt msg ω.1 ω.2 ∧ (sim I ω.1 (flip I sk pt [] ω.1 ω.2) ct pt msg).map (observe I sk ct pt msg) ∈ A) :=
    e1.trans e3
  have p1 := prob_nonneg (fun ω : Oracle N M × Answers I M => ¬ Good I sk ct pt msg ω.1 (answers I ω.1 sk ct pt msg) ∧ (real I ω.1 sk ct pt msg).map (observe I sk ct pt msg) ∈ A)
  have p2 := prob_nonneg (fun ω : Oracle N M × Answers I M => ¬ Good I sk ct pt msg ω.1 ω.2 ∧
      (sim I ω.1 (flip I sk pt [] ω.1 ω.2) ct pt msg).map (observe I sk ct pt msg) ∈ A)
  rw [e0, ← e4, s1, s2, e5, abs_le]
  constructor <;> linarith

end Picnic.Rom
