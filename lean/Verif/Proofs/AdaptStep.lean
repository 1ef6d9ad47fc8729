import Verif.Proofs.AdaptHit

/-
C62: a signer is replaced by the simulator after some values of the oracle have become known.
-/

namespace Picnic.Rom

open Spec Spec.Zkb Spec.Rom Spec.Picnic1 Spec.Challenge

variable {N M : ℕ} {I : Inst} {sk ct pt msg : Bytes} {D : List Bytes} {π : Arg N → Option (Val M)}

variable (ct pt msg D) in
/-- The simulator writes only into strings that are not known. -/
def New (O : Oracle N M) (a : Answers I M) (e : List ℕ) : Prop := ∀ q, Shown e q → spts I ct pt msg O a e q ∉ D

variable (I) in
/-- The bound for one signature. -/
noncomputable def stepBound (R Q : ℕ) : ℝ := (27 * I.T ^ 2 + (12 * I.T + 2) * R + 4 * I.T * Q) / 2 ^ (8 * I.seed)

theorem step_real_sim {p : ℕ} (hI : I.Is p) (hsk : sk.length = I.blk) (hk : IsKey I sk) (hpt : pt.length = I.blk)
    (hct : ct = Spec.Picnic1.ofBits I.blk (I.X.enc (toBits sk) (toBits pt)))
    (hN : 3 * I.T * (I.digest + I.seed + I.gate + 2 * I.blk) + 2 * I.blk + msg.length + 33 ≤ N) (hM1 : 3 * I.T * I.seed + 32 ≤ M) (hM2 : I.digest ≤ M)
    (hM3 : I.blk + I.gate ≤ M) (hD : Covers I D π) (hsec : I.secretString sk ct pt msg ∉ D) {Q : ℕ} {A : Bytes → Local N M I Prop}
    (hA : ∀ s O, ((A s).asked O).length ≤ Q) (b : Prop) :
    prob (fun O : Oracle N M => (real I (patch π O) sk ct pt msg).elim b fun x => (A x.sig).run x.oracle) ≤
      prob (fun ω : Oracle N M × Answers I M => (sim I (patch π ω.1) ω.2 ct pt msg).elim b fun x => New ct pt msg D (patch π ω.1) ω.2 x.e ∧
        ((A x.sig).run x.oracle ∨ ∃ y ∈ (A x.sig).asked x.oracle, y.1 = I.secretString sk ct pt msg)) + stepBound I D.length Q := by
  have hs := rom_sizes hI
  have hctl : ct.length = I.blk := by rw [hct]; exact ofBits_len' _ _
  have hlen := pts_len (M := M) hI hsk hctl hpt hN
  have hN1 := seed_N hI hN
  have hbad := prob_badD (N := N) (M := M) (msg := msg) hI hsk hctl hpt hM1 hM2 hN1 hD hsec
  let AA : Set (Option (Bytes × (Arg N → Option (Val M)))) := {o | (o = none ∧ b) ∨ ∃ x, o = some x ∧ ∀ z : Play N M, observe I sk ct pt msg z = x →
    ¬ Hit sk ct pt msg A z → (A z.sig).run z.oracle}
  have hAA : ∀ y : Option (Play N M), y.map (observe I sk ct pt msg) ∈ AA ↔ y.elim b fun x => (A x.sig).run x.oracle ∨ Hit sk ct pt msg A x :=
    fun y => hit_observe hI hsk hctl hpt b A y
  -- signer and hybrid
  have e1 := prob_swapD (N := N) (M := M) (I := I) (sk := sk) (ct := ct) (pt := pt) (msg := msg) hD hlen
    (fun O a => ((challenge I O (bytes I.digest (a .digest))).map fun e => (⟨signature I a (view I sk pt a) e, O, secrets a, e⟩ : Play N M)).map (observe I sk ct pt msg) ∈ AA)
  have e2 := prob_swapD (N := N) (M := M) (I := I) (sk := sk) (ct := ct) (pt := pt) (msg := msg) hD hlen (fun _ _ => True)
  simp only [and_true] at e2
  have b1 : prob (fun ω : Oracle N M × Answers I M => ¬ GoodD I sk ct pt msg D π ω.1 (answers I (patch π ω.1) sk ct pt msg)) ≤
      (18 * I.T ^ 2 + (9 * I.T + 2) * D.length) / 2 ^ (8 * I.seed) := by
    rw [prob_not, e2, ← prob_not]
    exact hbad
  -- hybrid and simulator
  have e3 : ∀ ω : Oracle N M × Answers I M, (GoodD I sk ct pt msg D π ω.1 ω.2 ∧ (hyb I sk ct pt msg (patch π ω.1) ω.2).map (observe I sk ct pt msg) ∈ AA) →
      (sim I (patch π ω.1) (flip I sk pt [] (patch π ω.1) ω.2) ct pt msg).elim b fun x =>
        New ct pt msg D (patch π ω.1) (flip I sk pt [] (patch π ω.1) ω.2) x.e ∧ ((A x.sig).run x.oracle ∨ Hit sk ct pt msg A x) := by
    rintro ⟨O, a⟩ ⟨hg, hm⟩
    dsimp only at hm ⊢
    rw [hyb_sim hM3 hs.1 hk hsk hct (patch π O) a hg.good, hAA] at hm
    rcases hx : sim I (patch π O) (flip I sk pt [] (patch π O) a) ct pt msg with _ | x
    · rw [hx] at hm
      exact hm
    · rw [hx, Option.elim_some] at hm
      refine ⟨fun q hq => ?_, hm⟩
      have hc := hx
      rw [sim_eq, Option.map_eq_some_iff] at hc
      obtain ⟨e, he, hxe⟩ := hc
      have hee : x.e = e := by rw [← hxe]
      rw [hee] at hq ⊢
      rcases h : challenge I (patch π O) (bytes I.digest (a .digest)) with _ | e'
      · have hf : flip I sk pt [] (patch π O) a = a := by
          unfold flip
          simp only [h]
        rw [hf, h] at he
        simp at he
      · have hf : flip I sk pt [] (patch π O) a = conv I sk [] pt e' a := by
          unfold flip
          simp only [h]
        rw [hf, conv_digest, h, Option.some.injEq] at he
        subst he
        rw [hf]
        have hp : spts I ct pt msg (patch π O) (conv I sk [] pt e' a) e' q = pts I sk ct pt msg (patch π O) a q :=
          point_sim hM3 hs.1 hk hsk hct (fun t => challenge_lt h t) a (patch π O) hq
        rw [hp]
        exact hg.off q
  have e4 : prob (fun ω : Oracle N M × Answers I M => (sim I (patch π ω.1) (flip I sk pt [] (patch π ω.1) ω.2) ct pt msg).elim b fun x =>
        New ct pt msg D (patch π ω.1) (flip I sk pt [] (patch π ω.1) ω.2) x.e ∧ ((A x.sig).run x.oracle ∨ Hit sk ct pt msg A x)) =
      prob (fun ω : Oracle N M × Answers I M => (sim I (patch π ω.1) ω.2 ct pt msg).elim b fun x =>
        New ct pt msg D (patch π ω.1) ω.2 x.e ∧ ((A x.sig).run x.oracle ∨ Hit sk ct pt msg A x)) :=
    prob_bij (f := fun ω : Oracle N M × Answers I M => (ω.1, flip I sk pt [] (patch π ω.1) ω.2)) (g := fun ω => (ω.1, flip I [] pt sk (patch π ω.1) ω.2))
      (fun ω => Prod.ext rfl (flip_flip hM3 hs.1 hk isKey_nil (patch π ω.1) ω.2)) (fun ω => Prod.ext rfl (flip_flip hM3 hs.1 isKey_nil hk (patch π ω.1) ω.2))
      fun ω => (sim I (patch π ω.1) ω.2 ct pt msg).elim b fun x => New ct pt msg D (patch π ω.1) ω.2 x.e ∧ ((A x.sig).run x.oracle ∨ Hit sk ct pt msg A x)
  have h1 := prob_hitsD (N := N) (M := M) (sk := sk) (msg := msg) hI hctl hpt hM1 hM2 hN1 hD hA b (fun ω x => New ct pt msg D (patch π ω.1) ω.2 x.e)
    fun _ x => (A x.sig).run x.oracle
  have m1 : prob (fun O : Oracle N M => (real I (patch π O) sk ct pt msg).elim b fun x => (A x.sig).run x.oracle) ≤
      prob (fun ω : Oracle N M × Answers I M => (real I (patch π ω.1) sk ct pt msg).map (observe I sk ct pt msg) ∈ AA) := by
    rw [← prob_fst (Ω' := Answers I M)]
    refine prob_mono fun ω h => ?_
    rw [hAA]
    rcases hx : real I (patch π ω.1) sk ct pt msg with _ | x
    · rwa [hx] at h
    · rw [hx] at h
      exact Or.inl h
  have s1 := prob_split (fun ω : Oracle N M × Answers I M => (real I (patch π ω.1) sk ct pt msg).map (observe I sk ct pt msg) ∈ AA)
    fun ω => GoodD I sk ct pt msg D π ω.1 (answers I (patch π ω.1) sk ct pt msg)
  have b2 : prob (fun ω : Oracle N M × Answers I M => ¬ GoodD I sk ct pt msg D π ω.1 (answers I (patch π ω.1) sk ct pt msg) ∧
      (real I (patch π ω.1) sk ct pt msg).map (observe I sk ct pt msg) ∈ AA) ≤ (18 * I.T ^ 2 + (9 * I.T + 2) * D.length) / 2 ^ (8 * I.seed) :=
    le_trans (prob_mono fun ω h => h.1) b1
  have e5 : prob (fun ω : Oracle N M × Answers I M => GoodD I sk ct pt msg D π ω.1 (answers I (patch π ω.1) sk ct pt msg) ∧
      (real I (patch π ω.1) sk ct pt msg).map (observe I sk ct pt msg) ∈ AA) =
      prob (fun ω : Oracle N M × Answers I M => GoodD I sk ct pt msg D π ω.1 ω.2 ∧ (hyb I sk ct pt msg (patch π ω.1) ω.2).map (observe I sk ct pt msg) ∈ AA) := e1
  have e6 := prob_mono e3
  have hsum : stepBound I D.length Q = hitBoundD I D.length Q + (18 * I.T ^ 2 + (9 * I.T + 2) * D.length) / 2 ^ (8 * I.seed) := by
    unfold stepBound hitBoundD
    generalize (2 : ℝ) ^ (8 * I.seed) = c
    ring
  rw [hsum]
  linarith

end Picnic.Rom
