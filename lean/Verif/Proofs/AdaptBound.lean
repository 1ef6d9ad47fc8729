import Verif.Proofs.AdaptForge

/-
C63: the bound for forgers that choose the messages.
-/

namespace Picnic.Rom

open Spec Spec.Zkb Spec.Rom Spec.Picnic1 Spec.Challenge

variable {N M : ℕ} {I : Inst} {sk ct pt : Bytes} {k : ℕ} {O : Oracle N M}

/-! ### The strings of a verifier -/

/-- A verifier hashes only one string with a message. -/
theorem vstr_dig_text {n : ℕ} (hI : I.Is n) {X : Oracle N M} {msg sig x m : Bytes} (hx : x ∈ vstrs I ct pt X msg sig) (h : IsDig I ct pt x m) :
    ∃ e salt o av bv, Parsed I sig e salt o ∧ (∀ t < I.T, OpenedBy I X pt salt t (e.getD t 0) (o t) (av t) (bv t)) ∧ x = challengeText I X ct pt msg e salt o av bv := by
  obtain ⟨e, salt, o, ⟨p1, p2, p3, p4, p5⟩, hx⟩ := vstrs_checked hx
  have hP : Parsed I sig e salt o := ⟨p1, p2, p3, p4, p5⟩
  have hs := rom_sizes hI
  have hne : ∀ {u : Use I.T}, Use.WF I u → (∀ outs coms gs ct pt salt m, u ≠ .challenge outs coms gs ct pt salt m) → x ≠ Use.text I u := by
    intro u hu hn hx
    obtain ⟨_, _, _, _, h1, h2⟩ := h
    exact hn _ _ _ _ _ _ _ (C59_zkb I n hI _ _ h1 hu (h2.symm.trans hx)).symm
  rcases hx with ⟨t, ht, s, j, hsj, hx⟩ | ⟨t, ht, av, bv, v, j, hop, hv, hx⟩ | ⟨av, bv, hop, hx⟩
  · exfalso
    have he := getD_lt p4 t
    have hf := p5 t ht
    have hsl : s.length = I.seed := by
      rcases hsj with ⟨rfl, -⟩ | ⟨rfl, -⟩
      · exact hf.seed0
      · exact hf.seed1
    have hj : j < 3 := by
      rcases hsj with ⟨-, rfl⟩ | ⟨-, rfl⟩ <;> omega
    have htl : tapeLen I j < 2 ^ 16 := by
      unfold tapeLen
      split_ifs <;> omega
    rcases hx with hx | hx | hx | hx
    · exact hne (u := .tapeSeed s) hsl (by simp) hx
    · exact hne (u := .comSeed s) hsl (by simp) hx
    · exact hne (u := .gSeed s) hsl (by simp) hx
    · exact hne (u := .tape _ _ _ _ _) ⟨hash_len' _ _ _, p2, by omega, by omega, htl⟩ (by simp) hx
  · exfalso
    obtain ⟨la, lb⟩ := openedBy_lengths (getD_lt p4 t) (p5 t ht) hop
    have lv : v.seed.length = I.seed ∧ v.key.length = I.blk ∧ v.gates.length = I.gate ∧ v.out.length = I.blk := by
      rcases hv with ⟨rfl, -⟩ | ⟨rfl, -⟩
      · exact la
      · exact lb
    rcases hx with hx | ⟨hu, hx⟩
    · exact hne (u := .com _ _ _ _) ⟨hash_len' _ _ _, lv.2.1, lv.2.2.1, lv.2.2.2⟩ (by simp) hx
    · refine hne (u := .g _ _ _) ⟨hu, hash_len' _ _ _, fun k hk => ?_, lv.2.2.1⟩ (by simp) hx
      split_ifs at hk
      · obtain rfl := Option.some.inj hk
        exact lv.2.1
      · simp at hk
  · exact ⟨e, salt, o, av, bv, hP, hop, hx⟩

/-- A verifier hashes a string with a message only for the message of the signature. -/
theorem vstr_dig {n : ℕ} (hI : I.Is n) (hct : ct.length = I.blk) (hpt : pt.length = I.blk) {X : Oracle N M} {msg sig x m : Bytes}
    (hx : x ∈ vstrs I ct pt X msg sig) (h : IsDig I ct pt x m) : m = msg := by
  obtain ⟨e, salt, o, av, bv, hP, hop, hx⟩ := vstr_dig_text hI hx h
  have hch := challengeText_isCh (msg := msg) hct hpt hP hop
  exact isDig_inj hI h ⟨_, _, _, _, hx ▸ hch⟩

/-- Validity depends only on the strings without messages, and on those with the message. -/
theorem validBy_other {n : ℕ} (hI : I.Is n) (hct : ct.length = I.blk) (hpt : pt.length = I.blk) {X Y : Oracle N M} {msg sig : Bytes} {L : List Bytes} (hL : msg ∉ L)
    (h : ∀ x : Arg N, (∀ m ∈ L, ¬ IsDig I ct pt x.1 m) → X x = Y x) {av bv : ℕ → Picnic1.View} (hv : ValidBy I X ct pt msg sig av bv) : ValidBy I Y ct pt msg sig av bv := by
  have h0 : ∀ x : Bytes, (∀ m ∈ L, ¬ IsDig I ct pt x m) → ask Y x = ask X x := fun x hx => by
    unfold ask
    split_ifs with hl
    · exact (h ⟨x, hl⟩ hx).symm
    · rfl
  have key : ∀ x ∈ vstrs I ct pt X msg sig, ask Y x = ask X x := fun x hx => h0 x fun m hm hd => hL (vstr_dig hI hct hpt hx hd ▸ hm)
  unfold vstrs at key
  simp only [List.mem_append] at key
  exact validBy_congr hI (fun x hx => key x (Or.inl (Or.inl (Or.inl hx)))) (fun x hx => key x (Or.inl (Or.inl (Or.inr hx))))
    (fun x hx => key x (Or.inl (Or.inr hx))) (fun x hx => key x (Or.inr hx)) (fun d hd => (h0 _ fun m _ => plain_notDig hI (plain_next hd)).symm) hv

theorem viewText_other {n : ℕ} (hI : I.Is n) {X Y : Oracle N M} {L : List Bytes}
    (h : ∀ x : Arg N, (∀ m ∈ L, ¬ IsDig I ct pt x.1 m) → X x = Y x) {v : Picnic1.View} (hv : v.seed.length = I.seed) : viewText I X v = viewText I Y v := by
  have h0 : ask X (Use.text (T := I.T) I (.comSeed v.seed)) = ask Y (Use.text (T := I.T) I (.comSeed v.seed)) := by
    unfold ask
    split_ifs with hl
    · exact h ⟨_, hl⟩ fun m _ => plain_notDig hI (show Use.text (T := I.T) I (.comSeed v.seed) ∈ Plain I by rw [text_comSeed]; exact seedText_plain 1 hv)
    · rfl
  unfold viewText
  rw [hashUse_ask h0]

/-! ### The forger after the simulator -/

open Classical in
/-- What the simulator leaves to the forger without a signer. -/
noncomputable def lazyBase {n : ℕ} (hI : I.Is n) (hct : ct.length = I.blk) (hpt : pt.length = I.blk) (hN : I.digest + 1 ≤ N) (a : Fin k → Answers I M)
    (ha : Digests a) (P : Player N M (Bytes × Bytes)) :
    Base N M I ct pt (k * (10 * I.T + 1)) (Fintype.card (Fin k × Query I.T I.unruh)) ∅ where
  base := simProc hN a
  W O := {x | x.length ≤ N ∧ AllEnd a O ∧ ∃ i q, Shown (chals a O i) q ∧ fpts ct pt O (a i) (chals a O i) q = x}
  H O := if AllEnd a O then stack O a (chals a O) fun i => fpts ct pt O (a i) (chals a O i) else O
  adv O := if AllEnd a O then lazy ct pt P a (chals a O) fun _ => none else .done ([], [])
  vals v := bytes I.digest (a ((Fintype.equivFin (Fin k × Query I.T I.unruh)).symm v).1 ((Fintype.equivFin (Fin k × Query I.T I.unruh)).symm v).2)
  len O := simProc_len hN a O
  plain O x hx := plain_not hI (simProc_plain hN a O hx)
  off O x hx := by
    split_ifs with h
    · exact stack_off fun ⟨i, q, hq⟩ => hx ⟨x.2, h, i, q, hq⟩
    · rfl
  on O x hx := by
    obtain ⟨hl, h, hq⟩ := hx
    rw [if_pos h]
    obtain ⟨⟨i, q, -, -, e⟩, -⟩ := stack_on (X := O) (x := ⟨x, hl⟩) (a := a) hq
    refine ⟨Fintype.equivFin _ (i, q), ?_⟩
    rw [Equiv.symm_apply_apply]
    unfold Rom.hash ask
    rw [dif_pos hl, e]
  inj O x hx y hy hne he := by
    obtain ⟨hl, h, hq⟩ := hx
    obtain ⟨hl', -, hq'⟩ := hy
    rw [if_pos h] at he
    obtain ⟨⟨i, q, -, e1, e⟩, -⟩ := stack_on (X := O) (x := ⟨x, hl⟩) (a := a) hq
    obtain ⟨⟨i', q', -, e1', e'⟩, -⟩ := stack_on (X := O) (x := ⟨y, hl'⟩) (a := a) hq'
    unfold Rom.hash ask at he
    rw [dif_pos hl, dif_pos hl', e, e'] at he
    have := ha (a₁ := (i, q)) (a₂ := (i', q')) he
    rw [Prod.mk.injEq] at this
    obtain ⟨rfl, rfl⟩ := this
    exact hne (e1.symm.trans e1')
  fresh O x hx hw := by
    obtain ⟨hl, -, i, q, hq, e⟩ := hw
    by_cases hd : q = .digest
    · have := fpts_digest (ct := ct) (pt := pt) O (a i) (chals a O i)
      rw [← hd, e] at this
      omega
    · rw [fpts_eq hq hd []] at e
      exact spts_plain hI hct hpt O (a i) _ hq (by rw [e]; exact simProc_plain hN a O hx)
  loc O O' h := by
    have h1 : ∀ i, challenge I O' (bytes I.digest (a i .digest)) = challenge I O (bytes I.digest (a i .digest)) := simProc_challenge hN a h
    have h2 : AllEnd a O' = AllEnd a O := by
      unfold AllEnd
      simp only [h1]
    have h3 : chals a O' = chals a O := by
      funext i
      unfold chals
      rw [h1]
    have h4 : ∀ i, fpts ct pt O' (a i) (chals a O' i) = fpts ct pt O (a i) (chals a O i) := fun i => by
      funext q
      unfold fpts
      rw [h3, simProc_spts hN a h]
    refine ⟨?_, ?_, ?_⟩
    · simp only [h2, h4]
      rw [h3]
    · simp only [h2]
      rw [h3]
    · rintro x ⟨hl, hA, hq⟩
      simp only [h2, h4]
      rw [h3, if_pos hA, if_pos hA]
      exact (stack_on (X := O) (x := x) (a := a) hq).2 O'
  known O d key gates out hw hx := by
    obtain ⟨hl', -, i, q, hq, e⟩ := hx
    have hd : q ≠ .digest := fun hd => by
      have := fpts_digest (ct := ct) (pt := pt) O (a i) (chals a O i)
      rw [← hd, e] at this
      omega
    rw [fpts_eq hq hd []] at e
    obtain ⟨u, hu, e', hc, -⟩ := spts_use (O := O) hI hct hpt (msg := []) (a i) _ hq
    have := C59_zkb I n hI _ _ hu hw (e'.symm.trans e)
    obtain ⟨t, j, hd⟩ := hc _ _ _ _ this
    have hl : (seedText I 1 (seed (a i) t j)).length ≤ N := by
      have := rom_sizes hI
      rw [seedText_len, seed_len _ _ j.2]
      omega
    exact ⟨⟨_, hl⟩, simProc_seed hN a O i (mem_toArgs.2 (mem_seedTexts _ t j 1)), hd.symm⟩
  next O d hd hw := by
    obtain ⟨hl, -, i, q, hq, e⟩ := hw
    by_cases hqd : q = .digest
    · have := fpts_digest (ct := ct) (pt := pt) O (a i) (chals a O i)
      rw [← hqd, e] at this
      omega
    · rw [fpts_eq hq hqd []] at e
      exact spts_plain hI hct hpt O (a i) _ hq (by rw [e]; exact plain_next hd)
  chal O c outs coms gs salt msg hc hw := by
    obtain ⟨hl, -, i, q, hq, e⟩ := hw
    by_cases hqd : q = .digest
    · have := fpts_digest (ct := ct) (pt := pt) O (a i) (chals a O i)
      rw [← hqd, e] at this
      omega
    · rw [fpts_eq hq hqd []] at e
      exact absurd ⟨outs, coms, gs, salt, by rw [e]; exact hc⟩ (fpts_notDig hI hct hpt hq hqd O (a i) [] msg)

/-! ### The bound -/

variable (ct pt) in
/-- The signature is valid, and the message has not been signed. -/
noncomputable def endLocal {n : ℕ} (hI : I.Is n) (seen : List Bytes) (r : Bytes × Bytes) : Local N M I Prop := forgeLocal ct pt hI {m | m ∈ seen} (.done r)

theorem forge_after {n : ℕ} (hI : I.Is n) (hsk : sk.length = I.blk) (hk : IsKey I sk) (hpt : pt.length = I.blk)
    (hct : ct = Spec.Picnic1.ofBits I.blk (I.X.enc (toBits sk) (toBits pt))) {l : ℕ}
    (hN : 3 * I.T * (I.digest + I.seed + I.gate + 2 * I.blk) + 2 * I.blk + l + 33 ≤ N) (hM1 : 3 * I.T * I.seed + 32 ≤ M) (hM2 : I.digest ≤ M)
    (hM3 : I.blk + I.gate ≤ M) {Q : ℕ} (P : Player N M (Bytes × Bytes)) (hP : P.Within l [] k Q) (hU : P.Uses k) (hE : P.Ends {r | r.1.length ≤ l}) :
    prob (fun O : Oracle N M => ForgesAfter I O sk ct pt P) ≤
      prob (fun ω : Oracle N M × (Fin k → Answers I M) => BetraysAfter I ct pt (P.sim I ct pt ω.1 ω.2)) +
      (adaptBound I k (Q + (12 * I.T + 1) + k * (18 * I.T + 3)) + (((k * (10 * I.T + 1) + (Q + 12 * I.T + 1) : ℕ) : ℝ) * (2 / 3) ^ I.T +
        (((k * (10 * I.T + 1) + (Q + 12 * I.T + 1) : ℕ) : ℝ) ^ 2 * (4 * I.T + 3) + ((k * (10 * I.T + 1) + (Q + 12 * I.T + 1) : ℕ) : ℝ) * (I.T + 1) ^ 2 +
          ((k * (10 * I.T + 1) + (Q + 12 * I.T + 1) : ℕ) : ℝ) * ((k * (9 * I.T + 2) : ℕ) : ℝ)) / 2 ^ (8 * I.digest) +
        ((k * (9 * I.T + 2) : ℕ) : ℝ) ^ 2 / 2 ^ (8 * I.digest))) := by
  classical
  have hctl : ct.length = I.blk := by rw [hct]; exact ofBits_len' _ _
  have hN1 : I.digest + 1 ≤ N := by
    have h1 := rom_sizes hI
    omega
  have h1 := course_real_sim (N := N) (M := M) (b := False) hI hsk hk hpt hct hN hM1 hM2 hM3 hP (G := endLocal ct pt hI) (g := 12 * I.T + 1)
    fun seen r O => by
      have := vasked_len (I := I) (ct := ct) (pt := pt) (q := 0) (.done r) O (by simp [Adv.asked])
      simpa [endLocal, forgeLocal] using this
  let c : ℝ := ((k * (10 * I.T + 1) + (Q + 12 * I.T + 1) : ℕ) : ℝ) * (2 / 3) ^ I.T +
        (((k * (10 * I.T + 1) + (Q + 12 * I.T + 1) : ℕ) : ℝ) ^ 2 * (4 * I.T + 3) + ((k * (10 * I.T + 1) + (Q + 12 * I.T + 1) : ℕ) : ℝ) * (I.T + 1) ^ 2 +
          ((k * (10 * I.T + 1) + (Q + 12 * I.T + 1) : ℕ) : ℝ) * ((k * (9 * I.T + 2) : ℕ) : ℝ)) / 2 ^ (8 * I.digest)
  let F : Oracle N M → (Fin k → Answers I M) → Prop := fun O a => ∃ ha : Digests a, (lazyBase hI hctl hpt hN1 a ha P).Wins O ∧
    ¬ Reveal I ct pt ((lazyBase hI hctl hpt hN1 a ha P).Strings O)
  have h2 : ∀ a, prob (fun O => F O a) ≤ c := fun a => by
    by_cases ha : Digests a
    · have h3 := Base.prob_wins (lazyBase hI hctl hpt hN1 a ha P) hI hM2 (q := Q) (fun O O' => by
        simp only [lazyBase]
        split_ifs
        · exact lazy_len O' P a _ _ [] k Q hP
        · simp [Adv.asked]) hctl hpt fun O O' => by
        simp only [lazyBase]
        split_ifs
        · have := lazy_ends (ct := ct) (pt := pt) (S := {r : Bytes × Bytes | r.1.length ≤ l}) (by simp) O' P a (chals a O) (fun _ => none) hE
          rw [Set.mem_ofPred_eq] at this
          omega
        · simp only [Adv.run, List.length_nil]
          omega
      refine le_trans (prob_mono fun O h => h.choose_spec) (le_trans h3 ?_)
      refine add_le_add le_rfl (div_le_div_of_nonneg_right (add_le_add le_rfl (mul_le_mul_of_nonneg_left ?_ (by positivity))) (by positivity))
      have : Fintype.card (Fin k × Query I.T I.unruh) ≤ k * (9 * I.T + 2) := by
        rw [Fintype.card_prod, Fintype.card_fin]
        exact Nat.mul_le_mul_left _ card_query
      exact_mod_cast this
    · refine le_trans (prob_mono (Q' := fun _ => False) fun O h => ha h.choose) ?_
      rw [prob_no]
      positivity
  have h3 : prob (fun ω : Oracle N M × (Fin k → Answers I M) => F ω.1 ω.2) ≤ c := by
    have := prob_avg (F := F) (G := fun (_ : Oracle N M) (_ : Fin k → Answers I M) => False) (c := c) fun a => by rw [prob_no, zero_add]; exact h2 a
    rwa [prob_no, zero_add] at this
  have h4 := prob_digests (N := N) (k := k) (I := I) hM2
  have e1 : ∀ O : Oracle N M, ForgesAfter I O sk ct pt P → (P.real I O sk ct pt).elim False fun y => (endLocal ct pt hI y.1.reverse y.2).run O := by
    rintro O ⟨ms, r, hr, hm, hv⟩
    rw [hr]
    refine ⟨?_, hv⟩
    simpa [Adv.run] using hm
  have e2 : ∀ ω : Oracle N M × (Fin k → Answers I M), simEv sk ct pt (endLocal ct pt hI) False P [] [] ω.1 ω.2 →
      BetraysAfter I ct pt (P.sim I ct pt ω.1 ω.2) ∨ (F ω.1 ω.2 ∨ ¬ Digests ω.2) := by
    rintro ⟨O, a⟩ h
    dsimp only at h ⊢
    rcases simEv_of P [] [] O a h with hs | hs
    · exact Or.inl (Or.inl (keySeen_shows hsk hct hs))
    rcases lazy_play (O := O) hI hctl hpt P a (chals a O) [] [] O O (fun _ => none) hU (fun _ _ => rfl) (fun _ => rfl) (fun x v hx => by simp at hx)
      (fun x v hx => by simp at hx) (fun _ _ => rfl) h with hs' | ⟨ms, r, hA⟩
    · exact Or.inl (Or.inl (keySeen_shows hsk hct hs'))
    rw [hA.result, Option.elim_some, List.append_nil] at hs
    rcases hs with hs | ⟨y, hy, hs⟩
    · obtain ⟨hm, av, bv, hv⟩ := hs
      simp only [Adv.run] at hm hv
      have hm : r.1 ∉ ms := fun h => hm (by simpa using h)
      have hend : AllEnd a O := hA.ends
      by_cases ha : Digests a
      · have eH : (lazyBase hI hctl hpt hN1 a ha P).H O = stack O a (chals a O) fun i => fpts ct pt O (a i) (chals a O i) := by
          simp only [lazyBase]
          rw [if_pos hend]
        have eA : (lazyBase hI hctl hpt hN1 a ha P).adv O = lazy ct pt P a (chals a O) fun _ => none := by
          simp only [lazyBase]
          rw [if_pos hend]
        have hsame : ∀ x : Arg N, (∀ m ∈ ms, ¬ IsDig I ct pt x.1 m) → (P.sim I ct pt O a).oracle x = stack O a (chals a O) (fun i => fpts ct pt O (a i) (chals a O i)) x :=
          fun x hx => hA.same x fun m hm => hx m (by simpa using hm)
        by_cases hr : Reveal I ct pt ((lazyBase hI hctl hpt hN1 a ha P).Strings O)
        · left
          refine Or.inr ⟨ms, r, hA.result, Or.inr ?_⟩
          have key : ∀ z ∈ (lazyBase hI hctl hpt hN1 a ha P).Strings O, z ∈ (P.sim I ct pt O a).asked ∪ (P.sim I ct pt O a).written ∪
              {x | ∃ av bv, ValidBy I (P.sim I ct pt O a).oracle ct pt r.1 r.2 av bv ∧ ∃ t < I.T,
                x = viewText I (P.sim I ct pt O a).oracle (av t) ∨ x = viewText I (P.sim I ct pt O a).oracle (bv t)} := by
            intro z hz
            unfold Base.Strings at hz
            rw [eH, eA, hA.run] at hz
            rcases hz with ⟨y, hy, rfl⟩ | ⟨av, bv, hv, t, ht, hz⟩ | hz
            · exact Or.inl (Or.inl (hA.asked y hy))
            · have hv' := validBy_other hI hctl hpt hm (fun x hx => (hsame x hx).symm) hv
              refine Or.inr ⟨av, bv, hv', t, ht, ?_⟩
              obtain ⟨e, salt, o, g1, g2, g3, g4⟩ := hv'
              obtain ⟨la, lb⟩ := openedBy_lengths (getD_lt (isChallenge_facts g4).2 t) (g3 t ht).1 (g3 t ht).2.2
              rw [viewText_other hI hsame la.1, viewText_other hI hsame lb.1]
              exact hz
            · obtain ⟨hl, -, i, q, hq, e⟩ := hz
              rcases hA.written i q hq with hw | rfl
              · rw [e] at hw
                exact Or.inl (Or.inr hw)
              · have := fpts_digest (ct := ct) (pt := pt) O (a i) (chals a O i)
                rw [e] at this
                omega
          obtain ⟨z1, m1, z2, m2, z3, m3, hk⟩ := hr
          exact ⟨z1, key z1 m1, z2, key z2 m2, z3, key z3 m3, hk⟩
        · right; left
          refine ⟨ha, ?_, hr⟩
          unfold Base.Wins
          rw [eH, eA, hA.run]
          exact ⟨by simp, av, bv, validBy_other hI hctl hpt hm hsame hv⟩
      · exact Or.inr (Or.inr ha)
    · left
      refine Or.inr ⟨ms, r, hA.result, Or.inl ⟨y.1, ?_, keyString_fits hsk hct hs⟩⟩
      rcases mem_vasked.1 hy with hy | hy
      · simp [Adv.asked] at hy
      · exact vstrs_checked hy
  have h5 := prob_mono e1
  have h6 := le_trans (prob_mono e2) (le_trans (prob_or _ _) (add_le_add le_rfl (le_trans (prob_or _ _) (add_le_add h3 h4))))
  change _ ≤ _ + (_ + (c + _))
  linarith

end Picnic.Rom
