import Verif.Proofs.StrongTwin
import Verif.Spec.RomStrong

/-
C65: the bound for forgers that make another signature.
-/

namespace Picnic.Rom

open Spec Spec.Zkb Spec.Rom Spec.Picnic1 Spec.Challenge

variable {N M : ℕ} {I : Inst} {sk ct pt : Bytes} {k : ℕ} {O : Oracle N M} {α : Type}

/-! ### Procedures that write down the signatures -/

/-- The procedure also has the messages and the signatures as a result. -/
def record : List (Bytes × Bytes) → Player N M α → Player N M (α × List (Bytes × Bytes))
  | l, .done r => .done (r, l)
  | l, .ask x next => .ask x fun v => record l (next v)
  | l, .sign m next => .sign m fun s => record (l ++ [(m, s)]) (next s)

theorem record_within {n : ℕ} (P : Player N M α) : ∀ l seen k Q, P.Within n seen k Q → (record l P).Within n seen k Q := by
  induction P with
  | done r => exact fun l seen k Q h => h
  | ask x next ih => exact fun l seen k Q h => ⟨h.1, fun v => ih v _ _ _ _ (h.2 v)⟩
  | sign m next ih => exact fun l seen k Q h => ⟨h.1, h.2.1, h.2.2.1, fun s => ih s _ _ _ _ (h.2.2.2 s)⟩

theorem record_real (P : Player N M α) : ∀ l, (record l P).real I O sk ct pt = (P.real I O sk ct pt).map fun y => (y.1, y.2, l ++ P.signed I O sk ct pt) := by
  induction P with
  | done r => exact fun l => by simp [record, Player.real, Player.signed]
  | ask x next ih => exact fun l => ih (O x) l
  | sign m next ih =>
    intro l
    simp only [record, Player.real, Player.signed]
    cases h : Rom.real I O sk ct pt m with
    | none => rfl
    | some p =>
      simp only [Option.bind_some, ih, Option.map_map]
      congr 1
      funext y
      simp

theorem record_sim (P : Player N M α) : ∀ {k : ℕ} (l : List (Bytes × Bytes)) (X : Oracle N M) (a : Fin k → Answers I M),
    ((record l P).sim I ct pt X a).result = (P.sim I ct pt X a).result.map (fun y => (y.1, y.2, l ++ simSigned ct pt P X a)) ∧
    ((record l P).sim I ct pt X a).oracle = (P.sim I ct pt X a).oracle ∧ ((record l P).sim I ct pt X a).asked = (P.sim I ct pt X a).asked ∧
    ((record l P).sim I ct pt X a).written = (P.sim I ct pt X a).written := by
  induction P with
  | done r => exact fun l X a => ⟨by simp [record, Player.sim, simSigned], rfl, rfl, rfl⟩
  | ask x next ih =>
    intro k l X a
    obtain ⟨h1, h2, h3, h4⟩ := ih (X x) l X a
    exact ⟨h1, h2, congrArg (insert x.1) h3, h4⟩
  | sign m next ih =>
    intro k l X a
    cases k with
    | zero => exact ⟨rfl, rfl, rfl, rfl⟩
    | succ k =>
      cases hp : Rom.sim I X (a 0) ct pt m with
      | none => simp [record, Player.sim, simSigned, hp]
      | some p =>
        obtain ⟨h1, h2, h3, h4⟩ := ih p.sig (l ++ [(m, p.sig)]) p.oracle fun i => a i.succ
        simp only [record, Player.sim, simSigned, hp]
        refine ⟨?_, h2, h3, ?_⟩
        · rw [h1, Option.map_map, Option.map_map]
          congr 1
          funext y
          simp
        · rw [h4]

/-- The games for the two procedures. -/
theorem simEv_record {G : List Bytes → α × List (Bytes × Bytes) → Local N M I Prop} {G' : List Bytes → α → Local N M I Prop} {b : Prop} (hG : ∀ seen r X, (G' seen r).run X)
    (P : Player N M α) : ∀ {k : ℕ} (l : List (Bytes × Bytes)) (seen D : List Bytes) (X : Oracle N M) (a : Fin k → Answers I M),
    simEv sk ct pt G b (record l P) seen D X a → simEv sk ct pt G' b P seen D X a := by
  induction P with
  | done r => exact fun l seen D X a _ => Or.inl (hG _ _ _)
  | ask x next ih => exact fun l seen D X a h => h.imp_right (ih (X x) _ _ _ _ _)
  | sign m next ih =>
    intro k l seen D X a h
    cases k with
    | zero => exact h
    | succ k =>
      simp only [record, simEv] at h ⊢
      cases hp : Rom.sim I X (a 0) ct pt m with
      | none =>
        rw [hp] at h
        exact h
      | some p =>
        rw [hp] at h
        exact ⟨h.1, h.2.imp_right (ih p.sig _ _ _ _ _)⟩

variable (N M I) in
/-- What always holds. -/
def trueLocal (_ : List Bytes) (_ : α) : Local N M I Prop := ⟨fun _ => True, fun _ => [], fun _ _ _ _ => ⟨rfl, rfl⟩⟩

variable (ct pt) in
/-- The signature is valid, and is not one of those that have been made. -/
noncomputable def strongLocal {n : ℕ} (hI : I.Is n) (_ : List Bytes) (r : (Bytes × Bytes) × List (Bytes × Bytes)) : Local N M I Prop where
  run O := r.1 ∉ r.2 ∧ Valid I O ct pt r.1.1 r.1.2
  asked := (forgeLocal ct pt hI ∅ (.done r.1)).asked
  congr O O' h h' := by
    obtain ⟨h1, h2⟩ := (forgeLocal ct pt hI ∅ (.done r.1)).congr O O' h h'
    refine ⟨?_, h2⟩
    simp only [forgeLocal, Adv.run, Set.mem_empty_iff_false, not_false_eq_true, true_and] at h1
    rw [h1]

theorem validBy_unique {n : ℕ} (hI : I.Is n) {msg sig : Bytes} {av bv av' bv' : ℕ → Picnic1.View} (h : ValidBy I O ct pt msg sig av bv)
    (h' : ValidBy I O ct pt msg sig av' bv') : ∀ t < I.T, av t = av' t ∧ bv t = bv' t := by
  obtain ⟨e, salt, o, g1, g2, g3, g4⟩ := h
  obtain ⟨e', salt', o', g1', g2', g3', g4'⟩ := h'
  obtain ⟨hl, hlt⟩ := isChallenge_facts g4
  obtain ⟨hl', hlt'⟩ := isChallenge_facts g4'
  obtain ⟨rfl, rfl, ho⟩ := parsed_unique (I := I) ⟨g1, g2, hl, hlt, fun t ht => (g3 t ht).1⟩ ⟨g1', g2', hl', hlt', fun t ht => (g3' t ht).1⟩
  intro t ht
  have := (g3' t ht).2.2
  rw [← ho t ht] at this
  exact openedBy_unique hI (g3 t ht).2.2 this

/-! ### The bound -/

theorem forge_strong {n : ℕ} (hI : I.Is n) (hsk : sk.length = I.blk) (hk : IsKey I sk) (hpt : pt.length = I.blk)
    (hct : ct = Spec.Picnic1.ofBits I.blk (I.X.enc (toBits sk) (toBits pt))) {l : ℕ}
    (hN : 3 * I.T * (I.digest + I.seed + I.gate + 2 * I.blk) + 2 * I.blk + l + 33 ≤ N) (hM1 : 3 * I.T * I.seed + 32 ≤ M) (hM2 : I.digest ≤ M)
    (hM3 : I.blk + I.gate ≤ M) {Q : ℕ} (P : Player N M (Bytes × Bytes)) (hP : P.Within l [] k Q) (hU : P.Uses k) (hE : P.Ends {r | r.1.length ≤ l}) :
    prob (fun O : Oracle N M => ForgesStrong I O sk ct pt P) ≤
      prob (fun ω : Oracle N M × (Fin k → Answers I M) => BetraysAfter I ct pt (P.sim I ct pt ω.1 ω.2)) +
      (adaptBound I k (Q + (12 * I.T + 1) + k * (18 * I.T + 3)) + (((k * (10 * I.T + 1) + (Q + 12 * I.T + 1) : ℕ) : ℝ) * (2 / 3) ^ I.T +
        (((k * (10 * I.T + 1) + (Q + 12 * I.T + 1) : ℕ) : ℝ) ^ 2 * (4 * I.T + 3) + ((k * (10 * I.T + 1) + (Q + 12 * I.T + 1) : ℕ) : ℝ) * (I.T + 1) ^ 2 +
          ((k * (10 * I.T + 1) + (Q + 12 * I.T + 1) : ℕ) : ℝ) * ((k * (9 * I.T + 2) : ℕ) : ℝ)) / 2 ^ (8 * I.digest) +
        ((k * (9 * I.T + 2) : ℕ) : ℝ) ^ 2 / 2 ^ (8 * I.digest))) := by
  classical
  have hctl : ct.length = I.blk := by rw [hct]; exact ofBits_len' _ _
  have hN1 : I.digest + 1 ≤ N := by
    have h1 := rom_sizes hI
    omega
  have h1 := course_real_sim (N := N) (M := M) (b := False) hI hsk hk hpt hct hN hM1 hM2 hM3 (record_within P [] [] k Q hP) (G := strongLocal ct pt hI) (g := 12 * I.T + 1)
    fun seen r O => by
      have := vasked_len (I := I) (ct := ct) (pt := pt) (q := 0) (.done r.1) O (by simp [Adv.asked])
      simpa [strongLocal, forgeLocal] using this
  let c : ℝ := ((k * (10 * I.T + 1) + (Q + 12 * I.T + 1) : ℕ) : ℝ) * (2 / 3) ^ I.T +
        (((k * (10 * I.T + 1) + (Q + 12 * I.T + 1) : ℕ) : ℝ) ^ 2 * (4 * I.T + 3) + ((k * (10 * I.T + 1) + (Q + 12 * I.T + 1) : ℕ) : ℝ) * (I.T + 1) ^ 2 +
          ((k * (10 * I.T + 1) + (Q + 12 * I.T + 1) : ℕ) : ℝ) * ((k * (9 * I.T + 2) : ℕ) : ℝ)) / 2 ^ (8 * I.digest)
  have hA : ∀ a ha O O', (((lazyBase (k := k) (M := M) hI hctl hpt hN1 a ha P).adv O).asked O').length ≤ Q := fun a ha O O' => by
    simp only [lazyBase]
    split_ifs
    · exact lazy_len O' P a _ _ [] k Q hP
    · simp [Adv.asked]
  have hlen : ∀ a (O O' : Oracle N M), ((lazy (k := k) (I := I) ct pt P a (chals a O) fun _ => none).run O').1.length ≤ l := fun a O O' =>
    lazy_ends (ct := ct) (pt := pt) (S := {r : Bytes × Bytes | r.1.length ≤ l}) (by simp) O' P a (chals a O) (fun _ => none) hE
  let F : Oracle N M → (Fin k → Answers I M) → Prop := fun O a => ∃ ha : Digests a, (lazyBase hI hctl hpt hN1 a ha P).Wins O ∧
    ¬ Reveal I ct pt ((lazyBase hI hctl hpt hN1 a ha P).Strings O) ∨ ((lazyBase hI hctl hpt hN1 a ha P).world hI (hA a ha)).Clash O
  have h2 : ∀ a, prob (fun O => F O a) ≤ c := fun a => by
    by_cases ha : Digests a
    · have h3 := Base.prob_wins_clash (lazyBase hI hctl hpt hN1 a ha P) hI hM2 (q := Q) (hA a ha) hctl hpt fun O O' => by
        simp only [lazyBase]
        split_ifs
        · have := hlen a O O'
          omega
        · simp only [Adv.run, List.length_nil]
          omega
      refine le_trans (prob_mono fun O h => h.choose_spec) (le_trans h3 ?_)
      refine add_le_add le_rfl (div_le_div_of_nonneg_right (add_le_add le_rfl (mul_le_mul_of_nonneg_left ?_ (by positivity))) (by positivity))
      have : Fintype.card (Fin k × Query I.T I.unruh) ≤ k * (9 * I.T + 2) := by
        rw [Fintype.card_prod, Fintype.card_fin]
        exact Nat.mul_le_mul_left _ card_query
      exact_mod_cast this
    · refine le_trans (prob_mono (Q' := fun _ => False) fun O h => ha h.choose) ?_
      rw [prob_no]
      positivity
  have h3 : prob (fun ω : Oracle N M × (Fin k → Answers I M) => F ω.1 ω.2) ≤ c := by
    have := prob_avg (F := F) (G := fun (_ : Oracle N M) (_ : Fin k → Answers I M) => False) (c := c) fun a => by rw [prob_no, zero_add]; exact h2 a
    rwa [prob_no, zero_add] at this
  have h4 := prob_digests (N := N) (k := k) (I := I) hM2
  have e1 : ∀ O : Oracle N M, ForgesStrong I O sk ct pt P → ((record [] P).real I O sk ct pt).elim False fun y => (strongLocal ct pt hI y.1.reverse y.2).run O := by
    rintro O ⟨ms, r, hr, hm, hv⟩
    rw [record_real, hr]
    exact ⟨by simpa using hm, hv⟩
  have e2 : ∀ ω : Oracle N M × (Fin k → Answers I M), simEv sk ct pt (strongLocal ct pt hI) False (record [] P) [] [] ω.1 ω.2 →
      BetraysAfter I ct pt (P.sim I ct pt ω.1 ω.2) ∨ (F ω.1 ω.2 ∨ ¬ Digests ω.2) := by
    rintro ⟨O, a⟩ h
    dsimp only at h ⊢
    obtain ⟨r1, r2, r3, r4⟩ := record_sim (I := I) (ct := ct) (pt := pt) P [] O a
    rcases simEv_of (record [] P) [] [] O a h with hs | hs
    · refine Or.inl (Or.inl (keySeen_shows hsk hct ?_))
      unfold KeySeen at hs ⊢
      rwa [r3, r4] at hs
    rcases lazy_play (O := O) hI hctl hpt P a (chals a O) [] [] O O (fun _ => none) hU (fun _ _ => rfl) (fun _ => rfl) (fun x v hx => by simp at hx)
      (fun x v hx => by simp at hx) (fun _ _ => rfl) (simEv_record (G' := trueLocal N M I) (fun _ _ _ => trivial) P [] [] [] O a h) with hs' | ⟨ms, r, hA'⟩
    · exact Or.inl (Or.inl (keySeen_shows hsk hct hs'))
    rw [r1, r2, hA'.result, Option.map_some, Option.elim_some, List.append_nil, List.nil_append] at hs
    rcases hs with hs | ⟨y, hy, hs⟩
    · obtain ⟨hm, av, bv, hv⟩ := hs
      dsimp only at hm hv
      have hend : AllEnd a O := hA'.ends
      by_cases ha : Digests a
      · by_cases hcl : ((lazyBase hI hctl hpt hN1 a ha P).world hI (hA a ha)).Clash O
        · exact Or.inr (Or.inl ⟨ha, Or.inr hcl⟩)
        have eH : (lazyBase hI hctl hpt hN1 a ha P).H O = stack O a (chals a O) fun i => fpts ct pt O (a i) (chals a O i) := by
          simp only [lazyBase]
          rw [if_pos hend]
        have eA : (lazyBase hI hctl hpt hN1 a ha P).adv O = lazy ct pt P a (chals a O) fun _ => none := by
          simp only [lazyBase]
          rw [if_pos hend]
        obtain ⟨mm, hT⟩ := hA'.told
        have hrl : r.1.length ≤ l := by
          have := hlen a O (stack O a (chals a O) fun i => fpts ct pt O (a i) (chals a O i))
          rwa [hA'.run] at this
        have hvH := (strong_cases (hA := hA a ha) hend hcl (msg := r.1) (sig := r.2) (by omega) (by rw [eH, eA, hA'.run]) (by rw [eH]; exact hT) hv).resolve_right hm
        rw [eH] at hvH
        by_cases hr : Reveal I ct pt ((lazyBase hI hctl hpt hN1 a ha P).Strings O)
        · left
          refine Or.inr ⟨ms, r, hA'.result, Or.inr ?_⟩
          have key : ∀ z ∈ (lazyBase hI hctl hpt hN1 a ha P).Strings O, z ∈ (P.sim I ct pt O a).asked ∪ (P.sim I ct pt O a).written ∪
              {x | ∃ av bv, ValidBy I (P.sim I ct pt O a).oracle ct pt r.1 r.2 av bv ∧ ∃ t < I.T,
                x = viewText I (P.sim I ct pt O a).oracle (av t) ∨ x = viewText I (P.sim I ct pt O a).oracle (bv t)} := by
            intro z hz
            unfold Base.Strings at hz
            rw [eH, eA, hA'.run] at hz
            rcases hz with ⟨y, hy, rfl⟩ | ⟨av', bv', hv', t, ht, hz⟩ | hz
            · exact Or.inl (Or.inl (hA'.asked y hy))
            · obtain ⟨u1, u2⟩ := validBy_unique hI hvH hv' t ht
              refine Or.inr ⟨av, bv, hv, t, ht, ?_⟩
              obtain ⟨e, salt, o, g1, g2, g3, g4⟩ := hvH
              obtain ⟨la, lb⟩ := openedBy_lengths (getD_lt (isChallenge_facts g4).2 t) (g3 t ht).1 (g3 t ht).2.2
              have hsame : ∀ x : Arg N, (∀ m ∈ ms, ¬ IsDig I ct pt x.1 m) → (P.sim I ct pt O a).oracle x = stack O a (chals a O) (fun i => fpts ct pt O (a i) (chals a O i)) x :=
                fun x hx => hA'.same x fun m hm => hx m (by simpa using hm)
              rw [viewText_other hI hsame la.1, viewText_other hI hsame lb.1, u1, u2]
              exact hz
            · obtain ⟨hl, -, i, q, hq, e⟩ := hz
              rcases hA'.written i q hq with hw | rfl
              · rw [e] at hw
                exact Or.inl (Or.inr hw)
              · have := fpts_digest (ct := ct) (pt := pt) O (a i) (chals a O i)
                rw [e] at this
                omega
          obtain ⟨z1, m1, z2, m2, z3, m3, hk⟩ := hr
          exact ⟨z1, key z1 m1, z2, key z2 m2, z3, key z3 m3, hk⟩
        · right; left
          refine ⟨ha, Or.inl ⟨?_, hr⟩⟩
          unfold Base.Wins
          rw [eH, eA, hA'.run]
          exact ⟨by simp, av, bv, hvH⟩
      · exact Or.inr (Or.inr ha)
    · left
      refine Or.inr ⟨ms, r, hA'.result, Or.inl ⟨y.1, ?_, keyString_fits hsk hct hs⟩⟩
      rcases mem_vasked.1 hy with hy | hy
      · simp [Adv.asked] at hy
      · exact vstrs_checked hy
  have h5 := prob_mono e1
  have h6 := le_trans (prob_mono e2) (le_trans (prob_or _ _) (add_le_add le_rfl (le_trans (prob_or _ _) (add_le_add h3 h4))))
  change _ ≤ _ + (_ + (c + _))
  linarith

end Picnic.Rom
