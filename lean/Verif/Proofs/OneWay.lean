import Verif.Spec.RomOneWay
import Verif.Proofs.StrongBound
import Verif.Proofs.Rom3Cand

/-
C67: few guesses, one of which is right.
-/

namespace Picnic.Rom

open Spec Spec.Zkb Spec.Rom Spec.Picnic1 Spec.Challenge

variable {N M : ℕ} {I : Inst} {sk ct pt : Bytes} {k : ℕ} {O : Oracle N M} {α : Type}

/-! ### One of the guesses is right -/

theorem state_high {X : Spec.LowMC} {κ κ' p p' : Bits} {r i : ℕ} (h : X.n ≤ i) : X.state κ p (r + 1) i = X.state κ' p' (r + 1) i := by
  simp only [LowMC.state, Pi.add_apply]
  rw [mulVec_ge h, mulVec_ge h, mulVec_ge h, mulVec_ge h]

theorem is_rounds {p : ℕ} (hI : I.Is p) : 0 < I.X.r := by
  unfold Picnic1.Inst.Is Picnic1.table at hI
  split at hI <;> simp only [Option.some.injEq, Prod.mk.injEq, reduceCtorEq] at hI <;> obtain ⟨h1, h2, h3, -⟩ := hI <;> rw [← h3] <;> decide

theorem fits_of_bits {p : ℕ} (hI : I.Is p) (hct : ct = Spec.Picnic1.ofBits I.blk (I.X.enc (toBits sk) (toBits pt))) {κ : Bits} (h : IsKeyBits I ct pt κ) :
    Rom.Fits I ct pt (Spec.Picnic1.ofBits I.blk κ) := by
  obtain ⟨hs, -⟩ := rom_sizes hI
  obtain ⟨h1, h2, -⟩ := hs
  obtain ⟨r, hr⟩ : ∃ r, I.X.r = r + 1 := ⟨I.X.r - 1, by have := is_rounds hI; omega⟩
  unfold Rom.Fits
  conv_lhs => rw [hct]
  congr 1
  funext i
  rw [toBits_ofBits]
  by_cases hi : i < I.X.n
  · have e : I.X.enc (trunc (8 * I.blk) κ) (toBits pt) i = I.X.enc κ (toBits pt) i :=
      state_congr h1 (fun j hj => by rw [Spec.trunc, if_pos (by omega)]) (fun _ _ => rfl) _ i hi
    rw [e, h i hi, hct, toBits_ofBits, Spec.trunc, if_pos (by omega)]
  · unfold LowMC.enc
    rw [hr]
    exact state_high (by omega)

theorem view_checked {n : ℕ} (hI : I.Is n) {msg sig : Bytes} {a b : ℕ → Picnic1.View} (h : ValidBy I O ct pt msg sig a b) {t : ℕ} (ht : t < I.T) :
    viewText I O (a t) ∈ Checked I O ct pt msg sig ∧ viewText I O (b t) ∈ Checked I O ct pt msg sig := by
  obtain ⟨e, salt, o, g1, g2, g3, g4⟩ := h
  obtain ⟨hl, hlt⟩ := isChallenge_facts g4
  have hp := (⟨g1, g2, hl, hlt, fun t ht => (g3 t ht).1⟩ :
    sig = I.encode e salt o ∧ salt.length = 32 ∧ e.length = I.T ∧ (∀ v ∈ e, v < 3) ∧ ∀ t < I.T, I.Fits (e.getD t 0) (o t))
  exact ⟨⟨e, salt, o, hp, Or.inr (Or.inl ⟨t, ht, a t, b t, a t, _, (g3 t ht).2.2, Or.inl ⟨rfl, rfl⟩, Or.inl rfl⟩)⟩,
    ⟨e, salt, o, hp, Or.inr (Or.inl ⟨t, ht, a t, b t, b t, _, (g3 t ht).2.2, Or.inr ⟨rfl, rfl⟩, Or.inl rfl⟩)⟩⟩

theorem betrays_guess {n : ℕ} (hI : I.Is n) (hct : ct = Spec.Picnic1.ofBits I.blk (I.X.enc (toBits sk) (toBits pt))) {c : Course N M (Bytes × Bytes)}
    (h : BetraysAfter I ct pt c) : ∃ g ∈ guesses I (c.strings I ct pt), Rom.Fits I ct pt g := by
  rcases h with ⟨y, hy, h⟩ | ⟨ms, r, hr, ⟨y, hy, h⟩ | ⟨x, hx, y, hy, z, hz, h⟩⟩
  · exact ⟨_, Or.inl ⟨y, Or.inl hy, rfl⟩, h⟩
  · exact ⟨_, Or.inl ⟨y, Or.inr ⟨ms, r, hr, hy⟩, rfl⟩, h⟩
  · have key : ∀ w, w ∈ c.asked ∪ c.written ∪ {x | ∃ a b, ValidBy I c.oracle ct pt r.1 r.2 a b ∧ ∃ t < I.T, x = viewText I c.oracle (a t) ∨ x = viewText I c.oracle (b t)} →
        w ∈ c.strings I ct pt := by
      rintro w (hw | ⟨a, b, hv, t, ht, rfl | rfl⟩)
      · exact Or.inl hw
      · exact Or.inr ⟨ms, r, hr, (view_checked hI hv ht).1⟩
      · exact Or.inr ⟨ms, r, hr, (view_checked hI hv ht).2⟩
    exact ⟨_, Or.inr ⟨x, key x hx, y, key y hy, z, key z hz, rfl⟩, fits_of_bits hI hct h⟩

/-! ### There are few guesses -/

theorem course_strings {l : ℕ} (P : Player N M α) : ∀ {k : ℕ} (X : Oracle N M) (a : Fin k → Answers I M) (seen : List Bytes) (Q : ℕ), P.Within l seen k Q →
    ∃ L : List Bytes, L.length ≤ Q + k * (9 * I.T + 2) ∧ ∀ x ∈ (P.sim I ct pt X a).asked ∪ (P.sim I ct pt X a).written, x ∈ L := by
  induction P with
  | done r =>
    intro k X a seen Q _
    exact ⟨[], by simp, fun x hx => by simp [Player.sim] at hx⟩
  | ask x next ih =>
    intro k X a seen Q h
    obtain ⟨L, hL, hm⟩ := ih (X x) X a seen (Q - 1) (h.2 _)
    refine ⟨x.1 :: L, by have := h.1; simp only [List.length_cons]; omega, fun y hy => ?_⟩
    rcases hy with (rfl | hy) | hy
    · exact List.mem_cons_self
    · exact List.mem_cons_of_mem _ (hm y (Or.inl hy))
    · exact List.mem_cons_of_mem _ (hm y (Or.inr hy))
  | sign m next ih =>
    intro k X a seen Q h
    cases k with
    | zero => exact absurd h.1 (by omega)
    | succ k =>
      cases hp : Rom.sim I X (a 0) ct pt m with
      | none => exact ⟨[], by simp, fun x hx => by simp [Player.sim, hp] at hx⟩
      | some p =>
        obtain ⟨L, hL, hm⟩ := ih p.sig p.oracle (fun i => a i.succ) _ Q (h.2.2.2 p.sig)
        refine ⟨(Finset.univ.toList.map fun q : Query I.T I.unruh => point I (Rom.hash X · I.digest) [] ct pt m (a 0) (simView I ct pt (a 0) p.e) q) ++ L, ?_, fun y hy => ?_⟩
        · rw [List.length_append, List.length_map, Finset.length_toList, Finset.card_univ]
          have := card_query (I := I)
          rw [Nat.succ_mul]
          omega
        · simp only [Player.sim, hp] at hy
          rw [List.mem_append]
          rcases hy with hy | hy | ⟨q, -, rfl⟩
          · exact Or.inr (hm y (Or.inl hy))
          · exact Or.inr (hm y (Or.inr hy))
          · exact Or.inl (List.mem_map_of_mem (Finset.mem_toList.2 (Finset.mem_univ q)))

theorem all_strings {n l : ℕ} (hI : I.Is n) (P : Player N M (Bytes × Bytes)) (X : Oracle N M) (a : Fin k → Answers I M) {Q : ℕ} (h : P.Within l [] k Q) :
    ∃ L : List Bytes, L.length ≤ Q + k * (9 * I.T + 2) + (12 * I.T + 1) ∧ ∀ x ∈ (P.sim I ct pt X a).strings I ct pt, x ∈ L := by
  obtain ⟨L, hL, hm⟩ := course_strings (ct := ct) (pt := pt) P X a [] Q h
  cases hr : (P.sim I ct pt X a).result with
  | none =>
    refine ⟨L, by omega, ?_⟩
    rintro x (hx | ⟨ms, r, hr', -⟩)
    · exact hm x hx
    · rw [hr] at hr'
      simp at hr'
  | some y =>
    refine ⟨L ++ vstrs I ct pt (P.sim I ct pt X a).oracle y.2.1 y.2.2, ?_, ?_⟩
    · have := vstrs_len (I := I) (ct := ct) (pt := pt) (O := (P.sim I ct pt X a).oracle) y.2.1 y.2.2
      rw [List.length_append]
      omega
    · rintro x (hx | ⟨ms, r, hr', hx⟩)
      · exact List.mem_append_left _ (hm x hx)
      · rw [hr] at hr'
        obtain rfl := Option.some.inj hr'
        exact List.mem_append_right _ (checked_vstrs hI hx)

theorem guesses_few {S : Set Bytes} {L : List Bytes} {s : ℕ} (hL : L.length ≤ s) (h : ∀ x ∈ S, x ∈ L) :
    ∃ hf : (guesses I S).Finite, hf.toFinset.card ≤ s + s ^ 3 := by
  classical
  let G : List Bytes := (L.map fun y => y.take I.blk) ++
    ((L ×ˢ (L ×ˢ L)).map fun w => Spec.Picnic1.ofBits I.blk (shareIn I w.1 + shareIn I w.2.1 + shareIn I w.2.2))
  have hG : guesses I S ⊆ (G.toFinset : Set Bytes) := by
    rintro g (⟨y, hy, rfl⟩ | ⟨x, hx, y, hy, z, hz, rfl⟩)
    · simp only [Finset.mem_coe, List.mem_toFinset, G, List.mem_append]
      exact Or.inl (List.mem_map_of_mem (h y hy))
    · simp only [Finset.mem_coe, List.mem_toFinset, G, List.mem_append]
      exact Or.inr (List.mem_map.2 ⟨(x, y, z), by simp [List.mem_product, h x hx, h y hy, h z hz], rfl⟩)
  have hf := (Finset.finite_toSet G.toFinset).subset hG
  refine ⟨hf, le_trans (Finset.card_le_card fun x hx => ?_) (le_trans (List.toFinset_card_le G) ?_)⟩
  · exact Finset.mem_coe.1 (hG (hf.mem_toFinset.1 hx))
  · simp only [G, List.length_append, List.length_map, List.length_product]
    have : L.length * (L.length * L.length) ≤ s ^ 3 := by
      rw [pow_succ, pow_two, mul_assoc]
      exact Nat.mul_le_mul hL (Nat.mul_le_mul hL hL)
    omega

theorem nth_of_mem {S : Set Bytes} (hf : S.Finite) {g : Bytes} (h : g ∈ S) : ∃ i < hf.toFinset.card, nth S i = g := by
  classical
  obtain ⟨i, hi, e⟩ := List.getElem_of_mem (Finset.mem_toList.2 (hf.mem_toFinset.2 h))
  rw [Finset.length_toList] at hi
  refine ⟨i, hi, ?_⟩
  unfold nth
  rw [dif_pos hf, List.getD_eq_getElem?_getD, ← e]
  rw [List.getElem?_eq_getElem (by rw [Finset.length_toList]; exact hi)]
  rfl

theorem invert_right {n l : ℕ} (hI : I.Is n) (hct : ct = Spec.Picnic1.ofBits I.blk (I.X.enc (toBits sk) (toBits pt)))
    (A : (ct pt : Bytes) → Player N M (Bytes × Bytes)) {Q : ℕ} (hA : (A ct pt).Within l [] k Q) (ω : Oracle N M × (Fin k → Answers I M)) {s L : ℕ}
    (hs : s = Q + k * (9 * I.T + 2) + (12 * I.T + 1)) (hL : L = s + s ^ 3)
    (h : BetraysAfter I ct pt ((A ct pt).sim I ct pt ω.1 ω.2)) : ∃ i : Fin L, Rom.Fits I ct pt (invert I A ct pt ω i) := by
  obtain ⟨g, hg, hF⟩ := betrays_guess hI hct h
  obtain ⟨L', h1, h2⟩ := all_strings (ct := ct) (pt := pt) hI (A ct pt) ω.1 ω.2 hA
  obtain ⟨hf, h3⟩ := guesses_few (I := I) (s := s) (by omega) h2
  obtain ⟨i, hi, e⟩ := nth_of_mem hf hg
  exact ⟨⟨i, by omega⟩, by unfold invert; rw [e]; exact hF⟩

/-! ### Choosing one of them -/

theorem prob_choose {Ω : Type} [Fintype Ω] {L : ℕ} {B : Ω → Prop} {G : Ω → Fin L → Prop} (h : ∀ ω, B ω → ∃ i, G ω i) :
    prob B ≤ L * prob (fun x : Ω × Fin L => G x.1 x.2) := by
  classical
  rcases Nat.eq_zero_or_pos L with rfl | hL
  · have : prob B ≤ prob fun _ : Ω => False := prob_mono fun ω hω => (h ω hω).choose.elim0
    rw [prob_no] at this
    simpa using this
  have h1 : prob B ≤ ∑ i, prob (fun ω => G ω i) := by
    unfold prob
    rw [← Finset.sum_div]
    gcongr
    rw [← Nat.cast_sum]
    refine Nat.cast_le.2 (le_trans (Finset.card_le_card (t := Finset.univ.biUnion fun i : Fin L => Finset.univ.filter fun ω => G ω i) fun ω hω => ?_) Finset.card_biUnion_le)
    obtain ⟨i, hi⟩ := h ω (Finset.mem_filter.1 hω).2
    exact Finset.mem_biUnion.2 ⟨i, Finset.mem_univ _, Finset.mem_filter.2 ⟨Finset.mem_univ _, hi⟩⟩
  rw [prob_sum, Fintype.card_fin, mul_div_cancel₀ _ (by positivity)]
  exact h1

theorem average_choose {Ω Ω' B : Type} [Fintype Ω] [Fintype Ω'] [Fintype B] [Nonempty B] {F : Ω → B → Prop} {G : Ω' → B → Prop} {c : ℝ} {L : ℕ}
    {H : Ω' → B → Fin L → Prop} (h1 : ∀ b, prob (fun x => F x b) ≤ prob (fun y => G y b) + c) (h2 : ∀ ω b, G ω b → ∃ i, H ω b i) :
    prob (fun ω : Ω × B => F ω.1 ω.2) ≤ (L : ℝ) * prob (fun ω : (Ω' × B) × Fin L => H ω.1.1 ω.1.2 ω.2) + c := by
  have h3 := prob_avg h1
  have h4 := prob_choose (B := fun ω : Ω' × B => G ω.1 ω.2) (G := fun (x : Ω' × B) i => H x.1 x.2 i) fun x hx => h2 x.1 x.2 hx
  linarith

end Picnic.Rom

namespace Picnic.Rom3

open Spec Spec.Rom
open Spec.Picnic3 (Round commitString comString msgString)

variable {N M p : ℕ} {I : Picnic3.Inst}

/-- There are few guesses for Picnic3. -/
theorem guesses_few (hI : I.Is p) (hreg : Regular I) (O : Oracle N M) (L : List Bytes) (hL : Apart I O {x | x ∈ L}) :
    ∃ hf : (guesses3 I O {x | x ∈ L}).Finite, hf.toFinset.card ≤ L.length ^ 2 := by
  classical
  let G : List Bytes := (L ×ˢ L).map fun ab => if h : ∃ k, From I O L ab.1 ab.2 k then Spec.Picnic1.ofBits I.blk (trunc I.X.n h.choose) else []
  have hG : guesses3 I O {x | x ∈ L} ⊆ (G.toFinset : Set Bytes) := by
    rintro g ⟨salt, t, hs, ht, v, w, κ, h1, h3, h4, h5, h6, rfl⟩
    have hf : From I O L (comString v) (msgString w) (Picnic1.toBits w.key + κ) := ⟨salt, t, hs, ht, v, w, κ, h1, rfl, h4, rfl, h6, rfl⟩
    have hex : ∃ k, From I O L (comString v) (msgString w) k := ⟨_, hf⟩
    rw [Finset.mem_coe, List.mem_toFinset]
    refine List.mem_map.2 ⟨(comString v, msgString w), List.mem_product.2 ⟨h3, h5⟩, ?_⟩
    dsimp only
    rw [dif_pos hex]
    congr 1
    funext i
    unfold Spec.trunc
    split_ifs with hi
    · exact from_unique hI hreg hL hex.choose_spec hf i hi
    · rfl
  have hf := (Finset.finite_toSet G.toFinset).subset hG
  refine ⟨hf, le_trans (Finset.card_le_card fun x hx => ?_) (le_trans (List.toFinset_card_le G) ?_)⟩
  · exact Finset.mem_coe.1 (hG (hf.mem_toFinset.1 hx))
  · simp only [G, List.length_map, List.length_product, sq]
    exact le_rfl

theorem invert_right (hI : I.Is p) (hreg : Regular I) (A : (ct pt : Bytes) → Adv N M (Bytes × Bytes)) (ct pt : Bytes) (O : Oracle N M) {R : ℕ}
    (hR : ((A ct pt).asked O).length ≤ R) (h : Reveal3 I O ct pt (Questions O (A ct pt)) ∧ Apart I O (Questions O (A ct pt))) :
    ∃ i : Fin (R ^ 2), ∀ j < I.X.n, I.X.enc (Picnic1.toBits (invert3 I A ct pt O i)) (Picnic1.toBits pt) j = Picnic1.toBits ct j := by
  have e : Questions O (A ct pt) = {x | x ∈ ((A ct pt).asked O).map (·.1)} := by
    ext x
    simp only [Questions, Set.mem_ofPred_eq, List.mem_map]
  obtain ⟨⟨salt, digests, hs, t, ht, v, w, κ, h1, h2, h3, h4, h5, h6, h7⟩, ha⟩ := h
  have hfew := guesses_few hI hreg O (((A ct pt).asked O).map (·.1)) (e ▸ ha)
  rw [List.length_map, ← e] at hfew
  obtain ⟨hf, hc⟩ := hfew
  obtain ⟨i, hi, e'⟩ := Rom.nth_of_mem hf (g := Spec.Picnic1.ofBits I.blk (trunc I.X.n (Picnic1.toBits w.key + κ)))
    ⟨salt, t, hs, ht, v, w, κ, h1, h3, h4, h5, h6, rfl⟩
  have : ((A ct pt).asked O).length ^ 2 ≤ R ^ 2 := Nat.pow_le_pow_left hR 2
  have hi' : i < hf.toFinset.card := hi
  refine ⟨⟨i, by omega⟩, fun j hj => ?_⟩
  unfold invert3
  rw [e', ← h7 j hj, Rom.toBits_ofBits]
  refine congrFun (state_key (fun q hq => ?_) _) j
  have hb : I.X.n ≤ 8 * I.blk := by unfold Picnic3.Inst.blk bytesFor; omega
  rw [Spec.trunc, if_pos (by omega), Spec.trunc, if_pos hq]

end Picnic.Rom3
