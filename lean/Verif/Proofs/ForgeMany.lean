import Verif.Proofs.ForgeSim

/-
C63: forgers that know signatures.
-/

namespace Picnic.Rom

open Spec Spec.Zkb Spec.Rom Spec.Picnic1 Spec.Challenge

variable {N M : ℕ} {I : Inst} {O O' : Oracle N M} {sk ct pt : Bytes} {k Q : ℕ}

/-! ### Forger and verifier as a function of few values of the oracle -/

theorem vasked_congr {n : ℕ} (hI : I.Is n) {A : Adv N M (Bytes × Bytes)} (h : ∀ x ∈ vasked I ct pt A O, O' x = O x) :
    vasked I ct pt A O' = vasked I ct pt A O ∧ A.run O' = A.run O := by
  refine ⟨(vproc ct pt hI A).all h, run_eq fun x hx => h x (mem_vasked.2 (Or.inl hx))⟩

theorem valid_congr {n : ℕ} (hI : I.Is n) {A : Adv N M (Bytes × Bytes)} (h : ∀ x ∈ vasked I ct pt A O, O' x = O x)
    (h' : ∀ d : Bytes, d.length = I.digest → ask O (Use.text (T := I.T) I (.next d)) = ask O' (Use.text (T := I.T) I (.next d)))
    (hv : Valid I O ct pt (A.run O).1 (A.run O).2) : Valid I O' ct pt (A.run O).1 (A.run O).2 := by
  obtain ⟨a, b, hv⟩ := hv
  have key : ∀ x ∈ vstrs I ct pt O (A.run O).1 (A.run O).2, ask O' x = ask O x := fun x hx => by
    unfold ask
    split_ifs with hl
    · exact h ⟨x, hl⟩ (mem_vasked.2 (Or.inr hx))
    · rfl
  unfold vstrs at key
  simp only [List.mem_append] at key
  exact ⟨a, b, validBy_congr hI (fun x hx => key x (Or.inl (Or.inl (Or.inl hx)))) (fun x hx => key x (Or.inl (Or.inl (Or.inr hx))))
    (fun x hx => key x (Or.inl (Or.inr hx))) (fun x hx => key x (Or.inr hx)) h' hv⟩

variable (ct pt) in
/-- The forger, then the verifier. -/
noncomputable def forgeLocal {n : ℕ} (hI : I.Is n) (msgs : Set Bytes) (A : Adv N M (Bytes × Bytes)) : Local N M I Prop where
  run O := (A.run O).1 ∉ msgs ∧ Valid I O ct pt (A.run O).1 (A.run O).2
  asked O := vasked I ct pt A O
  congr O O' h h' := by
    have h1 : ∀ x ∈ vasked I ct pt A O, O' x = O x := fun x hx => (h x hx).symm
    obtain ⟨e1, e2⟩ := vasked_congr hI h1
    refine ⟨?_, e1.symm⟩
    have h2 : Valid I O ct pt (A.run O).1 (A.run O).2 ↔ Valid I O' ct pt (A.run O).1 (A.run O).2 := by
      refine ⟨valid_congr hI h1 h', fun hv => ?_⟩
      have := valid_congr (O := O') (O' := O) (A := A) hI (fun x hx => h x (by rw [← e1]; exact hx)) (fun d hd => (h' d hd).symm) (by rw [e2]; exact hv)
      rwa [e2] at this
    rw [e2, h2]

/-! ### The strings of the verifier -/

theorem vstrs_checked {msg sig x : Bytes} (h : x ∈ vstrs I ct pt O msg sig) : x ∈ Checked I O ct pt msg sig := by
  classical
  unfold vstrs at h
  cases hp : parse I sig with
  | none =>
    unfold strs1 strs2 strs3 strs4 at h
    rw [hp] at h
    simp at h
  | some y =>
    obtain ⟨e, salt, o⟩ := y
    have hP := parse_some hp
    refine ⟨e, salt, o, ⟨hP.eq, hP.salt, hP.len, hP.lt, hP.fits⟩, ?_⟩
    simp only [List.mem_append] at h
    rcases h with ((h | h) | h) | h
    · unfold strs1 at h
      rw [hp] at h
      obtain ⟨t, ht, h⟩ := List.mem_flatMap.1 h
      rw [List.mem_range] at ht
      simp only [seedStrs, List.mem_cons, List.not_mem_nil, or_false] at h
      left
      rcases h with h | h | h | h | h | h
      · exact ⟨t, ht, _, _, Or.inl ⟨rfl, rfl⟩, Or.inl h⟩
      · exact ⟨t, ht, _, _, Or.inr ⟨rfl, rfl⟩, Or.inl h⟩
      · exact ⟨t, ht, _, _, Or.inl ⟨rfl, rfl⟩, Or.inr (Or.inl h)⟩
      · exact ⟨t, ht, _, _, Or.inr ⟨rfl, rfl⟩, Or.inr (Or.inl h)⟩
      · exact ⟨t, ht, _, _, Or.inl ⟨rfl, rfl⟩, Or.inr (Or.inr (Or.inl h))⟩
      · exact ⟨t, ht, _, _, Or.inr ⟨rfl, rfl⟩, Or.inr (Or.inr (Or.inl h))⟩
    · unfold strs2 at h
      rw [hp] at h
      obtain ⟨t, ht, h⟩ := List.mem_flatMap.1 h
      rw [List.mem_range] at ht
      simp only [List.mem_cons, List.not_mem_nil, or_false] at h
      left
      rcases h with h | h
      · exact ⟨t, ht, _, _, Or.inl ⟨rfl, rfl⟩, Or.inr (Or.inr (Or.inr h))⟩
      · exact ⟨t, ht, _, _, Or.inr ⟨rfl, rfl⟩, Or.inr (Or.inr (Or.inr h))⟩
    · unfold strs3 at h
      rw [hp] at h
      obtain ⟨t, ht, h⟩ := List.mem_flatMap.1 h
      rw [List.mem_range] at ht
      right; left
      cases ho : openOf I O pt salt t (e.getD t 0) (o t) with
      | none =>
        rw [ho] at h
        simp [viewStrs] at h
      | some y =>
        rw [ho] at h
        have hop := openOf_spec ho
        unfold viewStrs at h
        rcases List.mem_append.1 h with h | h
        · simp only [List.mem_cons, List.not_mem_nil, or_false] at h
          rcases h with h | h
          · exact ⟨t, ht, y.1, y.2, _, _, hop, Or.inl ⟨rfl, rfl⟩, Or.inl h⟩
          · exact ⟨t, ht, y.1, y.2, _, _, hop, Or.inr ⟨rfl, rfl⟩, Or.inl h⟩
        · split_ifs at h with hu
          · simp only [List.mem_cons, List.not_mem_nil, or_false] at h
            rcases h with h | h
            · exact ⟨t, ht, y.1, y.2, _, _, hop, Or.inl ⟨rfl, rfl⟩, Or.inr ⟨hu, h⟩⟩
            · exact ⟨t, ht, y.1, y.2, _, _, hop, Or.inr ⟨rfl, rfl⟩, Or.inr ⟨hu, h⟩⟩
          · simp at h
    · unfold strs4 at h
      rw [hp] at h
      dsimp only at h
      split_ifs at h with ha
      · right; right
        rw [List.mem_singleton] at h
        refine ⟨_, _, fun t ht => ?_, h⟩
        obtain ⟨y, hy⟩ := Option.ne_none_iff_exists'.1 (ha t ht)
        rw [hy]
        exact openOf_spec hy
      · simp at h

theorem checked_vstrs {n : ℕ} (hI : I.Is n) {msg sig x : Bytes} (h : x ∈ Checked I O ct pt msg sig) : x ∈ vstrs I ct pt O msg sig := by
  classical
  obtain ⟨e, salt, o, ⟨p1, p2, p3, p4, p5⟩, h⟩ := h
  obtain ⟨o', hp, ho⟩ := parse_of (I := I) ⟨p1, p2, p3, p4, p5⟩
  unfold vstrs
  simp only [List.mem_append]
  rcases h with ⟨t, ht, s, j, hs, h⟩ | ⟨t, ht, a, b, v, j, hop, hs, h⟩ | ⟨a, b, hop, h⟩
  · rw [← ho t ht] at hs
    rcases h with h | h | h | h
    · refine Or.inl (Or.inl (Or.inl ?_))
      unfold strs1
      rw [hp]
      refine List.mem_flatMap.2 ⟨t, List.mem_range.2 ht, ?_⟩
      rcases hs with ⟨rfl, rfl⟩ | ⟨rfl, rfl⟩ <;> simp [seedStrs, h]
    · refine Or.inl (Or.inl (Or.inl ?_))
      unfold strs1
      rw [hp]
      refine List.mem_flatMap.2 ⟨t, List.mem_range.2 ht, ?_⟩
      rcases hs with ⟨rfl, rfl⟩ | ⟨rfl, rfl⟩ <;> simp [seedStrs, h]
    · refine Or.inl (Or.inl (Or.inl ?_))
      unfold strs1
      rw [hp]
      refine List.mem_flatMap.2 ⟨t, List.mem_range.2 ht, ?_⟩
      rcases hs with ⟨rfl, rfl⟩ | ⟨rfl, rfl⟩ <;> simp [seedStrs, h]
    · refine Or.inl (Or.inl (Or.inr ?_))
      unfold strs2
      rw [hp]
      refine List.mem_flatMap.2 ⟨t, List.mem_range.2 ht, ?_⟩
      rcases hs with ⟨rfl, rfl⟩ | ⟨rfl, rfl⟩ <;> simp [tapeStr, h]
  · refine Or.inl (Or.inr ?_)
    unfold strs3
    rw [hp]
    refine List.mem_flatMap.2 ⟨t, List.mem_range.2 ht, ?_⟩
    rw [← ho t ht] at hop
    rw [openOf_some hI hop]
    unfold viewStrs
    rcases h with h | ⟨hu, h⟩
    · refine List.mem_append_left _ ?_
      rcases hs with ⟨rfl, rfl⟩ | ⟨rfl, rfl⟩ <;> simp [h]
    · refine List.mem_append_right _ ?_
      rw [if_pos hu]
      rcases hs with ⟨rfl, rfl⟩ | ⟨rfl, rfl⟩ <;> simp [gStr, h]
  · rw [h]
    exact Or.inr (mem_strs4 hI hp (fun t ht => (ho t ht).symm) fun t ht => by rw [ho t ht]; exact hop t ht)

theorem vstrs_len (msg sig : Bytes) : (vstrs I ct pt O msg sig).length ≤ 12 * I.T + 1 := by
  unfold vstrs
  simp only [List.length_append]
  have h1 := len1 (I := I) sig
  have h2 := len2 (I := I) (O := O) sig
  have h3 := len3 (I := I) (O := O) (pt := pt) sig
  have h4 := len4 (I := I) (O := O) (ct := ct) (pt := pt) msg sig
  omega

theorem prob_no {Ω : Type} [Fintype Ω] : prob (fun _ : Ω => False) = 0 := by
  classical
  unfold prob
  simp

/-! ### Answers with equal digests -/

theorem prob_equal (hM : I.digest ≤ M) {x y : Fin k × Query I.T I.unruh} (hne : x ≠ y) :
    prob (fun ω : Oracle N M × (Fin k → Answers I M) => bytes I.digest (ω.2 x.1 x.2) = bytes I.digest (ω.2 y.1 y.2)) ≤ 1 / 2 ^ (8 * I.digest) := by
  classical
  rw [← card_keys]
  refine prob_le_of_inj (K := Fin (8 * I.digest) → ZMod 2) (fun ω l => (ω.1, Function.update ω.2 x.1 (Function.update (ω.2 x.1) x.2 (bump 0 (8 * I.digest) l (ω.2 x.1 x.2))))) ?_
  rintro ⟨O, a⟩ ⟨O', a'⟩ l l' hE hE' he
  rw [Prod.mk.injEq] at he
  obtain ⟨e1, e2⟩ := he
  dsimp only at e1 e2 hE hE'
  subst e1
  have hval : ∀ (a : Fin k → Answers I M) (v : Val M) (z : Fin k × Query I.T I.unruh), z ≠ x → Function.update a x.1 (Function.update (a x.1) x.2 v) z.1 z.2 = a z.1 z.2 := by
    intro a v z hz
    by_cases h1 : z.1 = x.1
    · have h2 : z.2 ≠ x.2 := fun h2 => hz (Prod.ext h1 h2)
      rw [h1, Function.update_self, Function.update_of_ne h2]
    · rw [Function.update_of_ne h1]
  have hq : ∀ z : Fin k × Query I.T I.unruh, z ≠ x → a z.1 z.2 = a' z.1 z.2 := fun z hz => by
    have := congrFun (congrFun e2 z.1) z.2
    rwa [hval a _ z hz, hval a' _ z hz] at this
  have e3 : bump 0 (8 * I.digest) l (a x.1 x.2) = bump 0 (8 * I.digest) l' (a' x.1 x.2) := by
    have := congrFun (congrFun e2 x.1) x.2
    simpa using this
  have hb : bytes I.digest (a x.1 x.2) = bytes I.digest (a' x.1 x.2) := by rw [hE, hE', hq y hne.symm]
  obtain ⟨e4, e5⟩ := bump_inj (by omega) e3 fun i _ hi => by
    have := congrFun (congrArg toBits hb) i
    unfold Rom.bytes at this
    rwa [toBits_ofBits, toBits_ofBits, Spec.trunc, Spec.trunc, if_pos (by omega), if_pos (by omega)] at this
  refine ⟨Prod.ext rfl (funext fun i => funext fun q => ?_), e5⟩
  by_cases hz : (i, q) = x
  · subst hz
    exact e4
  · exact hq (i, q) hz

theorem prob_digests (hM : I.digest ≤ M) :
    prob (fun ω : Oracle N M × (Fin k → Answers I M) => ¬ Digests ω.2) ≤ ((k * (9 * I.T + 2) : ℕ) : ℝ) ^ 2 / 2 ^ (8 * I.digest) := by
  have h1 : prob (fun ω : Oracle N M × (Fin k → Answers I M) => ∃ z : (Fin k × Query I.T I.unruh) × (Fin k × Query I.T I.unruh), z.1 ≠ z.2 ∧
      bytes I.digest (ω.2 z.1.1 z.1.2) = bytes I.digest (ω.2 z.2.1 z.2.2)) ≤ Fintype.card ((Fin k × Query I.T I.unruh) × (Fin k × Query I.T I.unruh)) * (1 / 2 ^ (8 * I.digest)) :=
    prob_exists fun z => by
      by_cases hz : z.1 = z.2
      · refine le_trans (prob_mono (Q' := fun _ => False) fun ω h => h.1 hz) ?_
        rw [prob_no]
        positivity
      · exact le_trans (prob_mono fun ω h => h.2) (prob_equal hM hz)
  refine le_trans (prob_mono fun ω h => ?_) (le_trans h1 ?_)
  · unfold Digests Function.Injective at h
    push Not at h
    obtain ⟨x, y, e, hne⟩ := h
    exact ⟨(x, y), hne, e⟩
  · rw [mul_one_div]
    refine div_le_div_of_nonneg_right ?_ (by positivity)
    have h2 : Fintype.card ((Fin k × Query I.T I.unruh) × (Fin k × Query I.T I.unruh)) ≤ (k * (9 * I.T + 2)) ^ 2 := by
      rw [Fintype.card_prod, Fintype.card_prod, Fintype.card_fin, sq]
      exact Nat.mul_le_mul (Nat.mul_le_mul_left _ card_query) (Nat.mul_le_mul_left _ card_query)
    exact_mod_cast h2

/-! ### The bound -/

theorem forge_many {n : ℕ} (hI : I.Is n) (hsk : sk.length = I.blk) (hk : IsKey I sk) (hpt : pt.length = I.blk)
    (hct : ct = Spec.Picnic1.ofBits I.blk (I.X.enc (toBits sk) (toBits pt))) (hM1 : 3 * I.T * I.seed + 32 ≤ M) (hM2 : I.digest ≤ M)
    (hM3 : I.blk + I.gate ≤ M) (ms : Fin k → Bytes) (hinj : Function.Injective ms)
    (hN : ∀ i, 3 * I.T * (I.digest + I.seed + I.gate + 2 * I.blk) + 2 * I.blk + (ms i).length + 33 ≤ N)
    (A : List Bytes → Adv N M (Bytes × Bytes)) (hA : ∀ l O, ((A l).asked O).length ≤ Q)
    (hN' : ∀ l O, 3 * I.T * (I.digest + I.seed + I.gate + 2 * I.blk) + 2 * I.blk + ((A l).run O).1.length + 33 ≤ N) :
    prob (fun O : Oracle N M => ForgesNew I O sk ct pt ms A) ≤ prob (fun ω : Oracle N M × (Fin k → Answers I M) => Betrays I ω.1 ct pt ms ω.2 A) +
      (manyBound I k (Q + 12 * I.T + 1) + (((k * (10 * I.T + 1) + (Q + 12 * I.T + 1) : ℕ) : ℝ) * (2 / 3) ^ I.T +
        (((k * (10 * I.T + 1) + (Q + 12 * I.T + 1) : ℕ) : ℝ) ^ 2 * (4 * I.T + 3) + ((k * (10 * I.T + 1) + (Q + 12 * I.T + 1) : ℕ) : ℝ) * (I.T + 1) ^ 2 +
          ((k * (10 * I.T + 1) + (Q + 12 * I.T + 1) : ℕ) : ℝ) * ((k * (9 * I.T + 2) : ℕ) : ℝ)) / 2 ^ (8 * I.digest) +
        ((k * (9 * I.T + 2) : ℕ) : ℝ) ^ 2 / 2 ^ (8 * I.digest))) := by
  classical
  have hctl : ct.length = I.blk := by rw [hct]; exact ofBits_len' _ _
  have hN0 : 3 * I.T * (I.digest + I.seed + I.gate + 2 * I.blk) + 2 * I.blk + 33 ≤ N := by
    have := hN' [] fun _ => 0
    omega
  have hN1 : I.digest + 1 ≤ N := by
    have h1 := rom_sizes hI
    omega
  have h1 := many_real_sim (N := N) (M := M) hI hsk hk hpt hct hM1 hM2 hM3 False k ms hinj hN (Q + 12 * I.T + 1) (fun l => forgeLocal ct pt hI (Set.range ms) (A l))
    fun l O => vasked_len (A l) O (hA l O)
  -- the bound for given answers
  let c : ℝ := ((k * (10 * I.T + 1) + (Q + 12 * I.T + 1) : ℕ) : ℝ) * (2 / 3) ^ I.T +
        (((k * (10 * I.T + 1) + (Q + 12 * I.T + 1) : ℕ) : ℝ) ^ 2 * (4 * I.T + 3) + ((k * (10 * I.T + 1) + (Q + 12 * I.T + 1) : ℕ) : ℝ) * (I.T + 1) ^ 2 +
          ((k * (10 * I.T + 1) + (Q + 12 * I.T + 1) : ℕ) : ℝ) * ((k * (9 * I.T + 2) : ℕ) : ℝ)) / 2 ^ (8 * I.digest)
  let F : Oracle N M → (Fin k → Answers I M) → Prop := fun O a => ∃ ha : Digests a, (simBase hI hctl hpt hN1 ms a ha A).Wins O ∧
    ¬ Reveal I ct pt ((simBase hI hctl hpt hN1 ms a ha A).Strings O)
  have h2 : ∀ a, prob (fun O => F O a) ≤ c := fun a => by
    by_cases ha : Digests a
    · have h3 := Base.prob_wins (simBase hI hctl hpt hN1 ms a ha A) hI hM2 (q := Q) (fun O O' => by
        simp only [simBase]
        split_ifs
        · exact hA _ _
        · simp [Adv.asked]) hctl hpt fun O O' => by
        simp only [simBase]
        split_ifs
        · exact hN' _ _
        · simp only [Adv.run, List.length_nil]
          omega
      refine le_trans (prob_mono fun O h => h.choose_spec) (le_trans h3 ?_)
      refine add_le_add le_rfl (div_le_div_of_nonneg_right (add_le_add le_rfl (mul_le_mul_of_nonneg_left ?_ (by positivity))) (by positivity))
      have : Fintype.card (Fin k × Query I.T I.unruh) ≤ k * (9 * I.T + 2) := by
        rw [Fintype.card_prod, Fintype.card_fin]
        exact Nat.mul_le_mul_left _ card_query
      exact_mod_cast this
    · refine le_trans (prob_mono (Q' := fun _ => False) fun O h => ha h.choose) ?_
      rw [prob_no]
      positivity
  have h3 : prob (fun ω : Oracle N M × (Fin k → Answers I M) => F ω.1 ω.2) ≤ c := by
    have := prob_avg (F := F) (G := fun (_ : Oracle N M) (_ : Fin k → Answers I M) => False) (c := c) fun a => by rw [prob_no, zero_add]; exact h2 a
    rwa [prob_no, zero_add] at this
  have h4 := prob_digests (N := N) (k := k) (I := I) hM2
  have e1 : ∀ O : Oracle N M, ForgesNew I O sk ct pt ms A → (realAll I O sk ct pt k ms).elim False fun l => (forgeLocal ct pt hI (Set.range ms) (A l)).run O := by
    rintro O ⟨l, hl, hm, hv⟩
    rw [hl]
    refine ⟨?_, hv⟩
    rintro ⟨i, hi⟩
    exact hm i hi.symm
  have e2 : ∀ ω : Oracle N M × (Fin k → Answers I M), ((simMany I ω.1 ct pt ms ω.2).elim False fun x => (forgeLocal ct pt hI (Set.range ms) (A x.1)).run x.2 ∨
      ∃ y ∈ (forgeLocal ct pt hI (Set.range ms) (A x.1)).asked x.2, ∃ i, y.1 = I.secretString sk ct pt (ms i)) →
      Betrays I ω.1 ct pt ms ω.2 A ∨ (F ω.1 ω.2 ∨ ¬ Digests ω.2) := by
    rintro ⟨O, a⟩ h
    dsimp only at h ⊢
    cases hs : simMany I O ct pt ms a with
    | none => rw [hs] at h; exact h.elim
    | some x =>
      rw [hs, Option.elim_some] at h
      have hend : AllEnd a O := simMany_some hI hctl hpt ms a hs
      have hx := simMany_eq hI hctl hpt ms a (chals a O) (chals_eq hend)
      rw [hs, Option.some.injEq] at hx
      rcases h with h | ⟨y, hy, i, h⟩
      · by_cases ha : Digests a
        · have eH : (simBase hI hctl hpt hN1 ms a ha A).H O = x.2 := by
            simp only [simBase]
            rw [if_pos hend, hx]
          have eA : (simBase hI hctl hpt hN1 ms a ha A).adv O = A x.1 := by
            simp only [simBase]
            rw [if_pos hend, hx]
          by_cases hr : Reveal I ct pt ((simBase hI hctl hpt hN1 ms a ha A).Strings O)
          · left
            refine ⟨x, hs, Or.inl ?_⟩
            have key : ∀ z ∈ (simBase hI hctl hpt hN1 ms a ha A).Strings O, z ∈ Hashed I x.2 ct pt (A x.1) ∪ Written I O ct pt ms a := by
              intro z hz
              unfold Base.Strings at hz
              rw [eH, eA] at hz
              rcases hz with hz | hz | hz
              · exact Or.inl (Or.inl hz)
              · exact Or.inl (Or.inr hz)
              · obtain ⟨-, -, i, q, hq, e⟩ := hz
                exact Or.inr ⟨i, _, q, chals_eq hend i, hq, e.symm⟩
            obtain ⟨z1, m1, z2, m2, z3, m3, hk⟩ := hr
            exact ⟨z1, key z1 m1, z2, key z2 m2, z3, key z3 m3, hk⟩
          · right; left
            refine ⟨ha, ?_, hr⟩
            unfold Base.Wins
            rw [eH, eA]
            exact h
        · exact Or.inr (Or.inr ha)
      · left
        refine ⟨x, hs, Or.inr ?_⟩
        have hf : Rom.Fits I ct pt (y.1.take I.blk) := by
          unfold Rom.Fits
          rw [h]
          unfold Picnic1.Inst.secretString
          simp only [List.append_assoc]
          rw [List.take_append_of_le_length (by omega), List.take_of_length_le (by omega)]
          exact hct
        rcases mem_vasked.1 hy with hy | hy
        · exact Or.inl ⟨y, hy, hf⟩
        · exact Or.inr ⟨y.1, vstrs_checked hy, hf⟩
  have h5 := prob_mono e1
  have h6 := le_trans (prob_mono e2) (le_trans (prob_or _ _) (add_le_add le_rfl (le_trans (prob_or _ _) (add_le_add h3 h4))))
  change _ ≤ _ + (_ + (c + _))
  linarith

end Picnic.Rom
