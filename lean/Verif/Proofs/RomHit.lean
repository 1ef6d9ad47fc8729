import Verif.Proofs.RomAdv

/-
C62: how likely an adversary asks for a secret string.
-/

namespace Picnic.Rom

open Spec Spec.Zkb Spec.Rom Spec.Picnic1 Spec.Challenge

variable {N M : ℕ} {I : Inst} {sk ct pt msg : Bytes} {α : Type}

theorem bytes_ext' {x y : Bytes} (hl : x.length = y.length) (h : ∀ i < 8 * x.length, toBits x i = toBits y i) : x = y :=
  buf_ext hl fun i hi => by
    have := h i hi
    rwa [toBits_eq, toBits_eq] at this

/-- The unopened party. -/
noncomputable def closed (O : Oracle N M) (a : Answers I M) (t : Fin I.T) : Fin 3 :=
  Fin.ofNat 3 (((challenge I O (bytes I.digest (a .digest))).getD []).getD t 0 + 2)

theorem closed_eq {O : Oracle N M} {a : Answers I M} {e : List ℕ} (h : challenge I O (bytes I.digest (a .digest)) = some e) (t : Fin I.T) :
    (closed O a t : ℕ) = (e.getD t 0 + 2) % 3 := by
  unfold closed
  rw [h]
  rfl

variable (I ct pt msg) in
/-- What an adversary asks for, with the simulator. -/
noncomputable def asks (A : Bytes → Local N M I α) (O : Oracle N M) (a : Answers I M) : List (Arg N) :=
  (sim I O a ct pt msg).elim [] fun p => (A p.sig).asked p.oracle

theorem asks_some {O : Oracle N M} {a : Answers I M} {e : List ℕ} (A : Bytes → Local N M I α) (h : challenge I O (bytes I.digest (a .digest)) = some e) :
    asks I ct pt msg A O a = (A (signature I a (simView I ct pt a e) e)).asked (swrite I O a e (spts I ct pt msg O a e)) := by
  unfold asks
  rw [sim_eq, h]
  rfl

theorem asks_none {O : Oracle N M} {a : Answers I M} (A : Bytes → Local N M I α) (h : challenge I O (bytes I.digest (a .digest)) = none) :
    asks I ct pt msg A O a = [] := by
  unfold asks
  rw [sim_eq, h]
  rfl

theorem asks_len {Q : ℕ} {A : Bytes → Local N M I α} (hA : ∀ s O, ((A s).asked O).length ≤ Q) (O : Oracle N M) (a : Answers I M) :
    (asks I ct pt msg A O a).length ≤ Q := by
  rcases h : challenge I O (bytes I.digest (a .digest)) with _ | e
  · rw [asks_none A h]; simp
  · rw [asks_some A h]; exact hA _ _

theorem seed_disj {t t' : Fin I.T} {j j' : Fin 3} (hne : (t, j) ≠ (t', j')) :
    (3 * (t : ℕ) + j) * I.seed + I.seed ≤ (3 * t' + j') * I.seed ∨ (3 * (t' : ℕ) + j') * I.seed + I.seed ≤ (3 * t + j) * I.seed := by
  have hne' : 3 * (t : ℕ) + j ≠ 3 * t' + j' := fun e => hne (by
    rw [Prod.mk.injEq]
    exact ⟨Fin.ext (by omega), Fin.ext (by omega)⟩)
  rw [← Nat.succ_mul, ← Nat.succ_mul]
  rcases Nat.lt_or_gt_of_ne hne' with h | h
  · exact Or.inl (Nat.mul_le_mul_right _ h)
  · exact Or.inr (Nat.mul_le_mul_right _ h)

/-- The adversary asks for a string that is made of the seed of the unopened party of a repetition. -/
theorem prob_ask_seed (hM : 3 * I.T * I.seed + 32 ≤ M) (A : Bytes → Local N M I α) (t : Fin I.T) (i : ℕ) :
    prob (fun ω : Oracle N M × Answers I M => ∃ k x, (asks I ct pt msg A ω.1 ω.2)[i]? = some x ∧ x.1 = seedText I k (seed ω.2 t (closed ω.1 ω.2 t))) ≤
      1 / 2 ^ (8 * I.seed) := by
  have hh : ∀ (O : Oracle N M) (a a' : Answers I M), (∀ q, q ≠ .secrets → a q = a' q) → closed O a t = closed O a' t := fun O a a' h => by
    unfold closed
    rw [h .digest (by simp)]
  refine prob_secrets' (n := 8 * I.seed) (fun O a => 8 * ((3 * t + closed O a t) * I.seed)) (fun O a => ?_) (fun O a a' h => by rw [hh O a a' h]) ?_
  · have := seed_pos t (closed O a t)
    omega
  · rintro O a a' ⟨k, x, hx, he⟩ ⟨k', x', hx', he'⟩ hq hoff i hi hi'
    dsimp only at hx he hx' he' hi hi' hoff
    have h1 := seed_pos t (closed O a t)
    have hasks : asks I ct pt msg A O a = asks I ct pt msg A O a' := by
      have hd : a .digest = a' .digest := hq _ (by simp)
      rcases h : challenge I O (bytes I.digest (a .digest)) with _ | e
      · rw [asks_none A h, asks_none A (by rw [← hd]; exact h)]
      · rw [asks_some A h, asks_some A (by rw [← hd]; exact h)]
        have h3 : ∀ t, e.getD t 0 < 3 := fun t => challenge_lt h t
        have hsalt : salt a = salt a' := bytes_ext' (by rw [salt_len, salt_len]) fun i hi => by
          rw [salt_len] at hi
          rw [salt_bits a hi, salt_bits a' hi]
          exact hoff _ (by omega)
        have hseed : ∀ (t' : Fin I.T) (j : ℕ), j < 3 → j ≠ (e.getD t' 0 + 2) % 3 → seed a t' j = seed a' t' j := fun t' j hj hne => by
          refine bytes_ext' (by rw [seed_len _ _ hj, seed_len _ _ hj]) fun i hi => ?_
          rw [seed_len _ _ hj] at hi
          have h2 := seed_pos t' ⟨j, hj⟩
          have e1 := seed_bits a t' ⟨j, hj⟩ hi
          have e2 := seed_bits a' t' ⟨j, hj⟩ hi
          dsimp only at e1 e2
          rw [e1, e2]
          have hd := seed_disj (I := I) (t := t) (t' := t') (j := closed O a t) (j' := ⟨j, hj⟩) (fun hc => hne (by
            rw [Prod.mk.injEq] at hc
            rw [← hc.1, ← closed_eq h t, hc.2]))
          dsimp only at hd
          exact hoff _ (by omega)
        obtain ⟨e1, e2⟩ := sim_seed (ct := ct) (pt := pt) (msg := msg) O h3 hq hsalt hseed
        rw [e1, e2]
    rw [← hasks, hx, Option.some.injEq] at hx'
    rw [← hx', he, ← hh O a a' hq] at he'
    have hse := seedText_inj he'
    obtain ⟨y, rfl⟩ := Nat.exists_eq_add_of_le hi
    have hy : y < 8 * I.seed := by omega
    rw [← seed_bits a t _ hy, ← seed_bits a' t _ hy, hse]

/-- Where the digest of the seed is in a string. -/
def digestOf (I : Inst) (k : Fin 3) (m : Bytes) : Bytes := if k = 1 then (m.drop 1).take I.digest else m.take I.digest

variable (I) in
/-- The seeds are different. -/
def Distinct (a : Answers I M) : Prop := ∀ (t t' : Fin I.T) (j j' : Fin 3), (t, j) ≠ (t', j') → seed a t j ≠ seed a t' j'

/-- The adversary asks for a string with the digest of a seed without having asked for this digest. -/
theorem prob_ask_digest (hM : I.digest ≤ M) (hN : I.seed + 1 ≤ N) (A : Bytes → Local N M I α) (t : Fin I.T) (k : Fin 3) (i : ℕ) :
    prob (fun ω : Oracle N M × Answers I M => Distinct I ω.2 ∧ (∀ x ∈ asks I ct pt msg A ω.1 ω.2, x.1 ≠ seedText I k (seed ω.2 t (closed ω.1 ω.2 t))) ∧
      ∃ x, (asks I ct pt msg A ω.1 ω.2)[i]? = some x ∧ Rom.hash ω.1 (seedText I k (seed ω.2 t (closed ω.1 ω.2 t))) I.digest = digestOf I k x.1) ≤
      1 / 2 ^ (8 * I.digest) := by
  have hch : ∀ (O O' : Oracle N M) (a : Answers I M) (s : Bytes), (∀ x : Arg N, x.1 ≠ seedText I k s → O x = O' x) →
      challenge I O (bytes I.digest (a .digest)) = challenge I O' (bytes I.digest (a .digest)) := fun O O' a s h => by
    refine challenge_next (fun d _ => ?_) (bytes_len' _ _)
    unfold ask
    split_ifs with hl
    · exact h ⟨_, hl⟩ (Ne.symm (seedText_next k s d))
    · rfl
  have hh : ∀ (O O' : Oracle N M) (a : Answers I M) (s : Bytes), (∀ x : Arg N, x.1 ≠ seedText I k s → O x = O' x) → closed O a t = closed O' a t := fun O O' a s h => by
    unfold closed
    rw [hch O O' a s h]
  refine prob_hash' hM (fun O a => seedText I k (seed a t (closed O a t))) (fun O a => ?_) (fun O a v => ?_)
    (fun O a => ((asks I ct pt msg A O a)[i]?).elim [] fun x => digestOf I k x.1) (fun ω hE => ?_) (fun O O' a hE hoff hm => ?_)
  · rw [seedText_len, seed_len a t (closed O a t).2]
    omega
  · have := hh O (Function.update O ⟨seedText I k (seed a t (closed O a t)), by rw [seedText_len, seed_len a t (closed O a t).2]; omega⟩ v) a (seed a t (closed O a t))
      fun x hx => (Function.update_of_ne (fun hc => hx (by rw [hc])) _ _).symm
    rw [← this]
  · obtain ⟨-, -, x, hx, he⟩ := hE
    rw [hx, Option.elim_some, he]
  · obtain ⟨hdis, hno, -⟩ := hE
    dsimp only at hoff hm hno hdis ⊢
    have hc := hch O O' a _ hoff
    have : asks I ct pt msg A O a = asks I ct pt msg A O' a := by
      rcases h : challenge I O (bytes I.digest (a .digest)) with _ | e
      · rw [asks_none A h, asks_none A (by rw [← hc]; exact h)]
      · rw [asks_some A h] at hno
        rw [asks_some A h, asks_some A (by rw [← hc]; exact h)]
        have hsw : ∀ x : Arg N, x.1 ≠ seedText I k (seed a t (closed O a t)) →
            swrite I O a e (spts I ct pt msg O a e) x = swrite I O' a e (spts I ct pt msg O' a e) x := fun x hx => by
          refine sim_hash (k := k) (s := seed a t (closed O a t)) a e (fun m hm => ?_) (fun t' j hj => ?_) hx
          · unfold ask
            split_ifs with hl
            · exact hoff ⟨m, hl⟩ hm
            · rfl
          · refine hdis t' t j _ fun hp => hj ?_
            rw [Prod.mk.injEq] at hp
            rw [hp.2, hp.1]
            exact closed_eq h t
        refine (Local.congr _ _ _ (fun x hx => hsw x (hno x hx)) fun d _ => ?_).2
        unfold ask
        split_ifs with hl
        · exact hsw ⟨_, hl⟩ (Ne.symm (seedText_next k _ d))
        · rfl
    rw [this]

theorem digestOf_tape {x d salt : Bytes} {t j len : ℕ} (hd : d.length = I.digest) (h : x = Use.text (T := I.T) I (.tape d salt t j len)) : digestOf I 0 x = d := by
  rw [h]
  simp only [digestOf, Use.text, List.append_assoc]
  rw [if_neg (by decide), List.take_append_of_le_length (by omega), List.take_of_length_le (by omega)]

theorem digestOf_com {x d key gates out : Bytes} (hd : d.length = I.digest) (h : x = Use.text (T := I.T) I (.com d key gates out)) : digestOf I 1 x = d := by
  rw [h]
  simp only [digestOf, Use.text, List.append_assoc]
  rw [if_pos trivial, List.singleton_append, List.drop_succ_cons, List.drop_zero, List.take_append_of_le_length (by omega), List.take_of_length_le (by omega)]

theorem digestOf_g {x d gates : Bytes} {key : Option Bytes} (hd : d.length = I.digest) (h : x = Use.text (T := I.T) I (.g d key gates)) : digestOf I 2 x = d := by
  rw [h]
  simp only [digestOf, Use.text, List.append_assoc]
  rw [if_neg (by decide), List.take_append_of_le_length (by omega), List.take_of_length_le (by omega)]

/-- An adversary who asks for a secret string asks for the secret key, or one of the events above occurs. -/
theorem hits_cases {p : ℕ} (hI : I.Is p) (hct : ct.length = I.blk) (hpt : pt.length = I.blk) {Q : ℕ} {A : Bytes → Local N M I α}
    (hA : ∀ s O, ((A s).asked O).length ≤ Q) (O : Oracle N M) (a : Answers I M) {x : Play N M} (hx : sim I O a ct pt msg = some x) (h : Hit sk ct pt msg A x) :
    (∃ y ∈ (A x.sig).asked x.oracle, y.1 = I.secretString sk ct pt msg) ∨ ¬ Distinct I a ∨
    (∃ (ti : Fin I.T × Fin Q), ∃ k x, (asks I ct pt msg A O a)[(ti.2 : ℕ)]? = some x ∧ x.1 = seedText I k (seed a ti.1 (closed O a ti.1))) ∨
    (∃ (u : Fin I.T × Fin 3 × Fin Q), Distinct I a ∧ (∀ x ∈ asks I ct pt msg A O a, x.1 ≠ seedText I u.2.1 (seed a u.1 (closed O a u.1))) ∧
      ∃ x, (asks I ct pt msg A O a)[(u.2.2 : ℕ)]? = some x ∧ Rom.hash O (seedText I u.2.1 (seed a u.1 (closed O a u.1))) I.digest = digestOf I u.2.1 x.1) := by
  obtain ⟨y, hy, hs⟩ := h
  rcases hc : challenge I O (bytes I.digest (a .digest)) with _ | e
  · rw [sim_eq, hc] at hx
    simp at hx
  rw [sim_eq, hc, Option.map_some, Option.some.injEq] at hx
  have hasks : asks I ct pt msg A O a = (A x.sig).asked x.oracle := by
    rw [asks_some A hc, ← hx]
  by_cases hd : Distinct I a
  swap
  · exact Or.inr (Or.inl hd)
  rcases hs with hs | ⟨t, ht, hs⟩
  · exact Or.inl ⟨y, hy, hs⟩
  right; right
  rw [← hasks] at hy
  obtain ⟨i, hi, hyi⟩ := List.getElem_of_mem hy
  have hiQ : i < Q := lt_of_lt_of_le hi (asks_len hA O a)
  have hget : (asks I ct pt msg A O a)[i]? = some y := by rw [List.getElem?_eq_getElem hi, hyi]
  have hor : ∀ m ∈ Plain I, Rom.hash x.oracle m I.digest = Rom.hash O m I.digest := fun m hm => by
    unfold Rom.hash
    rw [← hx]
    dsimp only
    rw [swrite_plain hI hct hpt O a e hm]
  have hsec : x.secrets = secrets a := by rw [← hx]
  have hee : x.e = e := by rw [← hx]
  rw [hsec, hee] at hs
  have hhid := closed_eq hc ⟨t, ht⟩
  dsimp only at hhid
  have hseed : I.seedOf (secrets a) t ((e.getD t 0 + 2) % 3) = seed a t (closed O a ⟨t, ht⟩) := by
    rw [hhid]; rfl
  have hsl : (seed a t (closed O a ⟨t, ht⟩)).length = I.seed := seed_len a ⟨t, ht⟩ (closed O a ⟨t, ht⟩).2
  dsimp only at hs
  rw [hseed, text_tapeSeed, text_comSeed, text_gSeed, hor _ (seedText_plain 0 hsl), hor _ (seedText_plain 1 hsl), hor _ (seedText_plain 2 hsl)] at hs
  have hdig : ∃ k : Fin 3, Rom.hash O (seedText I k (seed a t (closed O a ⟨t, ht⟩))) I.digest = digestOf I k y.1 := by
    rcases hs with hs | ⟨key, gates, out, hs⟩ | ⟨-, key, gates, hs⟩
    · exact ⟨0, (digestOf_tape (hash_len _ _ _) hs).symm⟩
    · exact ⟨1, (digestOf_com (hash_len _ _ _) hs).symm⟩
    · exact ⟨2, (digestOf_g (hash_len _ _ _) hs).symm⟩
  obtain ⟨k, hk⟩ := hdig
  by_cases hno : ∀ x ∈ asks I ct pt msg A O a, x.1 ≠ seedText I k (seed a t (closed O a ⟨t, ht⟩))
  · exact Or.inr ⟨(⟨t, ht⟩, k, ⟨i, hiQ⟩), hd, hno, y, hget, hk⟩
  · push Not at hno
    obtain ⟨z, hz, hze⟩ := hno
    obtain ⟨i', hi', hzi⟩ := List.getElem_of_mem hz
    exact Or.inl ⟨(⟨t, ht⟩, ⟨i', lt_of_lt_of_le hi' (asks_len hA O a)⟩), k, z, by dsimp only; rw [List.getElem?_eq_getElem hi', hzi], hze⟩

variable (I) in
/-- The bound for the questions of an adversary. -/
noncomputable def hitBound (Q : ℕ) : ℝ := ((3 * I.T) ^ 2 + 4 * I.T * Q) / 2 ^ (8 * I.seed)

theorem prob_hits {p : ℕ} (hI : I.Is p) (hct : ct.length = I.blk) (hpt : pt.length = I.blk) (hM : 3 * I.T * I.seed + 32 ≤ M) (hM' : I.digest ≤ M)
    (hN : I.seed + 1 ≤ N) {Q : ℕ} {A : Bytes → Local N M I α} (hA : ∀ s O, ((A s).asked O).length ≤ Q) (b : Prop) (W : Play N M → Prop) :
    prob (fun ω : Oracle N M × Answers I M => (sim I ω.1 ω.2 ct pt msg).elim b fun x => W x ∨ Hit sk ct pt msg A x) ≤
      prob (fun ω : Oracle N M × Answers I M => (sim I ω.1 ω.2 ct pt msg).elim b fun x => W x ∨ ∃ y ∈ (A x.sig).asked x.oracle, y.1 = I.secretString sk ct pt msg) +
      hitBound I Q := by
  unfold hitBound
  have hs := rom_sizes hI
  have h1 := prob_exists (ι := Fin I.T × Fin Q) (Q := fun ti (ω : Oracle N M × Answers I M) => ∃ k x, (asks I ct pt msg A ω.1 ω.2)[(ti.2 : ℕ)]? = some x ∧
    x.1 = seedText I k (seed ω.2 ti.1 (closed ω.1 ω.2 ti.1))) fun ti => prob_ask_seed hM A ti.1 ti.2
  have h2 := prob_exists (ι := Fin I.T × Fin 3 × Fin Q) (Q := fun u (ω : Oracle N M × Answers I M) => Distinct I ω.2 ∧
    (∀ x ∈ asks I ct pt msg A ω.1 ω.2, x.1 ≠ seedText I u.2.1 (seed ω.2 u.1 (closed ω.1 ω.2 u.1))) ∧
      ∃ x, (asks I ct pt msg A ω.1 ω.2)[(u.2.2 : ℕ)]? = some x ∧ Rom.hash ω.1 (seedText I u.2.1 (seed ω.2 u.1 (closed ω.1 ω.2 u.1))) I.digest = digestOf I u.2.1 x.1)
    fun u => prob_ask_digest hM' hN A u.1 u.2.1 u.2.2
  have h3 : prob (fun ω : Oracle N M × Answers I M => ¬ Distinct I ω.2) ≤ (3 * I.T) ^ 2 / 2 ^ (8 * I.seed) := by
    have := prob_exists (ι := (Fin I.T × Fin 3) × (Fin I.T × Fin 3)) (Q := fun u (ω : Oracle N M × Answers I M) => u.1 ≠ u.2 ∧ seed ω.2 u.1.1 u.1.2 = seed ω.2 u.2.1 u.2.2)
      (c := 1 / 2 ^ (8 * I.seed)) fun u => by
        by_cases hu : u.1 = u.2
        · have : prob (fun ω : Oracle N M × Answers I M => u.1 ≠ u.2 ∧ seed ω.2 u.1.1 u.1.2 = seed ω.2 u.2.1 u.2.2) = 0 := by
            unfold prob
            simp [hu]
          rw [this]
          positivity
        · exact le_trans (prob_mono fun ω h => h.2) (prob_seeds hM (t := u.1.1) (j := u.1.2) (t' := u.2.1) (j' := u.2.2) hu)
    refine le_trans (prob_mono fun ω h => ?_) (le_trans this (le_of_eq ?_))
    · unfold Distinct at h
      push Not at h
      obtain ⟨t, t', j, j', hne, he⟩ := h
      exact ⟨((t, j), (t', j')), hne, he⟩
    · simp only [Fintype.card_prod, Fintype.card_fin]
      push_cast
      ring
  have hpow : (1 : ℝ) / 2 ^ (8 * I.digest) ≤ 1 / 2 ^ (8 * I.seed) := by
    refine one_div_le_one_div_of_le (by positivity) ?_
    exact pow_le_pow_right₀ (by norm_num) (by omega)
  simp only [Fintype.card_prod, Fintype.card_fin] at h1 h2
  push_cast at h1 h2
  have h2' : (I.T * (3 * Q) : ℝ) * (1 / 2 ^ (8 * I.digest)) ≤ (I.T * (3 * Q)) * (1 / 2 ^ (8 * I.seed)) := mul_le_mul_of_nonneg_left hpow (by positivity)
  refine le_trans (prob_mono (Q' := fun ω : Oracle N M × Answers I M => ((sim I ω.1 ω.2 ct pt msg).elim b fun x => W x ∨ ∃ y ∈ (A x.sig).asked x.oracle,
      y.1 = I.secretString sk ct pt msg) ∨ ¬ Distinct I ω.2 ∨
    (∃ (ti : Fin I.T × Fin Q), ∃ k x, (asks I ct pt msg A ω.1 ω.2)[(ti.2 : ℕ)]? = some x ∧ x.1 = seedText I k (seed ω.2 ti.1 (closed ω.1 ω.2 ti.1))) ∨
    (∃ (u : Fin I.T × Fin 3 × Fin Q), Distinct I ω.2 ∧ (∀ x ∈ asks I ct pt msg A ω.1 ω.2, x.1 ≠ seedText I u.2.1 (seed ω.2 u.1 (closed ω.1 ω.2 u.1))) ∧
      ∃ x, (asks I ct pt msg A ω.1 ω.2)[(u.2.2 : ℕ)]? = some x ∧ Rom.hash ω.1 (seedText I u.2.1 (seed ω.2 u.1 (closed ω.1 ω.2 u.1))) I.digest = digestOf I u.2.1 x.1)) fun ω h => ?_) ?_
  · rcases hx : sim I ω.1 ω.2 ct pt msg with _ | x
    · rw [hx] at h
      exact Or.inl h
    · rw [hx, Option.elim_some] at h
      rw [Option.elim_some]
      rcases h with h | h
      · exact Or.inl (Or.inl h)
      · rcases hits_cases hI hct hpt hA ω.1 ω.2 hx h with h | h
        · exact Or.inl (Or.inr h)
        · exact Or.inr h
  · refine le_trans (prob_or _ _) ?_
    refine add_le_add le_rfl ?_
    refine le_trans (prob_or _ _) (le_trans (add_le_add h3 (le_trans (prob_or _ _) (add_le_add h1 (le_trans h2 h2')))) (le_of_eq ?_))
    ring

theorem seed_N {p : ℕ} (hI : I.Is p) {l : ℕ} (hN : 3 * I.T * (I.digest + I.seed + I.gate + 2 * I.blk) + 2 * I.blk + l + 33 ≤ N) : I.seed + 1 ≤ N := by
  have hT : 1 ≤ I.T := by
    have hz := zkb_sizes hI
    rcases Nat.eq_zero_or_pos I.T with h | h
    · rw [h] at hz; omega
    · exact h
  have : 3 * 1 * (I.digest + I.seed + I.gate + 2 * I.blk) ≤ 3 * I.T * (I.digest + I.seed + I.gate + 2 * I.blk) :=
    Nat.mul_le_mul_right _ (Nat.mul_le_mul_left _ hT)
  omega

/-- Signer and simulator for an adversary who asks at most `Q` questions. -/
theorem local_real_sim {p : ℕ} (hI : I.Is p) (hsk : sk.length = I.blk) (hk : IsKey I sk) (hpt : pt.length = I.blk)
    (hct : ct = Spec.Picnic1.ofBits I.blk (I.X.enc (toBits sk) (toBits pt)))
    (hN : 3 * I.T * (I.digest + I.seed + I.gate + 2 * I.blk) + 2 * I.blk + msg.length + 33 ≤ N) (hM1 : 3 * I.T * I.seed + 32 ≤ M) (hM2 : I.digest ≤ M)
    (hM3 : I.blk + I.gate ≤ M) {Q : ℕ} {A : Bytes → Local N M I Prop} (hA : ∀ s O, ((A s).asked O).length ≤ Q) (b : Prop) :
    prob (fun O : Oracle N M => (real I O sk ct pt msg).elim b fun x => (A x.sig).run x.oracle) ≤
      prob (fun ω : Oracle N M × Answers I M => (sim I ω.1 ω.2 ct pt msg).elim b fun x => (A x.sig).run x.oracle ∨
        ∃ y ∈ (A x.sig).asked x.oracle, y.1 = I.secretString sk ct pt msg) +
        (3 * (3 * I.T) ^ 2 + 4 * I.T * Q) / 2 ^ (8 * I.seed) := by
  have hctl : ct.length = I.blk := by rw [hct]; exact ofBits_len' _ _
  have hsplit : ((3 * (3 * I.T) ^ 2 + 4 * I.T * Q) / 2 ^ (8 * I.seed) : ℝ) = hitBound I Q + 2 * (3 * I.T) ^ 2 / 2 ^ (8 * I.seed) := by unfold hitBound; ring
  have r1 := real_sim hI hsk hk hpt hct hN hM1 hM2 hM3 {o | (o = none ∧ b) ∨ ∃ x, o = some x ∧ ∀ z : Play N M, observe I sk ct pt msg z = x → ¬ Hit sk ct pt msg A z →
    (A z.sig).run z.oracle}
  simp only [hit_observe hI hsk hctl hpt] at r1
  rw [abs_le] at r1
  have h1 := prob_hits (N := N) (M := M) (sk := sk) (msg := msg) hI hctl hpt hM1 hM2 (seed_N hI hN) hA b fun x => (A x.sig).run x.oracle
  have m1 : prob (fun O : Oracle N M => (real I O sk ct pt msg).elim b fun x => (A x.sig).run x.oracle) ≤
      prob (fun O : Oracle N M => (real I O sk ct pt msg).elim b fun x => (A x.sig).run x.oracle ∨ Hit sk ct pt msg A x) := prob_mono fun O h => by
    rcases hx : real I O sk ct pt msg with _ | x
    · rwa [hx] at h
    · rw [hx] at h
      exact Or.inl h
  rw [hsplit]
  linarith [r1.2]

/-- The result of a procedure is in a set. -/
def Local.mem (A : Local N M I α) (S : Set α) : Local N M I Prop := ⟨fun O => A.run O ∈ S, A.asked, fun O O' h h' => by
  obtain ⟨h1, h2⟩ := A.congr O O' h h'
  exact ⟨by rw [h1], h2⟩⟩

theorem gets_elim (A : Bytes → Adv N M α) (S : Set α) (y : Option (Play N M)) :
    Gets A S y ↔ y.elim False fun x => ((Local.ofAdv (I := I) (A x.sig)).mem S).run x.oracle := by
  cases y with
  | none => simp [Gets]
  | some x => simp [Gets, Local.mem, Local.ofAdv]

theorem adv_real_sim {p : ℕ} (hI : I.Is p) (hsk : sk.length = I.blk) (hk : IsKey I sk) (hpt : pt.length = I.blk)
    (hct : ct = Spec.Picnic1.ofBits I.blk (I.X.enc (toBits sk) (toBits pt)))
    (hN : 3 * I.T * (I.digest + I.seed + I.gate + 2 * I.blk) + 2 * I.blk + msg.length + 33 ≤ N) (hM1 : 3 * I.T * I.seed + 32 ≤ M) (hM2 : I.digest ≤ M)
    (hM3 : I.blk + I.gate ≤ M) {Q : ℕ} {A : Bytes → Adv N M α} (hA : ∀ s O, ((A s).asked O).length ≤ Q) (S : Set α) :
    prob (fun O : Oracle N M => Gets A S (real I O sk ct pt msg)) ≤
      prob (fun ω : Oracle N M × Answers I M => Gets A S (sim I ω.1 ω.2 ct pt msg) ∨ Asks A (I.secretString sk ct pt msg) (sim I ω.1 ω.2 ct pt msg)) +
        (3 * (3 * I.T) ^ 2 + 4 * I.T * Q) / 2 ^ (8 * I.seed) ∧
    prob (fun ω : Oracle N M × Answers I M => Gets A S (sim I ω.1 ω.2 ct pt msg)) ≤ prob (fun O : Oracle N M => Gets A S (real I O sk ct pt msg)) +
      prob (fun ω : Oracle N M × Answers I M => Asks A (I.secretString sk ct pt msg) (sim I ω.1 ω.2 ct pt msg)) +
        (3 * (3 * I.T) ^ 2 + 4 * I.T * Q) / 2 ^ (8 * I.seed) := by
  have h1 := local_real_sim (N := N) (M := M) (msg := msg) hI hsk hk hpt hct hN hM1 hM2 hM3 (A := fun s => (Local.ofAdv (A s)).mem S) hA False
  have h2 := local_real_sim (N := N) (M := M) (msg := msg) hI hsk hk hpt hct hN hM1 hM2 hM3 (A := fun s => (Local.ofAdv (A s)).mem Sᶜ) hA True
  have g1 : ∀ y : Option (Play N M), (y.elim False fun x => ((Local.ofAdv (I := I) (A x.sig)).mem S).run x.oracle ∨
      ∃ z ∈ ((Local.ofAdv (I := I) (A x.sig)).mem S).asked x.oracle, z.1 = I.secretString sk ct pt msg) ↔ Gets A S y ∨ Asks A (I.secretString sk ct pt msg) y := fun y => by
    cases y with
    | none => simp [Gets, Asks]
    | some x => simp [Gets, Asks, Local.mem, Local.ofAdv]
  have g2 : ∀ y : Option (Play N M), (y.elim True fun x => ((Local.ofAdv (I := I) (A x.sig)).mem Sᶜ).run x.oracle) ↔ ¬ Gets A S y := fun y => by
    cases y with
    | none => simp [Gets]
    | some x => simp [Gets, Local.mem, Local.ofAdv]
  have g3 : ∀ y : Option (Play N M), (y.elim True fun x => ((Local.ofAdv (I := I) (A x.sig)).mem Sᶜ).run x.oracle ∨
      ∃ z ∈ ((Local.ofAdv (I := I) (A x.sig)).mem Sᶜ).asked x.oracle, z.1 = I.secretString sk ct pt msg) ↔ ¬ Gets A S y ∨ Asks A (I.secretString sk ct pt msg) y := fun y => by
    cases y with
    | none => simp [Gets, Asks]
    | some x => simp [Gets, Asks, Local.mem, Local.ofAdv]
  simp only [← gets_elim, g1] at h1
  simp only [g2, g3] at h2
  refine ⟨h1, ?_⟩
  have h3 := prob_or (fun ω : Oracle N M × Answers I M => ¬ Gets A S (sim I ω.1 ω.2 ct pt msg)) fun ω => Asks A (I.secretString sk ct pt msg) (sim I ω.1 ω.2 ct pt msg)
  rw [prob_not] at h2 h3
  linarith

end Picnic.Rom
