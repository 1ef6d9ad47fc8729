import Verif.Proofs.Rom3Core

/-
C64: forgers of Picnic3 signatures.
-/

namespace Picnic.Rom3

open Spec Spec.Rom Spec.Challenge Picnic.Rom

variable {N M : ℕ} {I : Picnic3.Inst} {ct pt : Bytes} {R p : ℕ} {A : Adv N M (Bytes × Bytes)}

theorem run_same {O O' : Oracle N M} {m : Bytes} (hm : m ∉ All (Proc.ofAdv A) O) (h : ∀ x : Arg N, x.1 ≠ m → O' x = O x) :
    A.run O' = A.run O ∧ (Proc.ofAdv A).asked O' = (Proc.ofAdv A).asked O := by
  obtain ⟨h1, h2⟩ := run_congr (O := O) (O' := O') A fun x hx => (h x fun e => hm ⟨x, hx, e⟩).symm
  exact ⟨h1.symm, h2.symm⟩

theorem agree_off {O O1 O2 : Oracle N M} {a b : Bytes} (h1 : ∀ x : Arg N, x.1 ≠ a → O1 x = O x) (h2 : ∀ x : Arg N, x.1 ≠ b → O2 x = O x) {x : Bytes} (ha : x ≠ a)
    (hb : x ≠ b) : (over I O1).xof x = (over I O2).xof x :=
  over_xof (ask_same fun hx => (h2 ⟨x, hx⟩ hb).trans (h1 ⟨x, hx⟩ ha).symm)

/-! ### Strings that a verifier hashes, but the forger has not asked for -/

variable (I ct pt A) in
/-- `m` is the string that a verifier hashes for `w`, if the oracle has a suitable value at `m`. -/
def Rel (w : Which I) (O : Oracle N M) (m : Bytes) : Prop :=
  m ∉ All (Proc.ofAdv A) O ∧ ∃ O1 : Oracle N M, (∀ x : Arg N, x.1 ≠ m → O1 x = O x) ∧
    ∃ salt τ, (over I O1).TranscriptOf ct pt (A.run O).1 (A.run O).2 salt τ ∧ Used I τ w ∧ str I salt τ w = m

theorem rel_unique (hI : I.Is p) (hreg : Regular I) {w : Which I} {O : Oracle N M} {m m' : Bytes} (h : Rel I ct pt A w O m) (h' : Rel I ct pt A w O m') : m = m' := by
  obtain ⟨-, O1, h1, salt, τ, t1, u1, s1⟩ := h
  obtain ⟨-, O2, h2, salt', τ', t2, u2, s2⟩ := h'
  have k1 : Kind I m w := s1 ▸ str_kind (f := (over I O1).xof) hI hreg t1 u1
  have k2 : Kind I m' w := s2 ▸ str_kind (f := (over I O2).xof) hI hreg t2 u2
  rw [← s1, ← s2]
  exact str_same (f := (over I O1).xof) (g := (over I O2).xof) hI hreg
    (fun x hx => agree_off h1 h2 (fun e => hx (e ▸ k1)) fun e => hx (e ▸ k2)) t1 t2 u1

theorem rel_off {w : Which I} {O O' : Oracle N M} {m : Bytes} (h : Rel I ct pt A w O m) (ho : ∀ x : Arg N, x.1 ≠ m → O' x = O x) : Rel I ct pt A w O' m := by
  obtain ⟨h0, O1, h1, h2⟩ := h
  obtain ⟨e1, e2⟩ := run_same h0 ho
  refine ⟨?_, O1, fun x hx => (h1 x hx).trans (ho x hx).symm, ?_⟩
  · unfold All at h0 ⊢
    rwa [e2]
  · rwa [e1]

open Classical in
variable (I ct pt A) in
/-- The string. -/
noncomputable def hidden (w : Which I) (O : Oracle N M) : Bytes := if h : ∃ m, Rel I ct pt A w O m then h.choose else []

theorem hidden_eq (hI : I.Is p) (hreg : Regular I) {w : Which I} {O : Oracle N M} {m : Bytes} (h : Rel I ct pt A w O m) : hidden I ct pt A w O = m := by
  have h' : ∃ m, Rel I ct pt A w O m := ⟨m, h⟩
  unfold hidden
  rw [dif_pos h']
  exact rel_unique hI hreg h'.choose_spec h

variable (I ct pt A) in
/-- A string that was not asked for has a digest that is in a question. -/
def Bad4 (w : Which I) (l : Fin R) (o : Fin (I.T + 3)) (O : Oracle N M) : Prop :=
  ∃ salt τ, (over I O).TranscriptOf ct pt (A.run O).1 (A.run O).2 salt τ ∧ Used I τ w ∧ str I salt τ w ∉ All (Proc.ofAdv A) O ∧
    Rom.hash O (str I salt τ w) I.digest = slice I o (qstr (Proc.ofAdv A) O l)

theorem kind_len (hI : I.Is p) {w : Which I} {m : Bytes} (h : Kind I m w) : m.length ≤ (I.T + 1) * I.digest + 32 := by
  have hlen : I.seed + I.gate + 36 < (I.T + 1) * I.digest + 32 ∧ I.seed + 36 < (I.T + 1) * I.digest + 32 ∧
      16 * I.digest < (I.T + 1) * I.digest + 32 ∧ I.blk + 16 * I.gate < (I.T + 1) * I.digest + 32 ∧ 2 * I.digest + 35 < (I.T + 1) * I.digest + 32 := by
    obtain ⟨-, -, -, h4, -, h6, h7, h8, h9, -⟩ | ⟨-, -, -, h4, -, h6, h7, h8, h9, -⟩ | ⟨-, -, -, h4, -, h6, h7, h8, h9, -⟩ := nums hI <;> rw [h4, h6, h7, h8, h9] <;> decide
  obtain ⟨n1, n2, n3, n4, n5⟩ := hlen
  match w with
  | .inl (t, j) =>
    simp only [Kind] at h
    split_ifs at h <;> omega
  | .inr (.inl t) =>
    simp only [Kind] at h
    omega
  | .inr (.inr (.inl t)) =>
    simp only [Kind] at h
    omega
  | .inr (.inr (.inr x)) =>
    simp only [Kind] at h
    omega

theorem prob_bad4 (hI : I.Is p) (hreg : Regular I) (hM : I.digest ≤ M) (hN : (I.T + 1) * I.digest + 32 ≤ N) (w : Which I) (l : Fin R) (o : Fin (I.T + 3)) :
    prob (Bad4 I ct pt A w l o) ≤ 1 / 2 ^ (8 * I.digest) := by
  have rel : ∀ O salt τ, (over I O).TranscriptOf ct pt (A.run O).1 (A.run O).2 salt τ → Used I τ w → str I salt τ w ∉ All (Proc.ofAdv A) O →
      Rel I ct pt A w O (str I salt τ w) := fun O salt τ h1 h2 h3 => ⟨h3, O, fun _ _ => rfl, salt, τ, h1, h2, rfl⟩
  refine prob_point hM (hidden I ct pt A w) (fun O => slice I o (qstr (Proc.ofAdv A) O l)) ?_ ?_ ?_
  · rintro O ⟨salt, τ, h1, h2, h3, h4⟩
    rw [hidden_eq hI hreg (rel O salt τ h1 h2 h3)]
    exact le_trans (kind_len hI (str_kind (f := (over I O).xof) hI hreg h1 h2)) hN
  · rintro O ⟨salt, τ, h1, h2, h3, h4⟩
    rw [hidden_eq hI hreg (rel O salt τ h1 h2 h3)]
    exact h4
  · rintro O O' ⟨salt, τ, h1, h2, h3, h4⟩ ho
    have hr := rel O salt τ h1 h2 h3
    rw [hidden_eq hI hreg hr] at ho ⊢
    refine ⟨hidden_eq hI hreg (rel_off hr ho), ?_⟩
    unfold qstr
    rw [(run_same h3 ho).2]

/-! ### The string for the challenge -/

variable (I ct pt A) in
def ChRel (O : Oracle N M) (m : Bytes) : Prop :=
  m ∉ All (Proc.ofAdv A) O ∧ ∃ O1 : Oracle N M, (∀ x : Arg N, x.1 ≠ m → O1 x = O x) ∧
    ∃ salt τ, (over I O1).TranscriptOf ct pt (A.run O).1 (A.run O).2 salt τ ∧ (over I O1).challengeString ct pt (A.run O).1 salt τ = m

theorem chRel_unique (hI : I.Is p) (hreg : Regular I) {O : Oracle N M} {m m' : Bytes} (h : ChRel I ct pt A O m) (h' : ChRel I ct pt A O m') : m = m' := by
  obtain ⟨-, O1, h1, salt, τ, t1, s1⟩ := h
  obtain ⟨-, O2, h2, salt', τ', t2, s2⟩ := h'
  have k1 := chal_str_len (I := I) (f := (over I O1).xof) t1 hI
  have k2 := chal_str_len (I := I) (f := (over I O2).xof) t2 hI
  change ((over I O1).challengeString ct pt (A.run O).1 salt τ).length = _ at k1
  change ((over I O2).challengeString ct pt (A.run O).1 salt' τ').length = _ at k2
  rw [s1] at k1
  rw [s2] at k2
  rw [← s1, ← s2]
  refine chal_str_same (I := I) (f := (over I O1).xof) (g := (over I O2).xof) hI hreg (fun x hx => agree_off h1 h2 ?_ ?_) t1 t2
  · rintro rfl
    omega
  · rintro rfl
    omega

theorem chRel_off {O O' : Oracle N M} {m : Bytes} (h : ChRel I ct pt A O m) (ho : ∀ x : Arg N, x.1 ≠ m → O' x = O x) : ChRel I ct pt A O' m := by
  obtain ⟨h0, O1, h1, h2⟩ := h
  obtain ⟨e1, e2⟩ := run_same h0 ho
  refine ⟨?_, O1, fun x hx => (h1 x hx).trans (ho x hx).symm, ?_⟩
  · unfold All at h0 ⊢
    rwa [e2]
  · rwa [e1]

open Classical in
variable (I ct pt A) in
noncomputable def hiddenCh (O : Oracle N M) : Bytes := if h : ∃ m, ChRel I ct pt A O m then h.choose else []

theorem hiddenCh_eq (hI : I.Is p) (hreg : Regular I) {O : Oracle N M} {m : Bytes} (h : ChRel I ct pt A O m) : hiddenCh I ct pt A O = m := by
  have h' : ∃ m, ChRel I ct pt A O m := ⟨m, h⟩
  unfold hiddenCh
  rw [dif_pos h']
  exact chRel_unique hI hreg h'.choose_spec h

variable (I ct pt A) in
/-- The signature is valid, but the string for its challenge was not asked for. -/
def Bad5 (O : Oracle N M) : Prop :=
  ∃ salt τ, (over I O).TranscriptOf ct pt (A.run O).1 (A.run O).2 salt τ ∧ (over I O).challengeString ct pt (A.run O).1 salt τ ∉ All (Proc.ofAdv A) O

theorem prob_bad5 (hI : I.Is p) (hreg : Regular I) (hM : I.digest ≤ M) (hN : ∀ O, (I.T + 1) * I.digest + 32 + ct.length + pt.length + (A.run O).1.length ≤ N) :
    prob (Bad5 I ct pt A) ≤ 1 / 2 ^ (8 * I.digest) := by
  have rel : ∀ O salt τ, (over I O).TranscriptOf ct pt (A.run O).1 (A.run O).2 salt τ → (over I O).challengeString ct pt (A.run O).1 salt τ ∉ All (Proc.ofAdv A) O →
      ChRel I ct pt A O ((over I O).challengeString ct pt (A.run O).1 salt τ) := fun O salt τ h1 h3 => ⟨h3, O, fun _ _ => rfl, salt, τ, h1, rfl⟩
  refine prob_point hM (hiddenCh I ct pt A) (fun O => (A.run O).2.take I.digest) ?_ ?_ ?_
  · rintro O ⟨salt, τ, h1, h3⟩
    rw [hiddenCh_eq hI hreg (rel O salt τ h1 h3)]
    exact le_trans (le_of_eq (chal_str_len (I := I) (f := (over I O).xof) h1 hI)) (hN O)
  · rintro O ⟨salt, τ, h1, h3⟩
    rw [hiddenCh_eq hI hreg (rel O salt τ h1 h3), ← over_hash (I := I)]
    exact sig_digest (I := I) (f := (over I O).xof) h1
  · rintro O O' ⟨salt, τ, h1, h3⟩ ho
    have hr := rel O salt τ h1 h3
    rw [hiddenCh_eq hI hreg hr] at ho ⊢
    refine ⟨hiddenCh_eq hI hreg (chRel_off hr ho), ?_⟩
    rw [(run_same h3 ho).1]

/-! ### Valid signatures -/

theorem firstOf_ch (hI : I.Is p) {O : Oracle N M} {msg sig salt : Bytes} {τ : Picnic3.Transcript} (h : (over I O).TranscriptOf ct pt msg sig salt τ) :
    (firstOf I ((over I O).challengeString ct pt msg salt τ)).salt = salt ∧ (firstOf I ((over I O).challengeString ct pt msg salt τ)).root = τ.h 1 ∧
      ∀ t < I.T, (firstOf I ((over I O).challengeString ct pt msg salt τ)).digests t = (over I O).comDigest (τ.v t) := by
  have hr : (τ.h 1).length = I.digest := by
    rw [path_node (I := I) (f := (over I O).xof) h (root_onPath (I := I) (f := (over I O).xof) hI h)]
    exact Spec.Picnic3.hash_length _ _
  have hl : ((List.range I.T).flatMap fun t => (over I O).comDigest (τ.v t)).length = I.T * I.digest := by
    rw [flatMap_len (s := fun t => (over I O).comDigest (τ.v t)) (c := I.digest) fun t _ => Spec.Picnic3.hash_length _ _, List.length_range]
  have hs : salt.length = 32 := h.1
  have e : (over I O).challengeString ct pt msg salt τ = ((List.range I.T).flatMap fun t => (over I O).comDigest (τ.v t)) ++ (τ.h 1 ++ (salt ++ (ct ++ (pt ++ msg)))) := by
    unfold Picnic3.Inst.challengeString
    simp only [List.append_assoc]
    rfl
  rw [e]
  refine ⟨?_, ?_, fun t ht => ?_⟩
  · unfold firstOf
    dsimp only
    rw [← List.append_assoc, List.drop_left' (by rw [List.length_append, hl, hr]; ring), List.take_left' hs]
  · unfold firstOf
    dsimp only
    rw [List.drop_left' hl, List.take_left' hr]
  · exact slice_flatMap (s := fun t => (over I O).comDigest (τ.v t)) (fun t _ => Spec.Picnic3.hash_length _ _) ht _

theorem answerable_first {O : Oracle N M} {salt root root' salt' : Bytes} {d d' : ℕ → Bytes} {L : Set Bytes} {e : Fin I.T → Option (Fin 16)} (hs : salt = salt') (hr : root = root')
    (hd : ∀ t < I.T, d t = d' t) (h : (over I O).Answerable ct pt salt root d L e) : (over I O).Answerable ct pt salt' root' d' L e := by
  obtain ⟨τ, h1, h2, h3, h4, h5⟩ := h
  exact ⟨τ, hs ▸ h1, h2, hs ▸ h3, h4.trans hr, fun t ht => (h5 t ht).trans (hd t ht)⟩

theorem forged_cases (hI : I.Is p) {O : Oracle N M} (hR : (A.asked O).length ≤ R) (h : Forges3 I O ct pt A) :
    (Reveal3 I O ct pt (Questions O A) ∧ Apart I O (Questions O A)) ∨
    (∃ i l : Fin R, Bad1 I (Proc.ofAdv A) i l O) ∨ (∃ i l : Fin R, ∃ o, Bad3 I (Proc.ofAdv A) i l o O) ∨ (∃ w, ∃ l : Fin R, ∃ o, Bad4 I ct pt A w l o O) ∨ Bad5 I ct pt A O ∨
    ∃ i : Fin R, (freshAt hI (Proc.ofAdv A) i).V O ∧ ∃ C Q, ∃ e ∈ S I ct pt (Proc.ofAdv A) O i,
      (over I O).Challenge (Rom.hash O (qstr (Proc.ofAdv A) O i) I.digest) C Q ∧ Picnic3.Asks C Q e.1 := by
  by_cases h1 : ∃ i l : Fin R, Bad1 I (Proc.ofAdv A) i l O
  · exact Or.inr (Or.inl h1)
  have hap : Apart I O (Questions O A) := fun x hx y hy e => by
    push Not at h1
    by_contra hne
    exact no_collision (I := I) (P := Proc.ofAdv A) hR h1 x hx y hy ⟨hne, by rw [over_hash, over_hash]; exact e⟩
  by_cases h0 : Reveal3 I O ct pt (Questions O A)
  · exact Or.inl ⟨h0, hap⟩
  by_cases h3 : ∃ i l : Fin R, ∃ o, Bad3 I (Proc.ofAdv A) i l o O
  · exact Or.inr (Or.inr (Or.inl h3))
  by_cases h4 : ∃ w, ∃ l : Fin R, ∃ o, Bad4 I ct pt A w l o O
  · exact Or.inr (Or.inr (Or.inr (Or.inl h4)))
  by_cases h5 : Bad5 I ct pt A O
  · exact Or.inr (Or.inr (Or.inr (Or.inr (Or.inl h5))))
  refine Or.inr (Or.inr (Or.inr (Or.inr (Or.inr ?_))))
  push Not at h1 h3 h4
  obtain ⟨salt, s, hh, v, C, Q, hT⟩ := h
  obtain ⟨τ, rfl, rfl, rfl, rfl, rfl⟩ : ∃ τ : Picnic3.Transcript, τ.s = s ∧ τ.h = hh ∧ τ.v = v ∧ τ.C = C ∧ τ.Q = Q := ⟨⟨s, hh, v, C, Q⟩, rfl, rfl, rfl, rfl, rfl⟩
  have hT : (over I O).TranscriptOf ct pt (A.run O).1 (A.run O).2 salt τ := hT
  obtain ⟨c, hc⟩ : ∃ c, c = (over I O).challengeString ct pt (A.run O).1 salt τ := ⟨_, rfl⟩
  have hcA : c ∈ All (Proc.ofAdv A) O := by
    by_contra hc'
    exact h5 ⟨salt, τ, hT, hc ▸ hc'⟩
  obtain ⟨x, hx, hxc⟩ := hcA
  obtain ⟨i, hi⟩ := exists_at (P := Proc.ofAdv A) hx
  have hiR : i < R := at_lt hi hR
  have hlen : (I.T + 1) * I.digest + 32 ≤ c.length := by
    have := chal_str_len (I := I) (f := (over I O).xof) hT hI
    change ((over I O).challengeString ct pt (A.run O).1 salt τ).length = _ at this
    rw [hc]
    omega
  have hq : qstr (Proc.ofAdv A) O i = c := (at_str hi).trans hxc
  obtain ⟨f1, f2, f3⟩ := firstOf_ch hI hT
  rw [← hc] at f1 f2 f3
  have hch : (over I O).Challenge (Rom.hash O c I.digest) τ.C τ.Q := by
    have := hT.2.2.1
    rw [hc, ← over_hash (I := I)]
    exact this
  obtain ⟨e, he, hA⟩ : ∃ e : Fin I.T → Option (Fin 16), Picnic3.IsVector I.u e ∧ Picnic3.Asks τ.C τ.Q e := by
    have := hch
    unfold Picnic3.Inst.Challenge at this
    rw [C52_chain_p3] at this
    obtain ⟨n, hn⟩ := this
    exact reads3_vector hn
  have acc : (over I O).Accepts ct pt salt τ := hT.accepts
  -- answerable with everything that a verifier hashes
  have ans : (over I O).Answerable ct pt (firstOf I c).salt (firstOf I c).root (firstOf I c).digests {y | ∃ w, Used I τ w ∧ str I salt τ w = y} e := by
    refine answerable_first f1.symm f2.symm (fun t ht => (f3 t ht).symm) ⟨τ, acc, hA, ⟨fun t ht j hj ho => ?_, fun t ht => ?_, fun t ht => ?_, fun t ht k hk hkD => ?_⟩, rfl, fun _ _ => rfl⟩
    · exact ⟨.inl (⟨t, ht⟩, ⟨j, hj⟩), ho, rfl⟩
    · exact ⟨.inr (.inl ⟨t, ht⟩), trivial, rfl⟩
    · exact ⟨.inr (.inr (.inl ⟨t, (acc.2 t ht).1⟩)), ht, rfl⟩
    · have hp : OnPath I τ ((2 ^ I.depth + t) / 2 ^ k) := ⟨t, ht, k, hk, hkD, rfl⟩
      exact ⟨.inr (.inr (.inr ⟨_, (onPath_range (fun t ht => (acc.2 t ht).1) hp).2.1⟩)), hp, rfl⟩
  have early := p3_early (I := over I O) (f := firstOf I c) (L := Before (Proc.ofAdv A) O i) (fun y hy hyL hn => by
    obtain ⟨w, hw, rfl⟩ := hy
    obtain ⟨o, hn⟩ := named_slice hI hlen hn
    have hn' : ∃ l z, l ≤ i ∧ ((Proc.ofAdv A).asked O)[l]? = some z ∧ (over I O).hash (str I salt τ w) I.digest = slice I o z.1 := by
      obtain hn | ⟨z, hz, hn⟩ := hn
      · exact ⟨i, x, le_rfl, hi.1, by rw [hxc]; exact hn⟩
      · obtain ⟨l, z', hl, hz', rfl⟩ := before_get hz
        exact ⟨l, z', hl.le, hz', hn⟩
    obtain ⟨l, z, hl, hz, hn⟩ := hn'
    rw [over_hash] at hn
    by_cases hyA : str I salt τ w ∈ All (Proc.ofAdv A) O
    · obtain ⟨y, hy, hye⟩ := hyA
      obtain ⟨k, hk⟩ := exists_at (P := Proc.ofAdv A) hy
      have hki : i ≤ k := by
        by_contra hlt
        exact hyL ⟨y, mem_take hk.1 (by omega), hye⟩
      exact h3 ⟨k, at_lt hk hR⟩ ⟨l, by omega⟩ o ⟨y, z, hk, hz, by simp only; omega, by rw [hye]; exact hn⟩
    · refine h4 w ⟨l, by omega⟩ o ⟨salt, τ, hT, hw, hyA, ?_⟩
      rw [hn]
      unfold qstr
      rw [hz]
      rfl) ans
  refine ⟨⟨i, hiR⟩, ⟨x, hi, by rw [hxc]; exact hlen⟩, τ.C, τ.Q, ⟨e, he⟩, ⟨?_, ?_, ?_⟩, ?_, hA⟩
  · have := no_collision (I := I) (P := Proc.ofAdv A) hR h1
    exact fun y hy z hz => this y (before_all _ _ hy) z (before_all _ _ hz)
  · dsimp only
    rw [hq]
    intro hr
    exact h0 ⟨_, _, by rw [f1]; exact hT.1, p3_reveals_mono (before_all _ _) hr⟩
  · dsimp only
    rw [hq]
    exact early
  · dsimp only
    rw [hq]
    exact hch

/-- Whoever makes a valid signature has asked for a key, apart from a small probability. -/
theorem prob_forged (hI : I.Is p) {κ : ℕ} (hκ : level p = some κ) (hreg : Regular I) (hM : I.digest ≤ M)
    (hN : ∀ O, (I.T + 1) * I.digest + 32 + ct.length + pt.length + (A.run O).1.length ≤ N) (hR : ∀ O, (A.asked O).length ≤ R) (m : ℕ) (hm : 0 < m) :
    prob (fun O => Forges3 I O ct pt A) ≤ prob (fun O => Reveal3 I O ct pt (Questions O A) ∧ Apart I O (Questions O A)) + R * (1 / 2 ^ κ + (I.u + 1) / 2 ^ (54 * m)) +
      (1 + R ^ 2 * (I.T + 4) + R * (I.T + 3) * (18 * I.T + 2 ^ I.depth) + R * (((I.u + 1) * m) ^ 2 + (I.u + 1) * m * R)) / 2 ^ (8 * I.digest) := by
  have hN0 : (I.T + 1) * I.digest + 32 ≤ N := by have := hN 0; omega
  have hN1 : I.digest + 1 ≤ N := by have := (chal_long hI).1; omega
  have b1 : prob (fun O => ∃ i l : Fin R, Bad1 I (Proc.ofAdv A) i l O) ≤ R ^ 2 / 2 ^ (8 * I.digest) := by
    refine le_trans (prob_exists_sum _) (le_trans (Finset.sum_le_sum fun i _ => le_trans (prob_exists_sum _) (Finset.sum_le_sum fun l _ => prob_bad1 hM i l)) ?_)
    simp only [Finset.sum_const, Finset.card_univ, Fintype.card_fin, nsmul_eq_mul]
    exact le_of_eq (by ring)
  have b3 : prob (fun O => ∃ i l : Fin R, ∃ o, Bad3 I (Proc.ofAdv A) i l o O) ≤ R ^ 2 * (I.T + 3) / 2 ^ (8 * I.digest) := by
    refine le_trans (prob_exists_sum _) (le_trans (Finset.sum_le_sum fun i _ => le_trans (prob_exists_sum _) (Finset.sum_le_sum fun l _ =>
      le_trans (prob_exists_sum _) (Finset.sum_le_sum fun k _ => prob_bad3 hM i l k))) ?_)
    simp only [Finset.sum_const, Finset.card_univ, Fintype.card_fin, nsmul_eq_mul]
    push_cast
    exact le_of_eq (by ring)
  have b4 : prob (fun O => ∃ w, ∃ l : Fin R, ∃ o, Bad4 I ct pt A w l o O) ≤ R * (I.T + 3) * (18 * I.T + 2 ^ I.depth) / 2 ^ (8 * I.digest) := by
    refine le_trans (prob_exists_sum _) (le_trans (Finset.sum_le_sum fun i _ => le_trans (prob_exists_sum _) (Finset.sum_le_sum fun l _ =>
      le_trans (prob_exists_sum _) (Finset.sum_le_sum fun k _ => prob_bad4 hI hreg hM hN0 i l k))) ?_)
    simp only [Finset.sum_const, Finset.card_univ, Fintype.card_fin, Fintype.card_sum, Fintype.card_prod, nsmul_eq_mul]
    push_cast
    exact le_of_eq (by ring)
  have b5 := prob_bad5 (A := A) hI hreg hM hN
  have b6 := le_trans (prob_exists_sum fun (i : Fin R) O => (freshAt hI (Proc.ofAdv A) i).V O ∧ ∃ C Q, ∃ e ∈ S I ct pt (Proc.ofAdv A) O i,
      (over I O).Challenge (Rom.hash O (qstr (Proc.ofAdv A) O i) I.digest) C Q ∧ Picnic3.Asks C Q e.1)
    (Finset.sum_le_sum fun i _ => prob_lucky_at hI hκ hM hN1 i m hm)
  simp only [Finset.sum_const, Finset.card_univ, Fintype.card_fin, nsmul_eq_mul] at b6
  refine le_trans (prob_mono fun O h => forged_cases hI (hR O) h) ?_
  refine le_trans (prob_or _ _) (le_trans (add_le_add le_rfl (le_trans (prob_or _ _) (add_le_add b1 (le_trans (prob_or _ _) (add_le_add b3
    (le_trans (prob_or _ _) (add_le_add b4 (le_trans (prob_or _ _) (add_le_add b5 b6))))))))) (le_of_eq ?_))
  push_cast
  ring

end Picnic.Rom3
