import Verif.Proofs.ForgeLucky
import Verif.Proofs.Soundness

/-
C63: which challenges can be answered with the hash values of given strings.
-/

namespace Picnic.Rom

open Spec Spec.Zkb Spec.Rom Spec.Picnic1 Spec.Challenge

variable {N M : ℕ} {I : Inst} {H H' : Oracle N M} {ct pt salt : Bytes} {outs coms : Fin 3 → Bytes} {L : Set Bytes} {t : ℕ}

variable (I H) in
/-- The strings for the commitment to `v` are in `L`. -/
def KnownIn (L : Set Bytes) (v : Picnic1.View) : Prop := Use.text (T := I.T) I (.comSeed v.seed) ∈ L ∧ viewText I H v ∈ L

variable (I H ct pt salt outs coms L t) in
/-- An answer to the challenge `e` in repetition `t`. -/
structure Ans (e : ℕ) (o : Opening) (a b : Picnic1.View) : Prop where
  fits : I.Fits e o
  opened : OpenedBy I H pt salt t e o a b
  outs : ∀ j : Fin 3, arrange e a.out b.out (Spec.Picnic1.ofBits I.blk (toBits a.out + toBits b.out + toBits ct)) j = outs j
  coms : ∀ j : Fin 3, arrange e (Rom.commitOf I H a) (Rom.commitOf I H b) o.com j = coms j
  known : KnownIn I H L a ∧ KnownIn I H L b

variable (I H L) in
/-- No two of the strings have the same digest. -/
def NoColl : Prop := ∀ x ∈ L, ∀ y ∈ L, x ≠ y → Rom.hash H x I.digest ≠ Rom.hash H y I.digest

theorem knownIn_unique (hL : NoColl I H L) {a b : Picnic1.View} (ha : KnownIn I H L a) (hb : KnownIn I H L b) (hc : Rom.commitOf I H a = Rom.commitOf I H b)
    (hk : a.key.length = b.key.length) (hg : a.gates.length = b.gates.length) (ho : a.out.length = b.out.length) : a = b := by
  have e1 : viewText I H a = viewText I H b := by
    by_contra hne
    exact hL _ ha.2 _ hb.2 hne hc
  unfold viewText at e1
  simp only [Use.text] at e1
  obtain ⟨e2, e3⟩ := List.append_inj' e1 ho
  obtain ⟨e4, e5⟩ := List.append_inj' e2 hg
  obtain ⟨e6, e7⟩ := List.append_inj' e4 hk
  have e8 : Use.text (T := I.T) I (.comSeed a.seed) = Use.text (T := I.T) I (.comSeed b.seed) := by
    by_contra hne
    exact hL _ ha.1 _ hb.1 hne (List.append_cancel_left e6)
  simp only [Use.text] at e8
  have e9 : a.seed = b.seed := List.append_cancel_left e8
  obtain ⟨as, ak, ag, ao⟩ := a
  obtain ⟨bs, bk, bg, bo⟩ := b
  simp only at e3 e5 e7 e9
  rw [e3, e5, e7, e9]

theorem keyShareOf_len (s salt : Bytes) (t j : ℕ) : (keyShareOf I H s salt t j).length = I.blk := by
  unfold keyShareOf
  exact ofBits_len' _ _

theorem openedBy_lengths {e : ℕ} {o : Opening} {a b : Picnic1.View} (he : e < 3) (hf : I.Fits e o) (h : OpenedBy I H pt salt t e o a b) :
    (a.seed.length = I.seed ∧ a.key.length = I.blk ∧ a.gates.length = I.gate ∧ a.out.length = I.blk) ∧
    (b.seed.length = I.seed ∧ b.key.length = I.blk ∧ b.gates.length = I.gate ∧ b.out.length = I.blk) := by
  have h1 := hf.key
  refine ⟨⟨?_, ?_, h.gates0, ?_⟩, ?_, ?_, ?_, ?_⟩
  · rw [h.seed0, hf.seed0]
  · rw [h.key0]
    split_ifs with h2
    · rw [h1, if_neg (by omega)]
    · exact keyShareOf_len ..
  · rw [h.out0]
    exact ofBits_len' _ _
  · rw [h.seed1, hf.seed1]
  · rw [h.key1]
    split_ifs with h2
    · rw [h1, if_neg (by omega)]
    · exact keyShareOf_len ..
  · rw [h.gates1, hf.gates]
  · rw [h.out1]
    exact ofBits_len' _ _

theorem shareIn_view {v : Picnic1.View} (hk : v.key.length = I.blk) : shareIn I (viewText I H v) = toBits v.key := by
  unfold shareIn viewText hashUse
  simp only [Use.text, List.append_assoc]
  congr 1
  rw [List.drop_append, List.drop_eq_nil_of_le (by simp), List.nil_append, List.length_singleton, Nat.add_sub_cancel_left, List.drop_append,
    List.drop_eq_nil_of_le (by rw [hash_len']), List.nil_append, hash_len', Nat.sub_self, List.drop_zero, List.take_append_of_le_length (by omega),
    List.take_of_length_le (by omega)]

variable (I) in
/-- Strings for commitments. -/
def IsCom (x : Bytes) : Prop := ∃ d key gates out, Use.WF I (.com d key gates out) ∧ x = Use.text (T := I.T) I (.com d key gates out)

variable (I ct pt) in
/-- Strings for commitments in `L` reveal a key. -/
def Rev (L : Set Bytes) : Prop := Reveal I ct pt {x | x ∈ L ∧ IsCom I x}

theorem isCom_view {v : Picnic1.View} (h : v.seed.length = I.seed ∧ v.key.length = I.blk ∧ v.gates.length = I.gate ∧ v.out.length = I.blk) : IsCom I (viewText I H v) :=
  ⟨_, _, _, _, ⟨hash_len' _ _ _, h.2.1, h.2.2.1, h.2.2.2⟩, rfl⟩

/-- Answers to all three challenges reveal a secret key. -/
theorem three_ans (hn : I.X.n ≤ 8 * I.blk) (hL : NoColl I H L) {o : ℕ → Opening} {a b : ℕ → Picnic1.View}
    (h : ∀ e < 3, Ans I H ct pt salt outs coms L t e (o e) (a e) (b e)) : Rev I ct pt L := by
  have hlen := fun e he => openedBy_lengths he (h e he).fits (h e he).opened
  have hcom : ∀ j : Fin 3, Rom.commitOf I H (a j) = coms j := fun j => by
    rw [← (h j j.2).coms j, arrange, if_pos rfl]
  have hab : ∀ j < 3, b j = a ((j + 1) % 3) := by
    intro j hj
    have hj' : (j + 1) % 3 < 3 := Nat.mod_lt _ (by omega)
    obtain ⟨-, l0, l1, l2, l3⟩ := hlen j hj
    obtain ⟨⟨m0, m1, m2, m3⟩, -⟩ := hlen _ hj'
    refine knownIn_unique hL (h j hj).known.2 (h _ hj').known.1 ?_ (l1.trans m1.symm) (l2.trans m2.symm) (l3.trans m3.symm)
    have e1 := hcom ⟨(j + 1) % 3, hj'⟩
    have e2 := (h j hj).coms ⟨(j + 1) % 3, hj'⟩
    dsimp only at e1 e2
    rw [e1, ← e2, arrange, if_neg (by omega), if_pos rfl]
  have hmem : ∀ e < 3, viewText I H (a e) ∈ {x | x ∈ L ∧ IsCom I x} := fun e he => ⟨(h e he).known.1.2, isCom_view (hlen e he).1⟩
  refine ⟨viewText I H (a 0), hmem 0 (by omega), viewText I H (a 1), hmem 1 (by omega), viewText I H (a 2), hmem 2 (by omega), ?_⟩
  rw [shareIn_view (hlen 0 (by omega)).1.2.1, shareIn_view (hlen 1 (by omega)).1.2.1, shareIn_view (hlen 2 (by omega)).1.2.1]
  intro i hi
  have hcons : ∀ j < 3, Zkb.Consistent I.X (toBits pt) j (bitViewOf I H salt t j (a j)) (bitViewOf I H salt t ((j + 1) % 3) (a ((j + 1) % 3))) := by
    intro j hj
    have := (h j hj).opened.consistent
    rwa [hab j hj] at this
  have hs := congrFun (output_sum (hcons 0 (by omega)) (hcons 1 (by omega)) (hcons 2 (by omega))) i
  have hlast := ((h 0 (by omega)).outs 2).trans ((h 2 (by omega)).outs 2).symm
  rw [arrange, if_neg (by decide), if_neg (by decide), arrange, if_pos (by decide), hab 0 (by omega)] at hlast
  have h1 := congrArg (fun b => toBits b i) hlast
  beta_reduce at h1
  have hi8 : i < 8 * I.blk := by omega
  rw [(h 2 (by omega)).opened.out0, (h 0 (by omega)).opened.out0, show (0 + 1) % 3 = 1 from rfl, (h 1 (by omega)).opened.out0] at h1
  simp only [toBits_eq, ofBits_eq] at h1 hs ⊢
  rw [bitsOf_ofBits _ hi8, bitsOf_ofBits _ hi8] at h1
  simp only [Pi.add_apply] at h1 hs
  rw [bitsOf_ofBits _ hi8, bitsOf_ofBits _ hi8] at h1
  simp only [bitViewOf, toBits_eq] at h1 hs ⊢
  rw [← hs, ← h1]
  generalize Zkb.output _ _ 0 _ _ = x
  generalize Zkb.output _ _ 1 _ _ = y
  have h3 := zmod2_add_self x
  have h4 := zmod2_add_self y
  linear_combination h3 + h4

/-- At most 2^T challenges can be answered if the strings do not reveal a secret key. -/
theorem card_ans {outs coms : Fin I.T → Fin 3 → Bytes} (hn : I.X.n ≤ 8 * I.blk) (hL : NoColl I H L) (hR : ¬ Rev I ct pt L) (s : Finset (Fin I.T → Fin 3))
    (hs : ∀ e ∈ s, ∀ t, ∃ o a b, Ans I H ct pt salt (outs t) (coms t) L t (e t) o a b) : s.card ≤ 2 ^ I.T := by
  classical
  have hc := card_vectors_le (T := I.T) (A := fun e => e ∈ s) (a := fun t c => ∃ o a b, Ans I H ct pt salt (outs t) (coms t) L t c o a b) (fun e he t => hs e he t) fun t => by
    by_contra hall
    push Not at hall
    have hall' : ∀ c : ℕ, ∃ o a b, c < 3 → Ans I H ct pt salt (outs t) (coms t) L t c o a b := fun c => by
      by_cases hc : c < 3
      · obtain ⟨o, a, b, h⟩ := hall ⟨c, hc⟩
        exact ⟨o, a, b, fun _ => h⟩
      · exact ⟨⟨[], [], [], [], [], []⟩, ⟨[], [], [], []⟩, ⟨[], [], [], []⟩, fun h => absurd h hc⟩
    choose o a b hab using hall'
    exact hR (three_ans hn hL fun e he => hab e he)
  simpa using hc

variable (I) in
/-- Strings for tapes. -/
def TapeUse (x : Bytes) : Prop := (∃ s : Bytes, s.length = I.seed ∧ x = Use.text (T := I.T) I (.tapeSeed s)) ∨
  ∃ d salt t j len, Use.WF I (.tape d salt t j len) ∧ x = Use.text (T := I.T) I (.tape d salt t j len)

/-- Oracles that agree on `L` and on strings for tapes have the same answers. -/
theorem ans_congr {p : ℕ} (hI : I.Is p) (hL : ∀ x ∈ L, ask H x = ask H' x) (hT : ∀ x, TapeUse I x → ask H x = ask H' x) (hsalt : salt.length = 32) (ht : t < I.T) {e : ℕ} (he : e < 3)
    {o : Opening} {a b : Picnic1.View} (h : Ans I H ct pt salt outs coms L t e o a b) : Ans I H' ct pt salt outs coms L t e o a b := by
  have hs := rom_sizes hI
  have htape : ∀ (s : Bytes) (j len : ℕ), s.length = I.seed → j < 3 → len ≤ I.blk + I.gate → tapeOf I H s salt t j len = tapeOf I H' s salt t j len := fun s j len hl hj hlen => by
    have e1 : hashUse I H (.tapeSeed s) I.digest = hashUse I H' (.tapeSeed s) I.digest := by
      unfold hashUse Rom.hash
      rw [hT _ (Or.inl ⟨s, hl, rfl⟩)]
    unfold tapeOf
    rw [← e1]
    unfold hashUse Rom.hash
    rw [hT _ (Or.inr ⟨_, _, _, _, _, ?_, rfl⟩)]
    simp only [Use.WF]
    exact ⟨bytes_len' _ _, hsalt, by omega, by omega, by omega⟩
  have hkey : ∀ (s : Bytes) (j : ℕ), s.length = I.seed → j < 3 → keyShareOf I H s salt t j = keyShareOf I H' s salt t j := fun s j hl hj => by
    unfold keyShareOf
    rw [htape s j _ hl hj le_rfl]
  have hgate : ∀ (s : Bytes) (j : ℕ), s.length = I.seed → j < 3 → gateTapeOf I H s salt t j = gateTapeOf I H' s salt t j := fun s j hl hj => by
    unfold gateTapeOf
    rw [htape s j _ hl hj le_rfl, htape s 2 _ hl (by omega) (by omega)]
  have hbit : ∀ (v : Picnic1.View) (j : ℕ), v.seed.length = I.seed → j < 3 → bitViewOf I H salt t j v = bitViewOf I H' salt t j v := fun v j hl hj => by
    unfold bitViewOf
    rw [hgate _ _ hl hj]
  have hview : ∀ v, KnownIn I H L v → viewText I H v = viewText I H' v := fun v hv => by
    unfold viewText hashUse Rom.hash
    rw [hL _ hv.1]
  have hcommit : ∀ v, KnownIn I H L v → Rom.commitOf I H v = Rom.commitOf I H' v := fun v hv => by
    unfold Rom.commitOf
    rw [← hview v hv]
    unfold Rom.hash
    rw [hL _ hv.2]
  have hknown : ∀ v, KnownIn I H L v → KnownIn I H' L v := fun v hv => ⟨hv.1, by rw [← hview v hv]; exact hv.2⟩
  obtain ⟨⟨la, -⟩, ⟨lb, -⟩⟩ := openedBy_lengths he h.fits h.opened
  have h3 : (e + 1) % 3 < 3 := Nat.mod_lt _ (by omega)
  have ho := h.opened
  refine ⟨h.fits, ⟨ho.seed0, ho.seed1, ?_, ?_, ho.gates0, ho.pad0, ho.gates1, ?_, ?_, ?_⟩, h.outs, fun j => ?_, hknown a h.known.1, hknown b h.known.2⟩
  · rw [← hkey _ _ h.fits.seed0 he]
    exact ho.key0
  · rw [← hkey _ _ h.fits.seed1 h3]
    exact ho.key1
  · rw [← hbit a e la he, ← hbit b _ lb h3]
    exact ho.consistent
  · rw [← hbit a e la he]
    exact ho.out0
  · rw [← hbit b _ lb h3]
    exact ho.out1
  · rw [← hcommit a h.known.1, ← hcommit b h.known.2]
    exact h.coms j

end Picnic.Rom
