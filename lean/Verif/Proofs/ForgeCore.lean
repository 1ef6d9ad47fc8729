import Verif.Proofs.ForgeSound
import Verif.Props.Domains

/-
C63: questions to an oracle after which a forged signature can be valid.
-/

namespace Picnic.Rom

open Spec Spec.Zkb Spec.Rom Spec.Picnic1 Spec.Challenge

variable {N M : ℕ} {I : Inst} {ct pt : Bytes} {R p : ℕ}

variable (I ct pt) in
/-- The string for the challenge. -/
def IsCh (c : Bytes) (outs coms : Fin I.T → Fin 3 → Bytes) (gs : Option (Fin I.T → Fin 3 → Bytes)) (salt msg : Bytes) : Prop :=
  Use.WF I (.challenge outs coms gs ct pt salt msg) ∧ c = Use.text I (.challenge outs coms gs ct pt salt msg)

theorem isCh_unique {n : ℕ} (hI : I.Is n) {c : Bytes} {outs coms outs' coms' : Fin I.T → Fin 3 → Bytes} {gs gs' : Option (Fin I.T → Fin 3 → Bytes)} {salt msg salt' msg' : Bytes}
    (h : IsCh I ct pt c outs coms gs salt msg) (h' : IsCh I ct pt c outs' coms' gs' salt' msg') : outs = outs' ∧ coms = coms' ∧ gs = gs' ∧ salt = salt' ∧ msg = msg' := by
  have := C59_zkb I n hI _ _ h.1 h'.1 (h.2.symm.trans h'.2)
  simp only [Use.challenge.injEq] at this
  exact ⟨this.1, this.2.1, this.2.2.1, this.2.2.2.2.2.1, this.2.2.2.2.2.2⟩

variable (N M I ct pt R p) in
/-- Questions `asked` to an oracle `O`, at most `R`.  The forger and the verifier use the oracle `H O`: it differs from `O` at the strings `W O`, where
its values have been chosen before. -/
structure World where
  asked : Oracle N M → List (Arg N)
  W : Oracle N M → Set Bytes
  H : Oracle N M → Oracle N M
  vals : Fin p → Bytes
  len : ∀ O, (asked O).length ≤ R
  pre : ∀ O O' i, (∀ x ∈ (asked O).take i, O' x = O x) → (asked O').take (i + 1) = (asked O).take (i + 1)
  off : ∀ O (x : Arg N), x.1 ∉ W O → H O x = O x
  on : ∀ O, ∀ x ∈ W O, ∃ v, Rom.hash (H O) x I.digest = vals v
  inj : ∀ O, NoColl I (H O) (W O)
  fresh : ∀ O, ∀ x ∈ asked O, x.1 ∉ W O
  known : ∀ O i c outs coms gs salt msg, (asked O)[i]? = some c → IsCh I ct pt c.1 outs coms gs salt msg →
    ∀ d key gates out, Use.WF I (.com d key gates out) → Use.text (T := I.T) I (.com d key gates out) ∈ W O → ∃ z ∈ (asked O).take i, Rom.hash O z.1 I.digest = d
  inv : ∀ O O' i c outs coms gs salt msg, (asked O)[i]? = some c → IsCh I ct pt c.1 outs coms gs salt msg → (∀ x ∈ (asked O).take i, O' x = O x) →
    W O' = W O ∧ ∀ x : Arg N, x.1 ∈ W O → H O' x = H O x

variable (w : World N M I ct pt R p)

namespace World

/-- Question `i` is `x`, and it is new. -/
def At (O : Oracle N M) (i : ℕ) (x : Arg N) : Prop := (w.asked O)[i]? = some x ∧ x ∉ (w.asked O).take i

def str (O : Oracle N M) (i : ℕ) : Bytes := ((w.asked O)[i]?.map (·.1)).getD []

/-- The strings whose hash values are known before question `i`. -/
def L (O : Oracle N M) (i : ℕ) : Set Bytes := {x | (∃ y ∈ (w.asked O).take i, y.1 = x) ∨ x ∈ w.W O}

/-- All strings whose hash values are known. -/
def All (O : Oracle N M) : Set Bytes := {x | (∃ y ∈ w.asked O, y.1 = x) ∨ x ∈ w.W O}

variable {w}

theorem exists_at {O : Oracle N M} {x : Arg N} (h : x ∈ w.asked O) : ∃ i, w.At O i x := by
  classical
  refine ⟨(w.asked O).idxOf x, List.getElem?_idxOf h, fun h1 => ?_⟩
  exact absurd ((List.mem_take_iff_idxOf_lt h).1 h1) (lt_irrefl _)

theorem mem_take {O : Oracle N M} {i k : ℕ} {x : Arg N} (h : (w.asked O)[k]? = some x) (hk : k < i) : x ∈ (w.asked O).take i := by
  rw [List.mem_iff_getElem?]
  exact ⟨k, by rw [List.getElem?_take_of_lt hk, h]⟩

theorem At.lt {O : Oracle N M} {i : ℕ} {x : Arg N} (h : w.At O i x) : i < R := by
  have := (List.getElem?_eq_some_iff.1 h.1).1
  exact lt_of_lt_of_le this (w.len O)

theorem At.mem {O : Oracle N M} {i : ℕ} {x : Arg N} (h : w.At O i x) : x ∈ w.asked O := List.mem_iff_getElem?.2 ⟨i, h.1⟩

theorem At.str {O : Oracle N M} {i : ℕ} {x : Arg N} (h : w.At O i x) : w.str O i = x.1 := by
  unfold World.str
  rw [h.1]
  rfl

/-- What comes before a new question does not depend on its answer. -/
theorem At.step {O O' : Oracle N M} {i : ℕ} {x : Arg N} (h : w.At O i x) (ho : ∀ y ∈ (w.asked O).take i, O' y = O y) :
    (w.asked O').take (i + 1) = (w.asked O).take (i + 1) ∧ (w.asked O').take i = (w.asked O).take i ∧ w.At O' i x := by
  have h1 := w.pre O O' i ho
  have h2 : (w.asked O').take i = (w.asked O).take i := by
    have := congrArg (List.take i) h1
    rwa [List.take_take, List.take_take, Nat.min_eq_left (by omega)] at this
  refine ⟨h1, h2, ?_, ?_⟩
  · have := congrArg (·[i]?) h1
    beta_reduce at this
    rw [List.getElem?_take_of_lt (by omega), List.getElem?_take_of_lt (by omega)] at this
    rw [this, h.1]
  · rw [h2]
    exact h.2

theorem At.agree {O O' : Oracle N M} {i : ℕ} {x : Arg N} (h : w.At O i x) (ho : ∀ y : Arg N, y.1 ≠ x.1 → O' y = O y) : ∀ y ∈ (w.asked O).take i, O' y = O y :=
  fun y hy => ho y fun e => h.2 (by rwa [← Subtype.ext e])

theorem take_get {O O' : Oracle N M} {i l : ℕ} (h : (w.asked O').take i = (w.asked O).take i) (hl : l < i) : (w.asked O')[l]? = (w.asked O)[l]? := by
  have := congrArg (·[l]?) h
  beta_reduce at this
  rwa [List.getElem?_take_of_lt hl, List.getElem?_take_of_lt hl] at this

theorem hash_off {O : Oracle N M} {x : Arg N} (h : x.1 ∉ w.W O) (n : ℕ) : Rom.hash (w.H O) x.1 n = Rom.hash O x.1 n := by
  unfold Rom.hash ask
  rw [dif_pos x.2, dif_pos x.2, w.off O x h]

/-! ### Bad events -/

variable (ct pt) in
open Classical in
/-- The commitments in a string for the challenge. -/
noncomputable def comsOf (x : Bytes) : Fin I.T → Fin 3 → Bytes :=
  if h : ∃ coms outs gs salt msg, IsCh I ct pt x outs coms gs salt msg then h.choose else fun _ _ => []

theorem comsOf_eq {n : ℕ} (hI : I.Is n) {x : Bytes} {outs coms : Fin I.T → Fin 3 → Bytes} {gs : Option (Fin I.T → Fin 3 → Bytes)} {salt msg : Bytes}
    (h : IsCh I ct pt x outs coms gs salt msg) : comsOf ct pt x = coms := by
  have h1 : ∃ coms outs gs salt msg, IsCh I ct pt x outs coms gs salt msg := ⟨_, _, _, _, _, h⟩
  unfold comsOf
  rw [dif_pos h1]
  obtain ⟨outs', gs', salt', msg', h'⟩ := h1.choose_spec
  exact (isCh_unique hI h' h).2.1

variable (ct pt) in
/-- The digests in a string. -/
noncomputable def named : Option (Fin I.T × Fin 3) → Bytes → Bytes
  | none, x => (x.drop 1).take I.digest
  | some k, x => comsOf ct pt x k.1 k.2

variable (w)

/-- Two questions have the same digest. -/
def Bad1 (i l : Fin R) (O : Oracle N M) : Prop := ∃ x y, w.At O i x ∧ (w.asked O)[(l : ℕ)]? = some y ∧ (l : ℕ) < i ∧ Rom.hash O x.1 I.digest = Rom.hash O y.1 I.digest

/-- A question has the digest of one of the chosen values. -/
def Bad2 (i : Fin R) (v : Fin p) (O : Oracle N M) : Prop := ∃ x, w.At O i x ∧ Rom.hash O x.1 I.digest = w.vals v

/-- A question has a digest that is in an earlier question. -/
def Bad3 (i l : Fin R) (k : Option (Fin I.T × Fin 3)) (O : Oracle N M) : Prop :=
  ∃ x y, w.At O i x ∧ (w.asked O)[(l : ℕ)]? = some y ∧ (l : ℕ) < i ∧ Rom.hash O x.1 I.digest = named ct pt k y.1

variable {w}

theorem prob_bad1 (hM : I.digest ≤ M) (i l : Fin R) : prob (w.Bad1 i l) ≤ 1 / 2 ^ (8 * I.digest) := by
  refine prob_point hM (w.str · i) (fun O => Rom.hash O (w.str O l) I.digest) ?_ ?_ ?_
  · rintro O ⟨x, y, h, -⟩
    rw [h.str]
    exact x.2
  · rintro O ⟨x, y, h, h1, h2, h3⟩
    rw [h.str, h3, World.str, h1]
    rfl
  · rintro O O' ⟨x, y, h, h1, h2, h3⟩ ho
    rw [h.str] at ho
    obtain ⟨e1, e2, h'⟩ := h.step (h.agree ho)
    refine ⟨by rw [h.str, h'.str], ?_⟩
    have e3 := take_get e2 h2
    unfold World.str
    rw [e3, h1, Option.map_some, Option.getD_some]
    unfold Rom.hash ask
    rw [dif_pos y.2, dif_pos y.2, ho]
    intro e
    exact h.2 (by rw [← Subtype.ext e]; exact mem_take h1 h2)

theorem prob_bad2 (hM : I.digest ≤ M) (i : Fin R) (v : Fin p) : prob (w.Bad2 i v) ≤ 1 / 2 ^ (8 * I.digest) := by
  refine prob_point hM (w.str · i) (fun _ => w.vals v) ?_ ?_ ?_
  · rintro O ⟨x, h, -⟩
    rw [h.str]
    exact x.2
  · rintro O ⟨x, h, h3⟩
    rw [h.str, h3]
  · rintro O O' ⟨x, h, h3⟩ ho
    rw [h.str] at ho
    obtain ⟨e1, e2, h'⟩ := h.step (h.agree ho)
    exact ⟨by rw [h.str, h'.str], rfl⟩

theorem prob_bad3 (hM : I.digest ≤ M) (i l : Fin R) (k : Option (Fin I.T × Fin 3)) : prob (w.Bad3 i l k) ≤ 1 / 2 ^ (8 * I.digest) := by
  refine prob_point hM (w.str · i) (fun O => named ct pt k (w.str O l)) ?_ ?_ ?_
  · rintro O ⟨x, y, h, -⟩
    rw [h.str]
    exact x.2
  · rintro O ⟨x, y, h, h1, h2, h3⟩
    rw [h.str, h3, World.str, h1]
    rfl
  · rintro O O' ⟨x, y, h, h1, h2, h3⟩ ho
    rw [h.str] at ho
    obtain ⟨e1, e2, h'⟩ := h.step (h.agree ho)
    refine ⟨by rw [h.str, h'.str], ?_⟩
    have e3 := take_get e2 h2
    unfold World.str
    rw [e3]

/-! ### Lucky challenges -/

variable (w) in
/-- The challenges that can be answered with what is known before question `i`. -/
def S (O : Oracle N M) (i : ℕ) : Set (Fin I.T → Fin 3) :=
  {e | NoColl I (w.H O) (w.L O i) ∧ ¬ Rev I ct pt (w.L O i) ∧ ∃ outs coms gs salt msg, IsCh I ct pt (w.str O i) outs coms gs salt msg ∧
    ∀ t : Fin I.T, ∃ o a b, Ans I (w.H O) ct pt salt (outs t) (coms t) (w.L O i) t (e t) o a b}

theorem take_L {O O' : Oracle N M} {i : ℕ} (h : (w.asked O').take i = (w.asked O).take i) (hW : w.W O' = w.W O) : w.L O' i = w.L O i := by
  unfold L
  rw [h, hW]

variable (w) in
/-- What the proof needs of the oracles: they agree at what is known and at strings for tapes. -/
def Agree (O O' : Oracle N M) (i : ℕ) : Prop :=
  (w.asked O').take i = (w.asked O).take i ∧ w.W O' = w.W O ∧ w.str O' i = w.str O i ∧
    (∀ x ∈ w.L O i, ask (w.H O) x = ask (w.H O') x) ∧ ∀ x, TapeUse I x → ask (w.H O) x = ask (w.H O') x

theorem Agree.symm {O O' : Oracle N M} {i : ℕ} (h : w.Agree O O' i) : w.Agree O' O i := by
  obtain ⟨h1, h2, h3, h4, h5⟩ := h
  refine ⟨h1.symm, h2.symm, h3.symm, fun x hx => ?_, fun x hx => (h5 x hx).symm⟩
  rw [take_L h1 h2] at hx
  exact (h4 x hx).symm

theorem s_congr {n : ℕ} (hI : I.Is n) {O O' : Oracle N M} {i : ℕ} (h : w.Agree O O' i) : w.S O i ⊆ w.S O' i := by
  obtain ⟨h1, h2, h3, h4, h5⟩ := h
  rintro e ⟨g1, g2, outs, coms, gs, salt, msg, g3, g4⟩
  have hL := take_L (w := w) h1 h2
  refine ⟨?_, by rwa [hL], outs, coms, gs, salt, msg, by rwa [h3], fun t => ?_⟩
  · rw [hL]
    intro x hx y hy hne
    have := g1 x hx y hy hne
    unfold Rom.hash at this ⊢
    rwa [← h4 x hx, ← h4 y hy]
  · obtain ⟨o, a, b, g⟩ := g4 t
    rw [hL]
    refine ⟨o, a, b, ans_congr hI h4 h5 ?_ t.2 (e t).2 g⟩
    have := g3.1
    simp only [Use.WF] at this
    exact this.2.2.2.2.2.2

theorem tapeUse_ne {n : ℕ} (hI : I.Is n) {x c : Bytes} (hx : TapeUse I x) {outs coms : Fin I.T → Fin 3 → Bytes} {gs : Option (Fin I.T → Fin 3 → Bytes)} {salt msg : Bytes}
    (h : IsCh I ct pt c outs coms gs salt msg) : x ≠ c := by
  rintro rfl
  obtain ⟨s, hs, e⟩ | ⟨d, s, t, j, len, hw, e⟩ := hx
  · exact absurd (C59_zkb I n hI (.tapeSeed s) _ hs h.1 (e.symm.trans h.2)) (by simp)
  · exact absurd (C59_zkb I n hI _ _ hw h.1 (e.symm.trans h.2)) (by simp)

theorem tapeUse_next {n : ℕ} (hI : I.Is n) {x d : Bytes} (hx : TapeUse I x) (hd : d.length = I.digest) : x ≠ Use.text (T := I.T) I (.next d) := by
  rintro rfl
  obtain ⟨s, hs, e⟩ | ⟨d', s, t, j, len, hw, e⟩ := hx
  · exact absurd (C59_zkb I n hI (.next d) (.tapeSeed s) hd hs e) (by simp)
  · exact absurd (C59_zkb I n hI (.next d) _ hd hw e) (by simp)

/-- Question `i` as a fresh string. -/
noncomputable def freshAt {n : ℕ} (hI : I.Is n) (w : World N M I ct pt R p) (i : Fin R) : Fresh N M I R where
  V O := ∃ x outs coms gs salt msg, w.At O i x ∧ IsCh I ct pt x.1 outs coms gs salt msg
  c O := w.str O i
  Z O := ((w.asked O).take i).map (·.1)
  S O := w.S O i
  hlen := by
    rintro O ⟨x, -, -, -, -, -, h, -⟩
    rw [h.str]
    exact x.2
  hne := by
    rintro O ⟨x, outs, coms, gs, salt, msg, h, hc⟩ d hd e
    rw [h.str] at e
    exact absurd (C59_zkb I n hI _ (.next d) hc.1 hd (hc.2.symm.trans e)) (by simp)
  hZ := by
    intro O _
    rw [List.length_map, List.length_take]
    exact le_trans (Nat.min_le_left _ _) (le_of_lt i.2)
  hS := by
    rintro O ⟨x, outs, coms, gs, salt, msg, h, hc⟩ s hs
    obtain rfl | ⟨e, he⟩ := s.eq_empty_or_nonempty
    · simp
    · obtain ⟨h1, h2, -⟩ := hs e he
      refine card_ans (rom_sizes hI).1.n h1 h2 s (outs := outs) (coms := coms) (salt := salt) fun e' he' t => ?_
      obtain ⟨-, -, outs', coms', gs', salt', msg', h3, h4⟩ := hs e' he'
      rw [h.str] at h3
      obtain ⟨rfl, rfl, -, rfl, -⟩ := isCh_unique hI hc h3
      exact h4 t
  inv := by
    rintro O O' ⟨x, outs, coms, gs, salt, msg, h, hc⟩ ho
    rw [h.str] at ho
    have ho' : ∀ y ∈ (w.asked O).take i, O' y = O y := by
      intro y hy
      refine ho y (fun e => h.2 (by rwa [← Subtype.ext e])) fun d hd hd' e => ?_
      exact hd' (List.mem_map.2 ⟨y, hy, e⟩)
    obtain ⟨e1, e2, h'⟩ := h.step ho'
    obtain ⟨e3, e4⟩ := w.inv O O' i x _ _ _ _ _ h.1 hc ho'
    have hask : ∀ y : Bytes, (∀ hy : y.length ≤ N, y ∈ w.W O ∨ O' ⟨y, hy⟩ = O ⟨y, hy⟩) → ask (w.H O) y = ask (w.H O') y := by
      intro y hy
      unfold ask
      split_ifs with hl
      · by_cases hw : y ∈ w.W O
        · exact (e4 ⟨y, hl⟩ hw).symm
        · rw [w.off O ⟨y, hl⟩ hw, w.off O' ⟨y, hl⟩ (by rwa [e3])]
          exact ((hy hl).resolve_left hw).symm
      · rfl
    have hag : w.Agree O O' i := by
      refine ⟨e2, e3, by rw [h.str, h'.str], fun y hy => hask y fun hl => ?_, fun y hy => hask y fun hl => Or.inr (ho _ (tapeUse_ne hI hy hc) fun d hd _ => tapeUse_next hI hy hd)⟩
      obtain ⟨z, hz, rfl⟩ | hy := hy
      · exact Or.inr (ho' z hz)
      · exact Or.inl hy
    exact ⟨⟨x, outs, coms, gs, salt, msg, h', hc⟩, by rw [h.str, h'.str], by rw [e2], Set.Subset.antisymm (s_congr hI hag.symm) (s_congr hI hag)⟩

/-! ### The theorem -/

variable (w) in
/-- A valid signature whose strings were asked for, with a challenge string that was. -/
def Forged (O : Oracle N M) : Prop :=
  ∃ c ∈ w.asked O, ∃ outs coms gs salt msg, IsCh I ct pt c.1 outs coms gs salt msg ∧ ∃ e : Fin I.T → Fin 3,
    IsChallenge I.T (fun d => hashUse I O (.next d) I.digest) (Rom.hash O c.1 I.digest) (List.ofFn fun t => (e t).1) ∧
    ∀ t : Fin I.T, ∃ o a b, Ans I (w.H O) ct pt salt (outs t) (coms t) (w.All O) t (e t) o a b

theorem L_subset (O : Oracle N M) (i : ℕ) : w.L O i ⊆ w.All O := by
  rintro x (⟨y, hy, h⟩ | h)
  · exact Or.inl ⟨y, List.mem_of_mem_take hy, h⟩
  · exact Or.inr h

theorem reveal_mono {L L' : Set Bytes} (h : L ⊆ L') (hr : Rev I ct pt L) : Rev I ct pt L' := by
  obtain ⟨x, hx, y, hy, z, hz, hk⟩ := hr
  exact ⟨x, ⟨h hx.1, hx.2⟩, y, ⟨h hy.1, hy.2⟩, z, ⟨h hz.1, hz.2⟩, hk⟩

theorem noColl_all {O : Oracle N M} (h1 : ∀ i l, ¬ w.Bad1 i l O) (h2 : ∀ i v, ¬ w.Bad2 i v O) : NoColl I (w.H O) (w.All O) := by
  have key : ∀ x y : Arg N, x ∈ w.asked O → y ∈ w.asked O → x ≠ y → Rom.hash O x.1 I.digest ≠ Rom.hash O y.1 I.digest := by
    intro x y hx hy hne e
    obtain ⟨i, hi⟩ := exists_at hx
    obtain ⟨l, hl⟩ := exists_at hy
    obtain h | h | h := lt_trichotomy l i
    · exact h1 ⟨i, hi.lt⟩ ⟨l, hl.lt⟩ ⟨x, y, hi, hl.1, h, e⟩
    · subst h
      exact hne (Option.some.inj (hi.1.symm.trans hl.1))
    · exact h1 ⟨l, hl.lt⟩ ⟨i, hi.lt⟩ ⟨y, x, hl, hi.1, h, e.symm⟩
  have key2 : ∀ x : Arg N, x ∈ w.asked O → ∀ v, Rom.hash O x.1 I.digest ≠ w.vals v := by
    intro x hx v e
    obtain ⟨i, hi⟩ := exists_at hx
    exact h2 ⟨i, hi.lt⟩ v ⟨x, hi, e⟩
  rintro x (⟨x, hx, rfl⟩ | hx) y (⟨y, hy, rfl⟩ | hy) hne
  · rw [hash_off (w.fresh O x hx), hash_off (w.fresh O y hy)]
    exact key x y hx hy fun e => hne (by rw [e])
  · obtain ⟨v, hv⟩ := w.on O y hy
    rw [hv, hash_off (w.fresh O x hx)]
    exact key2 x hx v
  · obtain ⟨v, hv⟩ := w.on O x hx
    rw [hv, hash_off (w.fresh O y hy)]
    exact fun e => key2 y hy v e.symm
  · exact w.inj O x hx y hy hne

theorem take_viewText (H : Oracle N M) (v : Picnic1.View) : ((viewText I H v).drop 1).take I.digest = hashUse I H (.comSeed v.seed) I.digest := by
  unfold viewText
  simp only [Use.text, List.append_assoc]
  rw [List.drop_append, List.drop_eq_nil_of_le (by simp), List.nil_append, List.length_singleton, Nat.sub_self, List.drop_zero,
    List.take_append_of_le_length (by unfold hashUse; rw [hash_len']), List.take_of_length_le (by unfold hashUse; rw [hash_len'])]

/-- The strings for an opened view are known when the challenge is asked for. -/
theorem known_before {O : Oracle N M} (h1 : NoColl I (w.H O) (w.All O)) (h3 : ∀ i l k, ¬ w.Bad3 i l k O) {n : ℕ} (hI : I.Is n) {i : ℕ} {c : Arg N} (hi : w.At O i c)
    {outs coms : Fin I.T → Fin 3 → Bytes} {gs : Option (Fin I.T → Fin 3 → Bytes)} {salt msg : Bytes} (hc : IsCh I ct pt c.1 outs coms gs salt msg)
    {v : Picnic1.View} (hl : v.seed.length = I.seed ∧ v.key.length = I.blk ∧ v.gates.length = I.gate ∧ v.out.length = I.blk)
    (hv : KnownIn I (w.H O) (w.All O) v) {t : Fin I.T} {j : Fin 3} (hcom : Rom.commitOf I (w.H O) v = coms t j) : KnownIn I (w.H O) (w.L O i) v := by
  have hview : viewText I (w.H O) v ∈ w.L O i := by
    obtain ⟨x, hx, e⟩ | hx := hv.2
    · obtain ⟨k, hk⟩ := exists_at hx
      obtain hlt | heq | hgt := lt_trichotomy k i
      · exact Or.inl ⟨x, mem_take hk.1 hlt, e⟩
      · exfalso
        subst heq
        obtain rfl := Option.some.inj (hk.1.symm.trans hi.1)
        have := hc.2.symm.trans e
        unfold viewText at this
        refine absurd (C59_zkb I n hI _ _ hc.1 ?_ this) (by simp)
        simp only [Use.WF]
        exact ⟨hash_len' _ _ _, hl.2.1, hl.2.2.1, hl.2.2.2⟩
      · exfalso
        refine h3 ⟨k, hk.lt⟩ ⟨i, hi.lt⟩ (some (t, j)) ⟨x, c, hk, hi.1, hgt, ?_⟩
        show _ = comsOf ct pt c.1 t j
        rw [comsOf_eq hI hc, ← hcom, Rom.commitOf, ← e, hash_off (w.fresh O x hx)]
    · exact Or.inr hx
  refine ⟨?_, hview⟩
  obtain ⟨x, hx, e⟩ | hx := hv.1
  · have hd : Rom.hash O x.1 I.digest = hashUse I (w.H O) (.comSeed v.seed) I.digest := by
      rw [← hash_off (w.fresh O x hx), e]
      rfl
    obtain ⟨y, hy, e'⟩ | hy := hview
    · obtain ⟨k, hk⟩ := exists_at hx
      by_cases hki : k < i
      · exact Or.inl ⟨x, mem_take hk.1 hki, e⟩
      · exfalso
        obtain ⟨l, hl, hl'⟩ := List.getElem_of_mem hy
        rw [List.length_take] at hl
        rw [List.getElem_take] at hl'
        have hl2 : (w.asked O)[l]? = some y := by rw [List.getElem?_eq_getElem (by omega), hl']
        have hli := hi.lt
        refine h3 ⟨k, hk.lt⟩ ⟨l, by omega⟩ none ⟨x, y, hk, hl2, by dsimp only; omega, ?_⟩
        show _ = (y.1.drop 1).take I.digest
        rw [e', take_viewText, hd]
    · obtain ⟨z, hz, hz'⟩ := w.known O i c _ _ _ _ _ hi.1 hc _ _ _ _ (by simp only [Use.WF]; exact ⟨hash_len' _ _ _, hl.2.1, hl.2.2.1, hl.2.2.2⟩) hy
      have hza : z ∈ w.asked O := List.mem_of_mem_take hz
      by_cases hzx : z.1 = x.1
      · exact Or.inl ⟨z, hz, hzx.trans e⟩
      · exfalso
        refine h1 z.1 (Or.inl ⟨z, hza, rfl⟩) x.1 (Or.inl ⟨x, hx, rfl⟩) hzx ?_
        rw [hash_off (w.fresh O z hza), hash_off (w.fresh O x hx), hz', hd]
  · exact Or.inr hx

theorem forged_cases {n : ℕ} (hI : I.Is n) {O : Oracle N M} (h : w.Forged O) : Rev I ct pt (w.All O) ∨ (∃ i, ∃ l, w.Bad1 i l O) ∨ (∃ i, ∃ v, w.Bad2 i v O) ∨
    (∃ i, ∃ l, ∃ k, w.Bad3 i l k O) ∨ ∃ i, (freshAt hI w i).V O ∧ ∃ e ∈ (freshAt hI w i).S O,
      IsChallenge I.T (fun d => hashUse I O (.next d) I.digest) (Rom.hash O ((freshAt hI w i).c O) I.digest) (List.ofFn fun t => (e t).1) := by
  by_cases h0 : Rev I ct pt (w.All O)
  · exact Or.inl h0
  by_cases h1 : ∃ i, ∃ l, w.Bad1 i l O
  · exact Or.inr (Or.inl h1)
  by_cases h2 : ∃ i, ∃ v, w.Bad2 i v O
  · exact Or.inr (Or.inr (Or.inl h2))
  by_cases h3 : ∃ i, ∃ l, ∃ k, w.Bad3 i l k O
  · exact Or.inr (Or.inr (Or.inr (Or.inl h3)))
  refine Or.inr (Or.inr (Or.inr (Or.inr ?_)))
  push Not at h1 h2 h3
  obtain ⟨c, hc, outs, coms, gs, salt, msg, hch, e, he, ha⟩ := h
  obtain ⟨i, hi⟩ := exists_at hc
  have hcoll := noColl_all h1 h2
  refine ⟨⟨i, hi.lt⟩, ⟨c, outs, coms, gs, salt, msg, hi, hch⟩, e, ⟨fun x hx y hy => hcoll x (L_subset _ _ hx) y (L_subset _ _ hy), fun hr => h0 (reveal_mono (L_subset _ _) hr),
    outs, coms, gs, salt, msg, ?_, fun t => ?_⟩, ?_⟩
  · dsimp only
    rw [hi.str]
    exact hch
  · obtain ⟨o, a, b, h⟩ := ha t
    obtain ⟨la, lb⟩ := openedBy_lengths (e t).2 h.fits h.opened
    refine ⟨o, a, b, h.fits, h.opened, h.outs, h.coms, ?_, ?_⟩
    · refine known_before hcoll h3 hI hi hch la h.known.1 (t := t) (j := e t) ?_
      rw [← h.coms (e t), arrange, if_pos rfl]
    · refine known_before hcoll h3 hI hi hch lb h.known.2 (t := t) (j := ⟨((e t).1 + 1) % 3, Nat.mod_lt _ (by omega)⟩) ?_
      rw [← h.coms _, arrange, if_neg (by dsimp only; omega), if_pos rfl]
  · unfold freshAt
    dsimp only
    rw [hi.str]
    exact he

variable (w) in
/-- Two questions have the same digest, or a question has the digest of one of the chosen values. -/
def Clash (O : Oracle N M) : Prop := (∃ i, ∃ l, w.Bad1 i l O) ∨ ∃ i, ∃ v, w.Bad2 i v O

/-- A valid signature reveals a key, and there is no clash, apart from a small probability. -/
theorem prob_forged_clash {n : ℕ} (hI : I.Is n) (hM : I.digest ≤ M) (hN : I.digest + 1 ≤ N) (w : World N M I ct pt R p) :
    prob (fun O => w.Forged O ∧ ¬ Rev I ct pt (w.All O) ∨ w.Clash O) ≤
      R * (2 / 3) ^ I.T + (R ^ 2 * (4 * I.T + 3) + R * (I.T + 1) ^ 2 + R * p) / 2 ^ (8 * I.digest) := by
  have b1 : prob (fun O => ∃ i, ∃ l, w.Bad1 i l O) ≤ R ^ 2 / 2 ^ (8 * I.digest) := by
    refine le_trans (prob_exists_sum _) (le_trans (Finset.sum_le_sum fun i _ => le_trans (prob_exists_sum _) (Finset.sum_le_sum fun l _ => prob_bad1 hM i l)) ?_)
    simp only [Finset.sum_const, Finset.card_univ, Fintype.card_fin, nsmul_eq_mul]
    exact le_of_eq (by ring)
  have b2 : prob (fun O => ∃ i, ∃ v, w.Bad2 i v O) ≤ R * p / 2 ^ (8 * I.digest) := by
    refine le_trans (prob_exists_sum _) (le_trans (Finset.sum_le_sum fun i _ => le_trans (prob_exists_sum _) (Finset.sum_le_sum fun l _ => prob_bad2 hM i l)) ?_)
    simp only [Finset.sum_const, Finset.card_univ, Fintype.card_fin, nsmul_eq_mul]
    exact le_of_eq (by ring)
  have b3 : prob (fun O => ∃ i, ∃ l, ∃ k, w.Bad3 i l k O) ≤ R ^ 2 * (3 * I.T + 1) / 2 ^ (8 * I.digest) := by
    refine le_trans (prob_exists_sum _) (le_trans (Finset.sum_le_sum fun i _ => le_trans (prob_exists_sum _) (Finset.sum_le_sum fun l _ =>
      le_trans (prob_exists_sum _) (Finset.sum_le_sum fun k _ => prob_bad3 hM i l k))) ?_)
    simp only [Finset.sum_const, Finset.card_univ, Fintype.card_fin, Fintype.card_option, Fintype.card_prod, nsmul_eq_mul]
    push_cast
    exact le_of_eq (by ring)
  have b4 := le_trans (prob_exists_sum fun (i : Fin R) O => (freshAt hI w i).V O ∧ ∃ e ∈ (freshAt hI w i).S O,
      IsChallenge I.T (fun d => hashUse I O (.next d) I.digest) (Rom.hash O ((freshAt hI w i).c O) I.digest) (List.ofFn fun t => (e t).1))
    (Finset.sum_le_sum fun i _ => prob_lucky (F := freshAt hI w i) hM hN)
  simp only [Finset.sum_const, Finset.card_univ, Fintype.card_fin, nsmul_eq_mul] at b4
  refine le_trans (prob_mono (Q' := fun O => (∃ i, ∃ l, w.Bad1 i l O) ∨ (∃ i, ∃ v, w.Bad2 i v O) ∨ (∃ i, ∃ l, ∃ k, w.Bad3 i l k O) ∨
    ∃ i, (freshAt hI w i).V O ∧ ∃ e ∈ (freshAt hI w i).S O,
      IsChallenge I.T (fun d => hashUse I O (.next d) I.digest) (Rom.hash O ((freshAt hI w i).c O) I.digest) (List.ofFn fun t => (e t).1)) fun O h => ?_) ?_
  · rcases h with h | h | h
    · exact (forged_cases hI h.1).resolve_left h.2
    · exact Or.inl h
    · exact Or.inr (Or.inl h)
  refine le_trans (prob_or _ _) (le_trans (add_le_add b1 (le_trans (prob_or _ _) (add_le_add b2 (le_trans (prob_or _ _) (add_le_add b3 b4))))) (le_of_eq ?_))
  field_simp
  ring

/-- A valid signature reveals a key, apart from a small probability. -/
theorem prob_forged {n : ℕ} (hI : I.Is n) (hM : I.digest ≤ M) (hN : I.digest + 1 ≤ N) (w : World N M I ct pt R p) :
    prob (fun O => w.Forged O ∧ ¬ Rev I ct pt (w.All O)) ≤
      R * (2 / 3) ^ I.T + (R ^ 2 * (4 * I.T + 3) + R * (I.T + 1) ^ 2 + R * p) / 2 ^ (8 * I.digest) :=
  le_trans (prob_mono fun _ h => Or.inl h) (prob_forged_clash hI hM hN w)

end World

end Picnic.Rom
