import Verif.Proofs.AdaptStep
import Verif.Proofs.ForgeMany
import Verif.Spec.RomAdapt
import Verif.Props.Domains

/-
C62: procedures that choose the messages; the events of the games with signer and simulator.
-/

namespace Picnic.Rom

open Spec Spec.Zkb Spec.Rom Spec.Picnic1 Spec.Challenge

variable {N M : ℕ} {I : Inst} {sk ct pt : Bytes} {α : Type}

/-! ### Parts of the oracle -/

/-- An oracle on a set, another one outside. -/
noncomputable def mix (S : Set (Arg N)) (O₀ O : Oracle N M) : Oracle N M := open Classical in fun x => if x ∈ S then O₀ x else O x

theorem mix_mem {S : Set (Arg N)} {x : Arg N} (h : x ∈ S) (O₀ O : Oracle N M) : mix S O₀ O x = O₀ x := by
  unfold mix
  rw [if_pos h]

theorem mix_not {S : Set (Arg N)} {x : Arg N} (h : x ∉ S) (O₀ O : Oracle N M) : mix S O₀ O x = O x := by
  unfold mix
  rw [if_neg h]

theorem mix_mix (S : Set (Arg N)) (O₀ O : Oracle N M) : mix S (mix S O O₀) (mix S O₀ O) = O := by
  funext x
  by_cases h : x ∈ S
  · rw [mix_mem h, mix_mem h]
  · rw [mix_not h, mix_not h]

/-- A part of the oracle is chosen first. -/
theorem mix_le {B : Type} [Fintype B] (S : Set (Arg N)) {E : Oracle N M → Prop} {F : Oracle N M → B → Prop} {c : ℝ}
    (h : ∀ O₀, prob (fun O => E (mix S O₀ O)) ≤ prob (fun ω : Oracle N M × B => F (mix S O₀ ω.1) ω.2) + c) :
    prob E ≤ prob (fun ω : Oracle N M × B => F ω.1 ω.2) + c := by
  have h1 := prob_avg (B := Oracle N M) (F := fun O O₀ => E (mix S O₀ O)) (G := fun (ω : Oracle N M × B) O₀ => F (mix S O₀ ω.1) ω.2) h
  have e1 : prob (fun ω : Oracle N M × Oracle N M => E (mix S ω.2 ω.1)) = prob E := by
    rw [← prob_fst (Ω' := Oracle N M) E]
    exact prob_bij (f := fun ω : Oracle N M × Oracle N M => (mix S ω.2 ω.1, mix S ω.1 ω.2)) (g := fun ω => (mix S ω.2 ω.1, mix S ω.1 ω.2))
      (fun ω => Prod.ext (mix_mix S _ _) (mix_mix S _ _)) (fun ω => Prod.ext (mix_mix S _ _) (mix_mix S _ _)) fun ω => E ω.1
  have e2 : prob (fun ω : (Oracle N M × B) × Oracle N M => F (mix S ω.2 ω.1.1) ω.1.2) = prob (fun ω : Oracle N M × B => F ω.1 ω.2) := by
    rw [← prob_fst (Ω' := Oracle N M) fun ω : Oracle N M × B => F ω.1 ω.2]
    exact prob_bij (f := fun ω : (Oracle N M × B) × Oracle N M => ((mix S ω.2 ω.1.1, ω.1.2), mix S ω.1.1 ω.2))
      (g := fun ω => ((mix S ω.2 ω.1.1, ω.1.2), mix S ω.1.1 ω.2))
      (fun ω => Prod.ext (Prod.ext (mix_mix S _ _) rfl) (mix_mix S _ _)) (fun ω => Prod.ext (Prod.ext (mix_mix S _ _) rfl) (mix_mix S _ _)) fun ω => F ω.1.1 ω.1.2
  rw [e1, e2] at h1
  exact h1

/-- The values on a set become known. -/
noncomputable def fixOn (S : Set (Arg N)) (π : Arg N → Option (Val M)) (O₀ : Oracle N M) : Arg N → Option (Val M) :=
  open Classical in fun x => if x ∈ S then some (patch π O₀ x) else π x

theorem patch_fixOn (S : Set (Arg N)) (π : Arg N → Option (Val M)) (O₀ O : Oracle N M) : patch (fixOn S π O₀) O = patch π (mix S O₀ O) := by
  funext x
  by_cases h : x ∈ S
  · unfold patch fixOn
    rw [if_pos h, mix_mem h]
    rfl
  · unfold patch fixOn
    rw [if_neg h, mix_not h]

theorem fixOn_mem {S : Set (Arg N)} {x : Arg N} (h : x ∈ S) (π : Arg N → Option (Val M)) (O₀ O : Oracle N M) : patch (fixOn S π O₀) O x = patch π O₀ x := by
  unfold patch fixOn
  rw [if_pos h]
  rfl

theorem covers_fixOn {D D' : List Bytes} {S : Set (Arg N)} {π : Arg N → Option (Val M)} (hD : Covers I D π) (hDD : ∀ x ∈ D, x ∈ D')
    (hS : ∀ x ∈ S, x.1 ∈ D' ∨ ∃ d : Bytes, d.length = I.digest ∧ x.1 = Use.text (T := I.T) I (.next d)) (O₀ : Oracle N M) : Covers I D' (fixOn S π O₀) := by
  intro x hx
  by_cases h : x ∈ S
  · exact hS x h
  · unfold fixOn at hx
    rw [if_neg h] at hx
    rcases hD x hx with h | h
    · exact Or.inl (hDD _ h)
    · exact Or.inr h

/-- The values that the simulator writes become known. -/
noncomputable def fixWrite (π : Arg N → Option (Val M)) (a : Answers I M) (e : List ℕ) (p : Query I.T I.unruh → Bytes) : Arg N → Option (Val M) :=
  open Classical in fun x => if h : ∃ q, Shown e q ∧ p q = x then some (a h.choose) else π x

theorem patch_fixWrite (π : Arg N → Option (Val M)) (a : Answers I M) (e : List ℕ) (p : Query I.T I.unruh → Bytes) (O : Oracle N M) :
    patch (fixWrite π a e p) O = swrite I (patch π O) a e p := by
  funext x
  unfold patch fixWrite swrite
  by_cases h : ∃ q, Shown e q ∧ p q = x
  · rw [dif_pos h, dif_pos h]
    rfl
  · rw [dif_neg h, dif_neg h]

theorem covers_fixWrite {D D' : List Bytes} {π : Arg N → Option (Val M)} {a : Answers I M} {e : List ℕ} {p : Query I.T I.unruh → Bytes} (hD : Covers I D π)
    (hDD : ∀ x ∈ D, x ∈ D') (hp : ∀ q, Shown e q → p q ∈ D') : Covers I D' (fixWrite π a e p) := by
  intro x hx
  by_cases h : ∃ q, Shown e q ∧ p q = x
  · obtain ⟨q, hq, hx⟩ := h
    exact Or.inl (hx ▸ hp q hq)
  · unfold fixWrite at hx
    rw [dif_neg h] at hx
    rcases hD x hx with h | h
    · exact Or.inl (hDD _ h)
    · exact Or.inr h

/-! ### The game with the signer -/

variable (I sk ct pt) in
/-- A string from which a signer derives seeds. -/
def KeyString (y : Bytes) : Prop := ∃ m, y = I.secretString sk ct pt m

variable (sk ct pt) in
/-- The result has a property, or a string has been asked for from which a signer derives seeds. -/
noncomputable def realEv (G : List Bytes → α → Local N M I Prop) (b : Prop) (O : Oracle N M) : Player N M α → List Bytes → Prop
  | .done r, seen => (G seen r).run O ∨ ∃ y ∈ (G seen r).asked O, KeyString I sk ct pt y.1
  | .ask x next, seen => KeyString I sk ct pt x.1 ∨ realEv G b O (next (O x)) seen
  | .sign m next, seen => (∃ m' ∈ seen, I.secretString sk ct pt m' ∈ signerTexts I sk ct pt m O) ∨
      ((signer I sk ct pt m).run O).elim b fun s => realEv G b O (next s) (m :: seen)

variable (sk ct pt) in
/-- What is asked for. -/
noncomputable def realAsked (G : List Bytes → α → Local N M I Prop) (O : Oracle N M) : Player N M α → List Bytes → List (Arg N)
  | .done r, seen => (G seen r).asked O
  | .ask x next, seen => x :: realAsked G O (next (O x)) seen
  | .sign m next, seen => toArgs (signerTexts I sk ct pt m O) ++ ((signer I sk ct pt m).run O).elim [] fun s => realAsked G O (next s) (m :: seen)

variable {G : List Bytes → α → Local N M I Prop} {b : Prop}

theorem realEv_congr {O O' : Oracle N M} (h' : ∀ d : Bytes, d.length = I.digest → ask O (Use.text (T := I.T) I (.next d)) = ask O' (Use.text (T := I.T) I (.next d)))
    (P : Player N M α) : ∀ seen, (∀ x ∈ realAsked sk ct pt G O P seen, O x = O' x) →
      realEv sk ct pt G b O P seen = realEv sk ct pt G b O' P seen ∧ realAsked sk ct pt G O P seen = realAsked sk ct pt G O' P seen := by
  induction P with
  | done r =>
    intro seen h
    simp only [realAsked] at h
    obtain ⟨e1, e2⟩ := (G seen r).congr O O' h h'
    simp only [realEv, realAsked]
    rw [e1, e2]
    exact ⟨rfl, rfl⟩
  | ask x next ih =>
    intro seen h
    simp only [realAsked, List.mem_cons] at h
    have hx := h x (Or.inl rfl)
    obtain ⟨e1, e2⟩ := ih (O x) seen fun y hy => h y (Or.inr hy)
    simp only [realEv, realAsked]
    rw [← hx, e1, e2]
    exact ⟨rfl, rfl⟩
  | sign m next ih =>
    intro seen h
    simp only [realAsked, List.mem_append] at h
    obtain ⟨e1, -⟩ := (signer I sk ct pt m).congr O O' (fun x hx => h x (Or.inl hx)) h'
    obtain ⟨-, e3⟩ := signer_congr (I := I) (sk := sk) (ct := ct) (pt := pt) (msg := m) (O := O) (O' := O') fun x hx => h x (Or.inl hx)
    simp only [realEv, realAsked]
    rw [← e1, ← e3]
    rcases hr : (signer I sk ct pt m).run O with _ | s
    · exact ⟨rfl, rfl⟩
    · rw [hr] at h
      obtain ⟨e4, e5⟩ := ih s (m :: seen) fun x hx => h x (Or.inr hx)
      simp only [Option.elim_some]
      rw [e4, e5]
      exact ⟨rfl, rfl⟩

variable (sk ct pt G b) in
/-- The game as a function of few values of the oracle. -/
noncomputable def realLocal (P : Player N M α) (seen : List Bytes) : Local N M I Prop where
  run O := realEv sk ct pt G b O P seen
  asked O := realAsked sk ct pt G O P seen
  congr _ _ h h' := realEv_congr h' P seen h

theorem realAsked_len {g : ℕ} (hG : ∀ seen r O, ((G seen r).asked O).length ≤ g) (l : ℕ) (O : Oracle N M) (P : Player N M α) :
    ∀ seen k Q, P.Within l seen k Q → (realAsked sk ct pt G O P seen).length ≤ Q + g + k * (18 * I.T + 2) := by
  induction P with
  | done r =>
    intro seen k Q _
    have := hG seen r O
    simp only [realAsked]
    omega
  | ask x next ih =>
    intro seen k Q h
    obtain ⟨h1, h2⟩ := h
    have := ih (O x) seen k (Q - 1) (h2 (O x))
    simp only [realAsked, List.length_cons]
    omega
  | sign m next ih =>
    intro seen k Q h
    obtain ⟨h1, -, -, h2⟩ := h
    obtain ⟨k, rfl⟩ : ∃ k', k = k' + 1 := ⟨k - 1, by omega⟩
    have h3 : (toArgs (signerTexts I sk ct pt m O) : List (Arg N)).length ≤ 18 * I.T + 2 := le_trans (toArgs_len _) (signerTexts_len O)
    simp only [realAsked, List.length_append]
    rw [Nat.add_mul, one_mul]
    cases (signer I sk ct pt m).run O with
    | none =>
      simp only [Option.elim_none, List.length_nil]
      omega
    | some s =>
      have h4 := ih s (m :: seen) k Q (h2 s)
      simp only [Option.elim_some]
      omega

theorem realEv_secret (O : Oracle N M) (P : Player N M α) : ∀ seen, ∀ m ∈ seen, (∃ y ∈ realAsked sk ct pt G O P seen, y.1 = I.secretString sk ct pt m) →
    realEv sk ct pt G b O P seen := by
  induction P with
  | done r =>
    rintro seen m - ⟨y, hy, h⟩
    exact Or.inr ⟨y, hy, m, h⟩
  | ask x next ih =>
    rintro seen m hm ⟨y, hy, h⟩
    simp only [realAsked, List.mem_cons] at hy
    rcases hy with rfl | hy
    · exact Or.inl ⟨m, h⟩
    · exact Or.inr (ih _ seen m hm ⟨y, hy, h⟩)
  | sign m' next ih =>
    rintro seen m hm ⟨y, hy, h⟩
    simp only [realAsked, List.mem_append] at hy
    rcases hy with hy | hy
    · exact Or.inl ⟨m, hm, h ▸ mem_toArgs.1 hy⟩
    · refine Or.inr ?_
      cases hr : (signer I sk ct pt m').run O with
      | none =>
        rw [hr] at hy
        simp at hy
      | some s =>
        rw [hr] at hy
        exact ih s (m' :: seen) m (List.mem_cons_of_mem _ hm) ⟨y, hy, h⟩

/-! ### The game with the simulator -/

variable (ct pt) in
/-- The strings into which the simulator writes. -/
noncomputable def shownTexts (m : Bytes) (O : Oracle N M) (a : Answers I M) (e : List ℕ) : List Bytes :=
  open Classical in ((Finset.univ : Finset (Query I.T I.unruh)).toList.filter fun q => Shown e q).map (spts I ct pt m O a e)

theorem mem_shownTexts {m : Bytes} {O : Oracle N M} {a : Answers I M} {e : List ℕ} {x : Bytes} :
    x ∈ shownTexts ct pt m O a e ↔ ∃ q, Shown e q ∧ spts I ct pt m O a e q = x := by
  classical
  unfold shownTexts
  rw [List.mem_map]
  constructor
  · rintro ⟨q, hq, h⟩
    rw [List.mem_filter] at hq
    exact ⟨q, by simpa using hq.2, h⟩
  · rintro ⟨q, hq, h⟩
    exact ⟨q, List.mem_filter.2 ⟨by simp, by simpa using hq⟩, h⟩

theorem shownTexts_len (m : Bytes) (O : Oracle N M) (a : Answers I M) (e : List ℕ) : (shownTexts ct pt m O a e).length ≤ 9 * I.T + 2 := by
  unfold shownTexts
  rw [List.length_map]
  refine le_trans (List.length_filter_le _ _) ?_
  rw [Finset.length_toList, Finset.card_univ]
  exact card_query

variable (sk ct pt) in
/-- What is known after a signature. -/
noncomputable def knownAfter (D : List Bytes) (m : Bytes) (O : Oracle N M) (a : Answers I M) (e : List ℕ) : List Bytes :=
  I.secretString sk ct pt m :: (seedTexts a ++ shownTexts ct pt m O a e ++ D)

theorem knownAfter_len (D : List Bytes) (m : Bytes) (O : Oracle N M) (a : Answers I M) (e : List ℕ) :
    (knownAfter sk ct pt D m O a e).length ≤ D.length + (18 * I.T + 3) := by
  have h1 := shownTexts_len (ct := ct) (pt := pt) m O a e
  unfold knownAfter
  simp only [List.length_cons, List.length_append, seedTexts_len]
  omega

variable (sk ct pt) in
/-- The result has a property, or a string has been asked for or written into from which a signer derives seeds; and the simulator has written only into
new strings. -/
noncomputable def simEv (G : List Bytes → α → Local N M I Prop) (b : Prop) : Player N M α → {k : ℕ} → List Bytes → List Bytes → Oracle N M → (Fin k → Answers I M) → Prop
  | .done r, _, seen, _, O, _ => (G seen r).run O ∨ ∃ y ∈ (G seen r).asked O, KeyString I sk ct pt y.1
  | .ask x next, _, seen, D, O, a => KeyString I sk ct pt x.1 ∨ simEv G b (next (O x)) seen (x.1 :: D) O a
  | .sign _ _, 0, _, _, _, _ => False
  | .sign m next, _ + 1, seen, D, O, a => (sim I O (a 0) ct pt m).elim b fun p => New ct pt m D O (a 0) p.e ∧
      ((∃ q, Shown p.e q ∧ KeyString I sk ct pt (spts I ct pt m O (a 0) p.e q)) ∨
        simEv G b (next p.sig) (m :: seen) (knownAfter sk ct pt D m O (a 0) p.e) p.oracle fun i => a i.succ)

end Picnic.Rom
