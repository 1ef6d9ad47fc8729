import Verif.Proofs.AdaptMain

/-
C62: procedures that choose the messages; the games and the results of the procedures.
-/

namespace Picnic.Rom

open Spec Spec.Zkb Spec.Rom Spec.Picnic1 Spec.Challenge

variable {N M : ℕ} {I : Inst} {sk ct pt : Bytes} {α : Type} {G : List Bytes → α → Local N M I Prop} {b : Prop}

theorem realEv_of (O : Oracle N M) (P : Player N M α) : ∀ seen, ((P.real I O sk ct pt).elim b fun y => (G (y.1.reverse ++ seen) y.2).run O) →
    realEv sk ct pt G b O P seen := by
  induction P with
  | done r =>
    intro seen h
    simp only [Player.real, Option.elim_some, List.reverse_nil, List.nil_append] at h
    exact Or.inl h
  | ask x next ih =>
    intro seen h
    exact Or.inr (ih _ seen h)
  | sign m next ih =>
    intro seen h
    refine Or.inr ?_
    simp only [Player.real, signer] at h ⊢
    cases hr : Rom.real I O sk ct pt m with
    | none =>
      rw [hr] at h
      exact h
    | some p =>
      rw [hr, Option.bind_some] at h
      simp only [Option.map_some, Option.elim_some]
      refine ih p.sig (m :: seen) ?_
      cases hy : (next p.sig).real I O sk ct pt with
      | none =>
        rw [hy] at h
        exact h
      | some y =>
        rw [hy] at h
        simpa using h

variable (I sk ct pt) in
/-- A string from which a signer derives seeds has been asked for or written into. -/
def KeySeen (c : Course N M α) : Prop := ∃ y ∈ c.asked ∪ c.written, KeyString I sk ct pt y

theorem keyString_fits (hsk : sk.length = I.blk) (hct : ct = Spec.Picnic1.ofBits I.blk (I.X.enc (toBits sk) (toBits pt))) {y : Bytes} (h : KeyString I sk ct pt y) :
    Rom.Fits I ct pt (y.take I.blk) := by
  obtain ⟨m, rfl⟩ := h
  unfold Rom.Fits Picnic1.Inst.secretString
  simp only [List.append_assoc]
  rw [List.take_append_of_le_length (by omega), List.take_of_length_le (by omega)]
  exact hct

theorem keySeen_shows (hsk : sk.length = I.blk) (hct : ct = Spec.Picnic1.ofBits I.blk (I.X.enc (toBits sk) (toBits pt))) {c : Course N M α}
    (h : KeySeen I sk ct pt c) : c.Shows I ct pt := by
  obtain ⟨y, hy, h⟩ := h
  exact ⟨y, hy, keyString_fits hsk hct h⟩

/-- The course after a question. -/
theorem keySeen_ask {x : Arg N} {next : Val M → Player N M α} {k : ℕ} {O : Oracle N M} {a : Fin k → Answers I M} :
    KeyString I sk ct pt x.1 ∨ KeySeen I sk ct pt ((next (O x)).sim I ct pt O a) → KeySeen I sk ct pt ((Player.ask x next).sim I ct pt O a) := by
  rintro (h | ⟨y, hy, h⟩)
  · exact ⟨x.1, Or.inl (Set.mem_insert _ _), h⟩
  · refine ⟨y, ?_, h⟩
    rcases hy with hy | hy
    · exact Or.inl (Set.mem_insert_of_mem _ hy)
    · exact Or.inr hy

theorem keySeen_sign {m : Bytes} {next : Bytes → Player N M α} {k : ℕ} {O : Oracle N M} {a : Fin (k + 1) → Answers I M} {p : Play N M}
    (hp : Rom.sim I O (a 0) ct pt m = some p) :
    (∃ q, Shown p.e q ∧ KeyString I sk ct pt (spts I ct pt m O (a 0) p.e q)) ∨ KeySeen I sk ct pt ((next p.sig).sim I ct pt p.oracle fun i => a i.succ) →
      KeySeen I sk ct pt ((Player.sign m next).sim I ct pt O a) := by
  unfold KeySeen
  rintro (⟨q, hq, h⟩ | ⟨y, hy, h⟩)
  · refine ⟨_, ?_, h⟩
    simp only [Player.sim, hp]
    exact Or.inr (Or.inr ⟨q, hq, rfl⟩)
  · refine ⟨y, ?_, h⟩
    simp only [Player.sim, hp]
    rcases hy with hy | hy
    · exact Or.inl hy
    · exact Or.inr (Or.inl hy)

theorem simEv_of (P : Player N M α) : ∀ {k : ℕ} (seen D : List Bytes) (O : Oracle N M) (a : Fin k → Answers I M), simEv sk ct pt G b P seen D O a →
    KeySeen I sk ct pt (P.sim I ct pt O a) ∨ ((P.sim I ct pt O a).result.elim b fun y => (G (y.1.reverse ++ seen) y.2).run (P.sim I ct pt O a).oracle ∨
      ∃ x ∈ (G (y.1.reverse ++ seen) y.2).asked (P.sim I ct pt O a).oracle, KeyString I sk ct pt x.1) := by
  induction P with
  | done r =>
    intro k seen D O a h
    refine Or.inr ?_
    simp only [Player.sim, Option.elim_some, List.reverse_nil, List.nil_append]
    exact h
  | ask x next ih =>
    intro k seen D O a h
    rcases h with h | h
    · exact Or.inl (keySeen_ask (Or.inl h))
    · rcases ih _ seen _ O a h with h | h
      · exact Or.inl (keySeen_ask (Or.inr h))
      · exact Or.inr h
  | sign m next ih =>
    intro k seen D O a h
    cases k with
    | zero => exact h.elim
    | succ k =>
      simp only [simEv] at h
      cases hp : Rom.sim I O (a 0) ct pt m with
      | none =>
        rw [hp] at h
        refine Or.inr ?_
        simp only [Player.sim, hp]
        exact h
      | some p =>
        rw [hp] at h
        obtain ⟨-, h | h⟩ := h
        · exact Or.inl (keySeen_sign hp (Or.inl h))
        · rcases ih _ _ _ _ _ h with h | h
          · exact Or.inl (keySeen_sign hp (Or.inr h))
          · refine Or.inr ?_
            simp only [Player.sim, hp]
            cases hy : ((next p.sig).sim I ct pt p.oracle fun i => a i.succ).result with
            | none =>
              rw [hy] at h
              exact h
            | some y =>
              rw [hy] at h
              simpa using h

theorem covers_empty : Covers I [] (fun _ : Arg N => (none : Option (Val M))) := fun x h => absurd rfl h

theorem patch_empty (O : Oracle N M) : patch (fun _ => none) O = O := rfl

/-- Signer and simulator, for a property of the result. -/
theorem course_real_sim {p : ℕ} (hI : I.Is p) (hsk : sk.length = I.blk) (hk : IsKey I sk) (hpt : pt.length = I.blk)
    (hct : ct = Spec.Picnic1.ofBits I.blk (I.X.enc (toBits sk) (toBits pt))) {l : ℕ}
    (hN : 3 * I.T * (I.digest + I.seed + I.gate + 2 * I.blk) + 2 * I.blk + l + 33 ≤ N) (hM1 : 3 * I.T * I.seed + 32 ≤ M) (hM2 : I.digest ≤ M)
    (hM3 : I.blk + I.gate ≤ M) {k Q : ℕ} {P : Player N M α} (hP : P.Within l [] k Q) {g : ℕ} (hG : ∀ seen r O, ((G seen r).asked O).length ≤ g) :
    prob (fun O : Oracle N M => (P.real I O sk ct pt).elim b fun y => (G y.1.reverse y.2).run O) ≤
      prob (fun ω : Oracle N M × (Fin k → Answers I M) => simEv sk ct pt G b P [] [] ω.1 ω.2) + adaptBound I k (Q + g + k * (18 * I.T + 3)) := by
  have h := adapt_real_sim (N := N) (M := M) (b := b) hI hsk hk hpt hct hN hM1 hM2 hM3 hG (B := Q + g + k * (18 * I.T + 3)) P [] k Q [] (fun _ => none) hP covers_empty
    (fun m hm => by simp at hm) (fun m hm => by simp at hm) (by simp)
  simp only [patch_empty] at h
  refine le_trans (prob_mono fun O h => ?_) h
  refine realEv_of O P [] ?_
  simpa using h

variable (N M I) in
/-- A property of the result alone. -/
def resultLocal (S : Set (List Bytes × α)) (seen : List Bytes) (r : α) : Local N M I Prop := ⟨fun _ => (seen.reverse, r) ∈ S, fun _ => [], fun _ _ _ _ => ⟨rfl, rfl⟩⟩

theorem result_real_sim {p : ℕ} (hI : I.Is p) (hsk : sk.length = I.blk) (hk : IsKey I sk) (hpt : pt.length = I.blk)
    (hct : ct = Spec.Picnic1.ofBits I.blk (I.X.enc (toBits sk) (toBits pt))) {l : ℕ}
    (hN : 3 * I.T * (I.digest + I.seed + I.gate + 2 * I.blk) + 2 * I.blk + l + 33 ≤ N) (hM1 : 3 * I.T * I.seed + 32 ≤ M) (hM2 : I.digest ≤ M)
    (hM3 : I.blk + I.gate ≤ M) {k Q : ℕ} {P : Player N M α} (hP : P.Within l [] k Q) (S : Set (List Bytes × α)) :
    prob (fun O : Oracle N M => ∃ y, P.real I O sk ct pt = some y ∧ y ∈ S) ≤
      prob (fun ω : Oracle N M × (Fin k → Answers I M) => (∃ y, (P.sim I ct pt ω.1 ω.2).result = some y ∧ y ∈ S) ∨ (P.sim I ct pt ω.1 ω.2).Shows I ct pt) +
        adaptBound I k (Q + k * (18 * I.T + 3)) ∧
    prob (fun ω : Oracle N M × (Fin k → Answers I M) => ∃ y, (P.sim I ct pt ω.1 ω.2).result = some y ∧ y ∈ S) ≤
      prob (fun O : Oracle N M => ∃ y, P.real I O sk ct pt = some y ∧ y ∈ S) +
        prob (fun ω : Oracle N M × (Fin k → Answers I M) => (P.sim I ct pt ω.1 ω.2).Shows I ct pt) + adaptBound I k (Q + k * (18 * I.T + 3)) := by
  have h1 := course_real_sim (N := N) (M := M) (b := False) hI hsk hk hpt hct hN hM1 hM2 hM3 hP (G := resultLocal N M I S) (g := 0) fun _ _ _ => le_rfl
  have h2 := course_real_sim (N := N) (M := M) (b := True) hI hsk hk hpt hct hN hM1 hM2 hM3 hP (G := resultLocal N M I Sᶜ) (g := 0) fun _ _ _ => le_rfl
  rw [add_zero] at h1 h2
  have g1 : ∀ O : Oracle N M, (∃ y, P.real I O sk ct pt = some y ∧ y ∈ S) → (P.real I O sk ct pt).elim False fun y => (resultLocal N M I S y.1.reverse y.2).run O := by
    rintro O ⟨y, hy, h⟩
    rw [hy]
    simpa [resultLocal] using h
  have g2 : ∀ O : Oracle N M, (¬ ∃ y, P.real I O sk ct pt = some y ∧ y ∈ S) → (P.real I O sk ct pt).elim True fun y => (resultLocal N M I Sᶜ y.1.reverse y.2).run O := by
    intro O h
    cases hy : P.real I O sk ct pt with
    | none => trivial
    | some y =>
      simp only [Option.elim_some, resultLocal, List.reverse_reverse]
      exact fun hs => h ⟨y, hy, hs⟩
  have g3 : ∀ ω : Oracle N M × (Fin k → Answers I M), simEv sk ct pt (resultLocal N M I S) False P [] [] ω.1 ω.2 →
      (∃ y, (P.sim I ct pt ω.1 ω.2).result = some y ∧ y ∈ S) ∨ (P.sim I ct pt ω.1 ω.2).Shows I ct pt := by
    intro ω h
    rcases simEv_of P [] [] ω.1 ω.2 h with h | h
    · exact Or.inr (keySeen_shows hsk hct h)
    · refine Or.inl ?_
      cases hy : (P.sim I ct pt ω.1 ω.2).result with
      | none => rw [hy] at h; exact h.elim
      | some y =>
        rw [hy] at h
        refine ⟨y, rfl, ?_⟩
        simpa [resultLocal] using h
  have g4 : ∀ ω : Oracle N M × (Fin k → Answers I M), simEv sk ct pt (resultLocal N M I Sᶜ) True P [] [] ω.1 ω.2 →
      (¬ ∃ y, (P.sim I ct pt ω.1 ω.2).result = some y ∧ y ∈ S) ∨ (P.sim I ct pt ω.1 ω.2).Shows I ct pt := by
    intro ω h
    rcases simEv_of P [] [] ω.1 ω.2 h with h | h
    · exact Or.inr (keySeen_shows hsk hct h)
    · refine Or.inl ?_
      rintro ⟨y, hy, hs⟩
      rw [hy] at h
      simp [resultLocal] at h
      exact h hs
  refine ⟨le_trans (prob_mono g1) (le_trans h1 (add_le_add (prob_mono g3) le_rfl)), ?_⟩
  have h3 := le_trans (prob_mono g2) (le_trans h2 (add_le_add (le_trans (prob_mono g4) (prob_or _ _)) le_rfl))
  rw [prob_not, prob_not] at h3
  linarith

end Picnic.Rom
