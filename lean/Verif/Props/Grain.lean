import Verif.Proofs.GrainChunks
import Verif.Props.LowMCTables

/-
C78, second part: the constants are those that the generator of the specification makes.
-/

namespace Picnic

open Spec Spec.Grain Tables

/-- **C78.** The constants are made by the generator of the specification: for the sequence of the register and the sequence of kept bits, every linear layer and
every key matrix is the first invertible one from the end of the one before on, and the round constants are the bits in between. -/
theorem C78_generated (E : Env) (p : ℕ) (P : Params) (hP : getParamSet p = some P) (hr : P.numRounds = 4) (b g : ℕ → Bool) (hb : IsRegister b)
    (hg : IsKept b g) : Generated (lowmcOf P ((withTables E).lowmc P)) g := by
  obtain ⟨h1, h2, h3, _⟩ := chunks_spec hb hg
  show Generated (lowmcOf P (if P.numRounds = 4 then toConsts P.stateSizeWords (fullTables P.stateSizeBits) else E.lowmc P)) g
  rw [if_pos hr]
  have hn := fullTables_n hP hr
  have hW := paramsWF_of hP
  unfold fullTables at hn ⊢
  by_cases e1 : P.stateSizeBits = 129
  · rw [if_pos e1] at hn ⊢
    exact generated_of_facts hW hr hn h1.L h1.RC h1.K
  · rw [if_neg e1] at hn ⊢
    by_cases e2 : P.stateSizeBits = 192
    · rw [if_pos e2] at hn ⊢
      exact generated_of_facts hW hr hn h2.L h2.RC h2.K
    · rw [if_neg e2] at hn ⊢
      exact generated_of_facts hW hr hn h3.L h3.RC h3.K

theorem next_unique {n : ℕ} {g : ℕ → Bool} {s q q' : ℕ} (h : Next n g s q) (h' : Next n g s q') : q = q' := by
  induction h with
  | accept pos hi =>
    cases h' with
    | accept => rfl
    | reject _ _ hn => exact absurd hi hn
  | reject pos q hn _ ih =>
    cases h' with
    | accept _ hi => exact absurd hi hn
    | reject _ _ _ h2 => exact ih h2

/-- The generator makes one instance only, for given sizes. -/
theorem generated_unique {X Y : LowMC} {g : ℕ → Bool} (en : Y.n = X.n) (er : Y.r = X.r) (hpos : 0 < X.r) (hX : Generated X g) (hY : Generated Y g) :
    (∀ t < X.r, ∀ i < X.n, ∀ j < X.n, X.L t i j = Y.L t i j) ∧ (∀ t < X.r, ∀ i < X.n, X.RC t i = Y.RC t i) ∧
    ∀ t ≤ X.r, ∀ i < X.n, ∀ j < X.n, X.K t i j = Y.K t i j := by
  obtain ⟨pL, pK, c, h1, h2, h3, h4⟩ := hY
  obtain ⟨qL, qK, d, k1, k2, k3, k4⟩ := hX
  rw [en, er] at h1 h2 h3 h4
  have hL : ∀ t < X.r, pL t = qL t := by
    intro t
    induction t with
    | zero => intro ht; exact next_unique (h1 0 ht).1 (k1 0 ht).1
    | succ t ih =>
      intro ht
      have a := (h1 (t + 1) ht).1
      have b := (k1 (t + 1) ht).1
      simp only [Nat.add_one_ne_zero, if_false, Nat.add_sub_cancel] at a b
      rw [ih (by omega)] at a
      exact next_unique a b
  have hc : c = d := by rw [h2, k2, hL _ (by omega)]
  subst hc
  have hK : ∀ t ≤ X.r, pK t = qK t := by
    intro t
    induction t with
    | zero => intro ht; exact next_unique (h4 0 ht).1 (k4 0 ht).1
    | succ t ih =>
      intro ht
      have a := (h4 (t + 1) ht).1
      have b := (k4 (t + 1) ht).1
      simp only [Nat.add_one_ne_zero, if_false, Nat.add_sub_cancel] at a b
      rw [ih (by omega)] at a
      exact next_unique a b
  refine ⟨fun t ht i hi j hj => ?_, fun t ht i hi => ?_, fun t ht i hi j hj => ?_⟩
  · rw [(h1 t ht).2 i hi j hj, (k1 t ht).2 i hi j hj, hL t ht]
  · rw [h3 t ht i hi, k3 t ht i hi]
  · rw [(h4 t ht).2 i hi j hj, (k4 t ht).2 i hi j hj, hK t ht]

/-- The generator makes one instance only: every instance with the same sizes that it makes has the entries of the tables. -/
theorem C78_unique (E : Env) (p : ℕ) (P : Params) (hP : getParamSet p = some P) (hr : P.numRounds = 4) (b g : ℕ → Bool) (hb : IsRegister b)
    (hg : IsKept b g) (X : LowMC) (hn : X.n = P.stateSizeBits) (hXr : X.r = P.numRounds) (hX : Generated X g) :
    (∀ t < X.r, ∀ i < X.n, ∀ j < X.n, X.L t i j = (lowmcOf P ((withTables E).lowmc P)).L t i j) ∧
    (∀ t < X.r, ∀ i < X.n, X.RC t i = (lowmcOf P ((withTables E).lowmc P)).RC t i) ∧
    ∀ t ≤ X.r, ∀ i < X.n, ∀ j < X.n, X.K t i j = (lowmcOf P ((withTables E).lowmc P)).K t i j :=
  generated_unique hn.symm hXr.symm (by omega) hX (C78_generated E p P hP hr b g hb hg)

/-! ### The sequences exist -/

/-- The contents of the register after `i` steps. -/
def window : ℕ → ℕ → Bool
  | 0, _ => true
  | i + 1, j => if j < 79 then window i (j + 1)
      else (window i 62 ^^ (window i 51 ^^ (window i 38 ^^ (window i 23 ^^ (window i 13 ^^ window i 0)))))

theorem window_eq (i j : ℕ) (h : i + j < 80) : window i j = true := by
  induction i generalizing j with
  | zero => rfl
  | succ i ih => rw [window, if_pos (by omega), ih (j + 1) (by omega)]

theorem window_shift (i j k : ℕ) (h : j + k < 80) : window (i + k) j = window i (j + k) := by
  induction k generalizing j with
  | zero => rfl
  | succ k ih => rw [← Nat.add_assoc, window, if_pos (by omega), ih (j + 1) (by omega), show j + 1 + k = j + (k + 1) by omega]

theorem kept_succ (b : ℕ → Bool) (N : ℕ) : ∃ l, kept b (N + 1) = kept b N ++ l := by
  rw [kept, List.range_succ, List.filterMap_append]
  exact ⟨_, rfl⟩

theorem kept_prefix (b : ℕ → Bool) {M N : ℕ} (h : M ≤ N) : ∃ l, kept b N = kept b M ++ l := by
  induction h with
  | refl => exact ⟨[], by simp⟩
  | step _ ih =>
    obtain ⟨l, hl⟩ := ih
    obtain ⟨l', hl'⟩ := kept_succ b _
    exact ⟨l ++ l', by rw [hl', hl, List.append_assoc]⟩

/-- There are such sequences. -/
theorem C78_sequences : ∃ b g, IsRegister b ∧ IsKept b g := by
  classical
  refine ⟨fun i => window i 0, fun k => if h : ∃ N, k < (kept (fun i => window i 0) N).length then
    (kept (fun i => window i 0) h.choose)[k]'h.choose_spec else false, ⟨fun i hi => window_eq i 0 (by omega), fun i => ?_⟩, fun N k v hv => ?_⟩
  · have h79 : window (i + 80) 0 = window (i + 1) 79 := by
      have := window_shift (i + 1) 0 79 (by decide)
      rwa [show i + 1 + 79 = i + 80 by omega, Nat.zero_add] at this
    have hs : ∀ k < 80, window (i + k) 0 = window i k := fun k hk => by
      have := window_shift i 0 k (by omega)
      rwa [Nat.zero_add] at this
    show window (i + 80) 0 = (window (i + 62) 0 ^^ (window (i + 51) 0 ^^ (window (i + 38) 0 ^^ (window (i + 23) 0 ^^ (window (i + 13) 0 ^^ window i 0)))))
    rw [h79, window, if_neg (by decide), hs 62 (by decide), hs 51 (by decide), hs 38 (by decide), hs 23 (by decide), hs 13 (by decide)]
  · have hk : k < (kept (fun i => window i 0) N).length := by
      by_contra hc
      rw [List.getElem?_eq_none (by omega)] at hv
      cases hv
    have hex : ∃ N, k < (kept (fun i => window i 0) N).length := ⟨N, hk⟩
    show (if h : ∃ N, k < (kept (fun i => window i 0) N).length then (kept (fun i => window i 0) h.choose)[k]'h.choose_spec else false) = v
    rw [dif_pos hex]
    have h1 := List.getElem?_eq_getElem hex.choose_spec
    have h2 : (kept (fun i => window i 0) hex.choose)[k]? = (kept (fun i => window i 0) N)[k]? := by
      rcases Nat.le_total hex.choose N with h | h
      · obtain ⟨l, hl⟩ := kept_prefix (fun i => window i 0) h
        rw [hl, List.getElem?_append_left hex.choose_spec]
      · obtain ⟨l, hl⟩ := kept_prefix (fun i => window i 0) h
        rw [hl, List.getElem?_append_left hk]
    rw [h2, hv] at h1
    exact (Option.some.inj h1).symm

end Picnic
