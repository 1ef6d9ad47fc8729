import Verif.Proofs.KeccakStatic

/-
Property C76: the tables of the SHA-3 code that are computed at run time.
-/

namespace Picnic

open Spec.Keccak KeccakStatic

/-- What thread B may have left in the tables at a moment: the right tables, or those in the middle of `KeccakP1600_StaticInitialize`: working on round constant `i` with `n`
passes done, or on the offsets with `n` passes done. -/
inductive Moment where
  | idle
  | constants (i n : ℕ)
  | offsets (n : ℕ)

/-- `g` are the tables at this moment, if they were right before. -/
def Moment.At : Moment → KeccakTables → Prop
  | idle, g => g = ⟨keccakRoundConstants, keccakRhoOffsets⟩
  | constants i n, g => i < 24 ∧ n < 8 ∧ roundConstantsDuring i n keccakRoundConstants = Outcome.ok g.rc ∧ g.rho = keccakRhoOffsets
  | offsets n, g => n ≤ 24 ∧ g.rc = keccakRoundConstants ∧ initRhoOffsets n keccakRhoOffsets = Outcome.ok g.rho

/-- C76, one thread: whatever the tables contained before, after the start of a sponge the permutation stays in bounds and computes Keccak-p[1600, 24] of FIPS 202,
and further starts of sponges do not change the tables. -/
theorem C76_partial (g : KeccakTables) (h : g.rc.length = 24) (h' : g.rho.length = 25) :
    ∃ g', staticInitialize g = Outcome.ok g' ∧ staticInitialize g' = Outcome.ok g' ∧
      ∀ state : Buf, state.length = 200 → ∃ out, permute24V (fun _ => g') state = Outcome.ok out ∧ out.length = 200 ∧
        ∀ i < 1600, bitOf out i = keccakP24 (bitOf state) i := by
  refine ⟨_, staticInitialize_ok g h h', staticInitialize_ok _ rfl rfl, fun state hs => ?_⟩
  rw [permute_right]
  exact ⟨_, keccakPerm_spec hs⟩

/-- C76, several threads: the result is right if in no round `r` of the permutation another thread is working on the constant of round `r` (with a set bit
still to come). -/
theorem C76_threads_partial (m : ℕ → Moment) (g : ℕ → KeccakTables) (hg : ∀ r < 24, (m r).At (g r))
    (hm : ∀ r < 24, ∀ n, m r = .constants r n → ∀ j < 7, n ≤ j → rc (j + 7 * r) = false) (state : Buf) (hs : state.length = 200) :
    ∃ out, permute24V g state = Outcome.ok out ∧ out.length = 200 ∧ ∀ i < 1600, bitOf out i = keccakP24 (bitOf state) i := by
  have key : ∀ r < 24, (g r).rho = keccakRhoOffsets ∧ rd (g r).rc r = rd keccakRoundConstants r := by
    intro r hr
    have H := hg r hr
    cases e : m r with
    | idle => rw [e] at H; rw [H]; exact ⟨rfl, rfl⟩
    | offsets n =>
      rw [e] at H
      obtain ⟨hn, h1, h2⟩ := H
      rw [rho_during n hn] at h2
      injection h2 with h2
      exact ⟨h2.symm, by rw [h1]⟩
    | constants i n =>
      rw [e] at H
      obtain ⟨hi, hn, h1, h2⟩ := H
      rw [rc_during i n hi] at h1
      injection h1 with h1
      refine ⟨h2, ?_⟩
      rw [← h1]
      by_cases hir : i = r
      · subst hir
        have := (bits_right i hi n hn).2 (hm i hr n e)
        rw [this]
        unfold rd
        rw [List.getElem?_set_self hi, List.getD_eq_getElem?_getD, List.getElem?_eq_getElem hi]
        rfl
      · unfold rd
        rw [List.getElem?_set_ne hir]
  have round : ∀ r < 24, ∀ A, keccakRoundV (g r) A r = keccakRound A r := by
    intro r hr A
    obtain ⟨h1, h2⟩ := key r hr
    have hR : kRhoV (g r) = kRho := by unfold kRhoV kRho; rw [h1]
    have hI : ∀ A, kIotaV (g r) A r = kIota A r := by intro A; unfold kIotaV kIota; rw [h2]
    unfold keccakRoundV keccakRound
    rw [hR]
    simp only [hI]
  have lp : ∀ n ≤ 24, ∀ A, loop (fun k => (fun i A => keccakRoundV (g i) A i) (24 - 24 + k)) n A =
      loop (fun k => (fun i A => keccakRound A i) (24 - 24 + k)) n A := by
    intro n hn A
    induction n with
    | zero => rfl
    | succ n ih =>
      rw [loop, loop, ih (by omega)]
      refine congrArg _ (funext fun s => ?_)
      exact round _ (by omega) s
  have e : permute24V g state = keccakPermute24 state := by
    unfold permute24V keccakPermute24 keccakOnWords loopFrom
    refine congrArg _ (funext fun A => ?_)
    rw [lp _ (by omega) A]
  rw [e]
  exact ⟨_, keccakPerm_spec hs⟩

/-- C76 is violated with several threads: the permutation of a running hash is wrong if another thread starts a sponge and has just cleared the constant of the round. -/
theorem C76_threads_violated : ∃ (m : ℕ → Moment) (g : ℕ → KeccakTables) (state : Buf), (∀ r < 24, (m r).At (g r)) ∧ state.length = 200 ∧
    ¬ ∃ out, permute24V g state = Outcome.ok out ∧ out.length = 200 ∧ ∀ i < 1600, bitOf out i = keccakP24 (bitOf state) i := by
  refine ⟨fun r => if r = 0 then .constants 0 0 else .idle,
    fun r => ⟨if r = 0 then keccakRoundConstants.set 0 0 else keccakRoundConstants, keccakRhoOffsets⟩, zeros 200, ?_, List.length_replicate, ?_⟩
  · intro r _
    by_cases h : r = 0
    · subst h
      refine ⟨by omega, by omega, ?_, rfl⟩
      rw [rc_during 0 0 (by omega)]
      rfl
    · simp only [h, if_false]
      rfl
  · rintro ⟨out, h1, h2, h3⟩
    refine wrong_result ?_
    rw [h1]
    obtain ⟨k1, k2, k3⟩ := keccakPerm_spec (state := zeros 200) List.length_replicate
    rw [k1]
    refine congrArg Outcome.ok (List.ext_getElem (by rw [h2, k2]) fun i a b => ?_)
    refine BitVec.eq_of_getLsbD_eq fun z hz => ?_
    have := (h3 (8 * i + z) (by omega)).trans (k3 (8 * i + z) (by omega)).symm
    unfold bitOf at this
    rw [show (8 * i + z) / 8 = i by omega, show (8 * i + z) % 8 = z by omega, List.getD_eq_getElem?_getD, List.getD_eq_getElem?_getD,
      List.getElem?_eq_getElem a, List.getElem?_eq_getElem b] at this
    exact this

/-- C76: exactly when a round constant is wrong while another thread computes it: when a set bit is still to come. -/
theorem C76_window (i n : ℕ) (hi : i < 24) (hn : n < 8) : ∃ tab, roundConstantsDuring i n keccakRoundConstants = Outcome.ok tab ∧
    (tab = keccakRoundConstants ↔ ∀ j < 7, n ≤ j → rc (j + 7 * i) = false) := by
  refine ⟨_, rc_during i n hi, ?_⟩
  rw [set_eq _ _ _ hi, ← bits_right i hi n hn, List.getD_eq_getElem?_getD, List.getElem?_eq_getElem hi]
  rfl

/-- Tables full of other values, and a schedule that C76_threads_partial allows: another thread works on the constant of the round before. -/
theorem C76_example :
    staticInitialize ⟨List.replicate 24 5, List.replicate 25 77⟩ = Outcome.ok ⟨keccakRoundConstants, keccakRhoOffsets⟩ ∧
    ∃ (m : ℕ → Moment) (g : ℕ → KeccakTables), (∀ r < 24, (m r).At (g r)) ∧ (g 5).rc ≠ keccakRoundConstants ∧
      ∀ r < 24, ∀ n, m r = .constants r n → ∀ j < 7, n ≤ j → rc (j + 7 * r) = false := by
  refine ⟨staticInitialize_ok _ (by simp) (by simp), fun r => if r = 5 then .constants 4 0 else .idle,
    fun r => ⟨if r = 5 then keccakRoundConstants.set 4 0 else keccakRoundConstants, keccakRhoOffsets⟩, ?_, by decide, ?_⟩
  · intro r _
    by_cases h : r = 5
    · subst h
      exact ⟨by omega, by omega, by rw [rc_during 4 0 (by omega)]; rfl, rfl⟩
    · simp only [h, if_false]; rfl
  · intro r _ n e
    by_cases h : r = 5
    · subst h; simp at e
    · simp [h] at e

end Picnic
