import Verif.Model.KeccakStatic
import Verif.Proofs.Keccak

/-
Lemmas for C76.
-/

namespace Picnic

open Spec.Keccak

namespace KeccakStatic

/-- What `n` passes of the inner loop do with an entry and the register. -/
def bits : ℕ → Lane × Byte → Lane × Byte
  | 0, s => s
  | j + 1, s => (if (lfsr86540 (bits j s).2).1 then (bits j s).1 ^^^ (1#64 <<< (2 ^ j - 1)) else (bits j s).1, (lfsr86540 (bits j s).2).2)

theorem steps_ok (l : List Lane) (i n : ℕ) (r : Byte) (h : i < l.length) :
    roundConstantSteps i n (l, r) = Outcome.ok (l.set i (bits n (0, r)).1, (bits n (0, r)).2) := by
  have hw : wr l i 0 = Outcome.ok (l.set i 0) := by simp [wr, h]
  unfold roundConstantSteps
  simp only [hw, bind, Outcome.bind]
  induction n with
  | zero => rfl
  | succ n ih =>
    rw [loop, ih]
    have hr : rd (l.set i (bits n (0, r)).1) i = Outcome.ok (bits n (0, r)).1 := by simp [rd, h]
    simp only [bind, Outcome.bind, hr, bits]
    split
    · simp [wr, h, pure]
    · rfl

/-- The register before entry `i`. -/
def reg : ℕ → Byte
  | 0 => 0x01
  | i + 1 => (bits 7 (0, reg i)).2

/-- The entry computed for round `i`. -/
def entry (i : ℕ) : Lane := (bits 7 (0, reg i)).1

theorem outer_ok (l : List Lane) (n : ℕ) (h : n ≤ l.length) :
    loop (fun i s => roundConstantSteps i 7 s) n (l, 0x01) = Outcome.ok ((List.range n).map entry ++ l.drop n, reg n) := by
  induction n with
  | zero => rfl
  | succ n ih =>
    rw [loop, ih (by omega)]
    simp only [bind, Outcome.bind]
    rw [steps_ok _ _ _ _ (by simp; omega)]
    congr 2
    rw [List.set_append_right _ _ (by simp), List.range_succ, List.map_append, List.append_assoc]
    simp only [List.length_map, List.length_range, Nat.sub_self]
    rw [List.drop_eq_getElem_cons (by omega : n < l.length)]
    rfl

theorem entries : (List.range 24).map entry = keccakRoundConstants := by decide +kernel

theorem initRoundConstants_ok (l : List Lane) (h : l.length = 24) : initRoundConstants l = Outcome.ok keccakRoundConstants := by
  unfold initRoundConstants
  rw [outer_ok l 24 (by omega), List.drop_of_length_le (by omega), entries]
  rfl

/-! ### The offsets -/

/-- Stores to a table, in this order. -/
def setAll (ps : List (ℕ × ℕ)) (l : List ℕ) : List ℕ := ps.foldl (fun l p => l.set p.1 p.2) l

theorem setAll_length (ps : List (ℕ × ℕ)) (l : List ℕ) : (setAll ps l).length = l.length := by
  induction ps generalizing l with
  | nil => rfl
  | cons p ps ih => simpa [setAll] using ih (l.set p.1 p.2)

theorem setAll_congr (ps : List (ℕ × ℕ)) (l l' : List ℕ) (h : l.length = l'.length) (k : ℕ)
    (hk : k ∈ ps.map Prod.fst ∨ l[k]? = l'[k]?) : (setAll ps l)[k]? = (setAll ps l')[k]? := by
  induction ps generalizing l l' with
  | nil => simpa [setAll] using hk
  | cons p ps ih =>
    refine ih _ _ (by simpa using h) ?_
    by_cases e : p.1 = k
    · right; simp [List.getElem?_set, e, h]
    · rcases hk with hk | hk
      · left
        simp only [List.map_cons, List.mem_cons] at hk
        exact hk.resolve_left fun h => e h.symm
      · right; simpa [List.getElem?_set, e] using hk

/-- Where pass `t` of the loop is. -/
def pos : ℕ → ℕ × ℕ
  | 0 => (1, 0)
  | t + 1 => ((0 * (pos t).1 + 1 * (pos t).2) % 5, (2 * (pos t).1 + 3 * (pos t).2) % 5)

/-- The stores of the first `n` passes. -/
def stores (n : ℕ) : List (ℕ × ℕ) := (0, 0) :: (List.range n).map fun t => (kidx (pos t).1 (pos t).2, (t + 1) * (t + 2) / 2 % 64)

theorem kidx_lt (x y : ℕ) : kidx x y < 25 := by unfold kidx; omega

theorem rhoLoop_ok (l : List ℕ) (h : l.length = 25) (n : ℕ) : initRhoOffsets n l = Outcome.ok (setAll (stores n) l) := by
  have hw : wr l (kidx 0 0) 0 = Outcome.ok (l.set 0 0) := by simp [wr, h, kidx]
  unfold initRhoOffsets
  simp only [hw, bind, Outcome.bind]
  suffices H : loop (fun t (s : List ℕ × ℕ × ℕ) => do
      let (rho, x, y) := s
      let rho ← wr rho (kidx x y) ((t + 1) * (t + 2) / 2 % 64)
      let newX := (0 * x + 1 * y) % 5
      let newY := (2 * x + 3 * y) % 5
      pure (rho, newX, newY)) n (l.set 0 0, 1, 0) = Outcome.ok (setAll (stores n) l, pos n) by
    simp only [bind, Outcome.bind] at H
    rw [H]; rfl
  induction n with
  | zero => rfl
  | succ n ih =>
    rw [loop, ih]
    have hs : (setAll (stores n) l).length = 25 := by rw [setAll_length, h]
    simp only [bind, Outcome.bind, wr, hs, kidx_lt, if_true, pure]
    simp [setAll, stores, List.range_succ, pos]

theorem initRhoOffsets_ok (l : List ℕ) (h : l.length = 25) : initRhoOffsets 24 l = Outcome.ok keccakRhoOffsets := by
  rw [rhoLoop_ok l h]
  have e : setAll (stores 24) (List.replicate 25 0) = keccakRhoOffsets := by decide +kernel
  rw [← e]
  refine congrArg Outcome.ok (List.ext_getElem? fun k => ?_)
  by_cases hk : k < 25
  · have c : ∀ k < 25, k ∈ (stores 24).map Prod.fst := by decide +kernel
    exact setAll_congr _ _ _ (by simpa using h) k (Or.inl (c k hk))
  · rw [List.getElem?_eq_none (by rw [setAll_length]; omega), List.getElem?_eq_none (by rw [setAll_length]; simp; omega)]

theorem staticInitialize_ok (g : KeccakTables) (h : g.rc.length = 24) (h' : g.rho.length = 25) :
    staticInitialize g = Outcome.ok ⟨keccakRoundConstants, keccakRhoOffsets⟩ := by
  unfold staticInitialize
  rw [initRoundConstants_ok _ h, initRhoOffsets_ok _ h']
  rfl

/-- With the right tables the permutation is that of the default build. -/
theorem permute_right (state : Buf) : permute24V (fun _ => ⟨keccakRoundConstants, keccakRhoOffsets⟩) state = keccakPermute24 state := rfl

/-! ### While another thread computes the tables -/

theorem rho_during (n : ℕ) (h : n ≤ 24) : initRhoOffsets n keccakRhoOffsets = Outcome.ok keccakRhoOffsets := by
  have c : ∀ n < 25, initRhoOffsets n keccakRhoOffsets = Outcome.ok keccakRhoOffsets := by decide +kernel
  exact c n (by omega)

/-- The table with entry `i` after `n` passes. -/
theorem rc_during (i n : ℕ) (hi : i < 24) :
    roundConstantsDuring i n keccakRoundConstants = Outcome.ok (keccakRoundConstants.set i (bits n (0, reg i)).1) := by
  unfold roundConstantsDuring
  rw [outer_ok _ i (by rw [show keccakRoundConstants.length = 24 from rfl]; omega)]
  simp only [bind, Outcome.bind]
  have e : (List.range i).map entry = keccakRoundConstants.take i := by
    rw [← entries, ← List.map_take, List.take_range]
    congr 2; omega
  rw [e, List.take_append_drop, steps_ok _ _ _ _ hi]
  rfl

theorem set_eq (l : List Lane) (i : ℕ) (v : Lane) (h : i < l.length) : l.set i v = l ↔ v = l[i] := by
  constructor
  · intro e
    have := congrArg (fun l => l[i]?) e
    simpa [h] using this
  · rintro rfl
    exact List.set_getElem_self h

theorem bits_right : ∀ i < 24, ∀ n < 8, ((bits n (0, reg i)).1 = keccakRoundConstants.getD i 0 ↔ ∀ j < 7, n ≤ j → rc (j + 7 * i) = false) := by
  decide +kernel

theorem wrong_result : permute24V (fun r => ⟨if r = 0 then keccakRoundConstants.set 0 0 else keccakRoundConstants, keccakRhoOffsets⟩) (zeros 200) ≠
    keccakPermute24 (zeros 200) := by
  decide +kernel

end KeccakStatic

end Picnic
