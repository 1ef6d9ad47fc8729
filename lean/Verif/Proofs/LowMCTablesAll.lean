import Verif.Proofs.GrainRun
import Verif.Model.LowMCTables128
import Verif.Model.LowMCTables192p
import Verif.Model.LowMCTables256

/-
The tables for the parameter sets with ten S-boxes.
-/

namespace Picnic.Tables

open Finset Spec

/-- The matrices of all rounds are inverse to each other. -/
def NatTables.leftAll (T : NatTables) (r : ℕ) : Bool :=
  (List.range r).all fun i => force (T.LInv i) fun A => force (T.L i) fun B => invCheck T.n A B

theorem t128_left : t128.leftAll 20 = true := by decide +kernel

theorem t192p_left : t192p.leftAll 30 = true := by decide +kernel

theorem t256_left : t256.leftAll 38 = true := by decide +kernel

theorem toConsts_leftAll {P : Params} (hP : ParamsWF P) {T : NatTables} (hn : T.n = P.stateSizeBits) (h : T.leftAll P.numRounds = true) (r : ℕ)
    (hlt : r < P.numRounds) :
    IsInv P.stateSizeBits (matBits P.stateSizeWords ((toConsts P.stateSizeWords T).LInv r)) (matBits P.stateSizeWords ((toConsts P.stateSizeWords T).L r)) := by
  have hw := hP.words
  have hpos := hP.nPos
  rw [NatTables.leftAll, List.all_eq_true] at h
  have h := h r (List.mem_range.2 hlt)
  rw [force_eq, force_eq, hn] at h
  simp only [toConsts, hn]
  exact isInv_matrixBuf hpos (by omega) h

/-- The state after `r` rounds that start with round `t`. -/
def runN (T : NatTables) (m key : ℕ) : ℕ → ℕ → ℕ → ℕ
  | 0, _, S => S
  | r + 1, t, S => force (sboxN T.n m S) fun S => force (T.L t) fun A => force (mulN T.n A S) fun S => force (T.K (t + 1)) fun B =>
      force (mulN T.n B key) fun k => force (S ^^^ ofNum T.n (T.RC t) ^^^ k) fun S => runN T m key r (t + 1) S

theorem runN_eq (T : NatTables) (m key pt r t : ℕ) : runN T m key r t (stateN T m key pt t) = stateN T m key pt (t + r) := by
  induction r generalizing t with
  | zero => rfl
  | succ r ih =>
    rw [runN]
    simp only [force_eq]
    rw [show t + (r + 1) = t + 1 + r by omega, ← ih (t + 1)]
    rfl

/-- The ciphertext is the encryption, with zero bits at the end. -/
def katCheckAll (T : NatTables) (m r : ℕ) (key pt ct : Buf) : Bool :=
  (force (ofBuf T.n key) fun k => force (ofBuf T.n pt ^^^ mulN T.n (T.K 0) k) fun S => Nat.beq (runN T m k r 0 S) (ofBuf T.n ct)) &&
    (List.range (8 * bytesFor T.n - T.n)).all fun k => decide (bitsOf ct (T.n + k) = 0)

theorem relation_of_checkAll {P : Params} (hP : ParamsWF P) {T : NatTables} (hn : T.n = P.stateSizeBits) {key pt ct : Buf}
    (h : katCheckAll T P.numSboxes P.numRounds key pt ct = true) : Relation P (toConsts P.stateSizeWords T) key pt ct := by
  have hpos := hP.nPos
  rw [katCheckAll, Bool.and_eq_true, List.all_eq_true] at h
  obtain ⟨h1, h2⟩ := h
  simp only [force_eq] at h1
  have e := Nat.eq_of_beq_eq_true h1
  have e2 := runN_eq T P.numSboxes (ofBuf T.n key) (ofBuf T.n pt) P.numRounds 0
  rw [Nat.zero_add] at e2
  rw [show ofBuf T.n pt ^^^ mulN T.n (T.K 0) (ofBuf T.n key) = stateN T P.numSboxes (ofBuf T.n key) (ofBuf T.n pt) 0 from rfl, e2] at e
  intro i hi
  by_cases hin : i < P.stateSizeBits
  · rw [if_pos hin, LowMC.enc, show (lowmcOf P (toConsts P.stateSizeWords T)).r = P.numRounds from rfl, ← val_stateN hP hn key pt _ le_rfl hin, e,
      hn, val_ofBuf hpos ct hin]
  · rw [if_neg hin]
    have := h2 (i - T.n) (List.mem_range.2 (by rw [hn]; omega))
    rwa [decide_eq_true_eq, show T.n + (i - T.n) = i by omega] at this

theorem t128_kat : katCheckAll t128 10 20 key128 pt128 ct128 = true := by decide +kernel

theorem t192p_kat : katCheckAll t192p 10 30 key192p pt192p ct192p = true := by decide +kernel

theorem t256_kat : katCheckAll t256 10 38 key256 pt256 ct256 = true := by decide +kernel

end Picnic.Tables
