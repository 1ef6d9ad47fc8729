import Verif.Props.Keys
import Verif.Proofs.Keccak

/-
A concrete environment used to show that the hypotheses of the theorems can be met: the real Keccak permutation and
LowMC tables with identity matrices.
-/

namespace Picnic

open Spec Finset

/-- The n × n identity matrix in the storage format of the library. -/
def idMatrix (P : Params) : Buf :=
  ofBits (fun k => if k / (32 * P.stateSizeWords) = k % (32 * P.stateSizeWords) then 1 else 0)
    (4 * P.stateSizeWords * P.stateSizeBits)

/-- LowMC tables with identity matrices and round constant 1 (first bit set). -/
def idConsts (P : Params) : LowMCConsts :=
  { K := fun _ => idMatrix P, KInv := fun _ => idMatrix P, L := fun _ => idMatrix P, LInv := fun _ => idMatrix P
    RC := fun _ => ofBits (fun k => if k = 0 then 1 else 0) (4 * P.stateSizeWords) }

/-- The example environment. -/
def exEnv : Env := { perm := keccakPerm, lowmc := idConsts, junk := fun a b c => BitVec.ofNat 8 (a + b + c), fuel := 1000 }

theorem matBits_idMatrix {P : Params} (hP : ParamsWF P) {i j : ℕ} (hi : i < P.stateSizeBits) (hj : j < P.stateSizeBits) :
    matBits P.stateSizeWords (idMatrix P) i j = if i = j then 1 else 0 := by
  have hw := hP.words
  have hW : P.stateSizeBits ≤ 32 * P.stateSizeWords := by omega
  have hpos : 0 < 32 * P.stateSizeWords := by omega
  have hlt : 32 * P.stateSizeWords * i + j < 8 * (4 * P.stateSizeWords * P.stateSizeBits) := by
    calc 32 * P.stateSizeWords * i + j < 32 * P.stateSizeWords * i + 32 * P.stateSizeWords := by omega
      _ = 32 * P.stateSizeWords * (i + 1) := by ring
      _ ≤ 32 * P.stateSizeWords * P.stateSizeBits := Nat.mul_le_mul_left _ hi
      _ = _ := by ring
  rw [matBits, idMatrix, bitsOf_ofBits _ hlt, Nat.mul_add_div hpos, Nat.div_eq_of_lt (by omega), Nat.add_zero,
    Nat.mul_add_mod, Nat.mod_eq_of_lt (by omega)]

theorem idMatrix_inv {P : Params} (hP : ParamsWF P) :
    IsInv P.stateSizeBits (matBits P.stateSizeWords (idMatrix P)) (matBits P.stateSizeWords (idMatrix P)) := by
  intro i hi k hk
  rw [sum_eq_single i]
  · rw [matBits_idMatrix hP hi hi, matBits_idMatrix hP hi hk]; simp
  · intro j hj hji
    rw [matBits_idMatrix hP hi (mem_range.1 hj), if_neg (fun h => hji h.symm)]; simp
  · intro h; exact absurd (mem_range.2 hi) h

theorem exEnv_wf : EnvWF exEnv where
  perm := fun s hs => (keccakPerm_spec hs).2.1
  lowmc := fun p P h => by
    have hP := paramsWF_of h
    have hw := hP.words
    refine ⟨fun r _ => ?_, fun r _ => ?_, fun r _ => ?_, fun r _ i h1 h2 => ?_⟩
    · simp [exEnv, idConsts, idMatrix]
    · simp [exEnv, idConsts, idMatrix]
    · simp [exEnv, idConsts]
    · have := hP.nPos
      simp only [exEnv, idConsts]
      rw [bitsOf_ofBits _ (by omega), if_neg (by omega)]

/-- A degenerate environment in which every digest is zero, so that the challenge sampling provably terminates. -/
def zeroEnv : Env := { perm := fun _ => zeros 200, lowmc := idConsts, junk := fun a b c => BitVec.ofNat 8 (a + b + c), fuel := 1000 }

theorem zeroEnv_wf : EnvWF zeroEnv where
  perm := fun _ _ => by simp [zeroEnv]
  lowmc := exEnv_wf.lowmc

end Picnic
