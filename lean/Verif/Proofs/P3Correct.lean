import Verif.Proofs.P3Online2
import Mathlib.Tactic.LinearCombination

/-
The online phase of Picnic3 computes LowMC on masked values; the verifier's run follows the prover's.
-/

namespace Picnic

open Finset Spec

/-- The inverse matrices of the constant tables are inverses. -/
structure InvOK (P : Params) (C : LowMCConsts) : Prop where
  K0 : IsInv P.stateSizeBits (matBits P.stateSizeWords (C.K 0)) (matBits P.stateSizeWords (C.KInv 0))
  L : ∀ r < P.numRounds, IsInv P.stateSizeBits (matBits P.stateSizeWords (C.L r)) (matBits P.stateSizeWords (C.LInv r))

theorem mulVec_inv {n : ℕ} {A B : ℕ → ℕ → ZMod 2} (h : IsInv n A B) (v : Bits) {i : ℕ} (hi : i < n) :
    mulVec n A (mulVec n B v) i = v i := by
  unfold mulVec
  rw [if_pos hi]
  have e1 : ∀ j ∈ range n, A i j * (if j < n then ∑ k ∈ range n, B j k * v k else 0) = ∑ k ∈ range n, A i j * B j k * v k := by
    intro j hj
    rw [if_pos (mem_range.1 hj), mul_sum]
    exact sum_congr rfl fun k _ => by ring
  rw [sum_congr rfl e1, sum_comm]
  have e2 : ∀ k ∈ range n, ∑ j ∈ range n, A i j * B j k * v k = if i = k then v k else 0 := by
    intro k hk
    rw [← sum_mul, h i hi k (mem_range.1 hk)]
    split_ifs <;> simp
  rw [sum_congr rfl e2, sum_ite_eq, if_pos (mem_range.2 hi)]

theorem auxTp_ne {P : Params} {C : LowMCConsts} {tp : ℕ → Buf} {j : ℕ} (h : j ≠ 15) : auxTp P C tp j = tp j := if_neg h

theorem auxTp_length {P : Params} {C : LowMCConsts} {tp : ℕ → Buf} (j : ℕ) : (auxTp P C tp j).length = (tp j).length := by
  unfold auxTp
  split_ifs with h
  · rw [ofBits_length, h]
  · rfl

/-- The tape of the last party at the positions of S-box input masks is unchanged. -/
theorem auxTp_mask {P : Params} {C : LowMCConsts} {tp : ℕ → Buf} {r i : ℕ} (hl : P.stateSizeBits * 2 * r + i < 8 * (tp 15).length)
    (hi : i < P.stateSizeBits) : tpar (auxTp P C tp) (P.stateSizeBits * 2 * r + i) = lam P tp r i := by
  rw [lam]
  unfold tpar
  refine sum_congr rfl fun j _ => ?_
  by_cases e : j = 15
  · subst e
    unfold auxTp
    rw [if_pos rfl, bitsOf_ofBits _ (by omega), auxTape, (pos_div (n := P.stateSizeBits) (r := r) (q := i) (by omega)).2, if_neg (by omega)]
  · rw [auxTp_ne e]

/-- The sum of the AND helper bits of gate `i` of round `r`. -/
theorem auxTp_help {P : Params} {C : LowMCConsts} {tp : ℕ → Buf} {r i : ℕ}
    (hl : P.stateSizeBits * 2 * r + P.stateSizeBits + i < 8 * (tp 15).length) (hi : i < P.stateSizeBits) (hr : r < P.numRounds) :
    tpar (auxTp P C tp) (P.stateSizeBits * 2 * r + P.stateSizeBits + i) = auxBit (lam P tp r) (yOf P C tp r) i := by
  have h1 : tpar15 (auxTp P C tp) (P.stateSizeBits * 2 * r + P.stateSizeBits + i) = tpar15 tp (P.stateSizeBits * 2 * r + P.stateSizeBits + i) := by
    unfold tpar15
    refine sum_congr rfl fun j hj => ?_
    rw [auxTp_ne (by have := mem_range.1 hj; omega)]
  have hdm := pos_div (n := P.stateSizeBits) (r := r) (q := P.stateSizeBits + i) (by omega)
  rw [← Nat.add_assoc] at hdm
  have hRn : P.stateSizeBits * 2 * (r + 1) ≤ P.stateSizeBits * 2 * P.numRounds := Nat.mul_le_mul_left _ hr
  rw [Nat.mul_succ] at hRn
  rw [tpar_eq, h1]
  unfold auxTp
  rw [if_pos rfl, bitsOf_ofBits _ hl, auxTape, hdm.1, hdm.2, if_pos (by omega), Nat.add_sub_cancel_left]
  linear_combination zmod2_add_self (tpar15 tp (P.stateSizeBits * 2 * r + P.stateSizeBits + i))

/-- In the prover's run the public output of an AND gate is the product of the real values plus the gate's mask. -/
theorem andB_prover {P : Params} {C : LowMCConsts} {tp : ℕ → Buf} {mu : ℕ → ℕ → ZMod 2} {s x : Bits} {r i mb : ℕ} (hn : P.stateSizeBits % 3 = 0)
    (hl : P.stateSizeBits * 2 * r + P.stateSizeBits * 2 ≤ 8 * (tp 15).length) (hi : i < P.stateSizeBits) (hr : r < P.numRounds)
    (hs : ∀ i < P.stateSizeBits, s i = x i + lam P tp r i) :
    andB (fun j => bitsOf (auxTp P C tp j)) mu none (P.stateSizeBits * 2 * r) (P.stateSizeBits * 2 * r + P.stateSizeBits) mb s i =
      x (fstIx i) * x (sndIx i) + freshOf (lam P tp r) (yOf P C tp r) i := by
  have hix := fst_lt hn hi
  have e : andB (fun j => bitsOf (auxTp P C tp j)) mu none (P.stateSizeBits * 2 * r) (P.stateSizeBits * 2 * r + P.stateSizeBits) mb s i =
      s (fstIx i) * tpar (auxTp P C tp) (P.stateSizeBits * 2 * r + sndIx i) + s (sndIx i) * tpar (auxTp P C tp) (P.stateSizeBits * 2 * r + fstIx i) +
      tpar (auxTp P C tp) (P.stateSizeBits * 2 * r + P.stateSizeBits + i) + s (fstIx i) * s (sndIx i) := by
    unfold andB tpar
    rw [mul_sum, mul_sum, ← sum_add_distrib, ← sum_add_distrib]
    congr 1
  rw [e, auxTp_mask (by omega) hix.1, auxTp_mask (by omega) hix.2, auxTp_help (by omega) hi hr, auxBit, hs _ hix.1, hs _ hix.2]
  linear_combination zmod2_add_self (x (fstIx i) * lam P tp r (sndIx i)) + zmod2_add_self (x (sndIx i) * lam P tp r (fstIx i)) +
    2 * zmod2_add_self (lam P tp r (fstIx i) * lam P tp r (sndIx i))

/-- The S-box outputs of the prover's run are the real outputs plus `yOf`. -/
theorem sboxB_prover {P : Params} {C : LowMCConsts} {tp : ℕ → Buf} {mu : ℕ → ℕ → ZMod 2} {s x : Bits} {r i mb : ℕ} (hn : 3 * P.numSboxes = P.stateSizeBits)
    (hl : P.stateSizeBits * 2 * r + P.stateSizeBits * 2 ≤ 8 * (tp 15).length) (hi : i < P.stateSizeBits) (hr : r < P.numRounds)
    (hs : ∀ i < P.stateSizeBits, s i = x i + lam P tp r i) :
    sboxB s (andB (fun j => bitsOf (auxTp P C tp j)) mu none (P.stateSizeBits * 2 * r) (P.stateSizeBits * 2 * r + P.stateSizeBits) mb s) i =
      sboxLayer P.numSboxes x i + yOf P C tp r i := by
  have hn3 : P.stateSizeBits % 3 = 0 := by omega
  have hA := fun (q : ℕ) (hq : q < P.stateSizeBits) => andB_prover (C := C) (mu := mu) (mb := mb) hn3 hl hq hr hs
  unfold sboxLayer
  rw [if_pos (by omega)]
  obtain ⟨k, hk⟩ : ∃ k, k = i / 3 := ⟨_, rfl⟩
  have h012 : i = 3 * k ∨ i = 3 * k + 1 ∨ i = 3 * k + 2 := by omega
  rw [← hk]
  dsimp only [sbox]
  rcases h012 with h | h | h
  · rw [h, sboxB_0, hA _ (by omega), (fs_0 k).1, (fs_0 k).2, hs (3 * k + 2) (by omega), hs (3 * k + 1) (by omega), hs (3 * k) (by omega), (ix3 k).1.2,
      if_neg (by omega), if_neg (by omega), freshOf, (ix3 k).1.1, (ix3 k).1.2, if_pos rfl]
    linear_combination zmod2_add_self (lam P tp r (3 * k + 2)) + zmod2_add_self (lam P tp r (3 * k + 1)) + zmod2_add_self (lam P tp r (3 * k))
  · rw [h, sboxB_1, hA _ (by omega), (fs_2 k).1, (fs_2 k).2, hs (3 * k + 2) (by omega), hs (3 * k + 1) (by omega), (ix3 k).2.1.2,
      if_neg (by omega), if_pos rfl, freshOf, (ix3 k).2.2.1, (ix3 k).2.2.2, if_neg (by omega), if_neg (by omega)]
    linear_combination zmod2_add_self (lam P tp r (3 * k + 2)) + zmod2_add_self (lam P tp r (3 * k + 1))
  · rw [h, sboxB_2, hA _ (by omega), (fs_1 k).1, (fs_1 k).2, hs (3 * k + 2) (by omega), (ix3 k).2.2.2,
      if_pos rfl, freshOf, (ix3 k).2.1.1, (ix3 k).2.1.2, if_neg (by omega), if_pos rfl]
    linear_combination zmod2_add_self (lam P tp r (3 * k + 2))

theorem onState_prover {P : Params} {C : LowMCConsts} {tp : ℕ → Buf} {mu : ℕ → ℕ → ZMod 2} {key pt mk : Bits} (hP : ParamsWF P) (h3 : P3WF P)
    (hI : InvOK P C) (hl : (tp 15).length = 2 * P.andSizeBytes) (hmk : ∀ i < P.stateSizeBits, mk i = key i + kap P C tp i)
    {r : ℕ} (hr : r ≤ P.numRounds) {i : ℕ} (hi : i < P.stateSizeBits) :
    onState P C (fun j => bitsOf (auxTp P C tp j)) mu none mk pt r i = (lowmcOf P C).state key pt r i + maskAt P tp r i := by
  have hR := hP.rounds
  have hkey : ∀ q, mulVec P.stateSizeBits (matBits P.stateSizeWords (C.K q)) mk =
      mulVec P.stateSizeBits (matBits P.stateSizeWords (C.K q)) key + mulVec P.stateSizeBits (matBits P.stateSizeWords (C.K q)) (kap P C tp) := by
    intro q
    rw [← mulVec_add]
    exact mulVec_congr fun i hi => by rw [Pi.add_apply]; exact hmk i hi
  induction r generalizing i with
  | zero =>
    rw [onState, LowMC.state, maskAt, if_neg (by omega), hkey, Pi.add_apply, Pi.add_apply, Pi.add_apply]
    have e := mulVec_inv hI.K0 (lam P tp 0) hi
    rw [kap, e]
    simp only [lowmcOf]
    ring
  | succ r ih =>
    have htape : P.stateSizeBits * 2 * r + P.stateSizeBits * 2 ≤ 8 * (tp 15).length := by
      have h1 : P.stateSizeBits * (r + 1) ≤ P.stateSizeBits * P.numRounds := Nat.mul_le_mul_left _ hr
      have h2 : P.stateSizeBits * 2 * r + P.stateSizeBits * 2 = 2 * (P.stateSizeBits * (r + 1)) := by ring
      have := h3.tape
      rw [hl]; omega
    have hs : ∀ i < P.stateSizeBits, onState P C (fun j => bitsOf (auxTp P C tp j)) mu none mk pt r i =
        (lowmcOf P C).state key pt r i + lam P tp r i := by
      intro i hi
      rw [ih (by omega) hi, maskAt, if_neg (by omega)]
    rw [onState, LowMC.state, hkey]
    have e1 : mulVec P.stateSizeBits (matBits P.stateSizeWords (C.L r)) (sboxB (onState P C (fun j => bitsOf (auxTp P C tp j)) mu none mk pt r)
        (andB (fun j => bitsOf (auxTp P C tp j)) mu none (P.stateSizeBits * 2 * r) (P.stateSizeBits * 2 * r + P.stateSizeBits) (P.stateSizeBits * r)
          (onState P C (fun j => bitsOf (auxTp P C tp j)) mu none mk pt r))) =
        mulVec P.stateSizeBits (matBits P.stateSizeWords (C.L r)) (sboxLayer P.numSboxes ((lowmcOf P C).state key pt r)) +
        mulVec P.stateSizeBits (matBits P.stateSizeWords (C.L r)) (yOf P C tp r) := by
      rw [← mulVec_add]
      refine mulVec_congr fun q hq => ?_
      rw [Pi.add_apply]
      exact sboxB_prover h3.full htape hq (by omega) hs
    have e2 : mulVec P.stateSizeBits (matBits P.stateSizeWords (C.L r)) (yOf P C tp r) i =
        maskAt P tp (r + 1) i + mulVec P.stateSizeBits (matBits P.stateSizeWords (C.K (r + 1))) (kap P C tp) i := by
      rw [yOf, mulVec_inv (hI.L r (by omega)) _ hi, Pi.add_apply]
    rw [e1]
    simp only [Pi.add_apply]
    rw [e2]
    simp only [lowmcOf]
    linear_combination zmod2_add_self (mulVec P.stateSizeBits (matBits P.stateSizeWords (C.K (r + 1))) (kap P C tp) i)

/-- The output of the prover's run is the LowMC ciphertext. -/
theorem onState_enc {P : Params} {C : LowMCConsts} {tp : ℕ → Buf} {mu : ℕ → ℕ → ZMod 2} {key pt mk : Bits} (hP : ParamsWF P) (h3 : P3WF P)
    (hI : InvOK P C) (hl : (tp 15).length = 2 * P.andSizeBytes) (hmk : ∀ i < P.stateSizeBits, mk i = key i + kap P C tp i) :
    onState P C (fun j => bitsOf (auxTp P C tp j)) mu none mk pt P.numRounds = (lowmcOf P C).enc key pt := by
  funext i
  by_cases hi : i < P.stateSizeBits
  · rw [onState_prover hP h3 hI hl hmk le_rfl hi, maskAt, if_pos rfl, Pi.zero_apply, add_zero]; rfl
  · rw [onState_ge hP.rounds (by omega), enc_ge hP.rounds (by omega)]

/-! ### the verifier follows the prover -/

/-- If the verifier has the tapes of all parties but `k` and the messages of party `k`, it computes the same states. -/
theorem onState_lockstep {P : Params} {C : LowMCConsts} {tb tb' mu mu' : ℕ → ℕ → ZMod 2} {k : ℕ} {mk mk' pt pt' : Bits} (hn : P.stateSizeBits % 3 = 0)
    (htb : ∀ j < 16, j ≠ k → ∀ p < P.stateSizeBits * 2 * P.numRounds, tb j p = tb' j p)
    (hmk : ∀ i < P.stateSizeBits, mk i = mk' i) (hpt : ∀ i < P.stateSizeBits, pt i = pt' i)
    (hmu : ∀ r < P.numRounds, ∀ i < P.stateSizeBits, mu' k (P.stateSizeBits * r + i) = onShare P C tb mu none mk pt r k i) :
    (∀ r ≤ P.numRounds, ∀ i < P.stateSizeBits, onState P C tb mu none mk pt r i = onState P C tb' mu' (some k) mk' pt' r i) ∧
    ∀ r < P.numRounds, ∀ j < 16, ∀ i < P.stateSizeBits, onShare P C tb mu none mk pt r j i = onShare P C tb' mu' (some k) mk' pt' r j i := by
  have hsh : ∀ r < P.numRounds, (∀ i < P.stateSizeBits, onState P C tb mu none mk pt r i = onState P C tb' mu' (some k) mk' pt' r i) →
      ∀ j < 16, ∀ i < P.stateSizeBits, onShare P C tb mu none mk pt r j i = onShare P C tb' mu' (some k) mk' pt' r j i := by
    intro r hr hs j hj i hi
    by_cases e : j = k
    · subst e
      rw [← hmu r hr i hi, onShare, shareB, if_pos rfl]
    · have hix := fst_lt hn hi
      have hRn : P.stateSizeBits * 2 * (r + 1) ≤ P.stateSizeBits * 2 * P.numRounds := Nat.mul_le_mul_left _ hr
      rw [Nat.mul_succ] at hRn
      unfold onShare shareB
      rw [if_neg (by simp), if_neg (by simpa using fun h => e h.symm), hs _ hix.1, hs _ hix.2, htb j hj e _ (by omega), htb j hj e _ (by omega),
        htb j hj e _ (by omega)]
  have hst : ∀ r ≤ P.numRounds, ∀ i < P.stateSizeBits, onState P C tb mu none mk pt r i = onState P C tb' mu' (some k) mk' pt' r i := by
    intro r
    induction r with
    | zero =>
      intro _ i hi
      rw [onState, onState, Pi.add_apply, Pi.add_apply, hpt i hi, mulVec_congr hmk]
    | succ r ih =>
      intro hr i hi
      have ih := ih (by omega)
      rw [onState, onState, mulVec_congr hmk]
      simp only [Pi.add_apply]
      congr 2
      refine congrFun (mulVec_congr fun q hq => ?_) i
      refine sboxB_congr hn ih (fun q hq => ?_) hq
      have hix := fst_lt hn hq
      unfold andB
      rw [ih _ hix.1, ih _ hix.2]
      refine congrArg (· + _) (sum_congr rfl fun j hj => ?_)
      have := hsh r (by omega) ih j (mem_range.1 hj) q hq
      unfold onShare at this
      exact this
  exact ⟨hst, fun r hr => hsh r hr (hst r (by omega))⟩

end Picnic
