import Verif.Proofs.P3Sign
import Verif.Proofs.Conf3

/-
The unopened party of a Picnic3 repetition: for every key there is exactly one tape that explains what is published.
-/

namespace Picnic

open Finset Spec

variable {E : Env} {P : Params} {C : LowMCConsts}

/-- The S-box outputs determine the outputs of the AND gates. -/
theorem sboxB_inj {s a b : Bits} {n : ℕ} (hn : n % 3 = 0) (h : ∀ i < n, sboxB s a i = sboxB s b i) {i : ℕ} (hi : i < n) : a i = b i := by
  obtain ⟨k, hk⟩ : ∃ k, k = i / 3 := ⟨_, rfl⟩
  have h0 := h (3 * k) (by omega)
  have h1 := h (3 * k + 1) (by omega)
  have h2 := h (3 * k + 2) (by omega)
  rw [sboxB_0, sboxB_0] at h0
  rw [sboxB_1, sboxB_1] at h1
  rw [sboxB_2, sboxB_2] at h2
  have : i = 3 * k ∨ i = 3 * k + 1 ∨ i = 3 * k + 2 := by omega
  rcases this with rfl | rfl | rfl
  · exact add_left_cancel h0
  · exact add_left_cancel h2
  · exact add_left_cancel h1

/-- Sum over the other parties. -/
def others (tp : ℕ → Buf) (k p : ℕ) : ZMod 2 := ∑ j ∈ (range 16).erase k, bitsOf (tp j) p

theorem tpar_others {tp : ℕ → Buf} {k : ℕ} (hk : k < 16) (p : ℕ) : tpar tp p = others tp k p + bitsOf (tp k) p := by
  rw [tpar, others, sum_erase_add _ _ (mem_range.2 hk)]

theorem others_update {tp : ℕ → Buf} {k : ℕ} (z : Buf) (p : ℕ) : others (Function.update tp k z) k p = others tp k p := by
  unfold others
  refine sum_congr rfl fun j hj => ?_
  rw [Function.update_of_ne (mem_erase.1 hj).1]

section
variable (P C) (tp : ℕ → Buf) (k : ℕ) (S X : ℕ → Bits) (M : ℕ → ℕ → ZMod 2)

/-- The mask bits of party `k` if the masked states are `S` and the states `X`. -/
def hidMask (p : ℕ) : ZMod 2 := S (p / (P.stateSizeBits * 2)) (p % (P.stateSizeBits * 2)) + X (p / (P.stateSizeBits * 2)) (p % (P.stateSizeBits * 2)) + others tp k p

/-- The tape of party `k` if in addition its messages are `M`. -/
def hidTape3 (p : ℕ) : ZMod 2 :=
  if P.stateSizeBits * 2 * P.numRounds ≤ p then bitsOf (tp k) p
  else if p % (P.stateSizeBits * 2) < P.stateSizeBits then hidMask P tp k S X p
  else
    let r := p / (P.stateSizeBits * 2)
    let i := p % (P.stateSizeBits * 2) - P.stateSizeBits
    M r i + S r (fstIx i) * hidMask P tp k S X (P.stateSizeBits * 2 * r + sndIx i) + S r (sndIx i) * hidMask P tp k S X (P.stateSizeBits * 2 * r + fstIx i)

end

theorem hidTape3_mask {tp : ℕ → Buf} {k : ℕ} {S X : ℕ → Bits} {M : ℕ → ℕ → ZMod 2} {r i : ℕ} (hr : r < P.numRounds) (hi : i < P.stateSizeBits) :
    hidTape3 P tp k S X M (P.stateSizeBits * 2 * r + i) = S r i + X r i + others tp k (P.stateSizeBits * 2 * r + i) := by
  have h1 : P.stateSizeBits * 2 * (r + 1) ≤ P.stateSizeBits * 2 * P.numRounds := Nat.mul_le_mul_left _ hr
  rw [Nat.mul_succ] at h1
  have h2 := pos_div (n := P.stateSizeBits) (r := r) (q := i) (by omega)
  rw [hidTape3, if_neg (by omega), h2.2, if_pos hi, hidMask, h2.1, h2.2]

theorem hidTape3_gate {tp : ℕ → Buf} {k : ℕ} {S X : ℕ → Bits} {M : ℕ → ℕ → ZMod 2} {r i : ℕ} (hn : P.stateSizeBits % 3 = 0) (hr : r < P.numRounds) (hi : i < P.stateSizeBits) :
    hidTape3 P tp k S X M (P.stateSizeBits * 2 * r + P.stateSizeBits + i) =
      M r i + S r (fstIx i) * hidTape3 P tp k S X M (P.stateSizeBits * 2 * r + sndIx i) + S r (sndIx i) * hidTape3 P tp k S X M (P.stateSizeBits * 2 * r + fstIx i) := by
  have h1 : P.stateSizeBits * 2 * (r + 1) ≤ P.stateSizeBits * 2 * P.numRounds := Nat.mul_le_mul_left _ hr
  rw [Nat.mul_succ] at h1
  have h2 := pos_div (n := P.stateSizeBits) (r := r) (q := P.stateSizeBits + i) (by omega)
  have hix := fst_lt hn hi
  have hm : ∀ q < P.stateSizeBits, hidTape3 P tp k S X M (P.stateSizeBits * 2 * r + q) = hidMask P tp k S X (P.stateSizeBits * 2 * r + q) := fun q hq => by
    have h3 := pos_div (n := P.stateSizeBits) (r := r) (q := q) (by omega)
    rw [hidTape3_mask hr hq, hidMask, h3.1, h3.2]
  rw [hm _ hix.1, hm _ hix.2]
  conv_lhs => rw [hidTape3]
  rw [if_neg (by omega), Nat.add_assoc, h2.2, if_neg (by omega), h2.1, Nat.add_sub_cancel_left]

theorem auxTp_bit {tp : ℕ → Buf} {j r i : ℕ} (hl : ∀ j < 16, P.stateSizeBits * 2 * r + i < 8 * (tp j).length) (hj : j < 16)
    (hi : i < P.stateSizeBits) : bitsOf (auxTp P C tp j) (P.stateSizeBits * 2 * r + i) = bitsOf (tp j) (P.stateSizeBits * 2 * r + i) := by
  unfold auxTp
  split_ifs with e
  · subst e
    rw [bitsOf_ofBits _ (hl 15 hj), auxTape, if_neg]
    rintro ⟨-, h2⟩
    rw [(pos_div (n := P.stateSizeBits) (r := r) (q := i) (by omega)).2] at h2
    omega
  · rfl

/-! ### existence -/

section
variable {tp : ℕ → Buf} {k : ℕ} {key key' pt mk : Bits} {mu : ℕ → ℕ → ZMod 2}

theorem onState_zero_eq {tb : ℕ → ℕ → ZMod 2} {u : Option ℕ} (i : ℕ) :
    onState P C tb mu u mk pt 0 i = mulVec P.stateSizeBits (matBits P.stateSizeWords (C.K 0)) mk i + pt i := rfl

/-- An accepted run of the verifier (`tb`, `mu`, with party `k` unopened) is explained by every key that belongs to the
ciphertext: with the tape above for party `k` the prover publishes exactly this run. -/
theorem hidden_exists {tb mu' : ℕ → ℕ → ZMod 2} (hP : ParamsWF P) (h3 : P3WF P) (hI : InvOK P C) (hl : ∀ j < 16, (tp j).length = 2 * P.andSizeBytes) (hk : k < 16)
    (htb : ∀ j < 16, j ≠ k → ∀ p < P.stateSizeBits * 2 * P.numRounds, (p % (P.stateSizeBits * 2) < P.stateSizeBits ∨ j ≠ 15) → tb j p = bitsOf (tp j) p)
    (hct : ∀ i < P.stateSizeBits, onState P C tb mu (some k) mk pt P.numRounds i = (lowmcOf P C).enc key' pt i) {th : Buf} (hthl : th.length = 2 * P.andSizeBytes)
    (hth : ∀ p < P.stateSizeBits * 2 * P.numRounds, (p % (P.stateSizeBits * 2) < P.stateSizeBits ∨ k ≠ 15) → bitsOf th p =
      hidTape3 P tp k (onState P C tb mu (some k) mk pt) ((lowmcOf P C).state key' pt) (fun r i => mu k (P.stateSizeBits * r + i)) p) :
    (∀ i < P.stateSizeBits, mk i = key' i + kap P C (Function.update tp k th) i) ∧
    (∀ r < P.numRounds, ∀ j < 16, ∀ i < P.stateSizeBits,
      onShare P C (fun j => bitsOf (auxTp P C (Function.update tp k th) j)) mu' none mk pt r j i = onShare P C tb mu (some k) mk pt r j i) ∧
    (k ≠ 15 → ∀ r < P.numRounds, ∀ i < P.stateSizeBits,
      bitsOf (auxTp P C (Function.update tp k th) 15) (P.stateSizeBits * 2 * r + P.stateSizeBits + i) =
        tb 15 (P.stateSizeBits * 2 * r + P.stateSizeBits + i)) := by
  have hR := hP.rounds
  have hn3 : P.stateSizeBits % 3 = 0 := by have := h3.full; omega
  have htape := h3.tape
  obtain ⟨S, hS⟩ : ∃ S, S = onState P C tb mu (some k) mk pt := ⟨_, rfl⟩
  obtain ⟨M, hM⟩ : ∃ M : ℕ → ℕ → ZMod 2, M = fun r i => mu k (P.stateSizeBits * r + i) := ⟨_, rfl⟩
  obtain ⟨tp2, htp2⟩ : ∃ tp2, tp2 = Function.update tp k th := ⟨_, rfl⟩
  rw [← hS] at hct
  rw [← hS, ← hM] at hth
  rw [← htp2]
  have hl2 : ∀ j < 16, (tp2 j).length = 2 * P.andSizeBytes := fun j hj => by
    rw [htp2]
    by_cases e : j = k
    · subst e; rw [Function.update_self, hthl]
    · rw [Function.update_of_ne e, hl j hj]
  have hpos : ∀ r < P.numRounds, P.stateSizeBits * 2 * r + P.stateSizeBits * 2 ≤ P.stateSizeBits * 2 * P.numRounds := fun r hr => by
    have := Nat.mul_le_mul_left (P.stateSizeBits * 2) (show r + 1 ≤ P.numRounds from hr)
    rw [Nat.mul_succ] at this
    exact this
  have htot : P.stateSizeBits * 2 * P.numRounds ≤ 8 * (2 * P.andSizeBytes) := by
    calc P.stateSizeBits * 2 * P.numRounds = 2 * (P.stateSizeBits * P.numRounds) := by ring
      _ ≤ 2 * (8 * P.andSizeBytes) := Nat.mul_le_mul_left _ htape
      _ = _ := by ring
  -- the masks
  have hlam : ∀ r < P.numRounds, ∀ i < P.stateSizeBits, lam P tp2 r i = S r i + (lowmcOf P C).state key' pt r i := fun r hr i hi => by
    have hp := hpos r hr
    rw [lam, tpar_others hk, htp2, others_update, Function.update_self, hth _ (by omega)
      (Or.inl (by rw [(pos_div (n := P.stateSizeBits) (r := r) (q := i) (by omega)).2]; exact hi)), hidTape3_mask hr hi]
    have e : ∀ a b c : ZMod 2, a + (b + c + a) = b + c := by decide
    exact e _ _ _
  have hkap : ∀ i < P.stateSizeBits, mk i = key' i + kap P C tp2 i := by
    have e0 : ∀ i < P.stateSizeBits, lam P tp2 0 i = mulVec P.stateSizeBits (matBits P.stateSizeWords (C.K 0)) (mk + key') i := fun i hi => by
      rw [hlam 0 hR i hi, hS, onState_zero_eq, mulVec_add]
      change _ + (pt i + mulVec P.stateSizeBits (matBits P.stateSizeWords (C.K 0)) key' i) = _
      rw [Pi.add_apply]
      have e : ∀ a b c : ZMod 2, a + b + (b + c) = a + c := by decide
      exact e _ _ _
    intro i hi
    rw [kap, mulVec_congr e0, mulVec_inv (isInv_symm hI.K0) _ hi, Pi.add_apply]
    have e : ∀ a b : ZMod 2, a = b + (a + b) := by decide
    exact e _ _
  refine ⟨hkap, ?_⟩
  -- the states
  have hstate : ∀ r ≤ P.numRounds, ∀ i < P.stateSizeBits, onState P C (fun j => bitsOf (auxTp P C tp2 j)) mu' none mk pt r i = S r i := fun r hr i hi => by
    rw [onState_prover hP h3 hI (hl2 15 (by omega)) hkap hr hi, maskAt]
    by_cases e : r = P.numRounds
    · rw [if_pos e, Pi.zero_apply, add_zero, e]
      exact (hct i hi).symm
    · rw [if_neg e, hlam r (by omega) i hi]
      have e : ∀ a b : ZMod 2, a + (b + a) = b := by decide
      exact e _ _
  -- the outputs of the AND gates
  obtain ⟨A, hA⟩ : ∃ A : ℕ → Bits, ∀ r, A r = andB (fun j => bitsOf (auxTp P C tp2 j)) mu' none (P.stateSizeBits * 2 * r)
    (P.stateSizeBits * 2 * r + P.stateSizeBits) (P.stateSizeBits * r) (S r) := ⟨_, fun _ => rfl⟩
  obtain ⟨A', hA'⟩ : ∃ A' : ℕ → Bits, ∀ r, A' r = andB tb mu (some k) (P.stateSizeBits * 2 * r)
    (P.stateSizeBits * 2 * r + P.stateSizeBits) (P.stateSizeBits * r) (S r) := ⟨_, fun _ => rfl⟩
  have hAnd : ∀ r < P.numRounds, ∀ i < P.stateSizeBits, A r i = A' r i := fun r hr i hi => by
    refine sboxB_inj (s := S r) hn3 (fun i hi => ?_) hi
    refine mulVec_inj (isInv_symm (isInv_symm (hI.L r hr))) (fun i hi => ?_) hi
    have e1 : onState P C (fun j => bitsOf (auxTp P C tp2 j)) mu' none mk pt (r + 1) i = S (r + 1) i := hstate (r + 1) hr i hi
    have e2 : S (r + 1) i = mulVec P.stateSizeBits (matBits P.stateSizeWords (C.L r)) (sboxB (S r) (A' r)) i +
        trunc P.stateSizeBits (bitsOf (C.RC r)) i + mulVec P.stateSizeBits (matBits P.stateSizeWords (C.K (r + 1))) mk i := by
      rw [hA', hS]; rfl
    have e3 : onState P C (fun j => bitsOf (auxTp P C tp2 j)) mu' none mk pt (r + 1) i =
        mulVec P.stateSizeBits (matBits P.stateSizeWords (C.L r)) (sboxB (S r) (A r)) i +
        trunc P.stateSizeBits (bitsOf (C.RC r)) i + mulVec P.stateSizeBits (matBits P.stateSizeWords (C.K (r + 1))) mk i := by
      suffices hs : ∀ q < P.stateSizeBits, sboxB (onState P C (fun j => bitsOf (auxTp P C tp2 j)) mu' none mk pt r)
          (andB (fun j => bitsOf (auxTp P C tp2 j)) mu' none (P.stateSizeBits * 2 * r) (P.stateSizeBits * 2 * r + P.stateSizeBits) (P.stateSizeBits * r)
            (onState P C (fun j => bitsOf (auxTp P C tp2 j)) mu' none mk pt r)) q = sboxB (S r) (A r) q by
        rw [onState, mulVec_congr hs]; rfl
      intro q hq
      refine sboxB_congr hn3 (hstate r (by omega)) (fun q hq => ?_) hq
      rw [hA]
      exact andB_congr hn3 (hstate r (by omega)) (fun _ _ => rfl) hq
    rw [e3, e2] at e1
    exact add_right_cancel (add_right_cancel e1)
  -- the messages
  obtain ⟨B, hB⟩ : ∃ B : ℕ → ℕ → Bits, ∀ r j, B r j = shareB (fun j => bitsOf (auxTp P C tp2 j)) mu' none (P.stateSizeBits * 2 * r)
    (P.stateSizeBits * 2 * r + P.stateSizeBits) (P.stateSizeBits * r) (S r) j := ⟨_, fun _ _ => rfl⟩
  obtain ⟨B', hB'⟩ : ∃ B' : ℕ → ℕ → Bits, ∀ r j, B' r j = shareB tb mu (some k) (P.stateSizeBits * 2 * r)
    (P.stateSizeBits * 2 * r + P.stateSizeBits) (P.stateSizeBits * r) (S r) j := ⟨_, fun _ _ => rfl⟩
  have hon2 : ∀ r < P.numRounds, ∀ j, ∀ i < P.stateSizeBits, onShare P C (fun j => bitsOf (auxTp P C tp2 j)) mu' none mk pt r j i = B r j i := fun r hr j i hi => by
    rw [onShare, hB]
    exact shareB_congr hn3 (hstate r (by omega)) rfl hi
  have hon1 : ∀ r j i, onShare P C tb mu (some k) mk pt r j i = B' r j i := fun r j i => by
    rw [onShare, hB', ← hS]
  have eB : ∀ r j i, B r j i = S r (fstIx i) * bitsOf (auxTp P C tp2 j) (P.stateSizeBits * 2 * r + sndIx i) +
      S r (sndIx i) * bitsOf (auxTp P C tp2 j) (P.stateSizeBits * 2 * r + fstIx i) + bitsOf (auxTp P C tp2 j) (P.stateSizeBits * 2 * r + P.stateSizeBits + i) := fun r j i => by
    rw [hB, shareB, if_neg (by simp)]
  have eB' : ∀ r j i, j ≠ k → B' r j i = S r (fstIx i) * tb j (P.stateSizeBits * 2 * r + sndIx i) +
      S r (sndIx i) * tb j (P.stateSizeBits * 2 * r + fstIx i) + tb j (P.stateSizeBits * 2 * r + P.stateSizeBits + i) := fun r j i h => by
    rw [hB', shareB, if_neg (by simpa using fun e => h e.symm)]
  have eBk : ∀ r i, B' r k i = M r i := fun r i => by rw [hB', shareB, if_pos rfl, hM]
  have hne : ∀ r < P.numRounds, ∀ j < 16, j ≠ 15 → ∀ i < P.stateSizeBits, B r j i = B' r j i := fun r hr j hj16 hj i hi => by
    have hp := hpos r hr
    have hix := fst_lt hn3 hi
    by_cases e : j = k
    · subst e
      have hm : ∀ q < P.stateSizeBits, bitsOf th (P.stateSizeBits * 2 * r + q) = hidTape3 P tp j S ((lowmcOf P C).state key' pt) M (P.stateSizeBits * 2 * r + q) :=
        fun q hq => hth _ (by omega) (Or.inr hj)
      have hg : bitsOf th (P.stateSizeBits * 2 * r + P.stateSizeBits + i) = _ := hth _ (by omega) (Or.inr hj)
      rw [hidTape3_gate hn3 hr hi, ← hm _ hix.1, ← hm _ hix.2] at hg
      rw [eB, auxTp_ne hj, htp2, Function.update_self, hg, eBk]
      have e : ∀ a b c : ZMod 2, a + b + (c + a + b) = c := by decide
      exact e _ _ _
    · rw [eB, eB' _ _ _ e, auxTp_ne hj, htp2, Function.update_of_ne e, htb j hj16 e _ (by omega) (Or.inr hj), htb j hj16 e _ (by omega) (Or.inr hj),
        htb j hj16 e _ (by omega) (Or.inr hj)]
  have h15 : ∀ r < P.numRounds, ∀ i < P.stateSizeBits, B r 15 i = B' r 15 i := fun r hr i hi => by
    have h1 := hAnd r hr i hi
    have sA : A r i = ∑ j ∈ range 15, B r j i + B r 15 i + S r (fstIx i) * S r (sndIx i) := by
      rw [hA, andB, sum_range_succ]
      simp only [hB]
    have sA' : A' r i = ∑ j ∈ range 15, B' r j i + B' r 15 i + S r (fstIx i) * S r (sndIx i) := by
      rw [hA', andB, sum_range_succ]
      simp only [hB']
    rw [sA, sA', sum_congr rfl fun j hj => hne r hr j (by have := mem_range.1 hj; omega) (by have := mem_range.1 hj; omega) i hi] at h1
    exact add_left_cancel (add_right_cancel h1)
  have hBB : ∀ r < P.numRounds, ∀ j < 16, ∀ i < P.stateSizeBits, B r j i = B' r j i := fun r hr j hj i hi => by
    by_cases e : j = 15
    · rw [e]; exact h15 r hr i hi
    · exact hne r hr j hj e i hi
  refine ⟨fun r hr j hj i hi => by rw [hon2 r hr j i hi, hon1, hBB r hr j hj i hi], fun hk15 r hr i hi => ?_⟩
  have hp := hpos r hr
  have hix := fst_lt hn3 hi
  have h1 := hBB r hr 15 (by omega) i hi
  have hq : ∀ q < P.stateSizeBits, bitsOf (auxTp P C tp2 15) (P.stateSizeBits * 2 * r + q) = tb 15 (P.stateSizeBits * 2 * r + q) := fun q hq => by
    rw [auxTp_bit (fun j hj => by rw [hl2 j hj]; omega) (by omega) hq, htp2, Function.update_of_ne (Ne.symm hk15), htb 15 (by omega) (Ne.symm hk15) _ (by omega)
      (Or.inl (by rw [(pos_div (n := P.stateSizeBits) (r := r) (q := q) (by omega)).2]; exact hq))]
  rw [eB, eB' _ _ _ (Ne.symm hk15), hq _ hix.1, hq _ hix.2] at h1
  exact add_left_cancel h1

theorem onState_same {tb tb' : ℕ → ℕ → ZMod 2} (hn3 : P.stateSizeBits % 3 = 0)
    (hbits : ∀ r < P.numRounds, ∀ j < 16, j ≠ k → ∀ q < P.stateSizeBits * 2, tb' j (P.stateSizeBits * 2 * r + q) = tb j (P.stateSizeBits * 2 * r + q))
    (hsh : ∀ r < P.numRounds, ∀ i < P.stateSizeBits, onShare P C tb' mu none mk pt r k i = onShare P C tb mu none mk pt r k i) :
    ∀ r ≤ P.numRounds, ∀ i < P.stateSizeBits, onState P C tb' mu none mk pt r i = onState P C tb mu none mk pt r i := by
  intro r
  induction r with
  | zero => intro _ i _; rw [onState, onState]
  | succ r ih =>
    intro hr i hi
    have ih := ih (by omega)
    suffices hs : ∀ q < P.stateSizeBits,
        sboxB (onState P C tb' mu none mk pt r) (andB tb' mu none (P.stateSizeBits * 2 * r) (P.stateSizeBits * 2 * r + P.stateSizeBits) (P.stateSizeBits * r)
          (onState P C tb' mu none mk pt r)) q =
        sboxB (onState P C tb mu none mk pt r) (andB tb mu none (P.stateSizeBits * 2 * r) (P.stateSizeBits * 2 * r + P.stateSizeBits) (P.stateSizeBits * r)
          (onState P C tb mu none mk pt r)) q by
      rw [onState, onState, mulVec_congr hs]
    intro q hq
    refine sboxB_congr hn3 ih (fun q hq => ?_) hq
    have hix := fst_lt hn3 hq
    unfold andB
    rw [ih _ hix.1, ih _ hix.2]
    refine congrArg (fun x => x + _) (sum_congr rfl fun j hj => ?_)
    by_cases e : j = k
    · subst e; exact hsh r hr q hq
    · unfold shareB
      rw [if_neg (by simp), if_neg (by simp), ih _ hix.1, ih _ hix.2, hbits r hr j (mem_range.1 hj) e _ (by omega), hbits r hr j (mem_range.1 hj) e _ (by omega),
        Nat.add_assoc, hbits r hr j (mem_range.1 hj) e _ (by omega)]

/-- That tape is the only one. -/
theorem hidden_unique {th th' : Buf} (hP : ParamsWF P) (h3 : P3WF P) (hI : InvOK P C) (hl : ∀ j < 16, (tp j).length = 2 * P.andSizeBytes) (hk : k < 16)
    (hthl : th.length = 2 * P.andSizeBytes) (hthl' : th'.length = 2 * P.andSizeBytes)
    (hmk : ∀ i < P.stateSizeBits, mk i = key i + kap P C (Function.update tp k th) i)
    (hmk' : ∀ i < P.stateSizeBits, mk i = key i + kap P C (Function.update tp k th') i)
    (hsh : ∀ r < P.numRounds, ∀ i < P.stateSizeBits,
      onShare P C (fun j => bitsOf (auxTp P C (Function.update tp k th') j)) mu none mk pt r k i =
        onShare P C (fun j => bitsOf (auxTp P C (Function.update tp k th) j)) mu none mk pt r k i)
    (haux : k ≠ 15 → ∀ r < P.numRounds, ∀ i < P.stateSizeBits,
      bitsOf (auxTp P C (Function.update tp k th') 15) (P.stateSizeBits * 2 * r + P.stateSizeBits + i) =
        bitsOf (auxTp P C (Function.update tp k th) 15) (P.stateSizeBits * 2 * r + P.stateSizeBits + i)) :
    ∀ p < P.stateSizeBits * 2 * P.numRounds, (p % (P.stateSizeBits * 2) < P.stateSizeBits ∨ k ≠ 15) → bitsOf th' p = bitsOf th p := by
  have hR := hP.rounds
  have hn3 : P.stateSizeBits % 3 = 0 := by have := h3.full; omega
  have htape := h3.tape
  obtain ⟨tp1, htp1⟩ : ∃ tp1, tp1 = Function.update tp k th := ⟨_, rfl⟩
  obtain ⟨tp2, htp2⟩ : ∃ tp2, tp2 = Function.update tp k th' := ⟨_, rfl⟩
  rw [← htp1] at hmk hsh haux
  rw [← htp2] at hmk' hsh haux
  have hl1 : ∀ j < 16, (tp1 j).length = 2 * P.andSizeBytes := fun j hj => by
    rw [htp1]
    by_cases e : j = k
    · subst e; rw [Function.update_self, hthl]
    · rw [Function.update_of_ne e, hl j hj]
  have hl2 : ∀ j < 16, (tp2 j).length = 2 * P.andSizeBytes := fun j hj => by
    rw [htp2]
    by_cases e : j = k
    · subst e; rw [Function.update_self, hthl']
    · rw [Function.update_of_ne e, hl j hj]
  have hother : ∀ j, j ≠ k → tp2 j = tp1 j := fun j hj => by rw [htp1, htp2, Function.update_of_ne hj, Function.update_of_ne hj]
  have hpos : ∀ r < P.numRounds, P.stateSizeBits * 2 * r + P.stateSizeBits * 2 ≤ P.stateSizeBits * 2 * P.numRounds := fun r hr => by
    have := Nat.mul_le_mul_left (P.stateSizeBits * 2) (show r + 1 ≤ P.numRounds from hr)
    rw [Nat.mul_succ] at this
    exact this
  have htot : P.stateSizeBits * 2 * P.numRounds ≤ 8 * (2 * P.andSizeBytes) := by
    calc P.stateSizeBits * 2 * P.numRounds = 2 * (P.stateSizeBits * P.numRounds) := by ring
      _ ≤ 2 * (8 * P.andSizeBytes) := Nat.mul_le_mul_left _ htape
      _ = _ := by ring
  -- bits of the other parties
  have hbits : ∀ r < P.numRounds, ∀ j < 16, j ≠ k → ∀ q < P.stateSizeBits * 2,
      bitsOf (auxTp P C tp2 j) (P.stateSizeBits * 2 * r + q) = bitsOf (auxTp P C tp1 j) (P.stateSizeBits * 2 * r + q) := fun r hr j hj hjk q hq => by
    have hp := hpos r hr
    by_cases e : j = 15
    · subst e
      by_cases hq' : q < P.stateSizeBits
      · rw [auxTp_bit (fun j hj => by rw [hl2 j hj]; omega) hj hq', auxTp_bit (fun j hj => by rw [hl1 j hj]; omega) hj hq', hother _ hjk]
      · have := haux (Ne.symm hjk) r hr (q - P.stateSizeBits) (by omega)
        rwa [show P.stateSizeBits * 2 * r + P.stateSizeBits + (q - P.stateSizeBits) = P.stateSizeBits * 2 * r + q by omega] at this
    · rw [auxTp_ne e, auxTp_ne e, hother _ hjk]
  have hstate : ∀ r ≤ P.numRounds, ∀ i < P.stateSizeBits, onState P C (fun j => bitsOf (auxTp P C tp2 j)) mu none mk pt r i =
      onState P C (fun j => bitsOf (auxTp P C tp1 j)) mu none mk pt r i := by
    exact onState_same hn3 hbits hsh
  have hmask : ∀ r < P.numRounds, ∀ i < P.stateSizeBits, bitsOf th' (P.stateSizeBits * 2 * r + i) = bitsOf th (P.stateSizeBits * 2 * r + i) := fun r hr i hi => by
    have h1 := hstate r hr.le i hi
    rw [onState_prover hP h3 hI (hl2 15 (by omega)) hmk' hr.le hi, onState_prover hP h3 hI (hl1 15 (by omega)) hmk hr.le hi, maskAt, maskAt,
      if_neg (by omega), if_neg (by omega)] at h1
    have hc : ∀ a b c : ZMod 2, a + b = a + c → b = c := fun a b c => add_left_cancel
    have h2 := hc _ _ _ h1
    rw [lam, lam, tpar_others hk, tpar_others hk, htp1, htp2, others_update, others_update, Function.update_self, Function.update_self] at h2
    exact hc _ _ _ h2
  intro p hp hor
  have hn : 0 < P.stateSizeBits * 2 := by
    rcases Nat.eq_zero_or_pos (P.stateSizeBits * 2) with h | h
    · rw [h, Nat.zero_mul] at hp; omega
    · exact h
  obtain ⟨r, q, hq, hpe⟩ : ∃ r q, q < P.stateSizeBits * 2 ∧ p = P.stateSizeBits * 2 * r + q :=
    ⟨p / (P.stateSizeBits * 2), p % (P.stateSizeBits * 2), Nat.mod_lt _ hn, (Nat.div_add_mod _ _).symm⟩
  have hr : r < P.numRounds := by
    by_contra h
    have := Nat.mul_le_mul_left (P.stateSizeBits * 2) (show P.numRounds ≤ r by omega)
    omega
  subst hpe
  rw [(pos_div hq).2] at hor
  by_cases hqn : q < P.stateSizeBits
  · exact hmask r hr q hqn
  · have hk15 : k ≠ 15 := hor.resolve_left hqn
    have hi : q - P.stateSizeBits < P.stateSizeBits := by omega
    have hix := fst_lt hn3 hi
    have h1 := hsh r hr _ hi
    have hb : auxTp P C tp2 k = th' ∧ auxTp P C tp1 k = th := by
      rw [auxTp_ne hk15, auxTp_ne hk15, htp1, htp2, Function.update_self, Function.update_self]; exact ⟨rfl, rfl⟩
    unfold onShare shareB at h1
    beta_reduce at h1
    rw [if_neg (by simp), if_neg (by simp), hb.1, hb.2, hstate r hr.le _ hix.1, hstate r hr.le _ hix.2, hmask r hr _ hix.1, hmask r hr _ hix.2] at h1
    have h2 := add_left_cancel h1
    rwa [show P.stateSizeBits * 2 * r + P.stateSizeBits + (q - P.stateSizeBits) = P.stateSizeBits * 2 * r + q by omega] at h2

end

end Picnic
