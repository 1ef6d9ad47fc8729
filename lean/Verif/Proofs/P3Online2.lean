import Verif.Proofs.P3Online

/-
/repo/picnic3_impl.c: `simulateOnline`.
-/

namespace Picnic

open Finset Spec

theorem fst_lt {n i : ℕ} (hn : n % 3 = 0) (hi : i < n) : fstIx i < n ∧ sndIx i < n := by
  unfold fstIx sndIx
  omega

theorem shareB_congr {tb mu mu' : ℕ → ℕ → ZMod 2} {u : Option ℕ} {base hb mb n : ℕ} {s s' : Bits} {j i : ℕ} (hn : n % 3 = 0)
    (hs : ∀ i < n, s i = s' i) (hmu : mu j (mb + i) = mu' j (mb + i)) (hi : i < n) :
    shareB tb mu u base hb mb s j i = shareB tb mu' u base hb mb s' j i := by
  unfold shareB
  rw [hmu, hs _ (fst_lt hn hi).1, hs _ (fst_lt hn hi).2]

theorem andB_congr {tb mu mu' : ℕ → ℕ → ZMod 2} {u : Option ℕ} {base hb mb n : ℕ} {s s' : Bits} {i : ℕ} (hn : n % 3 = 0)
    (hs : ∀ i < n, s i = s' i) (hmu : ∀ j < 16, mu j (mb + i) = mu' j (mb + i)) (hi : i < n) :
    andB tb mu u base hb mb s i = andB tb mu' u base hb mb s' i := by
  unfold andB
  rw [hs _ (fst_lt hn hi).1, hs _ (fst_lt hn hi).2, sum_congr rfl fun j hj => shareB_congr hn hs (hmu j (mem_range.1 hj)) hi]

theorem sboxB_congr {s s' ao ao' : Bits} {n i : ℕ} (hn : n % 3 = 0) (hs : ∀ i < n, s i = s' i) (hao : ∀ i < n, ao i = ao' i)
    (hi : i < n) : sboxB s ao i = sboxB s' ao' i := by
  unfold sboxB
  rw [hs (3 * (i / 3) + 2) (by omega), hs (3 * (i / 3) + 1) (by omega), hs (3 * (i / 3)) (by omega),
    hao (3 * (i / 3) + 2) (by omega), hao (3 * (i / 3) + 1) (by omega), hao (3 * (i / 3)) (by omega)]

section
variable (P : Params) (C : LowMCConsts) (tb mu : ℕ → ℕ → ZMod 2) (u : Option ℕ) (mk pt : Bits)

/-- The masked state after `r` rounds of the simulation. -/
def onState : ℕ → Bits
  | 0 => mulVec P.stateSizeBits (matBits P.stateSizeWords (C.K 0)) mk + pt
  | r + 1 => mulVec P.stateSizeBits (matBits P.stateSizeWords (C.L r))
        (sboxB (onState r) (andB tb mu u (P.stateSizeBits * 2 * r) (P.stateSizeBits * 2 * r + P.stateSizeBits) (P.stateSizeBits * r) (onState r))) +
      trunc P.stateSizeBits (bitsOf (C.RC r)) + mulVec P.stateSizeBits (matBits P.stateSizeWords (C.K (r + 1))) mk

/-- The message bit of party `j` at AND gate `i` of round `r`. -/
def onShare (r j i : ℕ) : ZMod 2 :=
  shareB tb mu u (P.stateSizeBits * 2 * r) (P.stateSizeBits * 2 * r + P.stateSizeBits) (P.stateSizeBits * r) (onState P C tb mu u mk pt r) j i

/-- The messages of party `j` after the simulation. -/
def onMsg (j p : ℕ) : ZMod 2 :=
  if p < P.stateSizeBits * P.numRounds then onShare P C tb mu u mk pt (p / P.stateSizeBits) j (p % P.stateSizeBits) else mu j p

end

theorem onState_ge {P : Params} {C : LowMCConsts} {tb mu : ℕ → ℕ → ZMod 2} {u : Option ℕ} {mk pt : Bits} {r i : ℕ} (hr : 0 < r)
    (hi : P.stateSizeBits ≤ i) : onState P C tb mu u mk pt r i = 0 := by
  obtain ⟨r, rfl⟩ : ∃ k, r = k + 1 := ⟨r - 1, by omega⟩
  rw [onState, Pi.add_apply, Pi.add_apply, mulVec_ge hi, mulVec_ge hi, trunc, if_neg (by omega), add_zero, add_zero]

theorem mul_div_mod {n r q : ℕ} (h : q < n) : (n * r + q) / n = r ∧ (n * r + q) % n = q := by
  constructor
  · rw [Nat.mul_add_div (by omega), Nat.div_eq_of_lt h, Nat.add_zero]
  · rw [Nat.mul_add_mod, Nat.mod_eq_of_lt h]

theorem simulateOnline_ok {E : Env} {P : Params} {tag : ℕ} {mkey pt pk : Buf} {tp ms : ℕ → Buf} {u : Option ℕ} (hP : ParamsWF P)
    (h3 : P3WF P) (hC : ConstsWF P (E.lowmc P)) (hu : ∀ k, u = some k → k < 16)
    (hl : ∀ j < 16, (tp j).length = 2 * P.andSizeBytes) (hml : ∀ j < 16, (ms j).length = P.andSizeBytes)
    (hmk : P.stateSizeBits ≤ 8 * mkey.length) (hpt : 4 * P.stateSizeWords ≤ pt.length) (hpk : P.stateSizeBytes ≤ pk.length) :
    simulateOnline E P tag mkey (tapes16 tp 0) (msgs16 ms 0 u) pt pk = Outcome.ok
      (ofBits (onState P (E.lowmc P) (fun j => bitsOf (tp j)) (fun j => bitsOf (ms j)) u (bitsOf mkey) (bitsOf pt) P.numRounds) P.stateSizeBytes ==
          pk.take P.stateSizeBytes,
        tapes16 tp (P.stateSizeBits * 2 * P.numRounds),
        msgs16 (fun j => ofBits (onMsg P (E.lowmc P) (fun j => bitsOf (tp j)) (fun j => bitsOf (ms j)) u (bitsOf mkey) (bitsOf pt) j) P.andSizeBytes)
          (P.stateSizeBits * P.numRounds) u) := by
  have hw := hP.words
  have hnM := hP.nMax
  have hnp := hP.nPos
  have hby := hP.bytes
  have hfull := h3.full
  have h16 := h3.parties
  have htp := h3.tape
  have hwd := h3.words
  have hbw := h3.bytes
  have hR := hP.rounds
  obtain ⟨n, hn⟩ : ∃ n, n = P.stateSizeBits := ⟨_, rfl⟩
  have hn3 : n % 3 = 0 := by omega
  obtain ⟨S, hS⟩ : ∃ S, S = onState P (E.lowmc P) (fun j => bitsOf (tp j)) (fun j => bitsOf (ms j)) u (bitsOf mkey) (bitsOf pt) := ⟨_, rfl⟩
  have hS0 : S 0 = mulVec n (matBits P.stateSizeWords ((E.lowmc P).K 0)) (bitsOf mkey) + bitsOf pt := by rw [hS, onState, hn]
  have hSs : ∀ r, S (r + 1) = mulVec n (matBits P.stateSizeWords ((E.lowmc P).L r)) (sboxB (S r)
      (andB (fun j => bitsOf (tp j)) (fun j => bitsOf (ms j)) u (n * 2 * r) (n * 2 * r + n) (n * r) (S r))) +
      trunc n (bitsOf ((E.lowmc P).RC r)) + mulVec n (matBits P.stateSizeWords ((E.lowmc P).K (r + 1))) (bitsOf mkey) := by
    intro r; rw [hS, onState, hn]
  obtain ⟨M, hM⟩ : ∃ M, M = onMsg P (E.lowmc P) (fun j => bitsOf (tp j)) (fun j => bitsOf (ms j)) u (bitsOf mkey) (bitsOf pt) := ⟨_, rfl⟩
  have hMs : ∀ r < P.numRounds, ∀ i < n, ∀ j, M j (n * r + i) =
      shareB (fun j => bitsOf (tp j)) (fun j => bitsOf (ms j)) u (n * 2 * r) (n * 2 * r + n) (n * r) (S r) j i := by
    intro r hr i hi j
    have h1 : n * (r + 1) ≤ n * P.numRounds := Nat.mul_le_mul_left _ hr
    rw [Nat.mul_succ] at h1
    rw [hM, onMsg, ← hn, if_pos (by omega), (mul_div_mod hi).1, (mul_div_mod hi).2, onShare, ← hS, ← hn]
  have hMe : ∀ j p, n * P.numRounds ≤ p → M j p = bitsOf (ms j) p := by
    intro j p hp
    rw [hM, onMsg, ← hn, if_neg (by omega)]
  rw [← hS, ← hM]
  clear hS hM
  have htape : ∀ r < P.numRounds, n * 2 * r + n * 2 ≤ 8 * (2 * P.andSizeBytes) ∧ n * r + n ≤ 8 * P.andSizeBytes := by
    intro r hr
    have h1 : n * (r + 1) ≤ n * P.numRounds := Nat.mul_le_mul_left _ hr
    rw [Nat.mul_succ] at h1
    rw [← hn] at htp
    have h2 : n * 2 * r = 2 * (n * r) := by ring
    omega
  unfold simulateOnline
  dsimp only
  rw [matrixMul_ok hP (by simp [LOWMC_MAX_STATE_SIZE]) (by simp [LOWMC_MAX_STATE_SIZE]; omega) hmk (hC.K_len 0 (by omega)), ok_bind]
  generalize hrk : ofBits (mulVec P.stateSizeBits (matBits P.stateSizeWords ((E.lowmc P).K 0)) (bitsOf mkey)) (4 * P.stateSizeWords) ++
        (zeros LOWMC_MAX_STATE_SIZE).drop (4 * P.stateSizeWords) = rk
  have hrkl : rk.length = 64 := by rw [← hrk]; simp [LOWMC_MAX_STATE_SIZE]; omega
  obtain ⟨st, hst, hstl, hstb⟩ := xorArray_ok (out := zeros LOWMC_MAX_STATE_SIZE) (in1 := rk) (in2 := pt) (len := P.stateSizeWords)
    (by simp [LOWMC_MAX_STATE_SIZE]; omega) (by omega) (by omega)
  rw [hst, ok_bind]
  have key := loopFrom_inv (fun r (s : Buf × Buf × RandomTape × Msgs) => ∃ ms' : ℕ → Buf, s.1.length = 64 ∧ s.2.1.length = 64 ∧
      s.2.2.1 = tapes16 tp (n * 2 * (r - 1)) ∧ s.2.2.2 = msgs16 ms' (n * (r - 1)) u ∧ (∀ j < 16, (ms' j).length = P.andSizeBytes) ∧
      (∀ i < n, bitsOf s.1 i = S (r - 1) i) ∧ (1 < r → ∀ i < 32 * P.stateSizeWords, bitsOf s.1 i = S (r - 1) i) ∧
      (∀ j < 16, ∀ p, bitsOf (ms' j) p = if p < n * (r - 1) then M j p else bitsOf (ms j) p))
    (f := fun r (s : Buf × Buf × RandomTape × Msgs) => do
      let (tmp_shares, tapes) ← tapesToWords E P.stateSizeBits s.2.2.1
      let (state, tapes, msgs) ← mpcSbox16 E P s.1 tmp_shares tapes s.2.2.2
      let state ← matrixMul (E.junkBuf siteMatTemp (100 * tag + 50 + 2 * r) LOWMC_MAX_STATE_SIZE) state state ((E.lowmc P).L (r - 1)) P
      let state ← xorArray state state ((E.lowmc P).RC (r - 1)) P.stateSizeWords
      let roundKey ← matrixMul (E.junkBuf siteMatTemp (100 * tag + 50 + (2 * r + 1)) LOWMC_MAX_STATE_SIZE) s.2.1 mkey ((E.lowmc P).K r) P
      let state ← xorArray state roundKey state P.stateSizeWords
      pure (state, roundKey, tapes, msgs)) (lo := 1) (hi := P.numRounds + 1) (s := (st, rk, tapes16 tp 0, msgs16 ms 0 u)) (by omega)
    ⟨ms, by rw [hstl]; simp [LOWMC_MAX_STATE_SIZE], hrkl, rfl, rfl, hml, fun i hi => by
        dsimp only
        rw [hstb, if_pos (by omega), Nat.sub_self, hS0, Pi.add_apply, ← hrk, bitsOf_append_left (by simp; omega), bitsOf_ofBits _ (by omega), hn],
      fun h => by omega, fun j hj p => by rw [if_neg (by omega)]⟩ (by
      rintro r hr1 hr2 ⟨st, rk, tps, mss⟩ ⟨ms', h1, h2, e1, e2, hml', hsb, _, hmb⟩
      obtain ⟨r, rfl⟩ : ∃ k, r = k + 1 := ⟨r - 1, by omega⟩
      rw [Nat.add_sub_cancel] at e1 e2 hmb hsb
      rw [Nat.add_sub_cancel]
      dsimp only at h1 h2 e1 e2 hsb ⊢
      subst e1 e2
      obtain ⟨ht1, ht2⟩ := htape r (by omega)
      have hrn : n * (r + 1) = n * r + n := Nat.mul_succ _ _
      rw [← hn, tapesToWords_ok fun j hj => by rw [hl j hj]; omega, ok_bind]
      dsimp only
      obtain ⟨st2, ms2, f1, f2, f3, f4, f5⟩ := mpcSbox16_ok (E := E) (P := P) (tp := tp) (ms := ms') (base := n * 2 * r) (hb := n * 2 * r + n)
        (mb := n * r) (m := n) (u := u) (state := st) h16 hu (fun j hj => by rw [hl j hj]; omega) (fun j hj => by rw [hml' j hj]; omega)
        (by omega) rfl (by omega)
      rw [f1, ok_bind]
      dsimp only
      rw [matrixMul_ok hP (by simp [LOWMC_MAX_STATE_SIZE]) (by omega) (by omega) (hC.L_len r (by omega)), ok_bind]
      generalize hA : ofBits (mulVec P.stateSizeBits (matBits P.stateSizeWords ((E.lowmc P).L r)) (bitsOf st2)) (4 * P.stateSizeWords) ++
        st2.drop (4 * P.stateSizeWords) = A
      have hAl : A.length = 64 := by rw [← hA]; simp; omega
      obtain ⟨B, hB, hBl, hBb⟩ := xorArray_ok (out := A) (in1 := A) (in2 := (E.lowmc P).RC r) (len := P.stateSizeWords) (by omega) (by omega)
        (hC.RC_len r (by omega))
      rw [hB, ok_bind, matrixMul_ok hP (by simp [LOWMC_MAX_STATE_SIZE]) (by omega) hmk (hC.K_len (r + 1) (by omega)), ok_bind]
      generalize hK : ofBits (mulVec P.stateSizeBits (matBits P.stateSizeWords ((E.lowmc P).K (r + 1))) (bitsOf mkey)) (4 * P.stateSizeWords) ++
        rk.drop (4 * P.stateSizeWords) = K
      have hKl : K.length = 64 := by rw [← hK]; simp; omega
      obtain ⟨D, hD, hDl, hDb⟩ := xorArray_ok (out := B) (in1 := K) (in2 := B) (len := P.stateSizeWords) (by omega) (by omega) (by omega)
      rw [hD, ok_bind]
      have hfin : ∀ i < 32 * P.stateSizeWords, bitsOf D i = S (r + 1) i := by
        intro i hi
        rw [hDb, if_pos hi, hBb, if_pos hi, ← hK, bitsOf_append_left (by simp; omega), bitsOf_ofBits _ (by omega), ← hA,
          bitsOf_append_left (by simp; omega), bitsOf_ofBits _ (by omega), hSs, Pi.add_apply, Pi.add_apply, ← hn, trunc]
        have e1 : bitsOf ((E.lowmc P).RC r) i = if i < n then bitsOf ((E.lowmc P).RC r) i else 0 := by
          split_ifs with h
          · rfl
          · exact hC.RC_pad r (by omega) i (by omega) hi
        rw [← e1]
        have e2 : mulVec n (matBits P.stateSizeWords ((E.lowmc P).L r)) (bitsOf st2) = mulVec n (matBits P.stateSizeWords ((E.lowmc P).L r)) (sboxB (S r)
          (andB (fun j => bitsOf (tp j)) (fun j => bitsOf (ms j)) u (n * 2 * r) (n * 2 * r + n) (n * r) (S r))) := by
          refine mulVec_congr fun q hq => ?_
          rw [f4, if_pos (by omega)]
          refine sboxB_congr hn3 hsb (fun q hq => ?_) hq
          refine andB_congr hn3 hsb (fun j hj => ?_) hq
          rw [hmb j hj, if_neg (by omega)]
        rw [e2]
        ring
      refine ⟨_, rfl, ms2, by rw [hDl, hBl, hAl], hKl, ?_, ?_, fun j hj => by rw [f3 j hj, hml' j hj], fun i hi => hfin i (by omega),
        fun _ => hfin, fun j hj p => ?_⟩
      · dsimp only
        rw [hfull, ← hn, show n * 2 * r + n + n = n * 2 * (r + 1) by ring, Nat.add_sub_cancel]
      · dsimp only
        rw [hfull, ← hn, Nat.add_sub_cancel, hrn]
      · rw [f5 j hj, hmb j hj, hfull, ← hn, Nat.add_sub_cancel, hrn]
        by_cases hp1 : n * r ≤ p ∧ p < n * r + n
        · rw [if_pos hp1, if_pos hp1.2]
          have := hMs r (by omega) (p - n * r) (by omega) j
          rw [show n * r + (p - n * r) = p by omega] at this
          rw [this]
          refine shareB_congr hn3 hsb ?_ (by omega)
          rw [hmb j hj, if_neg (by omega)]
        · rw [if_neg hp1]
          by_cases hp2 : p < n * r
          · rw [if_pos hp2, if_pos (by omega)]
          · rw [if_neg hp2, if_neg (by omega)])
  obtain ⟨⟨st', rk', tps, mss⟩, e, ms', g1, g2, g3, g4, g5, g6, g7, g8⟩ := key
  rw [Nat.add_sub_cancel] at g3 g4 g6 g7 g8
  dsimp only at g1 g3 g4 g7
  subst g3 g4
  refine bind_of e ?_
  dsimp only
  rw [memeq_ok (by omega) hpk, ok_bind, pure_eq_ok, hn]
  have e1 : st'.take P.stateSizeBytes = ofBits (S P.numRounds) P.stateSizeBytes := by
    refine buf_ext (by simp; omega) fun i hi => ?_
    rw [List.length_take] at hi
    rw [bitsOf_take (by omega), bitsOf_ofBits _ (by omega), g7 (by omega) i (by omega)]
  have e2 : arrN 16 ms' = arrN 16 fun j => ofBits (M j) P.andSizeBytes := by
    refine arrN_congr fun j hj => ?_
    refine buf_ext (by rw [g5 j hj, ofBits_length]) fun i hi => ?_
    rw [g8 j hj, bitsOf_ofBits _ (by rw [g5 j hj] at hi; omega)]
    split_ifs with h
    · rfl
    · exact (hMe j i (by omega)).symm
  rw [e1]; unfold msgs16; rw [e2]

end Picnic
