import Verif.Proofs.P3Aux
import Verif.Proofs.ZkbRound
import Mathlib.Algebra.Ring.Pi

/-
/repo/picnic3_impl.c: `computeAuxTape`, `getAuxBits`, `setAuxBits`.
-/

namespace Picnic

open Finset Spec

/-- Facts about the Picnic3 parameter sets. -/
structure P3WF (P : Params) : Prop where
  parties : P.numMPCParties = 16
  full : 3 * P.numSboxes = P.stateSizeBits
  tape : P.stateSizeBits * P.numRounds ≤ 8 * P.andSizeBytes
  and_le : 8 * P.andSizeBytes < P.stateSizeBits * P.numRounds + 8
  and : P.andSizeBytes ≤ 128
  words : 4 * P.stateSizeWords ≤ 32
  bytes : P.stateSizeBytes ≤ 4 * P.stateSizeWords
  dig : P.digestSizeBytes ≤ 64
  digPos : 32 ≤ P.digestSizeBytes
  seed : P.seedSizeBytes ≤ 32
  seedPos : 16 ≤ P.seedSizeBytes
  salt : P.saltSizeBytes = 32
  T : P.numMPCRounds ≤ 601
  Tpos : 250 ≤ P.numMPCRounds
  u : P.numOpenedRounds ≤ 68
  upos : 36 ≤ P.numOpenedRounds

theorem p3WF_of {p : ℕ} {P : Params} (h : getParamSet p = some P) (h3 : isPicnic3 p = true) : P3WF P := by
  obtain ⟨h1, h2⟩ := getParamSet_bounds h
  interval_cases p <;> first
    | (exfalso; revert h3; decide)
    | (injection h with h; subst h; constructor <;> decide)

/-- Sizes of the tables of inverse matrices. -/
structure InvLen (P : Params) (C : LowMCConsts) : Prop where
  KInv_len : 4 * P.stateSizeWords * P.stateSizeBits ≤ (C.KInv 0).length
  LInv_len : ∀ r < P.numRounds, 4 * P.stateSizeWords * P.stateSizeBits ≤ (C.LInv r).length

/-! ### the masks -/

section masks

variable (P : Params) (C : LowMCConsts) (tp : ℕ → Buf)

/-- Mask of the S-box inputs of round `r` (from 0). -/
def lam (r i : ℕ) : ZMod 2 := tpar tp (P.stateSizeBits * 2 * r + i)

/-- Mask of the state before round `r`; the output is not masked. -/
def maskAt (r : ℕ) : Bits := if r = P.numRounds then 0 else lam P tp r

/-- Mask of the key. -/
def kap : Bits := mulVec P.stateSizeBits (matBits P.stateSizeWords (C.KInv 0)) (lam P tp 0)

/-- Mask of the S-box outputs of round `r`. -/
def yOf (r : ℕ) : Bits := mulVec P.stateSizeBits (matBits P.stateSizeWords (C.LInv r))
  (maskAt P tp (r + 1) + mulVec P.stateSizeBits (matBits P.stateSizeWords (C.K (r + 1))) (kap P C tp))

/-- The tape of the last party after preprocessing. -/
def auxTape (p : ℕ) : ZMod 2 :=
  if p < P.stateSizeBits * 2 * P.numRounds ∧ P.stateSizeBits ≤ p % (P.stateSizeBits * 2) then
    auxBit (lam P tp (p / (P.stateSizeBits * 2))) (yOf P C tp (p / (P.stateSizeBits * 2))) (p % (P.stateSizeBits * 2) - P.stateSizeBits) +
      tpar15 tp p
  else bitsOf (tp 15) p

/-- The tapes after preprocessing. -/
def auxTp (j : ℕ) : Buf := if j = 15 then ofBits (auxTape P C tp) (tp 15).length else tp j

end masks

theorem pos_div {n r q : ℕ} (h : q < n * 2) : (n * 2 * r + q) / (n * 2) = r ∧ (n * 2 * r + q) % (n * 2) = q := by
  constructor
  · rw [Nat.mul_add_div (by omega), Nat.div_eq_of_lt h, Nat.add_zero]
  · rw [Nat.mul_add_mod, Nat.mod_eq_of_lt h]

theorem auxBit_congr {n : ℕ} (hn : n % 3 = 0) {x x' y y' : Bits} (hx : ∀ i < n, x i = x' i) (hy : ∀ i < n, y i = y' i) {i : ℕ} (hi : i < n) :
    auxBit x y i = auxBit x' y' i := by
  unfold auxBit freshOf fstIx sndIx
  rw [hx (3 * (i / 3) + (2 - i % 3)) (by omega), hx (3 * (i / 3) + (4 - i % 3) % 3) (by omega), hx (3 * (i / 3) + 2) (by omega),
    hx (3 * (i / 3) + 1) (by omega), hx (3 * (i / 3)) (by omega), hy (3 * (i / 3) + 2) (by omega), hy (3 * (i / 3) + 1) (by omega),
    hy (3 * (i / 3)) (by omega)]

theorem computeAuxTape_ok {E : Env} {P : Params} {tag : ℕ} {tp : ℕ → Buf} {inputs : Option Buf} (hP : ParamsWF P) (h3 : P3WF P)
    (hC : ConstsWF P (E.lowmc P)) (hI : InvLen P (E.lowmc P)) (hl : ∀ j < 16, (tp j).length = 2 * P.andSizeBytes)
    (hin : ∀ i, inputs = some i → P.stateSizeBytes ≤ i.length) :
    computeAuxTape E P tag (tapes16 tp 0) inputs = Outcome.ok (tapes16 (auxTp P (E.lowmc P) tp) 0,
      inputs.map fun i => ofBits (kap P (E.lowmc P) tp) P.stateSizeBytes ++ i.drop P.stateSizeBytes) := by
  have hw := hP.words
  have hnM := hP.nMax
  have hnp := hP.nPos
  have hby := hP.bytes
  have hfull := h3.full
  have h16 := h3.parties
  have htp := h3.tape
  have hwd := h3.words
  have hbw := h3.bytes
  have hR := hP.rounds
  obtain ⟨n, hn⟩ : ∃ n, n = P.stateSizeBits := ⟨_, rfl⟩
  obtain ⟨R, hRr⟩ : ∃ R, R = P.numRounds := ⟨_, rfl⟩
  have hmono : ∀ r < R, n * 2 * (r + 1) ≤ 8 * (2 * P.andSizeBytes) := by
    intro r hr
    calc n * 2 * (r + 1) ≤ n * 2 * R := Nat.mul_le_mul_left _ hr
      _ = 2 * (n * R) := by ring
      _ ≤ 2 * (8 * P.andSizeBytes) := Nat.mul_le_mul_left _ (by rw [hn, hRr]; exact htp)
      _ = _ := by ring
  have hrest : ∀ r < R, n * 2 * r + n * 2 ≤ 8 * (2 * P.andSizeBytes) := fun r hr => by have := hmono r hr; rw [Nat.mul_succ] at this; exact this
  unfold computeAuxTape
  dsimp only
  obtain ⟨k0, hk0, hk0l, _⟩ := stw_ok (b := E.junkBuf siteStack 0 LOWMC_MAX_STATE_SIZE) (i := P.stateSizeWords - 1)
    (by simp [LOWMC_MAX_STATE_SIZE]; omega) 0
  have hk0l' : k0.length = 64 := by rw [hk0l]; simp [LOWMC_MAX_STATE_SIZE]
  rw [hk0, ok_bind]
  obtain ⟨key0, hp, hpl, hpb⟩ := tapesToParityBits_ok (E := E) (tp := tp) (pos := 0) (n := P.stateSizeBits) (out := k0)
    (fun j hj => by rw [hl j hj]; have := hrest 0 (by omega); omega) (by omega)
  rw [hp, ok_bind]
  dsimp only
  rw [matrixMul_ok hP (by simp [LOWMC_MAX_STATE_SIZE]) (by simp [LOWMC_MAX_STATE_SIZE]; omega) (by omega) hI.KInv_len, ok_bind]
  have hkey : mulVec P.stateSizeBits (matBits P.stateSizeWords ((E.lowmc P).KInv 0)) (bitsOf key0) = kap P (E.lowmc P) tp := by
    refine mulVec_congr fun i hi => ?_
    rw [hpb, if_pos hi, lam, Nat.mul_zero]
  rw [hkey]
  generalize hkb : ofBits (kap P (E.lowmc P) tp) (4 * P.stateSizeWords) ++ (E.junkBuf siteStack 1 LOWMC_MAX_STATE_SIZE).drop (4 * P.stateSizeWords) = key
  have hkl : key.length = 64 := by rw [← hkb]; simp [LOWMC_MAX_STATE_SIZE]; omega
  have hkbits : ∀ i < n, bitsOf key i = kap P (E.lowmc P) tp i := by
    intro i hi
    rw [← hkb, bitsOf_append_left (by simp; omega), bitsOf_ofBits _ (by omega)]
  have key2 := loopDown_inv (fun r (s : Buf × Buf × Buf × RandomTape) => s.1.length = 64 ∧ s.2.1.length = 64 ∧ s.2.2.1.length = 64 ∧
      (∀ i < n, bitsOf s.2.1 i = maskAt P tp r i) ∧
      ∃ (z : Buf) (pos : ℕ), s.2.2.2 = tapes16 (Function.update tp 15 z) pos ∧ z.length = 2 * P.andSizeBytes ∧
        ∀ p, bitsOf z p = if n * 2 * r ≤ p then auxTape P (E.lowmc P) tp p else bitsOf (tp 15) p)
    (f := fun r (s : Buf × Buf × Buf × RandomTape) => do
      let roundKey ← matrixMul (E.junkBuf siteMatTemp (100 * tag + 2 * r) LOWMC_MAX_STATE_SIZE) s.1 key ((E.lowmc P).K r) P
      let x ← xorArray s.2.1 s.2.1 roundKey P.stateSizeWords
      let y ← matrixMul (E.junkBuf siteMatTemp (100 * tag + (2 * r + 1)) LOWMC_MAX_STATE_SIZE) s.2.2.1 x ((E.lowmc P).LInv (r - 1)) P
      let (x, tapes) ←
        if r = 1 then do
          let x ← memcpy x 0 key0 0 P.stateSizeBytes
          pure (x, s.2.2.2)
        else do
          let tapes := { s.2.2.2 with pos := P.stateSizeBits * 2 * (r - 1) }
          tapesToParityBits E x P.stateSizeBits tapes
      let tapes := { tapes with pos := P.stateSizeBits * 2 * (r - 1) + P.stateSizeBits }
      let tapes ← auxMpcSbox E P x y tapes
      pure (roundKey, x, y, tapes)) (n := P.numRounds)
    (s := (E.junkBuf siteRoundKey tag LOWMC_MAX_STATE_SIZE, zeros LOWMC_MAX_STATE_SIZE, E.junkBuf siteStack 2 LOWMC_MAX_STATE_SIZE,
      tapes16 tp (0 + P.stateSizeBits)))
    ⟨by simp [LOWMC_MAX_STATE_SIZE], by simp [LOWMC_MAX_STATE_SIZE], by simp [LOWMC_MAX_STATE_SIZE], fun i hi => by simp [maskAt],
      tp 15, 0 + P.stateSizeBits, by simp, hl 15 (by omega), fun p => by
        split_ifs with h
        · unfold auxTape
          rw [if_neg (by rw [← hn]; omega)]
        · rfl⟩ (by
      rintro r hr ⟨rk, x, y, tapes⟩ ⟨h1, h2, h4, hx, z, pos, ht, hz, hzb⟩
      dsimp only at h1 h2 h4 hx ht ⊢
      subst ht
      rw [Nat.add_sub_cancel, ← hn]
      have hzz := hrest r (by omega)
      have hzl : ∀ j < 16, (Function.update tp 15 z j).length = 2 * P.andSizeBytes := by
        intro j hj
        by_cases e : j = 15
        · subst e; rw [Function.update_self, hz]
        · rw [Function.update_of_ne e, hl j hj]
      rw [matrixMul_ok hP (by simp [LOWMC_MAX_STATE_SIZE]) (by omega) (by omega) (hC.K_len (r + 1) (by omega)), ok_bind]
      generalize hrk : ofBits (mulVec P.stateSizeBits (matBits P.stateSizeWords ((E.lowmc P).K (r + 1))) (bitsOf key)) (4 * P.stateSizeWords) ++
        rk.drop (4 * P.stateSizeWords) = rk'
      have hrkl : rk'.length = 64 := by rw [← hrk]; simp; omega
      obtain ⟨x1, hx1, hx1l, hx1b⟩ := xorArray_ok (out := x) (in1 := x) (in2 := rk') (len := P.stateSizeWords) (by omega) (by omega) (by omega)
      rw [hx1, ok_bind, matrixMul_ok hP (by simp [LOWMC_MAX_STATE_SIZE]) (by omega) (by omega) (hI.LInv_len r (by omega)), ok_bind]
      have hy : mulVec P.stateSizeBits (matBits P.stateSizeWords ((E.lowmc P).LInv r)) (bitsOf x1) = yOf P (E.lowmc P) tp r := by
        refine mulVec_congr fun i hi => ?_
        rw [hx1b, if_pos (by omega), hx i (by omega), Pi.add_apply, ← hrk, bitsOf_append_left (by simp; omega), bitsOf_ofBits _ (by omega),
          mulVec_congr fun j hj => hkbits j (by omega)]
      rw [hy]
      generalize hyb : ofBits (yOf P (E.lowmc P) tp r) (4 * P.stateSizeWords) ++ y.drop (4 * P.stateSizeWords) = y'
      have hyl : y'.length = 64 := by rw [← hyb]; simp; omega
      have hybits : ∀ i < n, bitsOf y' i = yOf P (E.lowmc P) tp r i := by
        intro i hi
        rw [← hyb, bitsOf_append_left (by simp; omega), bitsOf_ofBits _ (by omega)]
      have htail : ∀ (x2 : Buf) (pos' : ℕ), x2.length = 64 → (∀ i < n, bitsOf x2 i = lam P tp r i) →
          ∃ s', (do
            let tapes ← auxMpcSbox E P x2 y' { tape := (tapes16 (Function.update tp 15 z) pos').tape, pos := n * 2 * r + n }
            pure (rk', x2, y', tapes) : M (Buf × Buf × Buf × RandomTape)) = Outcome.ok s' ∧
          s'.1.length = 64 ∧ s'.2.1.length = 64 ∧ s'.2.2.1.length = 64 ∧
          (∀ i < n, bitsOf s'.2.1 i = maskAt P tp r i) ∧
          ∃ (z : Buf) (pos : ℕ), s'.2.2.2 = tapes16 (Function.update tp 15 z) pos ∧ z.length = 2 * P.andSizeBytes ∧
            ∀ p, bitsOf z p = if n * 2 * r ≤ p then auxTape P (E.lowmc P) tp p else bitsOf (tp 15) p := by
        intro x2 pos' e2 e3
        obtain ⟨z2, f1, f2, f3⟩ := auxMpcSbox_ok (E := E) (P := P) (tp := Function.update tp 15 z) (pos := n * 2 * r + n) (inp := x2) (out := y') h16
          (fun j hj => by rw [hzl j hj, hfull]; omega) (by omega) (by omega)
        rw [show ({ tape := (tapes16 (Function.update tp 15 z) pos').tape, pos := n * 2 * r + n } : RandomTape) =
          tapes16 (Function.update tp 15 z) (n * 2 * r + n) from rfl, f1, ok_bind]
        refine ⟨_, rfl, hrkl, e2, hyl, fun i hi => ?_, z2, _, by rw [Function.update_idem], by rw [f2, Function.update_self, hz], fun p => ?_⟩
        · rw [e3 i hi, maskAt, if_neg (by omega)]
        · rw [f3, Function.update_self, hzb, tpar15_update, hfull, ← hn]
          have hsucc : n * 2 * (r + 1) = n * 2 * r + n * 2 := Nat.mul_succ _ _
          by_cases hp1 : n * 2 * r + n ≤ p ∧ p < n * 2 * r + n + n
          · have hdm := pos_div (n := n) (r := r) (q := p - n * 2 * r) (by omega)
            rw [show n * 2 * r + (p - n * 2 * r) = p by omega] at hdm
            rw [if_pos hp1, if_pos (by omega)]
            unfold auxTape
            have hRn : n * 2 * (r + 1) ≤ n * 2 * P.numRounds := Nat.mul_le_mul_left _ hr
            rw [← hn, hdm.1, hdm.2, if_pos (by omega)]
            rw [auxBit_congr (by omega) e3 hybits (by omega), show p - n * 2 * r - n = p - (n * 2 * r + n) by omega]
          · rw [if_neg hp1, hsucc]
            by_cases hp2 : n * 2 * r + n * 2 ≤ p
            · rw [if_pos hp2, if_pos (by omega)]
            · rw [if_neg hp2]
              by_cases hp3 : n * 2 * r ≤ p
              · rw [if_pos hp3]
                have hdm := pos_div (n := n) (r := r) (q := p - n * 2 * r) (by omega)
                rw [show n * 2 * r + (p - n * 2 * r) = p by omega] at hdm
                unfold auxTape
                rw [← hn, hdm.2, if_neg (by omega)]
              · rw [if_neg hp3]
      by_cases hr0 : r + 1 = 1
      · obtain rfl : r = 0 := by omega
        rw [if_pos rfl, memcpy_ok (by omega) (by omega), ok_bind, pure_bind]
        refine htail _ pos (by simp; omega) fun i hi => ?_
        rw [List.take_zero, List.nil_append, List.drop_zero, bitsOf_append_left (by simp; omega), bitsOf_take (by omega), hpb,
          if_pos (by omega), lam, Nat.mul_zero]
      · rw [if_neg hr0]
        obtain ⟨x2, e1, e2, e3⟩ := tapesToParityBits_ok (E := E) (tp := Function.update tp 15 z) (pos := n * 2 * r) (n := n) (out := x1)
          (fun j hj => by rw [hzl j hj]; omega) (by omega)
        rw [e1, ok_bind]
        refine htail x2 _ (by omega) fun i hi => ?_
        rw [e3, if_pos hi, lam, ← hn, tpar_update, hzb, if_neg (by rw [Nat.mul_succ]; omega), ← tpar_eq])
  obtain ⟨⟨rk, x, y, t⟩, e, _, _, _, _, z, pos, ht, hzl, hzb⟩ := key2
  dsimp only at ht
  subst ht
  have htapes : arrN 16 (Function.update tp 15 z) = arrN 16 (auxTp P (E.lowmc P) tp) := by
    refine arrN_congr fun j hj => ?_
    unfold auxTp
    split_ifs with h
    · subst h
      rw [Function.update_self]
      refine buf_ext (by rw [hzl, ofBits_length, hl 15 (by omega)]) fun i hi => ?_
      rw [hzb, if_pos (by omega), bitsOf_ofBits _ (by rw [hl 15 (by omega)]; omega)]
    · rw [Function.update_of_ne h]
  cases inputs with
  | none =>
    dsimp only
    rw [pure_bind]
    refine bind_of e ?_
    dsimp only
    rw [htapes]
    rfl
  | some i =>
    dsimp only
    rw [memcpy_ok (by omega) (by have := hin i rfl; omega), ok_bind, pure_bind]
    refine bind_of e ?_
    dsimp only
    rw [htapes, ← hkb, List.take_zero, List.nil_append, List.drop_zero, Nat.zero_add, List.take_append_of_le_length (by simp; omega),
      ofBits_take (by omega)]
    rfl

end Picnic
