import Verif.Proofs.Words
import Verif.Spec.LowMC

/-
Refinement of /repo/picnic_impl.c `matrix_mul`, `substitution`, `LowMCEnc` to Spec.LowMC.
-/

namespace Picnic

open Finset Spec

/-- Arithmetic facts about a parameter set used by the proofs. -/
structure ParamsWF (P : Params) : Prop where
  nPos : 0 < P.stateSizeBits
  nMax : P.stateSizeBits ≤ 256
  words : P.stateSizeWords = (P.stateSizeBits + 31) / 32
  bytes : P.stateSizeBytes = (P.stateSizeBits + 7) / 8
  sboxes : 3 * P.numSboxes ≤ P.stateSizeBits
  rounds : 0 < P.numRounds
  andBytes : P.andSizeBytes = (3 * P.numSboxes * P.numRounds + 7) / 8

/-- Entry (i, j) of a matrix stored row-major with rows of `W` 32-bit words. -/
def matBits (W : ℕ) (m : Buf) (i j : ℕ) : ZMod 2 := bitsOf m (32 * W * i + j)

/-- Sizes of the constant tables, and zero padding of the round constants. -/
structure ConstsWF (P : Params) (C : LowMCConsts) : Prop where
  K_len : ∀ r ≤ P.numRounds, 4 * P.stateSizeWords * P.stateSizeBits ≤ (C.K r).length
  L_len : ∀ r < P.numRounds, 4 * P.stateSizeWords * P.stateSizeBits ≤ (C.L r).length
  RC_len : ∀ r < P.numRounds, 4 * P.stateSizeWords ≤ (C.RC r).length
  RC_pad : ∀ r < P.numRounds, ∀ i, P.stateSizeBits ≤ i → i < 32 * P.stateSizeWords → bitsOf (C.RC r) i = 0

/-- The LowMC instance given by the constant tables. -/
def lowmcOf (P : Params) (C : LowMCConsts) : Spec.LowMC :=
  { n := P.stateSizeBits, m := P.numSboxes, r := P.numRounds
    K := fun r => matBits P.stateSizeWords (C.K r)
    L := fun r => matBits P.stateSizeWords (C.L r)
    RC := fun r => trunc P.stateSizeBits (bitsOf (C.RC r)) }

theorem sum_range_mul_add (f : ℕ → ZMod 2) (a b : ℕ) :
    ∑ j ∈ range (b * a), f j = ∑ i ∈ range a, ∑ k ∈ range b, f (b * i + k) := by
  induction a with
  | zero => simp
  | succ a ih => rw [Nat.mul_succ, sum_range_add, ih, sum_range_succ]

theorem matrixRow_ok {P : Params} {state matrix : Buf} {i : ℕ} (hw : P.stateSizeWords = (P.stateSizeBits + 31) / 32)
    (hi : i < P.stateSizeBits) (hs : P.stateSizeBits ≤ 8 * state.length)
    (hm : 4 * P.stateSizeWords * P.stateSizeBits ≤ matrix.length) :
    ∃ w, matrixRow state matrix P i = Outcome.ok w ∧
      wsum w = ∑ j ∈ range P.stateSizeBits, matBits P.stateSizeWords matrix i j * bitsOf state j := by
  have hrow : 4 * P.stateSizeWords * (i + 1) ≤ matrix.length :=
    le_trans (Nat.mul_le_mul_left _ hi) hm
  have hrow' : 4 * P.stateSizeWords * i + 4 * P.stateSizeWords ≤ matrix.length := by
    rw [Nat.mul_succ] at hrow; exact hrow
  have hiw : 4 * (i * P.stateSizeWords) = 4 * P.stateSizeWords * i := by ring
  have h32 : 32 * (i * P.stateSizeWords) = 32 * P.stateSizeWords * i := by ring
  have h32' : i * P.stateSizeWords * 32 = 32 * P.stateSizeWords * i := by ring
  have h84 : 8 * (4 * P.stateSizeWords * i) = 32 * P.stateSizeWords * i := by ring
  unfold matrixRow
  obtain ⟨w, hw1, hw2⟩ := loop_inv
    (fun t (w : U32) => wsum w = ∑ j ∈ range (32 * t), matBits P.stateSizeWords matrix i j * bitsOf state j)
    (f := fun j prod => do
      let s ← ldw state j
      let m ← ldw matrix (i * P.stateSizeWords + j)
      pure (prod ^^^ (s &&& m))) (n := P.stateSizeBits / 32) (s := 0) (by simp [wsum_zero]) (by
      intro t ht w hI
      rw [ldw_ok (by omega), ok_bind, ldw_ok (by omega), ok_bind]
      refine ⟨_, rfl, ?_⟩
      rw [wsum_xor, hI, show 32 * (t + 1) = 32 * t + 32 by ring, sum_range_add, wsum]
      refine congrArg _ (sum_congr rfl ?_)
      intro k hk
      have hk := mem_range.1 hk
      rw [wordBits_and, wordBits_wordAt _ _ _ hk, wordBits_wordAt _ _ _ hk, mul_comm, matBits,
        show 32 * (i * P.stateSizeWords + t) + k = 32 * P.stateSizeWords * i + (32 * t + k) by ring])
  simp only [hw1, ok_bind]
  obtain ⟨w', h1, h2⟩ := loopFrom_inv
    (fun t (w : U32) => wsum w = ∑ j ∈ range t, matBits P.stateSizeWords matrix i j * bitsOf state j)
    (f := fun j prod => do
      let s ← getBit state j
      let m ← getBit matrix (i * P.stateSizeWords * 32 + j)
      pure (prod ^^^ (s &&& m).setWidth 32)) (lo := P.stateSizeBits / 32 * 32) (hi := P.stateSizeBits) (s := w)
      (by omega) (by rw [hw2, Nat.mul_comm]) (by
      intro t hlo ht w hI
      rw [getBit_ok (by omega), ok_bind, getBit_ok (by omega), ok_bind]
      refine ⟨_, rfl, ?_⟩
      rw [wsum_xor, hI, sum_range_succ, ← b8_mul, wsum_bit, matBits, h32', mul_comm])
  exact ⟨w', h1, h2⟩

theorem matrixMul_ok {P : Params} {temp output state matrix : Buf} (hP : ParamsWF P)
    (ht : temp.length = 64) (ho : 4 * P.stateSizeWords ≤ output.length) (hs : P.stateSizeBits ≤ 8 * state.length)
    (hm : 4 * P.stateSizeWords * P.stateSizeBits ≤ matrix.length) :
    matrixMul temp output state matrix P =
      Outcome.ok (ofBits (mulVec P.stateSizeBits (matBits P.stateSizeWords matrix) (bitsOf state))
        (4 * P.stateSizeWords) ++ output.drop (4 * P.stateSizeWords)) := by
  have hw := hP.words
  have hn := hP.nPos
  have hn2 := hP.nMax
  unfold matrixMul
  obtain ⟨t0, ht0, hl0, hb0⟩ := stw_ok (b := temp) (i := P.stateSizeWords - 1) (by omega) 0
  simp only [ht0, ok_bind]
  obtain ⟨t1, ht1, hl1, hb1⟩ := loop_inv
    (fun i (t : Buf) => t.length = 64 ∧ (∀ j, j < i → bitsOf t j =
        ∑ k ∈ range P.stateSizeBits, matBits P.stateSizeWords matrix j k * bitsOf state k) ∧
      ∀ j, i ≤ j → bitsOf t j = bitsOf t0 j)
    (f := fun i temp => do
      let prod ← matrixRow state matrix P i
      setBit temp i (parity32 prod)) (n := P.stateSizeBits) (s := t0)
    ⟨by omega, by intro j hj; omega, by simp⟩ (by
      intro i hi t ⟨hl, hb, hb'⟩
      obtain ⟨w, hw1, hw2⟩ := matrixRow_ok hw hi hs hm
      simp only [hw1, ok_bind, parity32_eq, hw2]
      rw [setBit_ok (by omega)]
      refine ⟨_, rfl, by simp [hl], fun j hj => ?_, fun j hj => ?_⟩
      · rw [bitsOf_setBitP (by omega), Function.update_apply]
        by_cases hji : j = i
        · subst hji; simp
        · rw [if_neg hji, hb j (by omega)]
      · rw [bitsOf_setBitP (by omega), Function.update_apply, if_neg (by omega), hb' j (by omega)])
  simp only [ht1, ok_bind]
  rw [memcpy_ok (by omega) (by omega)]
  simp only [List.take_zero, List.nil_append, List.drop_zero, Nat.zero_add, Nat.mul_comm P.stateSizeWords 4]
  congr 2
  apply buf_ext
  · simp; omega
  · intro i hi
    have hi' : i < 32 * P.stateSizeWords := by simp at hi; omega
    rw [bitsOf_take (by omega), bitsOf_ofBits _ (by omega), mulVec]
    by_cases hin : i < P.stateSizeBits
    · rw [if_pos hin, hb1.1 i hin]
    · rw [if_neg hin, hb1.2 i (by omega), hb0 i, if_pos (by omega)]
      simp [wordBits]

/-- S-box layer restricted to the first `k` boxes. -/
theorem sboxLayer_succ (k : ℕ) (s : Bits) :
    sboxLayer (k + 1) s =
      Function.update (Function.update (Function.update (sboxLayer k s)
        (3 * k + 2) (s (3 * k + 2) + s (3 * k + 1) * s (3 * k)))
        (3 * k + 1) (s (3 * k + 2) + s (3 * k + 1) + s (3 * k + 2) * s (3 * k)))
        (3 * k) (s (3 * k + 2) + s (3 * k + 1) + s (3 * k) + s (3 * k + 2) * s (3 * k + 1)) := by
  funext i
  simp only [Function.update_apply, sboxLayer, sbox]
  by_cases h : i < 3 * k
  · rw [if_pos (show i < 3 * (k + 1) by omega), if_neg (show ¬ i = 3 * k by omega),
      if_neg (show ¬ i = 3 * k + 1 by omega), if_neg (show ¬ i = 3 * k + 2 by omega), if_pos h]
  · by_cases h2 : i < 3 * (k + 1)
    · have hq : i / 3 = k := by omega
      rw [if_pos h2, hq]
      by_cases h0 : i = 3 * k
      · rw [if_neg (by omega), if_neg (by omega), if_pos h0]
      · rw [if_neg h0]
        by_cases h1 : i = 3 * k + 1
        · rw [if_neg (by omega), if_pos (by omega), if_pos h1]
        · rw [if_neg h1, if_pos (by omega), if_pos (by omega)]
    · rw [if_neg h2, if_neg (by omega), if_neg (by omega), if_neg (by omega), if_neg h]

theorem sboxLayer_ge {k i : ℕ} (s : Bits) (h : 3 * k ≤ i) : sboxLayer k s i = s i := by
  simp only [sboxLayer]; rw [if_neg (by omega)]

theorem substitution_ok {P : Params} {state : Buf} (h : 3 * P.numSboxes ≤ 8 * state.length) :
    ∃ s', substitution state P = Outcome.ok s' ∧ s'.length = state.length ∧
      bitsOf s' = sboxLayer P.numSboxes (bitsOf state) := by
  unfold substitution
  obtain ⟨s, h1, h2, h3⟩ := loop_inv
    (fun k (s : Buf) => s.length = state.length ∧ bitsOf s = sboxLayer k (bitsOf state))
    (f := fun k state => do
      let i := 3 * k
      let a ← getBit state (i + 2)
      let b ← getBit state (i + 1)
      let c ← getBit state i
      let state ← setBit state (i + 2) (a ^^^ (b &&& c))
      let state ← setBit state (i + 1) (a ^^^ b ^^^ (a &&& c))
      setBit state i (a ^^^ b ^^^ c ^^^ (a &&& b))) (n := P.numSboxes) (s := state)
    ⟨rfl, by funext i; simp [sboxLayer]⟩ (by
      intro k hk s ⟨hl, hb⟩
      simp only []
      rw [getBit_ok (by omega), ok_bind, getBit_ok (by omega), ok_bind, getBit_ok (by omega), ok_bind]
      simp only [← b8_add, ← b8_mul]
      rw [setBit_ok (by omega), ok_bind, setBit_ok (by simp; omega), ok_bind, setBit_ok (by simp; omega)]
      refine ⟨_, rfl, by simp [hl], ?_⟩
      rw [bitsOf_setBitP (by simp; omega), bitsOf_setBitP (by simp; omega), bitsOf_setBitP (by omega), sboxLayer_succ,
        hb, sboxLayer_ge _ (by omega), sboxLayer_ge _ (by omega), sboxLayer_ge _ (by omega)])
  exact ⟨s, h1, h2, h3⟩

theorem sboxLayer_congr {m n : ℕ} (h : 3 * m ≤ n) {s t : Bits} (hst : ∀ i < n, s i = t i) :
    ∀ i < n, sboxLayer m s i = sboxLayer m t i := by
  intro i hi
  simp only [sboxLayer]
  by_cases h3 : i < 3 * m
  · rw [if_pos h3, if_pos h3, hst _ (by omega), hst _ (by omega), hst _ (by omega)]
  · rw [if_neg h3, if_neg h3, hst i hi]

theorem mulVec_congr {n : ℕ} {A : ℕ → ℕ → ZMod 2} {v w : Bits} (h : ∀ i < n, v i = w i) : mulVec n A v = mulVec n A w := by
  funext i
  simp only [mulVec]
  split
  · exact sum_congr rfl fun j hj => by rw [h j (mem_range.1 hj)]
  · rfl

theorem mulVec_ge {n i : ℕ} {A : ℕ → ℕ → ZMod 2} {v : Bits} (h : n ≤ i) : mulVec n A v i = 0 := by
  simp [mulVec, show ¬ i < n by omega]

theorem mulVec_add {n : ℕ} {A : ℕ → ℕ → ZMod 2} {v w : Bits} : mulVec n A (v + w) = mulVec n A v + mulVec n A w := by
  funext i
  simp only [mulVec, Pi.add_apply]
  split
  · rw [← sum_add_distrib]; exact sum_congr rfl fun j _ => by ring
  · simp

theorem mulVec_zero {n : ℕ} {A : ℕ → ℕ → ZMod 2} : mulVec n A 0 = 0 := by
  funext i; simp [mulVec]

/-- The result of LowMC only depends on the first n bits of key and plaintext. -/
theorem state_congr {X : Spec.LowMC} (hm : 3 * X.m ≤ X.n) {key key' pt pt' : Bits} (hk : ∀ i < X.n, key i = key' i)
    (hp : ∀ i < X.n, pt i = pt' i) (t : ℕ) : ∀ i < X.n, X.state key pt t i = X.state key' pt' t i := by
  induction t with
  | zero => intro i hi; simp only [LowMC.state, Pi.add_apply, hp i hi, mulVec_congr hk]
  | succ t ih =>
    intro i hi
    simp only [LowMC.state, Pi.add_apply, mulVec_congr hk]
    rw [mulVec_congr (sboxLayer_congr hm ih)]

theorem enc_ge {P : Params} {C : LowMCConsts} (hr : 0 < P.numRounds) {key pt : Bits} {i : ℕ} (h : P.stateSizeBits ≤ i) :
    (lowmcOf P C).enc key pt i = 0 := by
  obtain ⟨t, ht⟩ : ∃ t, P.numRounds = t + 1 := ⟨P.numRounds - 1, by omega⟩
  simp only [LowMC.enc, lowmcOf, ht, LowMC.state, Pi.add_apply]
  rw [mulVec_ge h, mulVec_ge h, trunc, if_neg (by omega)]; simp

theorem enc_congr {P : Params} {C : LowMCConsts} (hP : ParamsWF P) {key key' pt pt' : Bits}
    (hk : ∀ i < P.stateSizeBits, key i = key' i) (hp : ∀ i < P.stateSizeBits, pt i = pt' i) :
    (lowmcOf P C).enc key pt = (lowmcOf P C).enc key' pt' := by
  funext i
  by_cases hi : i < P.stateSizeBits
  · exact state_congr (X := lowmcOf P C) hP.sboxes hk hp _ i hi
  · rw [enc_ge hP.rounds (by omega), enc_ge hP.rounds (by omega)]

theorem lowMCEnc_ok {E : Env} {P : Params} {plaintext output key : Buf} (hP : ParamsWF P) (hC : ConstsWF P (E.lowmc P))
    (hp : 4 * P.stateSizeWords ≤ plaintext.length) (ho : 4 * P.stateSizeWords ≤ output.length)
    (hk : P.stateSizeBits ≤ 8 * key.length) :
    lowMCEnc E P plaintext output key =
      Outcome.ok (ofBits ((lowmcOf P (E.lowmc P)).enc (bitsOf key) (bitsOf plaintext)) (4 * P.stateSizeWords) ++
        output.drop (4 * P.stateSizeWords)) := by
  have hw := hP.words
  have hnm := hP.nMax
  have hsb := hP.sboxes
  set X := lowmcOf P (E.lowmc P) with hX
  unfold lowMCEnc
  rw [memcpy_ok (by omega) (by omega), ok_bind, matrixMul_ok hP (by simp [LOWMC_MAX_STATE_SIZE])
    (by simp [LOWMC_MAX_STATE_SIZE]; omega) (by omega) (hC.K_len 0 (by omega)), ok_bind]
  simp only [List.take_zero, List.nil_append, List.drop_zero, Nat.zero_add, Nat.mul_comm P.stateSizeWords 4]
  set out0 := plaintext.take (4 * P.stateSizeWords) ++ output.drop (4 * P.stateSizeWords) with hout0
  have hout0l : out0.length = output.length := by simp [hout0]; omega
  set rk0 := ofBits (mulVec P.stateSizeBits (matBits P.stateSizeWords ((E.lowmc P).K 0)) (bitsOf key))
    (4 * P.stateSizeWords) ++ (E.junkBuf siteRoundKey 0 LOWMC_MAX_STATE_SIZE).drop (4 * P.stateSizeWords) with hrk0
  have hrk0l : rk0.length = 64 := by simp [hrk0, LOWMC_MAX_STATE_SIZE]; omega
  obtain ⟨o1, ho1, hl1, hb1⟩ := xorArray_ok (out := out0) (in1 := out0) (in2 := rk0) (len := P.stateSizeWords)
    (by omega) (by omega) (by omega)
  rw [ho1, ok_bind]
  obtain ⟨⟨o2, rk2⟩, h2, hlo2, hrk2, hd2, hb2⟩ := loopFrom_inv
    (fun t (s : Buf × Buf) => s.1.length = output.length ∧ s.2.length = 64 ∧
      s.1.drop (4 * P.stateSizeWords) = output.drop (4 * P.stateSizeWords) ∧
      ∀ i, (i < P.stateSizeBits ∨ (1 < t ∧ i < 32 * P.stateSizeWords)) →
        bitsOf s.1 i = X.state (bitsOf key) (bitsOf plaintext) (t - 1) i)
    (f := fun r (s : Buf × Buf) => do
      let roundKey ← matrixMul (E.junkBuf siteMatTemp (2 * r) LOWMC_MAX_STATE_SIZE) s.2 key ((E.lowmc P).K r) P
      let output ← substitution s.1 P
      let output ← matrixMul (E.junkBuf siteMatTemp (2 * r + 1) LOWMC_MAX_STATE_SIZE) output output ((E.lowmc P).L (r - 1)) P
      let output ← xorArray output output ((E.lowmc P).RC (r - 1)) P.stateSizeWords
      let output ← xorArray output output roundKey P.stateSizeWords
      pure (output, roundKey)) (lo := 1) (hi := P.numRounds + 1) (s := (o1, rk0)) (by omega)
    ⟨by simp only; omega, hrk0l, by
      apply buf_ext (by simp [hl1, hout0l])
      intro i hi
      simp only [List.length_drop] at hi
      rw [bitsOf_drop, bitsOf_drop, hb1, if_neg (by omega), hout0]
      have h8 : 8 * (4 * P.stateSizeWords) + i = 8 * (plaintext.take (4 * P.stateSizeWords)).length + i := by
        simp; omega
      rw [h8, bitsOf_append_right, bitsOf_drop, h8],
     by
      intro i hi
      have hi' : i < P.stateSizeBits := by omega
      simp only [hb1, if_pos (show i < 32 * P.stateSizeWords by omega), Nat.sub_self, LowMC.state, Pi.add_apply]
      rw [hout0, bitsOf_append_left (by simp; omega), bitsOf_take (by omega), hrk0,
        bitsOf_append_left (by simp; omega), bitsOf_ofBits _ (by omega)]
      rfl⟩
    (by
      rintro r hr1 hr2 ⟨o, rk⟩ ⟨hlo, hlr, hd, hb⟩
      simp only at hlo hlr hd hb ⊢
      rw [matrixMul_ok hP (by simp [LOWMC_MAX_STATE_SIZE]) (by omega) (by omega) (hC.K_len r (by omega)), ok_bind]
      obtain ⟨o', ho', hl', hb'⟩ := substitution_ok (P := P) (state := o) (by omega)
      rw [ho', ok_bind, matrixMul_ok hP (by simp [LOWMC_MAX_STATE_SIZE]) (by omega) (by omega)
        (hC.L_len (r - 1) (by omega)), ok_bind]
      set o'' := ofBits (mulVec P.stateSizeBits (matBits P.stateSizeWords ((E.lowmc P).L (r - 1))) (bitsOf o'))
        (4 * P.stateSizeWords) ++ o'.drop (4 * P.stateSizeWords) with ho''
      have hl'' : o''.length = output.length := by simp [ho'']; omega
      set rk' := ofBits (mulVec P.stateSizeBits (matBits P.stateSizeWords ((E.lowmc P).K r)) (bitsOf key))
        (4 * P.stateSizeWords) ++ rk.drop (4 * P.stateSizeWords) with hrk'
      have hlr' : rk'.length = 64 := by simp [hrk']; omega
      obtain ⟨p1, hp1, hpl1, hpb1⟩ := xorArray_ok (out := o'') (in1 := o'') (in2 := (E.lowmc P).RC (r - 1))
        (len := P.stateSizeWords) (by omega) (by omega) (hC.RC_len (r - 1) (by omega))
      rw [hp1, ok_bind]
      obtain ⟨p2, hp2, hpl2, hpb2⟩ := xorArray_ok (out := p1) (in1 := p1) (in2 := rk')
        (len := P.stateSizeWords) (by omega) (by omega) (by omega)
      rw [hp2, ok_bind]
      refine ⟨_, rfl, by simp only; omega, by simpa using hlr', ?_, ?_⟩
      · simp only
        rw [← hd]
        apply buf_ext (by simp; omega)
        intro i hi
        simp only [List.length_drop] at hi
        rw [bitsOf_drop, bitsOf_drop, hpb2, if_neg (by omega), hpb1, if_neg (by omega), ho'']
        have h8 : 8 * (4 * P.stateSizeWords) + i = 8 * (ofBits (mulVec P.stateSizeBits (matBits P.stateSizeWords
          ((E.lowmc P).L (r - 1))) (bitsOf o')) (4 * P.stateSizeWords)).length + i := by simp
        rw [h8, bitsOf_append_right, bitsOf_drop, hb', ofBits_length, sboxLayer_ge _ (by omega)]
      · intro i hi
        have hi32 : i < 32 * P.stateSizeWords := by omega
        simp only
        obtain ⟨t, rfl⟩ : ∃ t, r = t + 1 := ⟨r - 1, by omega⟩
        simp only [Nat.add_sub_cancel] at *
        rw [hpb2, if_pos hi32, hpb1, if_pos hi32, ho'', bitsOf_append_left (by simp; omega),
          bitsOf_ofBits _ (by omega), hrk', bitsOf_append_left (by simp; omega), bitsOf_ofBits _ (by omega)]
        simp only [LowMC.state, Pi.add_apply]
        have e1 : mulVec P.stateSizeBits (matBits P.stateSizeWords ((E.lowmc P).L t)) (bitsOf o') =
            mulVec X.n (X.L t) (sboxLayer X.m (X.state (bitsOf key) (bitsOf plaintext) t)) := by
          rw [hb']
          exact mulVec_congr (sboxLayer_congr hsb (fun j hj => hb j (Or.inl hj)))
        rw [e1]
        congr 2
        show bitsOf ((E.lowmc P).RC t) i = trunc P.stateSizeBits (bitsOf ((E.lowmc P).RC t)) i
        by_cases hin : i < P.stateSizeBits
        · simp [trunc, hin]
        · simp only [trunc, if_neg hin]; exact hC.RC_pad t (by omega) i (by omega) hi32)
  have hr := hP.rounds
  rw [show (fun r (x : Buf × Buf) => (match x with
      | (output, roundKey) => do
        let roundKey ← matrixMul (E.junkBuf siteMatTemp (2 * r) LOWMC_MAX_STATE_SIZE) roundKey key ((E.lowmc P).K r) P
        let output ← substitution output P
        let output ← matrixMul (E.junkBuf siteMatTemp (2 * r + 1) LOWMC_MAX_STATE_SIZE) output output ((E.lowmc P).L (r - 1)) P
        let output ← xorArray output output ((E.lowmc P).RC (r - 1)) P.stateSizeWords
        let output ← xorArray output output roundKey P.stateSizeWords
        pure (output, roundKey) : M (Buf × Buf))) = _ from rfl, h2, ok_bind]
  simp only [pure_eq_ok]
  congr 1
  rw [← List.take_append_drop (4 * P.stateSizeWords) o2]
  congr 1
  apply buf_ext (by simp; simp at hlo2; omega)
  intro i hi
  have hi32 : i < 32 * P.stateSizeWords := by simp at hi; omega
  rw [bitsOf_take (by omega), bitsOf_ofBits _ (by omega), hb2 i (Or.inr ⟨by omega, hi32⟩)]
  rfl

end Picnic
