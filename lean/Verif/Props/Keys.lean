import Verif.Proofs.Keys
import Verif.Spec.Api

/-
Properties C10, C11, C12: key serialisation.
-/

namespace Picnic

open Spec

/-- The array types of `picnic_publickey_t`. -/
structure PublicKey.Arrays (k : PublicKey) : Prop where
  pt : k.plaintext.length = 32
  ct : k.ciphertext.length = 32

/-- The array types of `picnic_privatekey_t`. -/
structure PrivateKey.Arrays (k : PrivateKey) : Prop where
  data : k.data.length = 32
  pk : k.pk.Arrays

/-! ### helper lemmas -/

theorem blockBits_of {p : ℕ} {P : Params} (h : getParamSet p = some P) : blockBits p = some P.stateSizeBits := by
  obtain ⟨h1, h2⟩ := getParamSet_bounds h
  interval_cases p <;> (injection h with h; subst h; rfl)

theorem getParamSet_of {p n : ℕ} (h : blockBits p = some n) : ∃ P, getParamSet p = some P ∧ P.stateSizeBits = n := by
  have hb : 1 ≤ p ∧ p ≤ 12 := by
    by_contra hc
    have : blockBits p = none := by unfold blockBits; split <;> first | rfl | (exfalso; omega)
    rw [this] at h; simp at h
  have : (getParamSet p).isSome := (getParamSet_isSome p).2 hb
  obtain ⟨P, hP⟩ := Option.isSome_iff_exists.1 this
  refine ⟨P, hP, ?_⟩
  have := blockBits_of hP
  rw [this] at h; injection h

theorem zeroPad_iff {n : ℕ} {b : Buf} : ZeroPad n b ↔ PadZero b n := by
  have : ∀ i, bitsOf b i = 0 ↔ msbBit b i = false := by
    intro i
    unfold bitsOf byteBit msbBit
    cases (b.getD (i / 8) 0).getLsbD (7 - i % 8) <;> simp
  simp only [ZeroPad, PadZero, bytesFor, this]

theorem padZero_congr {n : ℕ} {a b : Buf} (h : ∀ i < 8 * ((n + 7) / 8), bitsOf a i = bitsOf b i) :
    PadZero a n ↔ PadZero b n :=
  ⟨fun g i h1 h2 => by rw [← h i h2]; exact g i h1 h2, fun g i h1 h2 => by rw [h i h2]; exact g i h1 h2⟩

theorem stateBytes_le {p : ℕ} {P : Params} (h : getParamSet p = some P) : P.stateSizeBytes ≤ 32 ∧ 1 ≤ P.stateSizeBytes := by
  have := paramsWF_of h
  have h1 := this.bytes
  have h2 := this.nMax
  have h3 := this.nPos
  omega

theorem isValid_of {p : ℕ} : isValidParams p = true ↔ (getParamSet p).isSome := by
  rw [getParamSet_isSome]
  rw [isValidParams, Bool.and_eq_true, decide_eq_true_iff, decide_eq_true_iff]
  change p > 0 ∧ p < 13 ↔ _
  omega

/-! ### C12: reading -/

/-- C12 (public keys).  For a destination object and a buffer of at least `buflen` bytes, `picnic_read_public_key`
stays in bounds (even if the object has exactly `buflen` bytes), returns 0 or -1, and returns 0 exactly when the
first `buflen` bytes start with the encoding of a public key; then that key is stored. -/
theorem C12_read_public_key (key : PublicKey) (hk : key.Arrays) (buf : Buf) (buflen : ℕ) (hlen : buflen ≤ buf.length) :
    ∃ r key', picnicReadPublicKey (some key) (some buf) buflen = Outcome.ok (r, some key') ∧ (r = 0 ∨ r = -1) ∧
      (r = 0 ↔ ∃ p ct pt, PkEncoding (buf.take buflen) p ct pt) ∧
      (r = 0 → ∃ n, blockBits key'.params = some n ∧
        PkEncoding (buf.take buflen) key'.params (key'.ciphertext.take (bytesFor n))
          (key'.plaintext.take (bytesFor n)) ∧ key'.Arrays) := by
  simp only [picnicReadPublicKey]
  by_cases h1 : buflen < 1
  · rw [if_pos h1]
    refine ⟨_, _, rfl, Or.inr rfl, ?_, by simp⟩
    have : buflen = 0 := by omega
    subst this
    simp [PkEncoding]
  rw [if_neg h1, rd_ok (by omega), ok_bind]
  obtain ⟨b0, t, rfl⟩ : ∃ b0 t, buf = b0 :: t := by
    cases buf with
    | nil => simp at hlen; omega
    | cons a t => exact ⟨a, t, rfl⟩
  obtain ⟨m, rfl⟩ : ∃ m, buflen = m + 1 := ⟨buflen - 1, by omega⟩
  simp only [List.getElem_cons_zero, List.take_succ_cons, ok_bind]
  have hb0 : ∀ p n, blockBits p = some n → b0 = BitVec.ofNat 8 p → b0.toNat = p := by
    intro p n hp h
    obtain ⟨P, hP, -⟩ := getParamSet_of hp
    have := getParamSet_bounds hP
    rw [h]; simp; omega
  cases hP : getParamSet b0.toNat with
  | none =>
    have hv : isValidParams b0.toNat = false := by
      rw [Bool.eq_false_iff]; intro h; rw [isValid_of, hP] at h; simp at h
    rw [if_pos (by simp [hv])]
    refine ⟨_, _, rfl, Or.inr rfl, ?_, by simp⟩
    constructor
    · simp
    · rintro ⟨p, ct, pt, n, rest, hn, he, -⟩
      obtain ⟨P, hP', -⟩ := getParamSet_of hn
      have := hb0 p n hn (List.cons.inj he).1
      rw [this, hP'] at hP; simp at hP
  | some P =>
    have hv : isValidParams b0.toNat = true := by rw [isValid_of, hP]; rfl
    rw [if_neg (by simp [hv])]
    simp only []
    have hwf := paramsWF_of hP
    have hbits := blockBits_of hP
    have hbf : bytesFor P.stateSizeBits = P.stateSizeBytes := by rw [hwf.bytes]; rfl
    obtain ⟨hn32, hn1⟩ := stateBytes_le hP
    have hb0p : BitVec.ofNat 8 b0.toNat = b0 := by simp
    simp only [List.length_cons] at hlen
    by_cases h2 : m + 1 < 1 + 2 * P.stateSizeBytes
    · rw [if_pos h2]
      refine ⟨_, _, rfl, Or.inr rfl, ?_, by simp⟩
      constructor
      · simp
      · rintro ⟨p, ct, pt, n, rest, hn, he, hc, hp, -⟩
        exfalso
        have e := hb0 p n hn (List.cons.inj he).1
        rw [← e, hbits] at hn
        injection hn with hn
        have := congrArg List.length (List.cons.inj he).2
        rw [List.length_take, List.length_append, List.length_append, hc, hp, ← hn, hbf] at this
        omega
    rw [if_neg h2, memcpy_ok (by simp; omega) (by rw [hk.ct]; omega), ok_bind,
      memcpy_ok (by simp; omega) (by rw [hk.pt]; omega), ok_bind]
    have hctl : ((b0 :: t).drop 1 |>.take P.stateSizeBytes).length = P.stateSizeBytes := by simp; omega
    have hptl : ((b0 :: t).drop (1 + P.stateSizeBytes) |>.take P.stateSizeBytes).length = P.stateSizeBytes := by
      simp; omega
    set ct := ((b0 :: t).drop 1).take P.stateSizeBytes with hct
    set pt := ((b0 :: t).drop (1 + P.stateSizeBytes)).take P.stateSizeBytes with hpt
    have hct' : key.ciphertext.take 0 ++ ct ++ key.ciphertext.drop (0 + P.stateSizeBytes) =
        ct ++ key.ciphertext.drop P.stateSizeBytes := by simp
    have hpt' : key.plaintext.take 0 ++ pt ++ key.plaintext.drop (0 + P.stateSizeBytes) =
        pt ++ key.plaintext.drop P.stateSizeBytes := by simp
    rw [hct', hpt']
    have hcong : ∀ a b : Buf, a.length = P.stateSizeBytes → (PadZero (a ++ b) P.stateSizeBits ↔ PadZero a P.stateSizeBits) := by
      intro a b ha
      exact padZero_congr fun i hi => bitsOf_append_left (by rw [ha, hwf.bytes]; exact hi)
    rw [arePaddingBitsZero_ok (by rw [← hwf.bytes, List.length_append, hctl]; omega), ok_bind]
    have hsplit : t.take m = ct ++ pt ++ (t.take m).drop (2 * P.stateSizeBytes) := by
      have e1 : ct ++ pt = (t.take m).take (2 * P.stateSizeBytes) := by
        rw [List.take_take, min_eq_left (by omega), hct, hpt, two_mul, List.take_add]
        rw [Nat.add_comm 1]; simp
      rw [e1, List.take_append_drop]
    have henc : PadZero ct P.stateSizeBits → PadZero pt P.stateSizeBits →
        PkEncoding (b0 :: t.take m) b0.toNat ct pt := fun h1 h2 =>
      ⟨_, (t.take m).drop (2 * P.stateSizeBytes), hbits, by rw [hb0p, ← hsplit], by rw [hctl, hbf], by rw [hptl, hbf],
        zeroPad_iff.2 h1, zeroPad_iff.2 h2⟩
    have hdec : (∃ p ct pt, PkEncoding (b0 :: t.take m) p ct pt) →
        PadZero ct P.stateSizeBits ∧ PadZero pt P.stateSizeBits := by
      rintro ⟨p, ct', pt', n, rest, hn, he, hc, hp, hz1, hz2⟩
      have e := hb0 p n hn (List.cons.inj he).1
      rw [← e, hbits] at hn
      injection hn with hn
      subst hn
      have he2 := (List.cons.inj he).2
      rw [hsplit, List.append_assoc, List.append_assoc] at he2
      obtain ⟨q1, q2⟩ := List.append_inj he2 (by rw [hctl, hc, hbf])
      obtain ⟨q3, q4⟩ := List.append_inj q2 (by rw [hptl, hp, hbf])
      rw [q1, q3]
      exact ⟨zeroPad_iff.1 hz1, zeroPad_iff.1 hz2⟩
    have htake : ∀ a b : Buf, a.length = P.stateSizeBytes → (a ++ b).take (bytesFor P.stateSizeBits) = a := by
      intro a b ha
      rw [hbf, ← ha, List.take_left]
    by_cases hz1 : PadZero ct P.stateSizeBits
    · rw [if_pos (by simpa using (hcong ct _ hctl).2 hz1),
        arePaddingBitsZero_ok (by rw [← hwf.bytes, List.length_append, hptl]; omega), ok_bind]
      by_cases hz2 : PadZero pt P.stateSizeBits
      · rw [if_neg (by simpa using (hcong pt _ hptl).2 hz2)]
        refine ⟨_, _, rfl, Or.inl rfl, ⟨fun _ => ⟨_, _, _, henc hz1 hz2⟩, fun _ => rfl⟩, fun _ => ?_⟩
        refine ⟨P.stateSizeBits, hbits, ?_, ⟨?_, ?_⟩⟩
        · simp only [htake _ _ hctl, htake _ _ hptl]
          exact henc hz1 hz2
        · simp only [List.length_append, List.length_drop, hptl, hk.pt]; omega
        · simp only [List.length_append, List.length_drop, hctl, hk.ct]; omega
      · rw [if_pos (by simpa using fun h => hz2 ((hcong pt _ hptl).1 h))]
        exact ⟨_, _, rfl, Or.inr rfl, ⟨by simp, fun h => absurd (hdec h).2 hz2⟩, by simp⟩
    · rw [if_neg (by simpa using fun h => hz1 ((hcong ct _ hctl).1 h))]
      simp only [pure_eq_ok, ok_bind, Bool.not_false, if_true]
      exact ⟨_, _, rfl, Or.inr rfl, ⟨by simp, fun h => absurd (hdec h).1 hz1⟩, by simp⟩

/-- C12 (private keys). -/
theorem C12_read_private_key (key : PrivateKey) (buf : Buf) (buflen : ℕ) (hlen : buflen ≤ buf.length) :
    ∃ r key', picnicReadPrivateKey (some key) (some buf) buflen = Outcome.ok (r, some key') ∧ (r = 0 ∨ r = -1) ∧
      (r = 0 ↔ ∃ p sk ct pt, SkEncoding (buf.take buflen) p sk ct pt) ∧
      (r = 0 → ∃ n, blockBits key'.params = some n ∧ key'.pk.params = key'.params ∧
        SkEncoding (buf.take buflen) key'.params (key'.data.take (bytesFor n))
          (key'.pk.ciphertext.take (bytesFor n)) (key'.pk.plaintext.take (bytesFor n)) ∧ key'.Arrays ∧
        key'.data.drop (bytesFor n) = List.replicate (32 - bytesFor n) 0 ∧
        key'.pk.ciphertext.drop (bytesFor n) = List.replicate (32 - bytesFor n) 0 ∧
        key'.pk.plaintext.drop (bytesFor n) = List.replicate (32 - bytesFor n) 0) := by
  simp only [picnicReadPrivateKey]
  by_cases h1 : buflen < 1
  · rw [if_pos h1]
    refine ⟨_, _, rfl, Or.inr rfl, ?_, by simp⟩
    have : buflen = 0 := by omega
    subst this
    simp [SkEncoding]
  rw [if_neg h1, rd_ok (by omega), ok_bind]
  obtain ⟨b0, t, rfl⟩ : ∃ b0 t, buf = b0 :: t := by
    cases buf with
    | nil => simp at hlen; omega
    | cons a t => exact ⟨a, t, rfl⟩
  obtain ⟨m, rfl⟩ : ∃ m, buflen = m + 1 := ⟨buflen - 1, by omega⟩
  simp only [List.getElem_cons_zero, List.take_succ_cons, ok_bind]
  have hb0 : ∀ p n, blockBits p = some n → b0 = BitVec.ofNat 8 p → b0.toNat = p := by
    intro p n hp h
    obtain ⟨P, hP, -⟩ := getParamSet_of hp
    have := getParamSet_bounds hP
    rw [h]; simp; omega
  cases hP : getParamSet b0.toNat with
  | none =>
    have hv : isValidParams b0.toNat = false := by
      rw [Bool.eq_false_iff]; intro h; rw [isValid_of, hP] at h; simp at h
    rw [if_pos (by simp [hv])]
    refine ⟨_, _, rfl, Or.inr rfl, ?_, by simp⟩
    constructor
    · simp
    · rintro ⟨p, sk, ct, pt, n, rest, hn, he, -⟩
      obtain ⟨P, hP', -⟩ := getParamSet_of hn
      have := hb0 p n hn (List.cons.inj he).1
      rw [this, hP'] at hP; simp at hP
  | some P =>
    have hv : isValidParams b0.toNat = true := by rw [isValid_of, hP]; rfl
    rw [if_neg (by simp [hv])]
    simp only []
    have hwf := paramsWF_of hP
    have hbits := blockBits_of hP
    have hbf : bytesFor P.stateSizeBits = P.stateSizeBytes := by rw [hwf.bytes]; rfl
    obtain ⟨hn32, hn1⟩ := stateBytes_le hP
    have hb0p : BitVec.ofNat 8 b0.toNat = b0 := by simp
    simp only [List.length_cons] at hlen
    by_cases h2 : m + 1 < 1 + 3 * P.stateSizeBytes
    · rw [if_pos h2]
      refine ⟨_, _, rfl, Or.inr rfl, ?_, by simp⟩
      constructor
      · simp
      · rintro ⟨p, sk, ct, pt, n, rest, hn, he, hs, hc, hp, -⟩
        exfalso
        have e := hb0 p n hn (List.cons.inj he).1
        rw [← e, hbits] at hn
        injection hn with hn
        have := congrArg List.length (List.cons.inj he).2
        rw [List.length_take, List.length_append, List.length_append, List.length_append, hs, hc, hp, ← hn, hbf] at this
        omega
    have hz32 : (zeros PICNIC_MAX_LOWMC_BLOCK_SIZE).length = 32 := by rw [zeros_length]; rfl
    simp only [PrivateKey.zero, PublicKey.zero]
    rw [if_neg h2, memcpy_ok (by simp; omega) (by rw [hz32]; omega), ok_bind,
      memcpy_ok (by simp; omega) (by rw [hz32]; omega), ok_bind,
      memcpy_ok (by simp; omega) (by rw [hz32]; omega), ok_bind]
    have hskl : ((b0 :: t).drop 1 |>.take P.stateSizeBytes).length = P.stateSizeBytes := by simp; omega
    have hctl : ((b0 :: t).drop (1 + P.stateSizeBytes) |>.take P.stateSizeBytes).length = P.stateSizeBytes := by
      simp; omega
    have hptl : ((b0 :: t).drop (1 + 2 * P.stateSizeBytes) |>.take P.stateSizeBytes).length = P.stateSizeBytes := by
      simp; omega
    set sk := ((b0 :: t).drop 1).take P.stateSizeBytes with hsk
    set ct := ((b0 :: t).drop (1 + P.stateSizeBytes)).take P.stateSizeBytes with hct
    set pt := ((b0 :: t).drop (1 + 2 * P.stateSizeBytes)).take P.stateSizeBytes with hpt
    have hzd : ∀ a : Buf, (zeros PICNIC_MAX_LOWMC_BLOCK_SIZE).take 0 ++ a ++
        (zeros PICNIC_MAX_LOWMC_BLOCK_SIZE).drop (0 + P.stateSizeBytes) =
        a ++ List.replicate (32 - P.stateSizeBytes) 0 := by
      intro a
      rw [List.take_zero, List.nil_append, Nat.zero_add, zeros, List.drop_replicate]; rfl
    rw [hzd, hzd, hzd]
    have hcong : ∀ a b : Buf, a.length = P.stateSizeBytes → (PadZero (a ++ b) P.stateSizeBits ↔ PadZero a P.stateSizeBits) := by
      intro a b ha
      exact padZero_congr fun i hi => bitsOf_append_left (by rw [ha, hwf.bytes]; exact hi)
    rw [arePaddingBitsZero_ok (by rw [← hwf.bytes, List.length_append, hskl]; omega), ok_bind]
    have hsplit : t.take m = sk ++ ct ++ pt ++ (t.take m).drop (3 * P.stateSizeBytes) := by
      have e1 : sk ++ ct ++ pt = (t.take m).take (3 * P.stateSizeBytes) := by
        rw [List.take_take, min_eq_left (by omega), hsk, hct, hpt,
          show 3 * P.stateSizeBytes = P.stateSizeBytes + P.stateSizeBytes + P.stateSizeBytes by ring, List.take_add,
          List.take_add, Nat.add_comm 1 P.stateSizeBytes, Nat.add_comm 1 (2 * P.stateSizeBytes), two_mul]
        simp
      rw [e1, List.take_append_drop]
    have henc : PadZero sk P.stateSizeBits → PadZero ct P.stateSizeBits → PadZero pt P.stateSizeBits →
        SkEncoding (b0 :: t.take m) b0.toNat sk ct pt := fun h0 h1 h2 =>
      ⟨_, (t.take m).drop (3 * P.stateSizeBytes), hbits, by rw [hb0p, ← hsplit], by rw [hskl, hbf], by rw [hctl, hbf],
        by rw [hptl, hbf], zeroPad_iff.2 h0, zeroPad_iff.2 h1, zeroPad_iff.2 h2⟩
    have hdec : (∃ p sk ct pt, SkEncoding (b0 :: t.take m) p sk ct pt) →
        PadZero sk P.stateSizeBits ∧ PadZero ct P.stateSizeBits ∧ PadZero pt P.stateSizeBits := by
      rintro ⟨p, sk', ct', pt', n, rest, hn, he, hs, hc, hp, hz0, hz1, hz2⟩
      have e := hb0 p n hn (List.cons.inj he).1
      rw [← e, hbits] at hn
      injection hn with hn
      subst hn
      have he2 := (List.cons.inj he).2
      rw [hsplit] at he2
      simp only [List.append_assoc] at he2
      obtain ⟨q1, q2⟩ := List.append_inj he2 (by rw [hskl, hs, hbf])
      obtain ⟨q3, q4⟩ := List.append_inj q2 (by rw [hctl, hc, hbf])
      obtain ⟨q5, q6⟩ := List.append_inj q4 (by rw [hptl, hp, hbf])
      rw [q1, q3, q5]
      exact ⟨zeroPad_iff.1 hz0, zeroPad_iff.1 hz1, zeroPad_iff.1 hz2⟩
    have htake : ∀ a b : Buf, a.length = P.stateSizeBytes → (a ++ b).take (bytesFor P.stateSizeBits) = a := by
      intro a b ha
      rw [hbf, ← ha, List.take_left]
    have hdrop : ∀ a b : Buf, a.length = P.stateSizeBytes → (a ++ b).drop (bytesFor P.stateSizeBits) = b := by
      intro a b ha
      rw [hbf, ← ha, List.drop_left]
    by_cases hz0 : PadZero sk P.stateSizeBits
    · rw [if_pos (by simpa using (hcong sk _ hskl).2 hz0),
        arePaddingBitsZero_ok (by rw [← hwf.bytes, List.length_append, hctl]; omega), ok_bind]
      by_cases hz1 : PadZero ct P.stateSizeBits
      · rw [if_pos (by simpa using (hcong ct _ hctl).2 hz1),
          arePaddingBitsZero_ok (by rw [← hwf.bytes, List.length_append, hptl]; omega), ok_bind]
        by_cases hz2 : PadZero pt P.stateSizeBits
        · rw [if_neg (by simpa using (hcong pt _ hptl).2 hz2)]
          refine ⟨_, _, rfl, Or.inl rfl, ⟨fun _ => ⟨_, _, _, _, henc hz0 hz1 hz2⟩, fun _ => rfl⟩, fun _ => ?_⟩
          refine ⟨P.stateSizeBits, hbits, rfl, ?_, ⟨?_, ⟨?_, ?_⟩⟩, ?_, ?_, ?_⟩
          · simp only [htake _ _ hctl, htake _ _ hptl, htake _ _ hskl]
            exact henc hz0 hz1 hz2
          · simp only [List.length_append, List.length_replicate, hskl]; omega
          · simp only [List.length_append, List.length_replicate, hptl]; omega
          · simp only [List.length_append, List.length_replicate, hctl]; omega
          · rw [hdrop _ _ hskl, hbf]
          · rw [hdrop _ _ hctl, hbf]
          · rw [hdrop _ _ hptl, hbf]
        · rw [if_pos (by simpa using fun h => hz2 ((hcong pt _ hptl).1 h))]
          exact ⟨_, _, rfl, Or.inr rfl, ⟨by simp, fun h => absurd (hdec h).2.2 hz2⟩, by simp⟩
      · rw [if_neg (by simpa using fun h => hz1 ((hcong ct _ hctl).1 h))]
        simp only [pure_eq_ok, ok_bind, Bool.not_false, if_true]
        exact ⟨_, _, rfl, Or.inr rfl, ⟨by simp, fun h => absurd (hdec h).2.1 hz1⟩, by simp⟩
    · rw [if_neg (by simpa using fun h => hz0 ((hcong sk _ hskl).1 h))]
      simp only [pure_eq_ok, ok_bind, Bool.not_false, if_true, Bool.false_eq_true, if_false]
      exact ⟨_, _, rfl, Or.inr rfl, ⟨by simp, fun h => absurd (hdec h).1 hz0⟩, by simp⟩

/-- C12: NULL arguments are refused. -/
theorem C12_null (key : Option PublicKey) (sk : Option PrivateKey) (buf : Option Buf) (n : ℕ) :
    picnicReadPublicKey none buf n = Outcome.ok (-1, none) ∧ picnicReadPublicKey key none n = Outcome.ok (-1, key) ∧
    picnicReadPrivateKey none buf n = Outcome.ok (-1, none) ∧ picnicReadPrivateKey sk none n = Outcome.ok (-1, sk) ∧
    picnicWritePublicKey none buf n = Outcome.ok (-1, buf) ∧ picnicWritePublicKey key none n = Outcome.ok (-1, none) ∧
    picnicWritePrivateKey none buf n = Outcome.ok (-1, buf) ∧
    picnicWritePrivateKey sk none n = Outcome.ok (-1, none) := by
  refine ⟨?_, ?_, ?_, ?_, ?_, ?_, ?_, ?_⟩ <;> first | rfl | (cases key <;> rfl) | (cases sk <;> rfl)

/-! ### writing -/

/-- C12 (writers): a valid public key is written to the start of the buffer, nothing else changes; a short buffer or an
invalid parameter set is refused without writing. -/
theorem C12_write_public_key (key : PublicKey) (hk : key.Arrays) (buf : Buf) (buflen : ℕ) (hlen : buflen ≤ buf.length) :
    picnicWritePublicKey (some key) (some buf) buflen =
      match blockBits key.params with
      | none => Outcome.ok (-1, some buf)
      | some n =>
        if buflen < 1 + 2 * bytesFor n then Outcome.ok (-1, some buf)
        else Outcome.ok (((1 + 2 * bytesFor n : ℕ) : Int), some (BitVec.ofNat 8 key.params ::
          (key.ciphertext.take (bytesFor n) ++ key.plaintext.take (bytesFor n) ++ buf.drop (1 + 2 * bytesFor n)))) := by
  simp only [picnicWritePublicKey]
  cases hP : getParamSet key.params with
  | none =>
    cases hb : blockBits key.params with
    | none => rfl
    | some n =>
      obtain ⟨P, hP', -⟩ := getParamSet_of hb
      rw [hP'] at hP; simp at hP
  | some P =>
    have hwf := paramsWF_of hP
    have hbf : bytesFor P.stateSizeBits = P.stateSizeBytes := by rw [hwf.bytes]; rfl
    obtain ⟨hn32, hn1⟩ := stateBytes_le hP
    have h1 := hk.pt
    have h2 := hk.ct
    rw [blockBits_of hP]
    simp only [hbf]
    by_cases h : buflen < 1 + 2 * P.stateSizeBytes
    · rw [if_pos h, if_pos h]; rfl
    rw [if_neg h, if_neg h]
    obtain ⟨b0, t, rfl⟩ : ∃ b0 t, buf = b0 :: t := by
      cases buf with
      | nil => simp at hlen; omega
      | cons a t => exact ⟨a, t, rfl⟩
    simp only [List.length_cons] at hlen
    have hl : (key.ciphertext.take P.stateSizeBytes).length = P.stateSizeBytes := by simp; omega
    rw [wr_ok (by simp), ok_bind, List.set_cons_zero]
    rw [show BitVec.ofNat 8 key.params :: t = [BitVec.ofNat 8 key.params] ++ t from rfl,
      memcpy_at (by simp) (by omega) (by omega), ok_bind,
      memcpy_at (by simp; omega) (by omega) (by simp; omega), ok_bind]
    simp only [pure_eq_ok, List.drop_zero, List.drop_drop]
    rw [show 1 + 2 * P.stateSizeBytes = P.stateSizeBytes + P.stateSizeBytes + 1 by ring, List.drop_succ_cons]
    simp

/-- C12 (writers), private keys. -/
theorem C12_write_private_key (key : PrivateKey) (hk : key.Arrays) (buf : Buf) (buflen : ℕ) (hlen : buflen ≤ buf.length) :
    picnicWritePrivateKey (some key) (some buf) buflen =
      match blockBits key.params with
      | none => Outcome.ok (-1, some buf)
      | some n =>
        if buflen < 1 + 3 * bytesFor n then Outcome.ok (-1, some buf)
        else Outcome.ok (((1 + 3 * bytesFor n : ℕ) : Int), some (BitVec.ofNat 8 key.params ::
          (key.data.take (bytesFor n) ++ key.pk.ciphertext.take (bytesFor n) ++ key.pk.plaintext.take (bytesFor n) ++
            buf.drop (1 + 3 * bytesFor n)))) := by
  simp only [picnicWritePrivateKey]
  cases hP : getParamSet key.params with
  | none =>
    cases hb : blockBits key.params with
    | none => rfl
    | some n =>
      obtain ⟨P, hP', -⟩ := getParamSet_of hb
      rw [hP'] at hP; simp at hP
  | some P =>
    have hwf := paramsWF_of hP
    have hbf : bytesFor P.stateSizeBits = P.stateSizeBytes := by rw [hwf.bytes]; rfl
    obtain ⟨hn32, hn1⟩ := stateBytes_le hP
    have h1 := hk.pk.pt
    have h2 := hk.pk.ct
    have h3 := hk.data
    rw [blockBits_of hP]
    simp only [hbf]
    by_cases h : buflen < 1 + 3 * P.stateSizeBytes
    · rw [if_pos h, if_pos h]; rfl
    rw [if_neg h, if_neg h]
    obtain ⟨b0, t, rfl⟩ : ∃ b0 t, buf = b0 :: t := by
      cases buf with
      | nil => simp at hlen; omega
      | cons a t => exact ⟨a, t, rfl⟩
    simp only [List.length_cons] at hlen
    rw [wr_ok (by simp), ok_bind, List.set_cons_zero]
    rw [show BitVec.ofNat 8 key.params :: t = [BitVec.ofNat 8 key.params] ++ t from rfl,
      memcpy_at (by simp) (by omega) (by omega), ok_bind,
      memcpy_at (by simp; omega) (by omega) (by simp; omega), ok_bind,
      memcpy_at (by simp; omega) (by omega) (by simp; omega), ok_bind]
    simp only [pure_eq_ok, List.drop_zero, List.drop_drop]
    rw [show 1 + 3 * P.stateSizeBytes = P.stateSizeBytes + P.stateSizeBytes + P.stateSizeBytes + 1 by ring,
      List.drop_succ_cons]
    simp

/-! ### C10, C11: round trips -/

/-- C10: reading back a written public key.  `key` is any key whose two blocks have zero padding bits, `buf'` any
buffer that starts with the written bytes, `dst` any destination object. -/
theorem C10_write_read (key dst : PublicKey) (hk : key.Arrays) (hd : dst.Arrays) (n : ℕ)
    (hn : blockBits key.params = some n) (hz1 : ZeroPad n key.ciphertext) (hz2 : ZeroPad n key.plaintext)
    (buf : Buf) (buflen : ℕ) (hlen : buflen ≤ buf.length) (hl : 1 + 2 * bytesFor n ≤ buflen) :
    ∃ out, picnicWritePublicKey (some key) (some buf) buflen =
        Outcome.ok (((1 + 2 * bytesFor n : ℕ) : Int), some out) ∧
      ∀ tail : Buf, ∃ key', picnicReadPublicKey (some dst) (some (out.take (1 + 2 * bytesFor n) ++ tail))
          (1 + 2 * bytesFor n + tail.length) = Outcome.ok (0, some key') ∧ key'.params = key.params ∧
        key'.ciphertext.take (bytesFor n) = key.ciphertext.take (bytesFor n) ∧
        key'.plaintext.take (bytesFor n) = key.plaintext.take (bytesFor n) := by
  rw [C12_write_public_key key hk buf buflen hlen, hn]
  simp only []
  rw [if_neg (by omega)]
  refine ⟨_, rfl, fun tail => ?_⟩
  obtain ⟨P, hP, hPn⟩ := getParamSet_of hn
  have hwf := paramsWF_of hP
  have hbf : bytesFor n = P.stateSizeBytes := by rw [hwf.bytes, hPn]; rfl
  obtain ⟨hn32, hn1⟩ := stateBytes_le hP
  have hpb := getParamSet_bounds hP
  have h1 := hk.pt
  have h2 := hk.ct
  set N := bytesFor n with hN
  have hcl : (key.ciphertext.take N).length = N := by simp; omega
  have hpl : (key.plaintext.take N).length = N := by simp; omega
  have hw : (BitVec.ofNat 8 key.params :: (key.ciphertext.take N ++ key.plaintext.take N ++ buf.drop (1 + 2 * N))).take
      (1 + 2 * N) = BitVec.ofNat 8 key.params :: (key.ciphertext.take N ++ key.plaintext.take N) := by
    rw [Nat.add_comm 1, List.take_succ_cons, List.take_left' (by rw [List.length_append, hcl, hpl]; ring)]
  rw [hw]
  have hlen' : (BitVec.ofNat 8 key.params :: (key.ciphertext.take N ++ key.plaintext.take N) ++ tail).length =
      1 + 2 * N + tail.length := by
    simp only [List.cons_append, List.length_cons, List.length_append, hcl, hpl]; ring
  have henc : PkEncoding ((BitVec.ofNat 8 key.params :: (key.ciphertext.take N ++ key.plaintext.take N) ++ tail).take
      (1 + 2 * N + tail.length)) key.params (key.ciphertext.take N) (key.plaintext.take N) := by
    refine ⟨n, tail, hn, ?_, hcl, hpl, ?_, ?_⟩
    · rw [List.take_of_length_le (by rw [hlen'])]; simp
    · rw [zeroPad_iff] at hz1 ⊢
      exact (padZero_congr fun i hi => bitsOf_take (by rw [hN]; exact hi)).2 hz1
    · rw [zeroPad_iff] at hz2 ⊢
      exact (padZero_congr fun i hi => bitsOf_take (by rw [hN]; exact hi)).2 hz2
  obtain ⟨r, key', hr, -, hiff, hok⟩ := C12_read_public_key dst hd
    (BitVec.ofNat 8 key.params :: (key.ciphertext.take N ++ key.plaintext.take N) ++ tail) (1 + 2 * N + tail.length)
    (by rw [hlen'])
  have hr0 : r = 0 := hiff.2 ⟨_, _, _, henc⟩
  subst hr0
  refine ⟨key', hr, ?_⟩
  obtain ⟨n', hn', henc', -⟩ := hok rfl
  obtain ⟨n1, rest1, hb1, he1, hc1, hp1, -⟩ := henc
  obtain ⟨n2, rest2, hb2, he2, hc2, hp2, -⟩ := henc'
  rw [he1] at he2
  obtain ⟨q1, q2⟩ := List.cons.inj he2
  obtain ⟨P', hP', -⟩ := getParamSet_of hb2
  have hpb' := getParamSet_bounds hP'
  have hpp : key'.params = key.params := by
    have := congrArg BitVec.toNat q1
    simp only [BitVec.toNat_ofNat] at this
    omega
  rw [hpp, hn] at hn' hb2
  injection hn' with hn'
  injection hb2 with hb2
  subst hn' hb2
  rw [List.append_assoc, List.append_assoc] at q2
  obtain ⟨e1, q2⟩ := List.append_inj q2 (by rw [hcl, hc2])
  obtain ⟨e2, q2⟩ := List.append_inj q2 (by rw [hpl, hp2])
  exact ⟨hpp, e1.symm, e2.symm⟩

/-- C10, converse: whatever `picnic_read_public_key` accepts is reproduced by writing the key back. -/
theorem C10_read_write (dst : PublicKey) (hd : dst.Arrays) (buf : Buf) (buflen : ℕ) (hlen : buflen ≤ buf.length)
    (key : PublicKey) (h : picnicReadPublicKey (some dst) (some buf) buflen = Outcome.ok (0, some key))
    (buf2 : Buf) (buflen2 : ℕ) (hlen2 : buflen2 ≤ buf2.length) :
    ∃ n, blockBits key.params = some n ∧ 1 + 2 * bytesFor n ≤ buflen ∧
      (1 + 2 * bytesFor n ≤ buflen2 → picnicWritePublicKey (some key) (some buf2) buflen2 =
        Outcome.ok (((1 + 2 * bytesFor n : ℕ) : Int),
          some (buf.take (1 + 2 * bytesFor n) ++ buf2.drop (1 + 2 * bytesFor n)))) := by
  obtain ⟨r, key', hr, -, -, hok⟩ := C12_read_public_key dst hd buf buflen hlen
  rw [h] at hr
  injection hr with hr
  obtain ⟨hr1, hr2⟩ := Prod.mk.inj hr
  injection hr2 with hr2
  subst hr1 hr2
  obtain ⟨n, hn, ⟨n', rest, hn', he, hc, hp, -⟩, harr⟩ := hok rfl
  rw [hn] at hn'
  injection hn' with hn'
  subst hn'
  have hL := congrArg List.length he
  rw [List.length_take, min_eq_left hlen] at hL
  simp only [List.length_cons, List.length_append, hc, hp] at hL
  refine ⟨n, hn, by omega, fun h2 => ?_⟩
  rw [C12_write_public_key key harr buf2 buflen2 hlen2, hn]
  simp only []
  rw [if_neg (by omega)]
  have : buf.take (1 + 2 * bytesFor n) = BitVec.ofNat 8 key.params ::
      (key.ciphertext.take (bytesFor n) ++ key.plaintext.take (bytesFor n)) := by
    have e : buf.take (1 + 2 * bytesFor n) = (buf.take buflen).take (1 + 2 * bytesFor n) := by
      rw [List.take_take, min_eq_left (by omega)]
    rw [e, he, Nat.add_comm 1, List.take_succ_cons, List.take_left' (by rw [List.length_append, hc, hp]; ring)]
  rw [this]
  simp

/-- C11: reading back a written private key. -/
theorem C11_write_read (key dst : PrivateKey) (hk : key.Arrays) (n : ℕ)
    (hn : blockBits key.params = some n) (hz0 : ZeroPad n key.data) (hz1 : ZeroPad n key.pk.ciphertext)
    (hz2 : ZeroPad n key.pk.plaintext)
    (buf : Buf) (buflen : ℕ) (hlen : buflen ≤ buf.length) (hl : 1 + 3 * bytesFor n ≤ buflen) :
    ∃ out, picnicWritePrivateKey (some key) (some buf) buflen =
        Outcome.ok (((1 + 3 * bytesFor n : ℕ) : Int), some out) ∧
      ∀ tail : Buf, ∃ key', picnicReadPrivateKey (some dst) (some (out.take (1 + 3 * bytesFor n) ++ tail))
          (1 + 3 * bytesFor n + tail.length) = Outcome.ok (0, some key') ∧ key'.params = key.params ∧
        key'.pk.params = key.params ∧ key'.data.take (bytesFor n) = key.data.take (bytesFor n) ∧
        key'.pk.ciphertext.take (bytesFor n) = key.pk.ciphertext.take (bytesFor n) ∧
        key'.pk.plaintext.take (bytesFor n) = key.pk.plaintext.take (bytesFor n) := by
  rw [C12_write_private_key key hk buf buflen hlen, hn]
  simp only []
  rw [if_neg (by omega)]
  refine ⟨_, rfl, fun tail => ?_⟩
  obtain ⟨P, hP, hPn⟩ := getParamSet_of hn
  have hwf := paramsWF_of hP
  have hbf : bytesFor n = P.stateSizeBytes := by rw [hwf.bytes, hPn]; rfl
  obtain ⟨hn32, hn1⟩ := stateBytes_le hP
  have hpb := getParamSet_bounds hP
  have h1 := hk.pk.pt
  have h2 := hk.pk.ct
  have h3 := hk.data
  set N := bytesFor n with hN
  have hsl : (key.data.take N).length = N := by simp; omega
  have hcl : (key.pk.ciphertext.take N).length = N := by simp; omega
  have hpl : (key.pk.plaintext.take N).length = N := by simp; omega
  have hw : (BitVec.ofNat 8 key.params :: (key.data.take N ++ key.pk.ciphertext.take N ++ key.pk.plaintext.take N ++
      buf.drop (1 + 3 * N))).take (1 + 3 * N) =
      BitVec.ofNat 8 key.params :: (key.data.take N ++ key.pk.ciphertext.take N ++ key.pk.plaintext.take N) := by
    rw [Nat.add_comm 1, List.take_succ_cons,
      List.take_left' (by rw [List.length_append, List.length_append, hsl, hcl, hpl]; ring)]
  rw [hw]
  have hlen' : (BitVec.ofNat 8 key.params :: (key.data.take N ++ key.pk.ciphertext.take N ++ key.pk.plaintext.take N) ++
      tail).length = 1 + 3 * N + tail.length := by
    simp only [List.cons_append, List.length_cons, List.length_append, hsl, hcl, hpl]; ring
  have henc : SkEncoding ((BitVec.ofNat 8 key.params ::
      (key.data.take N ++ key.pk.ciphertext.take N ++ key.pk.plaintext.take N) ++ tail).take
      (1 + 3 * N + tail.length)) key.params (key.data.take N) (key.pk.ciphertext.take N) (key.pk.plaintext.take N) := by
    refine ⟨n, tail, hn, ?_, hsl, hcl, hpl, ?_, ?_, ?_⟩
    · rw [List.take_of_length_le (by rw [hlen'])]; simp
    · rw [zeroPad_iff] at hz0 ⊢
      exact (padZero_congr fun i hi => bitsOf_take (by rw [hN]; exact hi)).2 hz0
    · rw [zeroPad_iff] at hz1 ⊢
      exact (padZero_congr fun i hi => bitsOf_take (by rw [hN]; exact hi)).2 hz1
    · rw [zeroPad_iff] at hz2 ⊢
      exact (padZero_congr fun i hi => bitsOf_take (by rw [hN]; exact hi)).2 hz2
  obtain ⟨r, key', hr, -, hiff, hok⟩ := C12_read_private_key dst
    (BitVec.ofNat 8 key.params :: (key.data.take N ++ key.pk.ciphertext.take N ++ key.pk.plaintext.take N) ++ tail)
    (1 + 3 * N + tail.length) (by rw [hlen'])
  have hr0 : r = 0 := hiff.2 ⟨_, _, _, _, henc⟩
  subst hr0
  refine ⟨key', hr, ?_⟩
  obtain ⟨n', hn', hpp0, henc', -⟩ := hok rfl
  obtain ⟨n1, rest1, hb1, he1, hs1, hc1, hp1, -⟩ := henc
  obtain ⟨n2, rest2, hb2, he2, hs2, hc2, hp2, -⟩ := henc'
  rw [he1] at he2
  obtain ⟨q1, q2⟩ := List.cons.inj he2
  obtain ⟨P', hP', -⟩ := getParamSet_of hb2
  have hpb' := getParamSet_bounds hP'
  have hpp : key'.params = key.params := by
    have := congrArg BitVec.toNat q1
    simp only [BitVec.toNat_ofNat] at this
    omega
  rw [hpp, hn] at hn' hb2
  injection hn' with hn'
  injection hb2 with hb2
  subst hn' hb2
  simp only [List.append_assoc] at q2
  obtain ⟨e0, q2⟩ := List.append_inj q2 (by rw [hsl, hs2])
  obtain ⟨e1, q2⟩ := List.append_inj q2 (by rw [hcl, hc2])
  obtain ⟨e2, q2⟩ := List.append_inj q2 (by rw [hpl, hp2])
  exact ⟨hpp, hpp0.trans hpp, e0.symm, e1.symm, e2.symm⟩

/-- C11, converse. -/
theorem C11_read_write (dst : PrivateKey) (buf : Buf) (buflen : ℕ) (hlen : buflen ≤ buf.length)
    (key : PrivateKey) (h : picnicReadPrivateKey (some dst) (some buf) buflen = Outcome.ok (0, some key))
    (buf2 : Buf) (buflen2 : ℕ) (hlen2 : buflen2 ≤ buf2.length) :
    ∃ n, blockBits key.params = some n ∧ 1 + 3 * bytesFor n ≤ buflen ∧
      (1 + 3 * bytesFor n ≤ buflen2 → picnicWritePrivateKey (some key) (some buf2) buflen2 =
        Outcome.ok (((1 + 3 * bytesFor n : ℕ) : Int),
          some (buf.take (1 + 3 * bytesFor n) ++ buf2.drop (1 + 3 * bytesFor n)))) := by
  obtain ⟨r, key', hr, -, -, hok⟩ := C12_read_private_key dst buf buflen hlen
  rw [h] at hr
  injection hr with hr
  obtain ⟨hr1, hr2⟩ := Prod.mk.inj hr
  injection hr2 with hr2
  subst hr1 hr2
  obtain ⟨n, hn, -, ⟨n', rest, hn', he, hs, hc, hp, -⟩, harr, -⟩ := hok rfl
  rw [hn] at hn'
  injection hn' with hn'
  subst hn'
  have hL := congrArg List.length he
  rw [List.length_take, min_eq_left hlen] at hL
  simp only [List.length_cons, List.length_append, hs, hc, hp] at hL
  refine ⟨n, hn, by omega, fun h2 => ?_⟩
  rw [C12_write_private_key key harr buf2 buflen2 hlen2, hn]
  simp only []
  rw [if_neg (by omega)]
  have : buf.take (1 + 3 * bytesFor n) = BitVec.ofNat 8 key.params ::
      (key.data.take (bytesFor n) ++ key.pk.ciphertext.take (bytesFor n) ++ key.pk.plaintext.take (bytesFor n)) := by
    have e : buf.take (1 + 3 * bytesFor n) = (buf.take buflen).take (1 + 3 * bytesFor n) := by
      rw [List.take_take, min_eq_left (by omega)]
    rw [e, he, Nat.add_comm 1, List.take_succ_cons,
      List.take_left' (by rw [List.length_append, List.length_append, hs, hc, hp]; ring)]
  rw [this]
  simp

/-! ### non-vacuity: a concrete Picnic3-L1 key -/

/-- A Picnic3-L1 public key (129-bit blocks in 17 bytes). -/
def exPk : PublicKey :=
  { params := 7
    plaintext := List.replicate 16 0xA5 ++ [0x80] ++ List.replicate 15 0
    ciphertext := List.replicate 16 0x3C ++ [0x80] ++ List.replicate 15 0xEE }

example : exPk.Arrays ∧ blockBits exPk.params = some 129 ∧ ZeroPad 129 exPk.ciphertext ∧ ZeroPad 129 exPk.plaintext ∧
    1 + 2 * bytesFor 129 = 35 :=
  ⟨⟨rfl, rfl⟩, rfl, zeroPad_iff.2 (by decide), zeroPad_iff.2 (by decide), rfl⟩

/-- An accepted and a rejected (padding bit set) encoding. -/
example : (∃ p ct pt, PkEncoding ([7] ++ List.replicate 16 0x3C ++ [0x80] ++ List.replicate 16 0xA5 ++ [0x80]) p ct pt) ∧
    ¬ ZeroPad 129 (List.replicate 16 0x3C ++ [0xC0]) :=
  ⟨⟨7, List.replicate 16 0x3C ++ [0x80], List.replicate 16 0xA5 ++ [0x80], 129, [], rfl, rfl, rfl, rfl,
    zeroPad_iff.2 (by decide), zeroPad_iff.2 (by decide)⟩, fun h => absurd (zeroPad_iff.1 h) (by decide)⟩

end Picnic
