import Verif.Props.Keys

/-
Properties C04, C34, C36: published sizes, parameter names, helper functions.
-/

namespace Picnic

open Spec

/-! ### C34 -/

/-- C34: names of the valid parameter sets are non-empty and pairwise different, all other values are "Unknown
parameter set", and `get_param_set` succeeds exactly for the valid ones. -/
theorem C34_param_names :
    (∀ p q, 1 ≤ p → p ≤ 12 → 1 ≤ q → q ≤ 12 → picnicGetParamName p = picnicGetParamName q → p = q) ∧
    (∀ p, 1 ≤ p → p ≤ 12 → picnicGetParamName p ≠ "" ∧ picnicGetParamName p ≠ "Unknown parameter set") ∧
    (∀ p, ¬(1 ≤ p ∧ p ≤ 12) → picnicGetParamName p = "Unknown parameter set") ∧
    (∀ p, (getParamSet p).isSome = true ↔ 1 ≤ p ∧ p ≤ 12) ∧
    (∀ p, isValidParams p = true ↔ 1 ≤ p ∧ p ≤ 12) := by
  refine ⟨?_, ?_, ?_, getParamSet_isSome, fun p => by rw [isValid_of, getParamSet_isSome]⟩
  · intro p q h1 h2 h3 h4 h
    interval_cases p <;> interval_cases q <;> first | rfl | (exfalso; revert h; decide)
  · intro p h1 h2
    interval_cases p <;> decide
  · intro p hp
    unfold picnicGetParamName
    split <;> first | rfl | (exfalso; omega)

/-! ### C04 -/

/-- C04: for every valid parameter set the signature size is positive and at most PICNIC_MAX_SIGNATURE_SIZE, and the
encoded keys fit the published maximum sizes; for all other values the size function returns the maximum. -/
theorem C04_max_sizes :
    (∀ p, 1 ≤ p → p ≤ 12 → 0 < picnicSignatureSize p ∧ picnicSignatureSize p ≤ 209522) ∧
    (∀ p n, blockBits p = some n → 1 + 2 * bytesFor n ≤ 65 ∧ 1 + 3 * bytesFor n ≤ 98) ∧
    (∀ p, ¬(1 ≤ p ∧ p ≤ 12) → picnicSignatureSize p = 209522) ∧
    PICNIC_MAX_SIGNATURE_SIZE = 209522 ∧ PICNIC_MAX_PUBLICKEY_SIZE = 65 ∧ PICNIC_MAX_PRIVATEKEY_SIZE = 98 := by
  refine ⟨?_, ?_, ?_, rfl, rfl, rfl⟩
  · intro p h1 h2
    interval_cases p <;> decide
  · intro p n h
    obtain ⟨P, hP, rfl⟩ := getParamSet_of h
    have h1 := paramsWF_of hP
    have h2 := h1.nMax
    simp only [bytesFor]; omega
  · intro p hp
    have : getParamSet p = none := by
      rw [← Option.not_isSome_iff_eq_none, getParamSet_isSome]; exact hp
    simp [picnicSignatureSize, this, PICNIC_MAX_SIGNATURE_SIZE]

/-- C04: the exact values of `picnic_signature_size` (Picnic specification, table of signature sizes). -/
theorem C04_signature_sizes :
    (List.range 14).map picnicSignatureSize =
      [209522, 34032, 53961, 76772, 121845, 132856, 209506, 14608, 35024, 61024, 32061, 71179, 126286, 209522] := by
  decide

/-- C04: invalid parameter sets: writers, `picnic_sign` and `picnic_verify` return -1 and write nothing. -/
theorem C04_invalid_params (E : Env) (p : ℕ) (hp : ¬(1 ≤ p ∧ p ≤ 12)) (sk : PrivateKey) (hs : sk.params = p)
    (pk : PublicKey) (hpk : pk.params = p) (buf msg sig : Buf) (n mlen slen : ℕ) :
    picnicWritePublicKey (some pk) (some buf) n = Outcome.ok (-1, some buf) ∧
    picnicWritePrivateKey (some sk) (some buf) n = Outcome.ok (-1, some buf) ∧
    picnicSign E (some sk) msg mlen sig slen = Outcome.ok (-1, sig, slen) ∧
    picnicVerify E (some pk) msg mlen sig slen = Outcome.ok (-1) := by
  have : getParamSet p = none := by
    rw [← Option.not_isSome_iff_eq_none, getParamSet_isSome]; exact hp
  subst hs
  refine ⟨?_, ?_, ?_, ?_⟩
  · simp [picnicWritePublicKey, hpk, this]
  · simp [picnicWritePrivateKey, this]
  · simp [picnicSign, deref, this]
  · simp [picnicVerify, deref, hpk, this]

example : ¬ (1 ≤ 13 ∧ 13 ≤ 12) ∧ picnicSignatureSize 13 = 209522 ∧ picnicSignatureSize 9 = 61024 := by decide

/-! ### C36 -/

/-- C36: `numBytes` is the ceiling of n/8. -/
theorem C36_numBytes (n : ℕ) : n ≤ 8 * numBytes n ∧ 8 * numBytes n < n + 8 := by
  rw [numBytes_eq]; omega

/-- C36: `ceil_log2` is the least exponent with x ≤ 2^k, for every nonzero 32-bit x. -/
theorem C36_ceil_log2 (x : U32) (hx : x ≠ 0) :
    x.toNat ≤ 2 ^ (ceilLog2U32 x).toNat ∧ ∀ k, x.toNat ≤ 2 ^ k → (ceilLog2U32 x).toNat ≤ k :=
  ⟨(ceilLog2U32_spec x hx _).1 (le_refl _), fun k hk => (ceilLog2U32_spec x hx k).2 hk⟩

example : (ceilLog2U32 250).toNat = 8 ∧ (ceilLog2U32 256).toNat = 8 ∧ (ceilLog2U32 257).toNat = 9 := by decide

/-- C36: `nlz` counts leading zeros. -/
theorem C36_nlz (x : U32) (hx : x ≠ 0) :
    (nlz x).toNat ≤ 31 ∧ 2 ^ (31 - (nlz x).toNat) ≤ x.toNat ∧ x.toNat < 2 ^ (32 - (nlz x).toNat) := nlz_spec x hx

/-- C36: writing bit `i` (value 0 or 1) and reading bit `j`. -/
theorem C36_bits (b : Buf) (i j : ℕ) (v : Byte) (hv : v = 0 ∨ v = 1) (hi : i < 8 * b.length) (hj : j < 8 * b.length) :
    ∃ b', setBit b i v = Outcome.ok b' ∧ b'.length = b.length ∧
      getBit b' j = if j = i then Outcome.ok v else getBit b j := by
  obtain ⟨x, rfl⟩ : ∃ x : ZMod 2, v = b8 x := by
    rcases hv with rfl | rfl
    · exact ⟨0, rfl⟩
    · exact ⟨1, rfl⟩
  rw [setBit_ok hi]
  refine ⟨_, rfl, by simp, ?_⟩
  rw [getBit_ok (by simpa using hj), bitsOf_setBitP hi, Function.update_apply, getBit_ok hj]
  split <;> rfl

/-- C36: bit access out of bounds is flagged. -/
theorem C36_bits_oob (b : Buf) (i : ℕ) (v : Byte) (h : 8 * b.length ≤ i) :
    getBit b i = Outcome.ub .oobRead ∧ setBit b i v = Outcome.ub .oobRead := by
  have : b[i / 8]? = none := List.getElem?_eq_none (by omega)
  simp [getBit, setBit, rd, this]

/-- C36: `getBit` returns the bit, most significant first. -/
theorem C36_getBit (b : Buf) (i : ℕ) (hi : i < 8 * b.length) :
    getBit b i = Outcome.ok (if msbBit b i then 1 else 0) := by
  rw [getBit_ok hi]
  unfold bitsOf byteBit msbBit
  cases (b.getD (i / 8) 0).getLsbD (7 - i % 8) <;> rfl

/-- XOR of the first `n` bits of a word. -/
def xorBits (f : ℕ → Bool) : ℕ → Bool
  | 0 => false
  | n + 1 => xorBits f n ^^ f n

private theorem bb_xorBits (f : ℕ → Bool) (n : ℕ) : bb (xorBits f n) = ∑ k ∈ Finset.range n, bb (f k) := by
  induction n with
  | zero => rfl
  | succ n ih => rw [xorBits, bb_xor, ih, Finset.sum_range_succ]

/-- C36: `parity32` is the XOR of all 32 bits. -/
theorem C36_parity32 (x : U32) : parity32 x = if xorBits (fun k => x.getLsbD k) 32 then 1 else 0 := by
  rw [parity32_eq, ← b8_bb, bb_xorBits, b8_inj, wsum]
  simp only [wordBits, Finset.sum_range_succ, Finset.sum_range_zero]
  norm_num
  ring

/-- C36: `parity16` is the XOR of all 16 bits. -/
theorem C36_parity16 (x : U16) : parity16 x = if xorBits (fun k => x.getLsbD k) 16 then 1 else 0 := by
  have h : (parity16 x) = if (x.getLsbD 0 ^^ x.getLsbD 1 ^^ x.getLsbD 2 ^^ x.getLsbD 3 ^^ x.getLsbD 4 ^^ x.getLsbD 5 ^^
      x.getLsbD 6 ^^ x.getLsbD 7 ^^ x.getLsbD 8 ^^ x.getLsbD 9 ^^ x.getLsbD 10 ^^ x.getLsbD 11 ^^ x.getLsbD 12 ^^
      x.getLsbD 13 ^^ x.getLsbD 14 ^^ x.getLsbD 15) then 1 else 0 := by
    apply BitVec.eq_of_getLsbD_eq
    intro i hi
    by_cases h0 : i = 0
    · subst h0
      simp only [parity16, BitVec.getLsbD_and, BitVec.getLsbD_xor, BitVec.getLsbD_ushiftRight]
      rw [apply_ite (fun w : U16 => w.getLsbD 0)]
      simp
      grind
    · have h1 : (1 : U16).getLsbD i = false := by
        rw [show (1 : U16) = 1#16 from rfl, BitVec.getLsbD_one]; simp [h0]
      rw [apply_ite (fun w : U16 => w.getLsbD i)]
      simp only [parity16, BitVec.getLsbD_and]
      simp [h0]
  rw [h]
  simp only [xorBits, Bool.false_xor]

example : parity32 0xF1#32 = 1 ∧ parity16 0x8001#16 = 0 := by decide

/-- C36: `extend` repeats a bit 16 times. -/
theorem C36_extend : extend16 0 = 0#16 ∧ extend16 1 = BitVec.allOnes 16 := by decide

private theorem bitsOf_msbBit (b : Buf) (i : ℕ) : bitsOf b i = bb (msbBit b i) := by
  rw [bitsOf, msbBit, byteBit_eq]

private theorem bb_inj {x y : Bool} : bb x = bb y ↔ x = y := by cases x <;> cases y <;> decide

/-- C36: `parity` of an array of `len` words is the XOR of its `32·len` bits. -/
theorem C36_parity (b : Buf) (len : ℕ) (h1 : 1 ≤ len) (h : 4 * len ≤ b.length) :
    parityWords b len = Outcome.ok (if xorBits (msbBit b) (32 * len) then 1 else 0) := by
  have hw : ∀ t, wsum (wordAt b t) = ∑ k ∈ Finset.range 32, bitsOf b (32 * t + k) := fun t =>
    Finset.sum_congr rfl fun k hk => wordBits_wordAt b t k (Finset.mem_range.1 hk)
  obtain ⟨x, hx, hI⟩ := loopFrom_inv (fun t (x : U32) => wsum x = ∑ k ∈ Finset.range (32 * t), bitsOf b k)
    (f := fun i x => do
      let d ← ldw b i
      pure (x ^^^ d)) (lo := 1) (hi := len) (s := wordAt b 0) h1 (by rw [hw]; simp) (by
      intro t h1 h2 x hx
      rw [ldw_ok (by omega), ok_bind]
      refine ⟨_, rfl, ?_⟩
      rw [wsum_xor, hx, hw, show 32 * (t + 1) = 32 * t + 32 by ring, Finset.sum_range_add])
  have e : parityWords b len = Outcome.ok (parity32 x) := by
    unfold parityWords
    rw [ldw_ok (by omega), ok_bind, hx]
    rfl
  rw [e, parity32_eq, hI, ← b8_bb, bb_xorBits]
  exact congrArg _ (congrArg _ (Finset.sum_congr rfl fun k _ => bitsOf_msbBit b k))

/-- C36: `xor_array` writes the XOR of its `len`-word inputs to the output and changes nothing else. -/
theorem C36_xor_array (out in1 in2 : Buf) (len : ℕ) (h0 : 4 * len ≤ out.length) (h1 : 4 * len ≤ in1.length) (h2 : 4 * len ≤ in2.length) :
    ∃ r, xorArray out in1 in2 len = Outcome.ok r ∧ r.length = out.length ∧
      ∀ j, msbBit r j = if j < 32 * len then msbBit in1 j ^^ msbBit in2 j else msbBit out j := by
  obtain ⟨r, hr, hl, hb⟩ := xorArray_ok h0 h1 h2
  refine ⟨r, hr, hl, fun j => bb_inj.1 ?_⟩
  rw [← bitsOf_msbBit, hb]
  split <;> simp only [bitsOf_msbBit, bb_xor]

/-- C36: `xor_three` writes the XOR of its `len`-byte inputs to the output and changes nothing else. -/
theorem C36_xor_three (out in1 in2 in3 : Buf) (len : ℕ) (h0 : len ≤ out.length) (h1 : len ≤ in1.length) (h2 : len ≤ in2.length)
    (h3 : len ≤ in3.length) :
    ∃ r, xorThree out in1 in2 in3 len = Outcome.ok r ∧ r.length = out.length ∧
      ∀ j, msbBit r j = if j < 8 * len then msbBit in1 j ^^ msbBit in2 j ^^ msbBit in3 j else msbBit out j := by
  obtain ⟨r, hr, hl, hb⟩ := xorThree_ok h0 h1 h2 h3
  refine ⟨r, hr, hl, fun j => bb_inj.1 ?_⟩
  rw [← bitsOf_msbBit, hb]
  split <;> simp only [bitsOf_msbBit, bb_xor]

/-- C36: `zeroTrailingBits` clears the unused bits of the last byte of an `n`-bit field and changes nothing else. -/
theorem C36_zeroTrailingBits (b : Buf) (n : ℕ) (h : bytesFor n ≤ b.length) :
    ∃ r, zeroTrailingBits b n = Outcome.ok r ∧ r.length = b.length ∧ ZeroPad n r ∧
      ∀ j, ¬(n ≤ j ∧ j < 8 * bytesFor n) → msbBit r j = msbBit b j := by
  obtain ⟨r, hr, hl, hb⟩ := zeroTrailingBits_ok (b := b) (n := n) h
  refine ⟨r, hr, hl, fun j h1 h2 => bb_inj.1 ?_, fun j hj => bb_inj.1 ?_⟩
  · rw [← bitsOf_msbBit, hb, if_pos ⟨h1, h2⟩]; rfl
  · rw [← bitsOf_msbBit, hb, if_neg (show ¬(n ≤ j ∧ j < 8 * ((n + 7) / 8)) from hj), bitsOf_msbBit]

/-- C36: `arePaddingBitsZero` tells whether the unused bits of the last byte of an `n`-bit field are zero. -/
theorem C36_arePaddingBitsZero (b : Buf) (n : ℕ) (h : bytesFor n ≤ b.length) :
    ∃ r, arePaddingBitsZero b n = Outcome.ok r ∧ (r = true ↔ ZeroPad n b) := by
  refine ⟨_, arePaddingBitsZero_ok h, ?_⟩
  rw [decide_eq_true_iff]
  have e : ∀ i, bitsOf b i = 0 ↔ msbBit b i = false := fun i => by
    rw [bitsOf_msbBit]; cases msbBit b i <;> decide
  exact ⟨fun hz i h1 h2 => (e i).1 (hz i h1 h2), fun hz i h1 h2 => (e i).2 (hz i h1 h2)⟩

example : parityWords [1, 0, 0, 0, 0, 0x80, 0, 1] 2 = Outcome.ok 1 := by rfl

end Picnic
