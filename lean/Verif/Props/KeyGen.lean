import Verif.Props.LowMC

/-
Properties C07, C08, C09: key generation and key validation.
-/

namespace Picnic

open Spec

/-- The public key `(pt, ct)` belongs to the secret `key`: the encoded ciphertext is the LowMC encryption of the
plaintext, followed by zero padding bits up to the next byte boundary. -/
def Relation (P : Params) (C : LowMCConsts) (key pt ct : Buf) : Prop :=
  ∀ i < 8 * bytesFor P.stateSizeBits,
    bitsOf ct i = if i < P.stateSizeBits then (lowmcOf P C).enc (bitsOf key) (bitsOf pt) i else 0

theorem take_eq_iff {a b : Buf} {n : ℕ} (h1 : n ≤ a.length) (h2 : n ≤ b.length) :
    a.take n = b.take n ↔ ∀ i < 8 * n, bitsOf a i = bitsOf b i := by
  constructor
  · intro h i hi
    rw [← bitsOf_take (b := a) hi, ← bitsOf_take (b := b) hi, h]
  · intro h
    refine buf_ext (by simp; omega) fun i hi => ?_
    have hi' : i < 8 * n := by simp at hi; omega
    rw [bitsOf_take hi', bitsOf_take hi']
    exact h i hi'

/-- C08: for all key structures (whatever is stored in unused bytes and padding bits) `picnic_validate_keypair` stays
in bounds, returns 0 or -1, and returns 0 exactly when the parameter sets agree, are valid, and the ciphertext is the
encryption of the plaintext under the secret. -/
theorem C08_validate (E : Env) (hE : EnvWF E) (sk : PrivateKey) (pk : PublicKey) (hsk : sk.Arrays) (hpk : pk.Arrays) :
    ∃ r, picnicValidateKeypair E (some sk) (some pk) = Outcome.ok r ∧ (r = 0 ∨ r = -1) ∧
      (r = 0 ↔ sk.params = pk.params ∧
        ∃ P, getParamSet pk.params = some P ∧ Relation P (E.lowmc P) sk.data pk.plaintext pk.ciphertext) := by
  simp only [picnicValidateKeypair, deref, pure_eq_ok, ok_bind]
  cases hP : getParamSet pk.params with
  | none => exact ⟨_, rfl, Or.inr rfl, by simp⟩
  | some P =>
    simp only []
    by_cases h1 : sk.params ≠ pk.params
    · rw [if_pos h1]
      exact ⟨_, rfl, Or.inr rfl, by simp [h1]⟩
    rw [if_neg h1]
    have h1' : sk.params = pk.params := not_not.1 h1
    have hv : isValidParams sk.params = true := isValid_of.2 (by rw [h1', hP]; rfl)
    rw [hv]
    simp only [Bool.not_true, Bool.false_eq_true, if_false]
    have hWF := paramsWF_of hP
    have hw := hWF.words
    have hn := hWF.nMax
    have hb := hWF.bytes
    obtain ⟨hs1, hs2⟩ := stateBytes_le hP
    have := hpk.pt
    have := hpk.ct
    have := hsk.data
    obtain ⟨out, ho, hol, ho1, ho2, -⟩ := C30_enc_spec E hE _ P hP pk.plaintext (zeros PICNIC_MAX_LOWMC_BLOCK_SIZE)
      sk.data hpk.pt (by simp [PICNIC_MAX_LOWMC_BLOCK_SIZE]) hsk.data
    rw [ho, ok_bind, memeq_ok (by omega) (by omega), ok_bind]
    have key : (out.take P.stateSizeBytes = pk.ciphertext.take P.stateSizeBytes) ↔
        Relation P (E.lowmc P) sk.data pk.plaintext pk.ciphertext := by
      rw [take_eq_iff (by omega) (by omega), Relation, bytesFor, hb]
      refine forall_congr' fun i => forall_congr' fun hi => ?_
      by_cases hin : i < P.stateSizeBits
      · rw [if_pos hin, ho1 i hin, eq_comm]
      · rw [if_neg hin, ho2 i (by omega) (by omega), eq_comm]
    refine ⟨_, rfl, ?_, ?_⟩
    · split <;> simp
    · by_cases hR : Relation P (E.lowmc P) sk.data pk.plaintext pk.ciphertext
      · rw [key.2 hR]; simp [h1', hR]
      · have : ¬ (out.take P.stateSizeBytes == pk.ciphertext.take P.stateSizeBytes) = true := by
          rw [beq_iff_eq]; exact fun h => hR (key.1 h)
        rw [if_neg this]; simp [h1', hR]

theorem relation_congr {P : Params} {C : LowMCConsts} (hP : ParamsWF P) {key key' pt pt' ct ct' : Buf}
    (hk : ∀ i < P.stateSizeBits, bitsOf key i = bitsOf key' i) (hp : ∀ i < P.stateSizeBits, bitsOf pt i = bitsOf pt' i)
    (hc : ∀ i < 8 * bytesFor P.stateSizeBits, bitsOf ct i = bitsOf ct' i) :
    Relation P C key pt ct ↔ Relation P C key' pt' ct' := by
  unfold Relation
  rw [enc_congr hP hk hp]
  exact forall_congr' fun i => forall_congr' fun hi => by rw [hc i hi]

/-- C08: the result depends only on the parameter sets, the first n bits of secret and plaintext, and the first ⌈n/8⌉
bytes of the ciphertext. -/
theorem C08_unused_bytes (E : Env) (hE : EnvWF E) (sk sk' : PrivateKey) (pk pk' : PublicKey) (n : ℕ) (hsk : sk.Arrays)
    (hpk : pk.Arrays) (hsk' : sk'.Arrays) (hpk' : pk'.Arrays) (hn : blockBits pk.params = some n)
    (h1 : sk.params = sk'.params) (h2 : pk.params = pk'.params)
    (h3 : ∀ i < n, bitsOf sk.data i = bitsOf sk'.data i) (h4 : ∀ i < n, bitsOf pk.plaintext i = bitsOf pk'.plaintext i)
    (h5 : pk.ciphertext.take (bytesFor n) = pk'.ciphertext.take (bytesFor n)) :
    picnicValidateKeypair E (some sk) (some pk) = picnicValidateKeypair E (some sk') (some pk') := by
  obtain ⟨r, e, ho, hr⟩ := C08_validate E hE sk pk hsk hpk
  obtain ⟨r', e', ho', hr'⟩ := C08_validate E hE sk' pk' hsk' hpk'
  obtain ⟨P, hP, rfl⟩ := getParamSet_of hn
  have hWF := paramsWF_of hP
  have := hWF.nMax
  have := hpk.ct
  have := hpk'.ct
  have h5' := (take_eq_iff (by rw [bytesFor]; omega) (by rw [bytesFor]; omega)).1 h5
  have : r = 0 ↔ r' = 0 := by
    rw [hr, hr', ← h1, ← h2, hP]
    simp only [Option.some.injEq, exists_eq_left']
    rw [relation_congr hWF h3 h4 h5']
  rw [e, e']
  congr 1
  rcases ho with h | h <;> rcases ho' with h' | h'
  · rw [h, h']
  · rw [this.1 h] at h'; simp at h'
  · rw [this.2 h'] at h; simp at h
  · rw [h, h']

/-! ### C07 -/

/-- The random source returns as many bytes as requested, if it succeeds. -/
def RngLen (rng : Rng) : Prop := ∀ k n r, rng k n = some r → r.length = n

theorem trunc_random {P : Params} (hP : ParamsWF P) {r : Buf} (hr : r.length = P.stateSizeBytes) :
    ∃ d, (do let x ← wrN (zeros PICNIC_MAX_LOWMC_BLOCK_SIZE) 0 r; zeroTrailingBits x P.stateSizeBits) = Outcome.ok d ∧
      d.length = 32 ∧ ∀ i, bitsOf d i = if i < P.stateSizeBits then bitsOf r i else 0 := by
  have hb := hP.bytes
  have hn := hP.nMax
  rw [wrN_ok (by simp [PICNIC_MAX_LOWMC_BLOCK_SIZE]; omega), ok_bind]
  simp only [List.take_zero, List.nil_append, Nat.zero_add]
  obtain ⟨d, h1, h2, h3⟩ := zeroTrailingBits_ok (b := r ++ (zeros PICNIC_MAX_LOWMC_BLOCK_SIZE).drop r.length)
    (n := P.stateSizeBits) (by simp; omega)
  refine ⟨d, h1, ?_, fun i => ?_⟩
  · rw [h2]; simp [PICNIC_MAX_LOWMC_BLOCK_SIZE]; omega
  · rw [h3]
    by_cases hi : i < P.stateSizeBits
    · rw [if_neg (by omega), if_pos hi, bitsOf_append_left (by omega)]
    · rw [if_neg hi]
      by_cases hi2 : i < 8 * ((P.stateSizeBits + 7) / 8)
      · rw [if_pos ⟨by omega, hi2⟩]
      · rw [if_neg (by omega)]
        obtain ⟨j, rfl⟩ : ∃ j, i = 8 * r.length + j := ⟨i - 8 * r.length, by omega⟩
        rw [bitsOf_append_right, bitsOf_drop, bitsOf_zeros]

/-- C07: what `picnic_keygen` produces from two random strings.  `n` is the block length of the parameter set. -/
theorem C07_keygen (E : Env) (hE : EnvWF E) (rng : Rng) (hrng : RngLen rng) (p n : ℕ) (hn : blockBits p = some n)
    (pk0 : PublicKey) (sk0 : PrivateKey) (r0 r1 : Buf) (h0 : rng 0 (bytesFor n) = some r0)
    (h1 : rng 1 (bytesFor n) = some r1) :
    ∃ pk sk, picnicKeygen E rng p (some pk0) (some sk0) = Outcome.ok (0, some pk, some sk) ∧
      pk.params = p ∧ sk.params = p ∧ sk.pk = pk ∧ pk.Arrays ∧ sk.Arrays ∧
      (∀ i, bitsOf sk.data i = if i < n then bitsOf r0 i else 0) ∧
      (∀ i, bitsOf pk.plaintext i = if i < n then bitsOf r1 i else 0) ∧
      (∃ P, getParamSet p = some P ∧ P.stateSizeBits = n ∧
        ∀ i, bitsOf pk.ciphertext i = if i < n then (lowmcOf P (E.lowmc P)).enc (bitsOf r0) (bitsOf r1) i else 0) ∧
      picnicValidateKeypair E (some sk) (some pk) = Outcome.ok 0 := by
  obtain ⟨P, hP, rfl⟩ := getParamSet_of hn
  have hWF := paramsWF_of hP
  have hb := hWF.bytes
  have hw := hWF.words
  have hmax := hWF.nMax
  have hv : isValidParams p = true := isValid_of.2 (by rw [hP]; rfl)
  have hbf : bytesFor P.stateSizeBits = P.stateSizeBytes := by rw [bytesFor, hb]
  rw [hbf] at h0 h1
  obtain ⟨d0, e0, l0, b0⟩ := trunc_random hWF (hrng _ _ _ h0)
  obtain ⟨d1, e1, l1, b1⟩ := trunc_random hWF (hrng _ _ _ h1)
  obtain ⟨ct, hct, hctl, hc1, hc2, hc3⟩ := C30_enc_spec E hE p P hP d1 (zeros PICNIC_MAX_LOWMC_BLOCK_SIZE) d0 l1
    (by simp [PICNIC_MAX_LOWMC_BLOCK_SIZE]) l0
  have hk0 : ∀ i < P.stateSizeBits, bitsOf d0 i = bitsOf r0 i := fun i hi => by rw [b0, if_pos hi]
  have hk1 : ∀ i < P.stateSizeBits, bitsOf d1 i = bitsOf r1 i := fun i hi => by rw [b1, if_pos hi]
  have hcb : ∀ i, bitsOf ct i = if i < P.stateSizeBits then
      (lowmcOf P (E.lowmc P)).enc (bitsOf r0) (bitsOf r1) i else 0 := by
    intro i
    by_cases hi : i < P.stateSizeBits
    · rw [if_pos hi, hc1 i hi, enc_congr hWF hk0 hk1]
    · rw [if_neg hi]
      by_cases hi2 : i < 32 * P.stateSizeWords
      · exact hc2 i (by omega) hi2
      · rw [hc3 i (by omega), bitsOf_zeros]
  let pk : PublicKey := { params := p, plaintext := d1, ciphertext := ct }
  let sk : PrivateKey := { params := p, data := d0, pk := pk }
  have hpka : pk.Arrays := ⟨l1, hctl⟩
  have hska : sk.Arrays := ⟨l0, hpka⟩
  refine ⟨pk, sk, ?_, rfl, rfl, rfl, hpka, hska, b0, b1, ⟨P, hP, rfl, hcb⟩, ?_⟩
  · have key : ∀ {α : Type} (r d : Buf) (k : Buf → M α),
        (do let x ← wrN (zeros PICNIC_MAX_LOWMC_BLOCK_SIZE) 0 r; zeroTrailingBits x P.stateSizeBits) = Outcome.ok d →
        (do let x ← wrN (zeros PICNIC_MAX_LOWMC_BLOCK_SIZE) 0 r
            let y ← zeroTrailingBits x P.stateSizeBits
            k y) = k d := by
      intro α r d k h
      rw [← bind_assoc, h, ok_bind]
    simp only [picnicKeygen, hv, Bool.not_true, Bool.false_eq_true, if_false, hP, PublicKey.zero, PrivateKey.zero, h0, h1]
    rw [key _ _ _ e0, key _ _ _ e1, hct]
    rfl
  · obtain ⟨r, hr, -, hr2⟩ := C08_validate E hE sk pk hska hpka
    rw [hr]
    congr 1
    refine hr2.2 ⟨rfl, P, hP, fun i _ => ?_⟩
    rw [show pk.ciphertext = ct from rfl, hcb]
    by_cases hi : i < P.stateSizeBits
    · rw [if_pos hi, if_pos hi]
      exact (congrFun (enc_congr (C := E.lowmc P) hWF hk0 hk1) i).symm
    · rw [if_neg hi, if_neg hi]

/-- C07: in every other case `picnic_keygen` returns -1. -/
theorem C07_keygen_error (E : Env) (hE : EnvWF E) (rng : Rng) (hrng : RngLen rng) (p : ℕ) (pk0 : Option PublicKey)
    (sk0 : Option PrivateKey)
    (h : blockBits p = none ∨ pk0 = none ∨ sk0 = none ∨
      ∃ n, blockBits p = some n ∧ (rng 0 (bytesFor n) = none ∨ rng 1 (bytesFor n) = none)) :
    ∃ pk sk, picnicKeygen E rng p pk0 sk0 = Outcome.ok (-1, pk, sk) := by
  unfold picnicKeygen
  by_cases hv : isValidParams p = true
  swap
  · rw [if_pos (by simpa using hv)]; exact ⟨_, _, rfl⟩
  rw [if_neg (by simpa using hv)]
  obtain ⟨P, hP⟩ := Option.isSome_iff_exists.1 (isValid_of.1 hv)
  rcases pk0 with _ | pk0
  · exact ⟨_, _, rfl⟩
  rcases sk0 with _ | sk0
  · exact ⟨_, _, rfl⟩
  simp only [hP]
  have hWF := paramsWF_of hP
  have hbb := blockBits_of hP
  simp only [hbb, reduceCtorEq, false_or, Option.some.injEq, exists_eq_left'] at h
  rw [bytesFor, ← hWF.bytes] at h
  cases h0 : rng 0 P.stateSizeBytes with
  | none => exact ⟨_, _, rfl⟩
  | some r0 =>
    have h1 : rng 1 P.stateSizeBytes = none := by simpa [h0] using h
    obtain ⟨d0, e0, -, -⟩ := trunc_random hWF (hrng _ _ _ h0)
    simp only [PrivateKey.zero]
    rw [← bind_assoc, e0, ok_bind, h1]
    exact ⟨_, _, rfl⟩

/-- The hypotheses of C07 can be met for every parameter set, with random strings that are not zero. -/
example (p n : ℕ) (hn : blockBits p = some n) : ∃ (rng : Rng) (r0 r1 : Buf), RngLen rng ∧
    rng 0 (bytesFor n) = some r0 ∧ rng 1 (bytesFor n) = some r1 ∧ EnvWF exEnv ∧ r0.take 1 = [0xff] := by
  obtain ⟨P, hP, rfl⟩ := getParamSet_of hn
  have := (paramsWF_of hP).nPos
  refine ⟨fun _ n => some (List.replicate n 0xff), _, _, fun k n r h => by injection h with h; subst h; simp, rfl, rfl,
    exEnv_wf, ?_⟩
  obtain ⟨m, hm⟩ : ∃ m, bytesFor P.stateSizeBits = m + 1 := ⟨bytesFor P.stateSizeBits - 1, by unfold bytesFor; omega⟩
  rw [hm]; rfl

/-! ### C09 -/

/-- C09 is false for the code: if the public key pointer is NULL, the function dereferences it before its NULL check.
This holds for every private key argument. -/
theorem C09_null_public_key_violated (E : Env) (sk : Option PrivateKey) :
    picnicValidateKeypair E sk none = Outcome.ub UB.nullDeref := rfl

/-- C09 (the part that holds): a NULL private key is answered with -1.  Missing for the full property: the same for a
NULL public key (see `C09_null_public_key_violated`). -/
theorem C09_null_private_key_partial (E : Env) (pk : PublicKey) :
    picnicValidateKeypair E none (some pk) = Outcome.ok (-1) := by
  simp only [picnicValidateKeypair, deref, pure_eq_ok, ok_bind]
  cases getParamSet pk.params <;> rfl

end Picnic
