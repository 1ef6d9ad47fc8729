import Verif.Props.Damaged
import Verif.Props.P3Example

/-
C69: what a failed key generation leaves behind.
-/

namespace Picnic

open Spec

/-- C69: a call with an invalid parameter set or a NULL pointer changes nothing. -/
theorem C69_untouched (E : Env) (rng : Rng) (p : ℕ) (pk0 : Option PublicKey) (sk0 : Option PrivateKey)
    (h : blockBits p = none ∨ pk0 = none ∨ sk0 = none) :
    picnicKeygen E rng p pk0 sk0 = Outcome.ok (-1, pk0, sk0) := by
  unfold picnicKeygen
  by_cases hv : isValidParams p = true
  swap
  · rw [if_pos (by simpa using hv)]; rfl
  rw [if_neg (by simpa using hv)]
  obtain ⟨P, hP⟩ := Option.isSome_iff_exists.1 (isValid_of.1 hv)
  rcases pk0 with _ | pk0
  · rfl
  rcases sk0 with _ | sk0
  · rfl
  rw [blockBits_of hP] at h
  simp at h

/-- C69: if the random source fails, the public key and the copy of it in the private key are zero (apart from the
parameter set, which the copy does not have either); the secret is zero or, if the second request failed, what the first
one delivered, cut to the length of a block. -/
theorem C69_leftover (E : Env) (rng : Rng) (hrng : RngLen rng) (p n : ℕ) (hn : blockBits p = some n)
    (pk0 : PublicKey) (sk0 : PrivateKey) (h : rng 0 (bytesFor n) = none ∨ rng 1 (bytesFor n) = none) :
    ∃ pk sk, picnicKeygen E rng p (some pk0) (some sk0) = Outcome.ok (-1, some pk, some sk) ∧
      pk.params = p ∧ pk.plaintext = List.replicate 32 0 ∧ pk.ciphertext = List.replicate 32 0 ∧
      sk.params = p ∧ sk.pk.params = 0 ∧ sk.pk.plaintext = List.replicate 32 0 ∧ sk.pk.ciphertext = List.replicate 32 0 ∧
      sk.data.length = 32 ∧
      ∀ i, bitsOf sk.data i = if i < n then ((rng 0 (bytesFor n)).elim 0 fun r => bitsOf r i) else 0 := by
  obtain ⟨P, hP, rfl⟩ := getParamSet_of hn
  have hWF := paramsWF_of hP
  have hb : bytesFor P.stateSizeBits = P.stateSizeBytes := by rw [bytesFor, ← hWF.bytes]
  rw [hb] at h ⊢
  unfold picnicKeygen
  rw [if_neg (by simpa using isValid_of.2 (by rw [hP]; rfl))]
  simp only [hP]
  cases h0 : rng 0 P.stateSizeBytes with
  | none =>
    refine ⟨_, _, rfl, rfl, rfl, rfl, rfl, rfl, rfl, rfl, rfl, fun i => ?_⟩
    have : bitsOf PrivateKey.zero.data i = 0 := by
      simp [PrivateKey.zero, bitsOf_zeros]
    simpa using this
  | some r0 =>
    have h1 : rng 1 P.stateSizeBytes = none := by simpa [h0] using h
    obtain ⟨d0, e0, hl, hd⟩ := trunc_random hWF (hrng _ _ _ h0)
    simp only [PrivateKey.zero]
    rw [← bind_assoc, e0, ok_bind, h1]
    exact ⟨_, _, rfl, rfl, rfl, rfl, rfl, rfl, rfl, rfl, hl, hd⟩

/-- C69: what is left behind is not a working key by accident: `picnic_validate_keypair` accepts it, and `picnic_sign`
returns 0 and writes anything, only if LowMC maps the zero block to the zero block under the secret that is left behind. -/
theorem C69_unusable (E : Env) (hE : EnvWF E) (hI : InvWF E) (rng : Rng) (hrng : RngLen rng) (p n : ℕ) (hn : blockBits p = some n)
    (pk0 : PublicKey) (sk0 : PrivateKey) (h : rng 0 (bytesFor n) = none ∨ rng 1 (bytesFor n) = none) :
    ∃ pk sk P, picnicKeygen E rng p (some pk0) (some sk0) = Outcome.ok (-1, some pk, some sk) ∧ getParamSet p = some P ∧
      ((∃ i < n, (lowmcOf P (E.lowmc P)).enc (bitsOf sk.data) (fun _ => 0) i ≠ 0) →
        picnicValidateKeypair E (some sk) (some pk) = Outcome.ok (-1) ∧
        ∀ (msg : Buf) (mlen : ℕ), mlen ≤ msg.length → mlen + 200 ≤ 2 ^ 32 → ∀ (buf : Buf) (slen : ℕ), slen ≤ buf.length →
          picnicSign E (some sk) msg mlen buf slen = Outcome.ok (-1, buf, slen)) := by
  obtain ⟨pk, sk, e, h1, h2, h3, h4, h5, h6, h7, h8, -⟩ := C69_leftover E rng hrng p n hn pk0 sk0 h
  obtain ⟨P, hP, rfl⟩ := getParamSet_of hn
  have hWF := paramsWF_of hP
  refine ⟨pk, sk, P, e, hP, ?_⟩
  rintro ⟨i, hi, hne⟩
  have hpkA : pk.Arrays := ⟨by rw [h2]; rfl, by rw [h3]; rfl⟩
  have hskA : sk.Arrays := ⟨h8, ⟨by rw [h6]; rfl, by rw [h7]; rfl⟩⟩
  have hz : ∀ j, bitsOf (List.replicate 32 0) j = 0 := fun j => bitsOf_zeros ..
  have hz' : bitsOf (List.replicate 32 0) = fun _ => 0 := funext hz
  have hno : ¬ Relation P (E.lowmc P) sk.data (List.replicate 32 0) (List.replicate 32 0) := fun hR => by
    have := hR i (by rw [bytesFor]; omega)
    rw [if_pos hi, hz, hz'] at this
    exact hne this.symm
  constructor
  · obtain ⟨r, e, ho, hv⟩ := C08_validate E hE sk pk hskA hpkA
    rw [e]
    rcases ho with rfl | rfl
    · obtain ⟨-, P', hP', hR⟩ := hv.1 rfl
      rw [h1, hP] at hP'
      obtain rfl : P = P' := by simpa using hP'
      rw [h2, h3] at hR
      exact absurd hR hno
    · rfl
  · intro msg mlen hm hm32 buf slen hbuf
    have hno' : ¬ Relation P (E.lowmc P) sk.data sk.pk.plaintext sk.pk.ciphertext := by rw [h6, h7]; exact hno
    rw [← h4] at hP
    rcases validParams_cases hn with hp | hp <;> rw [← h4] at hp
    · exact C22_mismatch E hE sk hskA hp P hP hno' msg mlen hm hm32 buf slen hbuf
    · exact (C21_sign E hE hI sk hskA hp P hP msg mlen hm hm32 buf slen hbuf).1 hno'

/-! ### The hypotheses can be met -/

/-- LowMC tables with identity matrices whose last round constant alone is not zero. -/
def tipConsts (P : Params) : LowMCConsts :=
  { idConsts P with RC := fun r => ofBits (fun k => if r + 1 = P.numRounds ∧ k = 0 then 1 else 0) (4 * P.stateSizeWords) }

/-- An environment with these tables. -/
def tipEnv : Env := { altEnv with lowmc := tipConsts }

theorem tipEnv_wf : EnvWF tipEnv where
  perm := altEnv_wf.perm
  lowmc := fun p P h => by
    have hP := paramsWF_of h
    have hw := hP.words
    refine ⟨fun r _ => ?_, fun r _ => ?_, fun r _ => ?_, fun r _ i h1 h2 => ?_⟩
    · simp [tipEnv, tipConsts, idConsts, idMatrix]
    · simp [tipEnv, tipConsts, idConsts, idMatrix]
    · simp [tipEnv, tipConsts]
    · have := hP.nPos
      simp only [tipEnv, tipConsts]
      rw [bitsOf_ofBits _ (by omega), if_neg (by omega)]

theorem tipEnv_inv : InvWF tipEnv where
  len := fun p _ P _ => ⟨by simp [tipEnv, tipConsts, idConsts, idMatrix], fun r _ => by simp [tipEnv, tipConsts, idConsts, idMatrix]⟩
  inv := fun p _ P hP => ⟨idMatrix_inv (paramsWF_of hP), fun r _ => idMatrix_inv (paramsWF_of hP)⟩

theorem mulVec_zeroFun (n : ℕ) (A : ℕ → ℕ → ZMod 2) : mulVec n A (fun _ => 0) = fun _ => 0 := by
  funext i; simp [mulVec]

theorem sboxLayer_zero (m : ℕ) : sboxLayer m (fun _ => 0) = fun _ => 0 := by
  funext i; simp [sboxLayer, sbox]

theorem tip_enc {P : Params} (hP : ParamsWF P) (hr : 0 < P.numRounds) :
    (lowmcOf P (tipEnv.lowmc P)).enc (fun _ => 0) (fun _ => 0) 0 = 1 := by
  have hw := hP.words
  have hn := hP.nPos
  have hst : ∀ t < P.numRounds, (lowmcOf P (tipEnv.lowmc P)).state (fun _ => 0) (fun _ => 0) t = fun _ => 0 := by
    intro t
    induction t with
    | zero => intro _; funext i; simp [LowMC.state, mulVec_zeroFun]
    | succ t ih =>
      intro ht
      rw [LowMC.state, ih (by omega), sboxLayer_zero, mulVec_zeroFun, mulVec_zeroFun]
      funext i
      simp only [Pi.add_apply, zero_add, add_zero, lowmcOf, trunc, tipEnv, tipConsts]
      split
      · rw [bitsOf_ofBits _ (by omega), if_neg (by omega)]
      · rfl
  obtain ⟨t, ht⟩ : ∃ t, P.numRounds = t + 1 := ⟨P.numRounds - 1, by omega⟩
  have : (lowmcOf P (tipEnv.lowmc P)).r = t + 1 := ht
  rw [LowMC.enc, this, LowMC.state, hst t (by omega), sboxLayer_zero, mulVec_zeroFun, mulVec_zeroFun]
  simp only [Pi.add_apply, zero_add, add_zero, lowmcOf, trunc, tipEnv, tipConsts]
  rw [if_pos hn, bitsOf_ofBits _ (by omega), if_pos ⟨ht.symm, rfl⟩]

/-- With these tables every parameter set gives a failed key generation whose objects cannot be used. -/
example (p n : ℕ) (hn : blockBits p = some n) (pk0 : PublicKey) (sk0 : PrivateKey) :
    ∃ pk sk, picnicKeygen tipEnv (fun _ _ => none) p (some pk0) (some sk0) = Outcome.ok (-1, some pk, some sk) ∧
      picnicValidateKeypair tipEnv (some sk) (some pk) = Outcome.ok (-1) ∧
      picnicSign tipEnv (some sk) [1, 2, 3] 3 (List.replicate 9 7) 9 = Outcome.ok (-1, List.replicate 9 7, 9) := by
  have hrng : RngLen (fun _ _ => none) := fun _ _ _ h => by simp at h
  obtain ⟨pk, sk, P, e, hP, h⟩ := C69_unusable tipEnv tipEnv_wf tipEnv_inv _ hrng p n hn pk0 sk0 (Or.inl rfl)
  obtain ⟨pk', sk', e', -, -, -, -, -, -, -, -, hd⟩ := C69_leftover tipEnv _ hrng p n hn pk0 sk0 (Or.inl rfl)
  rw [e] at e'
  simp only [Outcome.ok.injEq, Prod.mk.injEq, Option.some.injEq, true_and] at e'
  obtain ⟨rfl, rfl⟩ := e'
  have hz : bitsOf sk.data = fun _ => 0 := funext fun i => by rw [hd i]; simp
  have hWF := paramsWF_of hP
  have hne : (0 : ℕ) < n ∧ 0 < P.numRounds := by
    rw [blockBits_of hP] at hn
    injection hn with hn
    exact ⟨hn ▸ hWF.nPos, hWF.rounds⟩
  obtain ⟨h1, h2⟩ := h ⟨0, hne.1, by rw [hz, tip_enc hWF hne.2]; decide⟩
  exact ⟨pk, sk, e, h1, h2 [1, 2, 3] 3 (by simp) (by norm_num) _ 9 (by simp)⟩

end Picnic
