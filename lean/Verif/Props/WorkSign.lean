import Verif.Proofs.WorkSign
import Verif.Props.Work
import Verif.Props.KeyGen

/-
C70: the work of key generation, key validation and signing is bounded.
-/

namespace Picnic

open Leak Spec

theorem sign_bound {e q : ℕ} [Kind e q] {p : ℕ} {P : Params} (hP : getParamSet p = some P) (E : Env) (sk : PrivateKey) (hsk : sk.params = p)
    (hn : P.numMPCParties * P.seedSizeBytes ≤ INT_MAX) (hn' : P.numMPCRounds * P.seedSizeBytes ≤ INT_MAX)
    (msg : Buf) (mlen : ℕ) (b : Buf) (n : ℕ) :
    cost e (q * rateOf P) (Leak.picnicSign E (some sk) msg mlen b n) ≤
      (if isPicnic3 p then (sign3_work e q P 0 0).1 else (signZkb_work e q P 0 0).1) + 2 * ((15 * e + q) * mlen) +
      E.fuel * (if isPicnic3 p then (expandChallengeHash_work e q P 1).1 - (expandChallengeHash_work e q P 0).1
        else (h3Scan_work e (q * rateOf P) P).1 + e + (rehash3_work e q P).1) := by
  subst hsk
  cases h3 : isPicnic3 sk.params with
  | true => exact ((sign3_work e q P mlen E.fuel).2 E sk msg b n rfl hP h3 hn hn').trans (sign3_linear e q P mlen E.fuel)
  | false => exact ((signZkb_work e q P mlen E.fuel).2 E sk msg b n rfl hP h3).trans (signZkb_linear e q P mlen E.fuel)

/-- the entries of the tables -/
theorem sign_table : ∀ p ∈ [1, 2, 3, 4, 5, 6, 7, 8, 9, 10, 11, 12], ∀ P, getParamSet p = some P →
    P.numMPCParties * P.seedSizeBytes ≤ INT_MAX ∧ P.numMPCRounds * P.seedSizeBytes ≤ INT_MAX ∧
    (if isPicnic3 p then (sign3_work 1 0 P 0 0).1 else (signZkb_work 1 0 P 0 0).1) ≤ Spec.signSteps p ∧
    (if isPicnic3 p then (sign3_work 0 1 P 0 0).1 else (signZkb_work 0 1 P 0 0).1) ≤ Spec.rate p * Spec.signPermutations p ∧
    (keygen_work 1 0 P).1 ≤ Spec.keySteps p ∧ (validate_work 1 0 P).1 ≤ Spec.keySteps p ∧
    (keygen_work 0 1 P).1 = 0 ∧ (validate_work 0 1 P).1 = 0 := by
  have key : ∀ p ∈ [1, 2, 3, 4, 5, 6, 7, 8, 9, 10, 11, 12], (getParamSet p).all fun P => decide (
      P.numMPCParties * P.seedSizeBytes ≤ INT_MAX ∧ P.numMPCRounds * P.seedSizeBytes ≤ INT_MAX ∧
      (if isPicnic3 p then (sign3_work 1 0 P 0 0).1 else (signZkb_work 1 0 P 0 0).1) ≤ Spec.signSteps p ∧
      (if isPicnic3 p then (sign3_work 0 1 P 0 0).1 else (signZkb_work 0 1 P 0 0).1) ≤ Spec.rate p * Spec.signPermutations p ∧
      (keygen_work 1 0 P).1 ≤ Spec.keySteps p ∧ (validate_work 1 0 P).1 ≤ Spec.keySteps p ∧
      (keygen_work 0 1 P).1 = 0 ∧ (validate_work 0 1 P).1 = 0) := by decide +kernel
  intro p hp P hP
  have := key p hp
  rw [hP] at this
  simpa using this

theorem param_mem {p : ℕ} {P : Params} (hP : getParamSet p = some P) : p ∈ [1, 2, 3, 4, 5, 6, 7, 8, 9, 10, 11, 12] := by
  have := params_cases hP
  simp only [List.mem_cons, List.not_mem_nil, or_false]
  exact this

theorem none_defaults {p : ℕ} (hP : getParamSet p = none) : Spec.signSteps p = 1 ∧ Spec.keySteps p = 1 := by
  have h : ¬ (p = 1 ∨ p = 2 ∨ p = 3 ∨ p = 4 ∨ p = 5 ∨ p = 6 ∨ p = 7 ∨ p = 8 ∨ p = 9 ∨ p = 10 ∨ p = 11 ∨ p = 12) := by
    intro h
    rcases h with h | h | h | h | h | h | h | h | h | h | h | h <;> rw [h] at hP <;> cases hP
  constructor
  · unfold Spec.signSteps
    split <;> first | rfl | (exfalso; apply h; simp_all)
  · unfold Spec.keySteps
    split <;> first | rfl | (exfalso; apply h; simp_all)

/-- C70: whatever the secret key (also a damaged one), the message, the buffer and its declared length are, signing ends
within a number of steps that depends on the parameter set, the length of the message and the number of rehashes granted
for the challenge only. -/
theorem C70_sign_work (E : Env) (sk : PrivateKey) (msg : Buf) (mlen : ℕ) (b : Buf) (n : ℕ) :
    (Leak.picnicSign E (some sk) msg mlen b n).out = picnicSign E (some sk) msg mlen b n ∧
    Spec.steps (Leak.picnicSign E (some sk) msg mlen b n) ≤
      Spec.signSteps sk.params + 30 * mlen + E.fuel * Spec.rehashSteps sk.params ∧
    Spec.permutations (Leak.picnicSign E (some sk) msg mlen b n) ≤
      Spec.signPermutations sk.params + (2 * mlen + Spec.rate sk.params - 1) / Spec.rate sk.params +
        E.fuel * Spec.rehashPermutations sk.params := by
  refine ⟨out_picnicSign .., ?_⟩
  cases hP : getParamSet sk.params with
  | none =>
    have h : ∀ e p, Takes e p (Leak.picnicSign E (some sk) msg mlen b n) (0 + (e + 0)) := fun e p =>
      takes_bind (takes_deref _) fun sk' hsk' => takes_bind (takes_note _) fun _ _ => by
        rw [out_deref] at hsk'
        cases hsk'
        simp only [hP]
        exact takes_pure _
    have h0 := (none_defaults hP).1
    refine ⟨?_, ?_⟩
    · have := h 1 0
      unfold Takes at this
      rw [cost_steps] at this
      omega
    · have := h 0 1
      unfold Takes at this
      rw [cost_permutations] at this
      rw [show Spec.permutations (Leak.picnicSign E (some sk) msg mlen b n) = 0 by omega]
      exact Nat.zero_le _
  | some P =>
    obtain ⟨hn, hn', h1, h1', -⟩ := sign_table _ (param_mem hP) P hP
    constructor
    · obtain ⟨-, h2⟩ := steps_table _ (param_mem hP) P hP
      have hc : cost 1 (0 * rateOf P) (Leak.picnicSign E (some sk) msg mlen b n) ≤
          Spec.signSteps sk.params + 30 * mlen + E.fuel * Spec.rehashSteps sk.params :=
        (sign_bound (e := 1) (q := 0) hP E sk rfl hn hn' msg mlen b n).trans
          (Nat.add_le_add (Nat.add_le_add h1 (by omega)) (Nat.mul_le_mul_left _ h2))
      rwa [Nat.zero_mul, cost_steps] at hc
    · obtain ⟨h0, -, h2⟩ := permutations_table _ (param_mem hP) P hP
      have hc : cost 0 (1 * rateOf P) (Leak.picnicSign E (some sk) msg mlen b n) ≤
          Spec.rate sk.params * Spec.signPermutations sk.params + 2 * mlen + E.fuel * (Spec.rate sk.params * Spec.rehashPermutations sk.params) :=
        (sign_bound (e := 0) (q := 1) hP E sk rfl hn hn' msg mlen b n).trans
          (Nat.add_le_add (Nat.add_le_add h1' (by omega)) (Nat.mul_le_mul_left _ h2))
      rw [Nat.one_mul, cost_permutations, h0] at hc
      have hr : 0 < Spec.rate sk.params := by unfold Spec.rate; split <;> decide
      generalize Spec.rate sk.params = r at *
      generalize Spec.permutations _ = x at *
      have hm : 2 * mlen ≤ r * ((2 * mlen + r - 1) / r) := by
        have := Nat.div_add_mod (2 * mlen + r - 1) r
        have := Nat.mod_lt (2 * mlen + r - 1) hr
        omega
      refine Nat.le_of_mul_le_mul_left ?_ hr
      have e1 : r * (Spec.signPermutations sk.params + (2 * mlen + r - 1) / r + E.fuel * Spec.rehashPermutations sk.params) =
        r * Spec.signPermutations sk.params + r * ((2 * mlen + r - 1) / r) + E.fuel * (r * Spec.rehashPermutations sk.params) := by ring
      rw [e1]
      omega

/-- C70: generating a key pair takes a bounded number of steps besides the calls of the random source, and no hashing. -/
theorem C70_keygen_work (E : Env) (rng : Rng) (hrng : RngLen rng) (p : ℕ) (pk : Option PublicKey) (sk : Option PrivateKey) :
    (Leak.picnicKeygen E rng p pk sk).out = picnicKeygen E rng p pk sk ∧
    Spec.steps (Leak.picnicKeygen E rng p pk sk) ≤ Spec.keySteps p ∧
    Spec.permutations (Leak.picnicKeygen E rng p pk sk) = 0 := by
  refine ⟨out_picnicKeygen .., ?_⟩
  suffices h : ∃ w0 w1, Takes 1 0 (Leak.picnicKeygen E rng p pk sk) w0 ∧ w0 ≤ Spec.keySteps p ∧
      Takes 0 1 (Leak.picnicKeygen E rng p pk sk) w1 ∧ w1 = 0 by
    obtain ⟨w0, w1, h1, h2, h3, rfl⟩ := h
    unfold Takes at h1 h3
    rw [cost_steps] at h1
    rw [cost_permutations] at h3
    exact ⟨h1.trans h2, by omega⟩
  cases hP : getParamSet p with
  | none =>
    have hv : isValidParams p = false := by
      cases hv : isValidParams p with
      | false => rfl
      | true => have := isValid_of.1 hv; rw [hP] at this; cases this
    have h : ∀ e q, Takes e q (Leak.picnicKeygen E rng p pk sk) (e + max 0 0) := fun e q =>
      takes_ite (fun _ => takes_pure _) fun h => absurd hv (by simpa using h)
    exact ⟨_, _, h 1 0, (by rw [(none_defaults hP).2]; decide), h 0 1, rfl⟩
  | some P =>
    obtain ⟨-, -, -, -, h1, -, h2, -⟩ := sign_table _ (param_mem hP) P hP
    have hr : ∀ k r, rng k P.stateSizeBytes = some r → r.length ≤ P.stateSizeBytes := fun k r h => (hrng k _ r h).le
    exact ⟨_, _, (keygen_work 1 0 P).2 E rng p pk sk hP hr, h1, (keygen_work 0 1 P).2 E rng p pk sk hP hr, h2⟩

/-- C70: so does the validation of a key pair. -/
theorem C70_validate_work (E : Env) (sk : Option PrivateKey) (pk : PublicKey) :
    (Leak.picnicValidateKeypair E sk (some pk)).out = picnicValidateKeypair E sk (some pk) ∧
    Spec.steps (Leak.picnicValidateKeypair E sk (some pk)) ≤ Spec.keySteps pk.params ∧
    Spec.permutations (Leak.picnicValidateKeypair E sk (some pk)) = 0 := by
  refine ⟨out_picnicValidateKeypair .., ?_⟩
  suffices h : ∃ w0 w1, Takes 1 0 (Leak.picnicValidateKeypair E sk (some pk)) w0 ∧ w0 ≤ Spec.keySteps pk.params ∧
      Takes 0 1 (Leak.picnicValidateKeypair E sk (some pk)) w1 ∧ w1 = 0 by
    obtain ⟨w0, w1, h1, h2, h3, rfl⟩ := h
    unfold Takes at h1 h3
    rw [cost_steps] at h1
    rw [cost_permutations] at h3
    exact ⟨h1.trans h2, by omega⟩
  cases hP : getParamSet pk.params with
  | none =>
    have h : ∀ e q, Takes e q (Leak.picnicValidateKeypair E sk (some pk)) (0 + (e + 0)) := fun e q =>
      takes_bind (takes_deref _) fun pk' hpk' => takes_bind (takes_note _) fun _ _ => by
        rw [out_deref] at hpk'
        cases hpk'
        simp only [hP]
        exact takes_pure _
    exact ⟨_, _, h 1 0, (by rw [(none_defaults hP).2]), h 0 1, rfl⟩
  | some P =>
    obtain ⟨-, -, -, -, -, h1, -, h2⟩ := sign_table _ (param_mem hP) P hP
    exact ⟨_, _, (validate_work 1 0 P).2 E sk pk hP, h1, (validate_work 0 1 P).2 E sk pk hP, h2⟩

/-- C70 is about runs that happen: for every parameter set there are an environment, a key and a buffer with which signing
succeeds within the bound. -/
theorem C70_example (p : ℕ) (hp : p ∈ zkbParams ∨ p ∈ picnic3Params) (msg : Buf) (hm : msg.length + 200 ≤ 2 ^ 32) :
    ∃ (E : Env) (sk : PrivateKey) (buf sig : Buf) (len : ℕ), sk.params = p ∧
      (Leak.picnicSign E (some sk) msg msg.length buf buf.length).out = .ok (0, sig, len) ∧
      Spec.steps (Leak.picnicSign E (some sk) msg msg.length buf buf.length) ≤
        Spec.signSteps p + 30 * msg.length + E.fuel * Spec.rehashSteps p := by
  rcases hp with hp | hp
  · obtain ⟨sk, P, n, buf, sig, len, -, -, rfl, -, -, -, -, -, -, h⟩ := zkb_example p hp msg hm
    obtain ⟨h1, h2, -⟩ := C70_sign_work zeroEnv sk msg msg.length buf buf.length
    exact ⟨zeroEnv, sk, buf, sig, len, rfl, h1.trans h, h2⟩
  · obtain ⟨E, sk, P, buf, sig, len, S, -, -, -, rfl, -, -, -, -, -, -, h, -⟩ := p3_example p hp msg hm
    obtain ⟨h1, h2, -⟩ := C70_sign_work E sk msg msg.length buf buf.length
    exact ⟨E, sk, buf, sig, len, rfl, h1.trans h, h2⟩

/-- the parameter sets that cost most, with a message of a million bytes and ten rehashes; the keys -/
theorem C70_numbers (E : Env) (hf : E.fuel = 10) (sk : PrivateKey) (msg b : Buf) (n : ℕ) :
    Spec.steps (Leak.picnicSign E (some sk) msg 1000000 b n) ≤ 1870000000 ∧
    Spec.permutations (Leak.picnicSign E (some sk) msg 1000000 b n) ≤ 136000 ∧
    ∀ p, Spec.keySteps p ≤ 1356951 := by
  obtain ⟨-, h1, h2⟩ := C70_sign_work E sk msg 1000000 b n
  rw [hf] at h1 h2
  have a1 : Spec.signSteps sk.params ≤ 1839652058 := by unfold Spec.signSteps; split <;> decide
  have a2 : Spec.rehashSteps sk.params ≤ 14002 := by unfold Spec.rehashSteps; split <;> decide
  have a3 : Spec.signPermutations sk.params ≤ 120845 := by unfold Spec.signPermutations; split <;> decide
  have a4 : Spec.rehashPermutations sk.params ≤ 4 := by unfold Spec.rehashPermutations; split <;> decide
  have a5 : Spec.rate sk.params = 168 ∨ Spec.rate sk.params = 136 := by unfold Spec.rate; split <;> simp
  refine ⟨by omega, ?_, fun p => by unfold Spec.keySteps; split <;> decide⟩
  rcases a5 with h | h <;> rw [h] at h2 <;> omega

end Picnic
