import Verif.Proofs.WorkPicnic3
import Verif.Proofs.LeakVerifyErase
import Verif.Props.ZkbDecode
import Verif.Props.P3Example

/-
C68: the work of a verification is bounded, whatever the signature is.
-/

namespace Picnic

open Leak Spec

theorem params_cases {p : ℕ} {P : Params} (h : getParamSet p = some P) :
    p = 1 ∨ p = 2 ∨ p = 3 ∨ p = 4 ∨ p = 5 ∨ p = 6 ∨ p = 7 ∨ p = 8 ∨ p = 9 ∨ p = 10 ∨ p = 11 ∨ p = 12 := by
  unfold getParamSet paramTable at h
  split at h
  · cases h
  · next h' => split at h' <;> simp at h' <;> simp

theorem work_bound {e q : ℕ} [Kind e q] {p : ℕ} {P : Params} (hP : getParamSet p = some P) (E : Env) (pk : PublicKey) (hpk : pk.params = p)
    (msg : Buf) (mlen : ℕ) (b : Buf) (n : ℕ) :
    cost e (q * rateOf P) (Leak.picnicVerify E (some pk) msg mlen b n) ≤
      (if isPicnic3 p then (verify3_work e q P 0 0).1 else (verifyZkb_work e q P 0 0).1) + (15 * e + q) * mlen +
      E.fuel * (if isPicnic3 p then (expandChallengeHash_work e q P 1).1 - (expandChallengeHash_work e q P 0).1
        else (h3Scan_work e (q * rateOf P) P).1 + e + (rehash3_work e q P).1) := by
  subst hpk
  cases h3 : isPicnic3 pk.params with
  | true => exact ((verify3_work e q P mlen E.fuel).2 E pk msg b n rfl hP h3).trans (verify3_linear e q P mlen E.fuel)
  | false => exact ((verifyZkb_work e q P mlen E.fuel).2 E pk msg b n rfl hP h3).trans (verifyZkb_linear e q P mlen E.fuel)

/-- the entries of the table of steps -/
theorem steps_table : ∀ p ∈ [1, 2, 3, 4, 5, 6, 7, 8, 9, 10, 11, 12], ∀ P, getParamSet p = some P →
    (if isPicnic3 p then (verify3_work 1 0 P 0 0).1 else (verifyZkb_work 1 0 P 0 0).1) ≤ Spec.verifySteps p ∧
    (if isPicnic3 p then (expandChallengeHash_work 1 0 P 1).1 - (expandChallengeHash_work 1 0 P 0).1
        else (h3Scan_work 1 (0 * rateOf P) P).1 + 1 + (rehash3_work 1 0 P).1) ≤ Spec.rehashSteps p := by
  have key : ∀ p ∈ [1, 2, 3, 4, 5, 6, 7, 8, 9, 10, 11, 12], (getParamSet p).all fun P => decide (
      (if isPicnic3 p then (verify3_work 1 0 P 0 0).1 else (verifyZkb_work 1 0 P 0 0).1) ≤ Spec.verifySteps p ∧
      (if isPicnic3 p then (expandChallengeHash_work 1 0 P 1).1 - (expandChallengeHash_work 1 0 P 0).1
        else (h3Scan_work 1 (0 * rateOf P) P).1 + 1 + (rehash3_work 1 0 P).1) ≤ Spec.rehashSteps p) := by decide +kernel
  intro p hp P hP
  have := key p hp
  rw [hP] at this
  simpa using this

/-- the entries of the table of permutations -/
theorem permutations_table : ∀ p ∈ [1, 2, 3, 4, 5, 6, 7, 8, 9, 10, 11, 12], ∀ P, getParamSet p = some P →
    rateOf P = Spec.rate p ∧
    (if isPicnic3 p then (verify3_work 0 1 P 0 0).1 else (verifyZkb_work 0 1 P 0 0).1) ≤ Spec.rate p * Spec.verifyPermutations p ∧
    (if isPicnic3 p then (expandChallengeHash_work 0 1 P 1).1 - (expandChallengeHash_work 0 1 P 0).1
        else (h3Scan_work 0 (1 * rateOf P) P).1 + 0 + (rehash3_work 0 1 P).1) ≤ Spec.rate p * Spec.rehashPermutations p := by
  have key : ∀ p ∈ [1, 2, 3, 4, 5, 6, 7, 8, 9, 10, 11, 12], (getParamSet p).all fun P => decide (rateOf P = Spec.rate p ∧
      (if isPicnic3 p then (verify3_work 0 1 P 0 0).1 else (verifyZkb_work 0 1 P 0 0).1) ≤ Spec.rate p * Spec.verifyPermutations p ∧
      (if isPicnic3 p then (expandChallengeHash_work 0 1 P 1).1 - (expandChallengeHash_work 0 1 P 0).1
        else (h3Scan_work 0 (1 * rateOf P) P).1 + 0 + (rehash3_work 0 1 P).1) ≤ Spec.rate p * Spec.rehashPermutations p) := by decide +kernel
  intro p hp P hP
  have := key p hp
  rw [hP] at this
  simpa using this

/-- C68: whatever the key, the message, the signature bytes and the declared length of the signature are, a verification
ends within a number of steps that depends on the parameter set, the length of the message and the number of rehashes
granted for the challenge only; it does not depend on the signature or its length.  Neither the arrays of the key nor the
bytes of the signature need to have the right length (a run that goes wrong ends there). -/
theorem C68_verify_work (E : Env) (pk : PublicKey) (msg : Buf) (mlen : ℕ) (b : Buf) (n : ℕ) :
    (Leak.picnicVerify E (some pk) msg mlen b n).out = picnicVerify E (some pk) msg mlen b n ∧
    Spec.steps (Leak.picnicVerify E (some pk) msg mlen b n) ≤
      Spec.verifySteps pk.params + 15 * mlen + E.fuel * Spec.rehashSteps pk.params ∧
    Spec.permutations (Leak.picnicVerify E (some pk) msg mlen b n) ≤
      Spec.verifyPermutations pk.params + (mlen + Spec.rate pk.params - 1) / Spec.rate pk.params +
        E.fuel * Spec.rehashPermutations pk.params := by
  refine ⟨out_picnicVerify .., ?_⟩
  cases hP : getParamSet pk.params with
  | none =>
    have h : ∀ e p, Takes e p (Leak.picnicVerify E (some pk) msg mlen b n) (0 + (e + 0)) := fun e p =>
      takes_bind (takes_deref _) fun pk' hpk' => takes_bind (takes_note _) fun _ _ => by
        rw [out_deref] at hpk'
        cases hpk'
        simp only [hP]
        exact takes_pure _
    have h0 : Spec.verifySteps pk.params = 1 := by
      have : ¬ (pk.params = 1 ∨ pk.params = 2 ∨ pk.params = 3 ∨ pk.params = 4 ∨ pk.params = 5 ∨ pk.params = 6 ∨ pk.params = 7 ∨
          pk.params = 8 ∨ pk.params = 9 ∨ pk.params = 10 ∨ pk.params = 11 ∨ pk.params = 12) := by
        intro h
        rcases h with h | h | h | h | h | h | h | h | h | h | h | h <;> rw [h] at hP <;> cases hP
      unfold Spec.verifySteps
      split <;> first | rfl | (exfalso; apply this; simp_all)
    refine ⟨?_, ?_⟩
    · have := h 1 0
      unfold Takes at this
      rw [cost_steps] at this
      omega
    · have := h 0 1
      unfold Takes at this
      rw [cost_permutations] at this
      rw [show Spec.permutations (Leak.picnicVerify E (some pk) msg mlen b n) = 0 by omega]
      exact Nat.zero_le _
  | some P =>
    have hp : pk.params ∈ [1, 2, 3, 4, 5, 6, 7, 8, 9, 10, 11, 12] := by
      have := params_cases hP
      simp only [List.mem_cons, List.not_mem_nil, or_false]
      exact this
    constructor
    · obtain ⟨h1, h2⟩ := steps_table _ hp P hP
      have hc : cost 1 (0 * rateOf P) (Leak.picnicVerify E (some pk) msg mlen b n) ≤
          Spec.verifySteps pk.params + 15 * mlen + E.fuel * Spec.rehashSteps pk.params :=
        (work_bound (e := 1) (q := 0) hP E pk rfl msg mlen b n).trans
          (Nat.add_le_add (Nat.add_le_add h1 (by omega)) (Nat.mul_le_mul_left _ h2))
      rwa [Nat.zero_mul, cost_steps] at hc
    · obtain ⟨h0, h1, h2⟩ := permutations_table _ hp P hP
      have hc : cost 0 (1 * rateOf P) (Leak.picnicVerify E (some pk) msg mlen b n) ≤
          Spec.rate pk.params * Spec.verifyPermutations pk.params + mlen + E.fuel * (Spec.rate pk.params * Spec.rehashPermutations pk.params) :=
        (work_bound (e := 0) (q := 1) hP E pk rfl msg mlen b n).trans
          (Nat.add_le_add (Nat.add_le_add h1 (by omega)) (Nat.mul_le_mul_left _ h2))
      rw [Nat.one_mul, cost_permutations, h0] at hc
      have hr : 0 < Spec.rate pk.params := by unfold Spec.rate; split <;> decide
      generalize Spec.rate pk.params = r at *
      generalize Spec.permutations _ = x at *
      have hm : mlen ≤ r * ((mlen + r - 1) / r) := by
        have := Nat.div_add_mod (mlen + r - 1) r
        have := Nat.mod_lt (mlen + r - 1) hr
        omega
      refine Nat.le_of_mul_le_mul_left ?_ hr
      have e1 : r * (Spec.verifyPermutations pk.params + (mlen + r - 1) / r + E.fuel * Spec.rehashPermutations pk.params) =
        r * Spec.verifyPermutations pk.params + r * ((mlen + r - 1) / r) + E.fuel * (r * Spec.rehashPermutations pk.params) := by ring
      rw [e1]
      omega

/-- C68 is about runs that happen: for every parameter set of ZKB++ there are a key and a signature that is accepted, and
is accepted with any bytes after its end; the bound is the same for all of them. -/
theorem C68_zkb_example (p : ℕ) (hp : p ∈ zkbParams) (msg : Buf) (hm : msg.length + 200 ≤ 2 ^ 32) :
    ∃ (pk : PublicKey) (b : Buf), pk.params = p ∧ ∀ s : Buf,
      (Leak.picnicVerify zeroEnv (some pk) msg msg.length (b ++ s) (b ++ s).length).out = .ok 0 ∧
      Spec.steps (Leak.picnicVerify zeroEnv (some pk) msg msg.length (b ++ s) (b ++ s).length) ≤
        Spec.verifySteps p + 15 * msg.length + 1000 * Spec.rehashSteps p := by
  obtain ⟨pk, b, -, rfl, -, -, h, -⟩ := zkb_verify_example p hp msg hm
  refine ⟨pk, b, rfl, fun s => ?_⟩
  obtain ⟨h1, h2, -⟩ := C68_verify_work zeroEnv pk msg msg.length (b ++ s) (b ++ s).length
  exact ⟨h1.trans (h s), h2⟩

/-- the same for Picnic3 -/
theorem C68_p3_example (p : ℕ) (hp : p ∈ picnic3Params) (msg : Buf) (hm : msg.length + 200 ≤ 2 ^ 32) :
    ∃ (E : Env) (pk : PublicKey) (b : Buf), pk.params = p ∧
      (Leak.picnicVerify E (some pk) msg msg.length b b.length).out = .ok 0 ∧
      Spec.permutations (Leak.picnicVerify E (some pk) msg msg.length b b.length) ≤
        Spec.verifyPermutations p + (msg.length + Spec.rate p - 1) / Spec.rate p + E.fuel * Spec.rehashPermutations p := by
  obtain ⟨E, sk, P, buf, sig, len, S, -, -, -, -, -, -, -, -, -, -, -, h, -⟩ := p3_example p hp msg hm
  obtain ⟨h1, -, h2⟩ := C68_verify_work E { sk.pk with params := p } msg msg.length (sig.take len) (sig.take len).length
  exact ⟨E, { sk.pk with params := p }, sig.take len, rfl, h1.trans h, h2⟩

/-- what is counted: hashing 335 bytes with a prefix to 200 bytes with SHAKE128 takes two calls for the full
blocks, one for the padding and one for the second block of output -/
theorem C68_count_example : (getParamSet 1).map (fun P =>
    (Spec.permutations (Leak.hashAll zeroEnv P HASH_PREFIX_0 [(zeros 335, 335)] 200))) = some 4 := by decide +kernel

/-- the parameter set that costs most, with a message of a million bytes and ten rehashes -/
theorem C68_numbers (E : Env) (hf : E.fuel = 10) (pk : PublicKey) (msg b : Buf) (n : ℕ) :
    Spec.steps (Leak.picnicVerify E (some pk) msg 1000000 b n) ≤ 1250000000 ∧
    Spec.permutations (Leak.picnicVerify E (some pk) msg 1000000 b n) ≤ 130000 := by
  obtain ⟨-, h1, h2⟩ := C68_verify_work E pk msg 1000000 b n
  rw [hf] at h1 h2
  have a1 : Spec.verifySteps pk.params ≤ 1222113117 := by unfold Spec.verifySteps; split <;> decide
  have a2 : Spec.rehashSteps pk.params ≤ 14002 := by unfold Spec.rehashSteps; split <;> decide
  have a3 : Spec.verifyPermutations pk.params ≤ 120843 := by unfold Spec.verifyPermutations; split <;> decide
  have a4 : Spec.rehashPermutations pk.params ≤ 4 := by unfold Spec.rehashPermutations; split <;> decide
  have a5 : Spec.rate pk.params = 168 ∨ Spec.rate pk.params = 136 := by unfold Spec.rate; split <;> simp
  refine ⟨by omega, ?_⟩
  rcases a5 with h | h <;> rw [h] at h2 <;> omega

end Picnic
