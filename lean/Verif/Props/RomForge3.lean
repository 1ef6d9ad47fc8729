import Verif.Proofs.Rom3Cand
import Verif.Props.Conform3
import Verif.Props.P3Example

/-
C64: whoever makes a valid Picnic3 signature, with a random oracle in place of SHAKE, has asked the oracle for a secret key.
-/

namespace Picnic

open Spec Spec.Rom Spec.Challenge

/-- **C64**: the probability that a procedure with at most `R` questions makes a valid signature is at most the probability that the strings it asks for
reveal a key that fits the public key (and that no two of them have the same digest), and
R (2^-κ + (u+1) / 2^(54m)) + (1 + R² (T+4) + R (T+3) (18T + 2^depth) + R (((u+1) m)² + (u+1) m R)) / 2^(8·digest length), for every m > 0. -/
theorem C64_forge (I : Picnic3.Inst) (p : ℕ) (hI : I.Is p) (κ : ℕ) (hκ : level p = some κ) (hreg : Regular I) (ct pt : Bytes) (N M : ℕ) (hM : I.digest ≤ M)
    (A : Adv N M (Bytes × Bytes)) (R : ℕ) (hA : ∀ O, (A.asked O).length ≤ R)
    (hN : ∀ O, (I.T + 1) * I.digest + 32 + ct.length + pt.length + (A.run O).1.length ≤ N) (m : ℕ) (hm : 0 < m) :
    prob (fun O : Oracle N M => Forges3 I O ct pt A) ≤ prob (fun O : Oracle N M => Reveal3 I O ct pt (Questions O A) ∧ Apart I O (Questions O A)) +
      R * (1 / 2 ^ κ + (I.u + 1) / 2 ^ (54 * m)) +
      (1 + R ^ 2 * (I.T + 4) + R * (I.T + 3) * (18 * I.T + 2 ^ I.depth) + R * (((I.u + 1) * m) ^ 2 + (I.u + 1) * m * R)) / 2 ^ (8 * I.digest) :=
  Rom3.prob_forged hI hκ hreg hM hN hA m hm

/-- **C64**, few candidates: questions of which no two have the same digest determine at most q² keys, where q is their number, and a key that they reveal
for a public key is one of these. -/
theorem C64_candidates (I : Picnic3.Inst) (p : ℕ) (hI : I.Is p) (hreg : Regular I) (N M : ℕ) (A : Adv N M (Bytes × Bytes)) (O : Oracle N M) :
    ∃ K : List Bits, K.length ≤ (A.asked O).length ^ 2 ∧ ∀ ct pt, Reveal3 I O ct pt (Questions O A) ∧ Apart I O (Questions O A) →
      ∃ k ∈ K, ∀ i < I.X.n, I.X.enc k (Picnic1.toBits pt) i = Picnic1.toBits ct i := by
  have e : Questions O A = {x | x ∈ (A.asked O).map (·.1)} := by
    ext x
    simp only [Questions, Set.mem_ofPred_eq, List.mem_map]
  by_cases h : Apart I O (Questions O A)
  · obtain ⟨K, h1, h2⟩ := Rom3.candidates hI hreg O ((A.asked O).map (·.1)) (e ▸ h)
    refine ⟨K, by rwa [List.length_map] at h1, fun ct pt hr => h2 ct pt (e ▸ hr.1)⟩
  · exact ⟨[], Nat.zero_le _, fun _ _ hr => absurd hr.2 h⟩

/-- **C64**, the size of the bound: with m = 5 it is at most R / 2^(κ-1) for R from 1 to 2^(κ-12), where κ is 128, 192 or 256. -/
theorem C64_small (I : Picnic3.Inst) (p : ℕ) (hI : I.Is p) (κ : ℕ) (hκ : level p = some κ) (R : ℝ) (h1 : 1 ≤ R) (hR : R ≤ 2 ^ (κ - 12)) :
    R * (1 / 2 ^ κ + (I.u + 1) / 2 ^ (54 * 5)) +
      (1 + R ^ 2 * (I.T + 4) + R * (I.T + 3) * (18 * I.T + 2 ^ I.depth) + R * (((I.u + 1) * (5 : ℕ)) ^ 2 + (I.u + 1) * (5 : ℕ) * R)) / 2 ^ (8 * I.digest) ≤ R / 2 ^ (κ - 1) := by
  have hk : 128 ≤ κ ∧ κ ≤ 256 ∧ 8 * I.digest = 2 * κ ∧ I.T ≤ 601 ∧ I.u ≤ 68 ∧ I.depth ≤ 10 := by
    have hp := hI
    unfold Picnic3.Inst.Is Picnic3.table at hp
    obtain ⟨-, -, -, h4, h5, -, h7, -, -, h10⟩ | ⟨-, -, -, h4, h5, -, h7, -, -, h10⟩ | ⟨-, -, -, h4, h5, -, h7, -, -, h10⟩ := Rom3.nums hI <;>
    rw [h4, h5, h7, h10] <;> split at hp <;> simp only [Option.some.injEq, Prod.mk.injEq, reduceCtorEq] at hp <;>
    simp only [level, Option.some.injEq] at hκ <;> omega
  obtain ⟨k1, k2, k3, k4, k5, k6⟩ := hk
  rw [k3]
  have hT : (I.T : ℝ) ≤ 601 := by exact_mod_cast k4
  have hu : (I.u : ℝ) ≤ 68 := by exact_mod_cast k5
  have hT0 : (0 : ℝ) ≤ I.T := Nat.cast_nonneg _
  have hu0 : (0 : ℝ) ≤ I.u := Nat.cast_nonneg _
  have hD : (2 : ℝ) ^ I.depth ≤ 1024 := le_trans (pow_le_pow_right₀ (by norm_num) k6) (by norm_num)
  have hD0 : (0 : ℝ) ≤ 2 ^ I.depth := by positivity
  have e1 : ((I.u : ℝ) + 1) / 2 ^ (54 * 5) ≤ 1 / 2 ^ κ / 128 := by
    rw [div_div, div_le_div_iff₀ (by positivity) (by positivity), one_mul]
    have : (2 : ℝ) ^ κ ≤ 2 ^ 256 := pow_le_pow_right₀ (by norm_num) k2
    calc ((I.u : ℝ) + 1) * (2 ^ κ * 128) ≤ 69 * (2 ^ 256 * 128) := by
          refine mul_le_mul (by linarith) (by linarith) (by positivity) (by norm_num)
      _ ≤ 2 ^ (54 * 5) := by
          rw [show 54 * 5 = 256 + 14 by rfl, pow_add]
          have : (0 : ℝ) < 2 ^ 256 := by positivity
          nlinarith
  have e2 : (2 : ℝ) ^ κ = 2 ^ (κ - 12) * 4096 := by
    rw [show κ = κ - 12 + 12 by omega, pow_add]; norm_num
  have e3 : (2 : ℝ) ^ κ = 2 ^ (κ - 1) * 2 := by
    rw [show κ = κ - 1 + 1 by omega, pow_add]; norm_num
  have e4 : (2 : ℝ) ^ 116 ≤ 2 ^ (κ - 12) := pow_le_pow_right₀ (by norm_num) (by omega)
  have e5 : 1 + R ^ 2 * (I.T + 4) + R * (I.T + 3) * (18 * I.T + 2 ^ I.depth) + R * (((I.u + 1) * (5 : ℕ)) ^ 2 + (I.u + 1) * (5 : ℕ) * R) ≤ R * (2 ^ κ / 2) := by
    have a1 : R ^ 2 * (I.T + 4) ≤ R ^ 2 * 605 := mul_le_mul_of_nonneg_left (by linarith) (by positivity)
    have a2 : R * (I.T + 3) * (18 * I.T + 2 ^ I.depth) ≤ R * 604 * 11842 :=
      mul_le_mul (mul_le_mul_of_nonneg_left (by linarith) (by linarith)) (by linarith) (by positivity) (by positivity)
    have a3 : R * (((I.u + 1) * (5 : ℕ)) ^ 2 + (I.u + 1) * (5 : ℕ) * R) ≤ R * (345 ^ 2 + 345 * R) := by
      refine mul_le_mul_of_nonneg_left (add_le_add (pow_le_pow_left₀ (by positivity) ?_ 2) (mul_le_mul_of_nonneg_right ?_ (by linarith))) (by linarith)
      · push_cast; linarith
      · push_cast; linarith
    have a4 : R ^ 2 * 605 + R * 604 * 11842 + R * (345 ^ 2 + 345 * R) + 1 ≤ R * (950 * R + 7300000) := by nlinarith
    refine le_trans (by linarith) (le_trans a4 (mul_le_mul_of_nonneg_left ?_ (by linarith)))
    rw [e2]
    have : (7300000 : ℝ) ≤ 2 ^ (κ - 12) := le_trans (by norm_num) e4
    linarith
  have e6 : R / 2 ^ (κ - 1) = R * (1 / 2 ^ κ + 1 / 2 ^ κ / 128) + R * (2 ^ κ * (127 / 128)) / 2 ^ (2 * κ) := by
    rw [two_mul, pow_add, e3]
    field_simp
    ring
  rw [e6]
  refine add_le_add (mul_le_mul_of_nonneg_left (add_le_add le_rfl e1) (by linarith)) (div_le_div_of_nonneg_right (le_trans e5 ?_) (by positivity))
  refine mul_le_mul_of_nonneg_left ?_ (by linarith)
  have : (0 : ℝ) < 2 ^ κ := by positivity
  linarith

/-- The matrices of the library are invertible. -/
theorem regular_of {E : Env} (hInv : InvWF E) {p : ℕ} (hp : p ∈ picnic3Params) {P : Params} (hP : getParamSet p = some P) {I : Picnic3.Inst} (hX : I.X = lowmcOf P (E.lowmc P)) :
    Regular I := by
  have h := hInv.inv p hp P hP
  unfold Regular
  rw [hX]
  exact ⟨fun x y he => Rom3.mulVec_inj h.K0 he, fun r hr x y he => Rom3.mulVec_inj (h.L r hr) he⟩

/-- **C64**, the library: with SHAKE in place of the oracle, `picnic_verify` accepts only valid signatures, and accepts them all. -/
theorem C64_library (E : Env) (hE : EnvWF E) (hInv : InvWF E) (pk : PublicKey) (hpk : pk.Arrays) (hp : pk.params ∈ picnic3Params) (P : Params)
    (hP : getParamSet pk.params = some P) (I : Picnic3.Inst) (hI : I.Is pk.params) (hf : I.Shake E.perm)
    (hX : I.X = lowmcOf P (E.lowmc P)) (msg : Buf) (mlen : ℕ) (hm : mlen ≤ msg.length) (hm32 : mlen + 200 ≤ 2 ^ 32) (N M : ℕ)
    (hN : (I.T + 1) * I.digest + 32 + 2 * I.blk + mlen ≤ N) (hM1 : I.digest ≤ M) (hM2 : 2 * I.seed ≤ M) (hM3 : 2 * I.gate ≤ M) (b : Buf) :
    Regular I ∧
    (picnicVerify E (some pk) msg mlen b b.length = Outcome.ok 0 →
      (over I (hashTable I N M)).IsValid (pk.ciphertext.take I.blk) (pk.plaintext.take I.blk) (msg.take mlen) b) ∧
    ((over I (hashTable I N M)).IsValid (pk.ciphertext.take I.blk) (pk.plaintext.take I.blk) (msg.take mlen) b →
      ∃ n0, ∀ fuel ≥ n0, ∀ junk : ℕ → ℕ → ℕ → Byte, picnicVerify { E with junk := junk, fuel := fuel } (some pk) msg mlen b b.length = Outcome.ok 0) := by
  have hreg := regular_of hInv hp hP hX
  have key := Rom3.valid_table (ct := pk.ciphertext.take I.blk) (pt := pk.plaintext.take I.blk) (msg := msg.take mlen) (sig := b) (N := N) hI hreg (by
    simp only [List.length_take]
    omega) hM1 hM2 hM3
  refine ⟨hreg, fun h => key.2 ?_, fun h => ?_⟩
  · exact C38_verify_sound E hE hInv pk hpk hp P hP I hI hf hX msg mlen hm hm32 b h
  · exact C38_verify_complete E hE hInv pk hpk hp P hP I hI hf hX msg mlen hm hm32 b (key.1 h)

/-- Concrete case for C64: for every parameter set and message there are a public key, an oracle (the table of SHAKE) and a procedure with two questions that
makes a valid signature, and C64_forge applies to it. -/
theorem C64_example (p : ℕ) (hp : p ∈ picnic3Params) (msg : Buf) (hm : msg.length + 200 ≤ 2 ^ 32) :
    ∃ (I : Picnic3.Inst) (κ : ℕ) (ct pt : Bytes) (N M : ℕ) (A : Adv N M (Bytes × Bytes)), I.Is p ∧ level p = some κ ∧ Regular I ∧ I.digest ≤ M ∧
      (∀ O, (A.asked O).length ≤ 2) ∧ (∀ O, (I.T + 1) * I.digest + 32 + ct.length + pt.length + (A.run O).1.length ≤ N) ∧
      Forges3 I (hashTable I N M) ct pt A ∧ 0 < prob (fun O : Oracle N M => Forges3 I O ct pt A) := by
  obtain ⟨E, sk, P, buf, sig, len, S, hE, hInv, hsk, rfl, hP, -, hR, -, hbuf, -, hs, hacc, -⟩ := p3_example p hp msg hm
  have hI : (inst3 E P).Is sk.params := inst3_is E hp hP
  generalize hIe : inst3 E P = I at hI
  have hf : I.Shake E.perm := by rw [← hIe]; exact fun _ _ => rfl
  have hX : I.X = lowmcOf P (E.lowmc P) := by rw [← hIe]; rfl
  set N := (I.T + 1) * I.digest + 32 + 2 * I.blk + msg.length with hN
  set M := I.digest + 2 * I.seed + 2 * I.gate with hM
  obtain ⟨hreg, h1, -⟩ := C64_library E hE hInv { sk.pk with params := sk.params } ⟨hsk.pk.pt, hsk.pk.ct⟩ hp P hP I hI hf hX msg msg.length le_rfl hm N M
    le_rfl (by omega) (by omega) (by omega) (sig.take len)
  have hv := h1 hacc
  rw [List.take_length] at hv
  have hκ : ∃ κ, level sk.params = some κ := by
    simp only [picnic3Params, List.mem_cons, List.not_mem_nil, or_false] at hp
    rcases hp with h | h | h <;> rw [h] <;> exact ⟨_, rfl⟩
  obtain ⟨κ, hκ⟩ := hκ
  refine ⟨I, κ, _, _, N, M, .ask ⟨[0], by rw [hN]; simp; omega⟩ fun v => .ask ⟨[1], by rw [hN]; simp; omega⟩ fun w => .done (msg, sig.take len), hI, hκ, hreg, by omega,
    fun O => by simp [Adv.asked], fun O => by simp only [Adv.run, List.length_take]; omega, hv, ?_⟩
  unfold prob
  refine div_pos (Nat.cast_pos.2 (Finset.card_pos.2 ⟨hashTable I N M, ?_⟩)) (Nat.cast_pos.2 Fintype.card_pos)
  simp only [Finset.mem_filter, Finset.mem_univ, true_and]
  exact hv

end Picnic
