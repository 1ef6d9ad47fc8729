import Verif.Proofs.OneWay
import Verif.Props.RomStrong
import Verif.Props.RomForge3
import Verif.Props.KeyUniform

/-
C67: forging signatures for generated keys is as hard as finding the secret key from the public key.
-/

namespace Picnic

open Spec Spec.Rom Spec.Challenge

/-- With the random strings `D`, `picnic_keygen` makes this key pair. -/
def Keys (E : Env) (p : ℕ) {k : ℕ} (D : Digest k × Digest k) (pk : PublicKey) (sk : PrivateKey) : Prop :=
  picnicKeygen E (twoStrings (Challenge.bytes D.1, Challenge.bytes D.2)) p (some PublicKey.zero) (some PrivateKey.zero) = Outcome.ok (0, some pk, some sk)

/-- The private key object with the given bytes. -/
def keyOf (pk : PublicKey) (k : Bytes) : PrivateKey := ⟨pk.params, (k ++ zeros PICNIC_MAX_LOWMC_BLOCK_SIZE).take PICNIC_MAX_LOWMC_BLOCK_SIZE, pk⟩

/-! ### helpers -/

theorem keys_exist (E : Env) (hE : EnvWF E) {p n : ℕ} (hn : blockBits p = some n) (D : Digest (bytesFor n) × Digest (bytesFor n)) :
    ∃ pk sk, Keys E p D pk sk ∧ pk.params = p ∧ sk.params = p ∧ sk.pk = pk ∧ pk.Arrays ∧ sk.Arrays ∧
      (∀ i, bitsOf sk.data i = if i < n then bitsOf (Challenge.bytes D.1) i else 0) ∧
      (∀ i, bitsOf pk.plaintext i = if i < n then bitsOf (Challenge.bytes D.2) i else 0) ∧
      picnicValidateKeypair E (some sk) (some pk) = Outcome.ok 0 := by
  obtain ⟨pk, sk, h1, h2, h3, h4, h5, h6, h7, h8, -, h10⟩ := C07_keygen E hE (twoStrings (Challenge.bytes D.1, Challenge.bytes D.2)) (fun k n r h => by
    unfold twoStrings at h
    split at h <;> split at h <;> simp only [Option.some.injEq, reduceCtorEq] at h <;> subst h <;> simp_all) p n hn PublicKey.zero PrivateKey.zero
    (Challenge.bytes D.1) (Challenge.bytes D.2) (by simp [twoStrings, bytes_length]) (by simp [twoStrings, bytes_length])
  exact ⟨pk, sk, h1, h2, h3, h4, h5, h6, h7, h8, h10⟩

theorem keys_unique {E : Env} {p k : ℕ} {D : Digest k × Digest k} {pk pk' : PublicKey} {sk sk' : PrivateKey} (h : Keys E p D pk sk) (h' : Keys E p D pk' sk') :
    pk = pk' ∧ sk = sk' := by
  unfold Keys at h h'
  rw [h] at h'
  simp only [Outcome.ok.injEq, Prod.mk.injEq, Option.some.injEq, true_and] at h'
  exact h'

/-- Guessed keys that fit are accepted. -/
theorem fits_validate (E : Env) (hE : EnvWF E) (pk : PublicKey) (hpk : pk.Arrays) (P : Params) (hP : getParamSet pk.params = some P) (I : Picnic1.Inst)
    (hI : I.Is pk.params) (hX : I.X = lowmcOf P (E.lowmc P)) (k : Bytes) :
    Fits I (pk.ciphertext.take I.blk) (pk.plaintext.take I.blk) k ↔ picnicValidateKeypair E (some (keyOf pk k)) (some pk) = Outcome.ok 0 := by
  have hWF := paramsWF_of hP
  have hb := hWF.bytes
  have hnM := hWF.nMax
  have hblk : I.blk = P.stateSizeBytes := by rw [Picnic1.Inst.blk, hX, bytesFor, hb]; rfl
  have hct := hpk.ct
  have hpt := hpk.pt
  have hA : (keyOf pk k).Arrays := ⟨by simp [keyOf, PICNIC_MAX_LOWMC_BLOCK_SIZE], hpk⟩
  obtain ⟨r, h1, -, h2⟩ := C08_validate E hE (keyOf pk k) pk hA hpk
  rw [h1]
  simp only [Outcome.ok.injEq]
  rw [h2, hP]
  simp only [keyOf, true_and, Option.some.injEq, exists_eq_left']
  rw [← relation_iff hWF (by omega)]
  unfold Fits
  rw [hblk, hX, ofBits_eq, toBits_eq, toBits_eq]
  have e : (lowmcOf P (E.lowmc P)).enc (bitsOf ((k ++ zeros PICNIC_MAX_LOWMC_BLOCK_SIZE).take PICNIC_MAX_LOWMC_BLOCK_SIZE)) (bitsOf pk.plaintext) =
      (lowmcOf P (E.lowmc P)).enc (bitsOf k) (bitsOf (pk.plaintext.take P.stateSizeBytes)) := by
    refine enc_congr hWF (fun i hi => ?_) fun i hi => ?_
    · rw [bitsOf_take (by unfold PICNIC_MAX_LOWMC_BLOCK_SIZE; omega)]
      by_cases hk : i < 8 * k.length
      · rw [bitsOf_append_left hk]
      · obtain ⟨j, rfl⟩ := Nat.exists_eq_add_of_le (not_lt.1 hk)
        rw [bitsOf_append_right, bitsOf_zeros, bitsOf_ge (by omega)]
    · rw [bitsOf_take (by omega)]
  rw [e]
  exact eq_comm

/-- What is needed of a generated key pair. -/
theorem keys_spec (E : Env) (hE : EnvWF E) {p : ℕ} {P : Params} (hP : getParamSet p = some P) {I : Picnic1.Inst} (hI : I.Is p) (hX : I.X = lowmcOf P (E.lowmc P))
    {pk : PublicKey} {sk : PrivateKey} (hpp : pk.params = p) (hsk : sk.Arrays) (hpk : pk.Arrays)
    (hb : ∀ i, P.stateSizeBits ≤ i → bitsOf sk.data i = 0) (hv : picnicValidateKeypair E (some sk) (some pk) = Outcome.ok 0) :
    (sk.data.take I.blk).length = I.blk ∧ ZeroPad I.X.n (sk.data.take I.blk) ∧ (pk.plaintext.take I.blk).length = I.blk ∧
      pk.ciphertext.take I.blk = Picnic1.ofBits I.blk (I.X.enc (Picnic1.toBits (sk.data.take I.blk)) (Picnic1.toBits (pk.plaintext.take I.blk))) := by
  subst hpp
  have hWF := paramsWF_of hP
  have hby := hWF.bytes
  have hnM := hWF.nMax
  have hblk : I.blk = P.stateSizeBytes := by rw [Picnic1.Inst.blk, hX, bytesFor, hby]; rfl
  have h1 := hsk.data
  have h2 := hpk.pt
  have h3 := hpk.ct
  refine ⟨by rw [List.length_take]; omega, fun i hi hi' => ?_, by rw [List.length_take]; omega, ?_⟩
  · have e : I.X.n = P.stateSizeBits := by rw [hX]; rfl
    have := hb i (by omega)
    rw [← bitsOf_take (n := I.blk) (by unfold bytesFor at hi'; omega)] at this
    unfold bitsOf at this
    unfold msbBit
    by_contra hc
    rw [Bool.not_eq_false] at hc
    have hd : (sk.data.take I.blk).getD (i / 8) 0 = (sk.data.take I.blk)[i / 8]?.getD 0#8 := by rw [List.getD_eq_getElem?_getD]; rfl
    rw [hd] at hc
    simp [byteBit, hc] at this
  · have hR : Relation P (E.lowmc P) sk.data pk.plaintext pk.ciphertext := by
      obtain ⟨r, hr, -, hiff⟩ := C08_validate E hE sk pk hsk hpk
      rw [hv] at hr
      obtain ⟨-, P', hP', hR⟩ := hiff.1 (by simpa using hr.symm)
      rw [hP] at hP'
      obtain rfl := Option.some.inj hP'
      exact hR
    rw [hblk, hX, ofBits_eq, toBits_eq, toBits_eq, ← (relation_iff hWF (by omega)).2 hR]
    congr 1
    exact enc_congr hWF (fun i hi => by rw [bitsOf_take (by omega)]) fun i hi => by rw [bitsOf_take (by omega)]

/-- Guessed keys whose bits fit are accepted. -/
theorem bits_validate (E : Env) (hE : EnvWF E) (pk : PublicKey) (sk : PrivateKey) (hpk : pk.Arrays) (hsk : sk.Arrays) (P : Params) (hP : getParamSet pk.params = some P)
    (hv : picnicValidateKeypair E (some sk) (some pk) = Outcome.ok 0) (k : Bytes)
    (h : ∀ i < P.stateSizeBits, (lowmcOf P (E.lowmc P)).enc (bitsOf k) (bitsOf (pk.plaintext.take P.stateSizeBytes)) i = bitsOf (pk.ciphertext.take P.stateSizeBytes) i) :
    picnicValidateKeypair E (some (keyOf pk k)) (some pk) = Outcome.ok 0 := by
  have hWF := paramsWF_of hP
  have hb := hWF.bytes
  have hnM := hWF.nMax
  have hct := hpk.ct
  have hR : Relation P (E.lowmc P) sk.data pk.plaintext pk.ciphertext := by
    obtain ⟨r, hr, -, hiff⟩ := C08_validate E hE sk pk hsk hpk
    rw [hv] at hr
    obtain ⟨-, P', hP', hR⟩ := hiff.1 (by simpa using hr.symm)
    rw [hP] at hP'
    obtain rfl := Option.some.inj hP'
    exact hR
  have hA : (keyOf pk k).Arrays := ⟨by simp [keyOf, PICNIC_MAX_LOWMC_BLOCK_SIZE], hpk⟩
  obtain ⟨r, h1, -, h2⟩ := C08_validate E hE (keyOf pk k) pk hA hpk
  rw [h1]
  refine congrArg Outcome.ok (h2.2 ⟨rfl, P, hP, fun i hi => ?_⟩)
  split_ifs with hin
  · rw [← bitsOf_take (n := P.stateSizeBytes) (by omega), ← h i hin]
    refine congrFun (enc_congr hWF (fun i hi => ?_) fun i hi => ?_) i
    · unfold keyOf
      rw [bitsOf_take (by unfold PICNIC_MAX_LOWMC_BLOCK_SIZE; omega)]
      by_cases hk : i < 8 * k.length
      · rw [bitsOf_append_left hk]
      · obtain ⟨j, rfl⟩ := Nat.exists_eq_add_of_le (not_lt.1 hk)
        rw [bitsOf_append_right, bitsOf_zeros, bitsOf_ge (by omega)]
    · rw [bitsOf_take (by omega)]
  · have := hR i hi
    rwa [if_neg hin] at this

/-! ### the property -/

/-- **C67**: the probability, over the random bytes of key generation and the oracle, that a procedure `A` which is given the public key and has `k` messages
of its choice signed makes a valid signature that it was not given is at most `L` times the probability that the inverter, which is given only the public key,
guesses a secret key that `picnic_validate_keypair` accepts, and the bound of C65. -/
theorem C67_oneway (E : Env) (hE : EnvWF E) (p : ℕ) (P : Params) (hP : getParamSet p = some P) (I : Picnic1.Inst) (hI : I.Is p)
    (hX : I.X = lowmcOf P (E.lowmc P)) (N M l : ℕ)
    (hN : 3 * I.T * (I.digest + I.seed + I.gate + 2 * I.blk) + 2 * I.blk + l + 33 ≤ N) (hM1 : 3 * I.T * I.seed + 32 ≤ M) (hM2 : I.digest ≤ M)
    (hM3 : I.blk + I.gate ≤ M) (A : (ct pt : Bytes) → Player N M (Bytes × Bytes)) (k Q : ℕ)
    (hA : ∀ ct pt, (A ct pt).Within l [] k Q ∧ (A ct pt).Uses k ∧ (A ct pt).Ends {r | r.1.length ≤ l})
    (Q' R V S L : ℕ) (hQ' : Q' = Q + 12 * I.T + 1) (hR : R = k * (10 * I.T + 1) + Q') (hV : V = k * (9 * I.T + 2)) (hS : S = Q' + V) (hL : L = S + S ^ 3) :
    prob (fun ω : Oracle N M × (Digest I.blk × Digest I.blk) => ∃ pk sk, Keys E p ω.2 pk sk ∧
        ForgesStrong I ω.1 (sk.data.take I.blk) (pk.ciphertext.take I.blk) (pk.plaintext.take I.blk) (A (pk.ciphertext.take I.blk) (pk.plaintext.take I.blk))) ≤
      L * prob (fun ω : ((Oracle N M × (Fin k → Answers I M)) × (Digest I.blk × Digest I.blk)) × Fin L => ∃ pk sk, Keys E p ω.1.2 pk sk ∧
        picnicValidateKeypair E (some (keyOf pk (invert I A (pk.ciphertext.take I.blk) (pk.plaintext.take I.blk) ω.1.1 ω.2))) (some pk) = Outcome.ok 0) +
      (k * (32 * I.T * (Q' + k * (18 * I.T + 3))) / 2 ^ (8 * I.seed) + R * (2 / 3) ^ I.T +
        ((R : ℝ) ^ 2 * (4 * I.T + 3) + R * (I.T + 1) ^ 2 + R * V + V ^ 2) / 2 ^ (8 * I.digest)) := by
  have hblk : I.blk = bytesFor P.stateSizeBits := by rw [Picnic1.Inst.blk, hX]; rfl
  have hgen : ∀ D : Digest I.blk × Digest I.blk, ∃ pk sk, Keys E p D pk sk ∧ pk.params = p ∧ pk.Arrays ∧ (sk.data.take I.blk).length = I.blk ∧
      ZeroPad I.X.n (sk.data.take I.blk) ∧ (pk.plaintext.take I.blk).length = I.blk ∧
      pk.ciphertext.take I.blk = Picnic1.ofBits I.blk (I.X.enc (Picnic1.toBits (sk.data.take I.blk)) (Picnic1.toBits (pk.plaintext.take I.blk))) := by
    rw [hblk]
    intro D
    obtain ⟨pk, sk, h1, h2, -, -, h3, h4, h5, -, h6⟩ := keys_exist E hE (blockBits_of hP) D
    have := keys_spec E hE hP hI hX h2 h4 h3 (fun i hi => by rw [h5, if_neg (by omega)]) h6
    rw [hblk] at this
    exact ⟨pk, sk, h1, h2, h3, this⟩
  refine Rom.average_choose (F := fun O D => ∃ pk sk, Keys E p D pk sk ∧
        ForgesStrong I O (sk.data.take I.blk) (pk.ciphertext.take I.blk) (pk.plaintext.take I.blk) (A (pk.ciphertext.take I.blk) (pk.plaintext.take I.blk)))
    (G := fun ω D => ∃ pk sk, Keys E p D pk sk ∧ BetraysAfter I (pk.ciphertext.take I.blk) (pk.plaintext.take I.blk)
      ((A (pk.ciphertext.take I.blk) (pk.plaintext.take I.blk)).sim I (pk.ciphertext.take I.blk) (pk.plaintext.take I.blk) ω.1 ω.2))
    (H := fun ω D i => ∃ pk sk, Keys E p D pk sk ∧
        picnicValidateKeypair E (some (keyOf pk (invert I A (pk.ciphertext.take I.blk) (pk.plaintext.take I.blk) ω i))) (some pk) = Outcome.ok 0)
    (fun D => ?_) fun ω D hB => ?_
  · obtain ⟨pk, sk, h1, h2, h3, h4, h5, h6, h7⟩ := hgen D
    obtain ⟨a1, a2, a3⟩ := hA (pk.ciphertext.take I.blk) (pk.plaintext.take I.blk)
    have h := C65_strong I p hI _ _ _ h4 h5 h6 h7 N M l hN hM1 hM2 hM3 _ k Q a1 a2 a3 Q' R V hQ' hR hV
    have e1 : ∀ O : Oracle N M, (∃ pk sk, Keys E p D pk sk ∧ ForgesStrong I O (sk.data.take I.blk) (pk.ciphertext.take I.blk) (pk.plaintext.take I.blk)
        (A (pk.ciphertext.take I.blk) (pk.plaintext.take I.blk))) → ForgesStrong I O (sk.data.take I.blk) (pk.ciphertext.take I.blk) (pk.plaintext.take I.blk)
        (A (pk.ciphertext.take I.blk) (pk.plaintext.take I.blk)) := by
      rintro O ⟨pk', sk', g1, g2⟩
      obtain ⟨rfl, rfl⟩ := keys_unique h1 g1
      exact g2
    have e2 : ∀ ω : Oracle N M × (Fin k → Answers I M), BetraysAfter I (pk.ciphertext.take I.blk) (pk.plaintext.take I.blk)
        ((A (pk.ciphertext.take I.blk) (pk.plaintext.take I.blk)).sim I (pk.ciphertext.take I.blk) (pk.plaintext.take I.blk) ω.1 ω.2) →
        ∃ pk sk, Keys E p D pk sk ∧ BetraysAfter I (pk.ciphertext.take I.blk) (pk.plaintext.take I.blk)
        ((A (pk.ciphertext.take I.blk) (pk.plaintext.take I.blk)).sim I (pk.ciphertext.take I.blk) (pk.plaintext.take I.blk) ω.1 ω.2) :=
      fun ω hω => ⟨pk, sk, h1, hω⟩
    exact le_trans (Rom.prob_mono e1) (le_trans h (add_le_add (Rom.prob_mono e2) le_rfl))
  · obtain ⟨pk, sk, h1, hB⟩ := hB
    obtain ⟨pk', sk', g1, g2, g3, -, -, -, g4⟩ := hgen D
    obtain ⟨rfl, rfl⟩ := keys_unique h1 g1
    obtain ⟨i, hi⟩ := Rom.invert_right hI g4 A (hA _ _).1 ω (s := S) (by rw [hS, hQ', hV]; ring) hL hB
    subst g2
    exact ⟨i, pk, sk, h1, (fits_validate E hE pk g3 P hP I hI hX _).1 hi⟩

theorem is_numbers {I : Picnic1.Inst} {p : ℕ} (hI : I.Is p) : 219 ≤ I.T ∧ I.T ≤ 438 ∧ 16 ≤ I.seed ∧ 32 ≤ I.digest := by
  unfold Picnic1.Inst.Is Picnic1.table at hI
  split at hI <;> simp only [Option.some.injEq, Prod.mk.injEq, reduceCtorEq] at hI <;> obtain ⟨-, -, -, h1, h2, h3, -⟩ := hI <;> rw [← h1, ← h2, ← h3] <;> decide

/-- **C67**, numbers: with at most 2^30 signatures and 2^60 questions the probability is at most `L` times that of the inverter, and 2^-21. -/
theorem C67_numbers (I : Picnic1.Inst) (p : ℕ) (hI : I.Is p) (k Q : ℕ) (hk : k ≤ 2 ^ 30) (hQ : Q ≤ 2 ^ 60)
    (Q' R V : ℕ) (hQ' : Q' = Q + 12 * I.T + 1) (hR : R = k * (10 * I.T + 1) + Q') (hV : V = k * (9 * I.T + 2)) :
    (k * (32 * I.T * (Q' + k * (18 * I.T + 3))) / 2 ^ (8 * I.seed) + R * (2 / 3) ^ I.T +
        ((R : ℝ) ^ 2 * (4 * I.T + 3) + R * (I.T + 1) ^ 2 + R * V + V ^ 2) / 2 ^ (8 * I.digest)) ≤ 1 / 2 ^ 21 := by
  obtain ⟨h1, h2, h3, h4⟩ := is_numbers hI
  have q1 : Q' ≤ 2 ^ 61 := by omega
  have v1 : V ≤ 2 ^ 42 := by
    rw [hV]
    calc k * (9 * I.T + 2) ≤ 2 ^ 30 * 2 ^ 12 := Nat.mul_le_mul hk (by omega)
      _ = 2 ^ 42 := by norm_num
  have r1 : R ≤ 2 ^ 62 := by
    rw [hR]
    have : k * (10 * I.T + 1) ≤ 2 ^ 30 * 2 ^ 13 := Nat.mul_le_mul hk (by omega)
    omega
  have n1 : k * (32 * I.T * (Q' + k * (18 * I.T + 3))) ≤ 2 ^ 30 * (32 * 438 * (2 ^ 61 + 2 ^ 30 * 2 ^ 13)) := by
    refine Nat.mul_le_mul hk (Nat.mul_le_mul (by omega) (Nat.add_le_add q1 (Nat.mul_le_mul hk (by omega))))
  have n3 : R ^ 2 * (4 * I.T + 3) + R * (I.T + 1) ^ 2 + R * V + V ^ 2 ≤ (2 ^ 62) ^ 2 * 2 ^ 11 + 2 ^ 62 * 439 ^ 2 + 2 ^ 62 * 2 ^ 42 + (2 ^ 42) ^ 2 := by
    refine Nat.add_le_add (Nat.add_le_add (Nat.add_le_add (Nat.mul_le_mul (Nat.pow_le_pow_left r1 2) (by omega)) (Nat.mul_le_mul r1 (Nat.pow_le_pow_left (by omega) 2)))
      (Nat.mul_le_mul r1 v1)) (Nat.pow_le_pow_left v1 2)
  have t1 : ((k : ℝ) * (32 * I.T * (Q' + k * (18 * I.T + 3)))) / 2 ^ (8 * I.seed) ≤ (2 ^ 30 * (32 * 438 * (2 ^ 61 + 2 ^ 30 * 2 ^ 13))) / 2 ^ 128 := by
    refine div_le_div₀ (by positivity) (by exact_mod_cast n1) (by positivity) (pow_le_pow_right₀ (by norm_num) (by omega))
  have t2 : (R : ℝ) * (2 / 3) ^ I.T ≤ 2 ^ 62 * (2 / 3) ^ 219 := by
    refine mul_le_mul (by exact_mod_cast r1) (pow_le_pow_of_le_one (by norm_num) (by norm_num) h1) (by positivity) (by positivity)
  have t3 : ((R : ℝ) ^ 2 * (4 * I.T + 3) + R * (I.T + 1) ^ 2 + R * V + V ^ 2) / 2 ^ (8 * I.digest) ≤
      ((2 ^ 62) ^ 2 * 2 ^ 11 + 2 ^ 62 * 439 ^ 2 + 2 ^ 62 * 2 ^ 42 + (2 ^ 42) ^ 2) / 2 ^ 256 := by
    refine div_le_div₀ (by positivity) (by exact_mod_cast n3) (by positivity) (pow_le_pow_right₀ (by norm_num) (by omega))
  refine le_trans (add_le_add (add_le_add t1 t2) t3) ?_
  norm_num

/-- **C67**, the game: the random bytes determine the key pair, which always exists; secret key and plaintext are uniformly distributed by C54. -/
theorem C67_keys (E : Env) (hE : EnvWF E) (p n : ℕ) (hn : blockBits p = some n) (D : Digest (bytesFor n) × Digest (bytesFor n)) :
    (∃ pk sk, Keys E p D pk sk ∧ picnicValidateKeypair E (some sk) (some pk) = Outcome.ok 0) ∧
    ∀ pk sk pk' sk', Keys E p D pk sk → Keys E p D pk' sk' → pk = pk' ∧ sk = sk' := by
  obtain ⟨pk, sk, h1, -, -, -, -, -, -, -, h2⟩ := keys_exist E hE hn D
  exact ⟨⟨pk, sk, h1, h2⟩, fun _ _ _ _ => keys_unique⟩

/-- **C67**, the inverter: there are at most `L` guesses, and if the procedure betrays a key, one of them is accepted by `picnic_validate_keypair`. -/
theorem C67_inverter (E : Env) (hE : EnvWF E) (p : ℕ) (P : Params) (hP : getParamSet p = some P) (I : Picnic1.Inst) (hI : I.Is p)
    (hX : I.X = lowmcOf P (E.lowmc P)) (N M l k Q : ℕ) (A : (ct pt : Bytes) → Player N M (Bytes × Bytes)) (D : Digest (bytesFor P.stateSizeBits) × Digest (bytesFor P.stateSizeBits))
    (pk : PublicKey) (sk : PrivateKey) (hk : Keys E p D pk sk) (hA : (A (pk.ciphertext.take I.blk) (pk.plaintext.take I.blk)).Within l [] k Q)
    (ω : Oracle N M × (Fin k → Answers I M)) (S : ℕ) (hS : S = Q + k * (9 * I.T + 2) + (12 * I.T + 1)) :
    let c := (A (pk.ciphertext.take I.blk) (pk.plaintext.take I.blk)).sim I (pk.ciphertext.take I.blk) (pk.plaintext.take I.blk) ω.1 ω.2
    (guesses I (c.strings I (pk.ciphertext.take I.blk) (pk.plaintext.take I.blk))).Finite ∧
    (guesses I (c.strings I (pk.ciphertext.take I.blk) (pk.plaintext.take I.blk))).ncard ≤ S + S ^ 3 ∧
    (BetraysAfter I (pk.ciphertext.take I.blk) (pk.plaintext.take I.blk) c → ∃ i < S + S ^ 3,
      picnicValidateKeypair E (some (keyOf pk (invert I A (pk.ciphertext.take I.blk) (pk.plaintext.take I.blk) ω i))) (some pk) = Outcome.ok 0) := by
  intro c
  obtain ⟨L', h1, h2⟩ := Rom.all_strings (ct := pk.ciphertext.take I.blk) (pt := pk.plaintext.take I.blk) hI _ ω.1 ω.2 hA
  obtain ⟨hf, h3⟩ := Rom.guesses_few (I := I) (s := S) (by omega) h2
  refine ⟨hf, by rw [Set.ncard_eq_toFinset_card _ hf]; exact h3, fun hB => ?_⟩
  obtain ⟨pk', sk', g1, g2, -, -, g3, g4, g5, -, g6⟩ := keys_exist E hE (blockBits_of hP) D
  obtain ⟨rfl, rfl⟩ := keys_unique hk g1
  obtain ⟨-, -, -, g7⟩ := keys_spec E hE hP hI hX g2 g4 g3 (fun i hi => by rw [g5, if_neg (by omega)]) g6
  obtain ⟨i, hi⟩ := Rom.invert_right hI g7 A hA ω hS rfl hB
  subst g2
  exact ⟨i, i.2, (fits_validate E hE pk g3 P hP I hI hX _).1 hi⟩

/-- **C67**, Picnic3: the probability, over the random bytes of key generation and the oracle, that a procedure `A` which is given the public key, and no signature,
makes a valid signature with at most `R` questions is at most R² times the probability that the inverter guesses a secret key that `picnic_validate_keypair`
accepts, and the bound of C64.  (With signatures this does not hold: C58.) -/
theorem C67_p3_oneway (E : Env) (hE : EnvWF E) (hInv : InvWF E) (p : ℕ) (hp : p ∈ picnic3Params) (P : Params) (hP : getParamSet p = some P) (I : Picnic3.Inst) (hI : I.Is p)
    (hX : I.X = lowmcOf P (E.lowmc P)) (κ : ℕ) (hκ : level p = some κ) (N M : ℕ) (hM : I.digest ≤ M) (A : (ct pt : Bytes) → Adv N M (Bytes × Bytes)) (R : ℕ)
    (hA : ∀ ct pt O, ((A ct pt).asked O).length ≤ R) (hN : ∀ ct pt O, (I.T + 1) * I.digest + 32 + 2 * I.blk + ((A ct pt).run O).1.length ≤ N) (m : ℕ) (hm : 0 < m) :
    prob (fun ω : Oracle N M × (Digest I.blk × Digest I.blk) => ∃ pk sk, Keys E p ω.2 pk sk ∧
        Forges3 I ω.1 (pk.ciphertext.take I.blk) (pk.plaintext.take I.blk) (A (pk.ciphertext.take I.blk) (pk.plaintext.take I.blk))) ≤
      ((R ^ 2 : ℕ) : ℝ) * prob (fun ω : (Oracle N M × (Digest I.blk × Digest I.blk)) × Fin (R ^ 2) => ∃ pk sk, Keys E p ω.1.2 pk sk ∧
        picnicValidateKeypair E (some (keyOf pk (invert3 I A (pk.ciphertext.take I.blk) (pk.plaintext.take I.blk) ω.1.1 ω.2))) (some pk) = Outcome.ok 0) +
      (R * (1 / 2 ^ κ + (I.u + 1) / 2 ^ (54 * m)) +
        (1 + R ^ 2 * (I.T + 4) + R * (I.T + 3) * (18 * I.T + 2 ^ I.depth) + R * (((I.u + 1) * m) ^ 2 + (I.u + 1) * m * R)) / 2 ^ (8 * I.digest)) := by
  have hreg := regular_of hInv hp hP hX
  have hWF := paramsWF_of hP
  have hb := hWF.bytes
  have hblk : I.blk = bytesFor P.stateSizeBits := by rw [Picnic3.Inst.blk, hX]; rfl
  have hblk' : I.blk = P.stateSizeBytes := by rw [hblk, bytesFor, hb]
  have hgen : ∀ D : Digest I.blk × Digest I.blk, ∃ pk sk, Keys E p D pk sk ∧ pk.params = p ∧ pk.Arrays ∧ sk.Arrays ∧
      picnicValidateKeypair E (some sk) (some pk) = Outcome.ok 0 := by
    rw [hblk]
    intro D
    obtain ⟨pk, sk, h1, h2, -, -, h3, h4, h5, -, h6⟩ := keys_exist E hE (blockBits_of hP) D
    exact ⟨pk, sk, h1, h2, h3, h4, h6⟩
  refine Rom.average_choose (F := fun O D => ∃ pk sk, Keys E p D pk sk ∧
        Forges3 I O (pk.ciphertext.take I.blk) (pk.plaintext.take I.blk) (A (pk.ciphertext.take I.blk) (pk.plaintext.take I.blk)))
    (G := fun O D => ∃ pk sk, Keys E p D pk sk ∧ (Reveal3 I O (pk.ciphertext.take I.blk) (pk.plaintext.take I.blk)
      (Questions O (A (pk.ciphertext.take I.blk) (pk.plaintext.take I.blk))) ∧ Apart I O (Questions O (A (pk.ciphertext.take I.blk) (pk.plaintext.take I.blk)))))
    (H := fun O D i => ∃ pk sk, Keys E p D pk sk ∧
        picnicValidateKeypair E (some (keyOf pk (invert3 I A (pk.ciphertext.take I.blk) (pk.plaintext.take I.blk) O i))) (some pk) = Outcome.ok 0)
    (fun D => ?_) fun O D hB => ?_
  · obtain ⟨pk, sk, h1, h2, h3, h4, h5⟩ := hgen D
    have h := C64_forge I p hI κ hκ hreg (pk.ciphertext.take I.blk) (pk.plaintext.take I.blk) N M hM (A (pk.ciphertext.take I.blk) (pk.plaintext.take I.blk)) R
      (hA _ _) (fun O => by
        have := hN (pk.ciphertext.take I.blk) (pk.plaintext.take I.blk) O
        have l1 : (pk.ciphertext.take I.blk).length ≤ I.blk := by rw [List.length_take]; omega
        have l2 : (pk.plaintext.take I.blk).length ≤ I.blk := by rw [List.length_take]; omega
        omega) m hm
    rw [add_assoc] at h
    have e1 : ∀ O : Oracle N M, (∃ pk sk, Keys E p D pk sk ∧ Forges3 I O (pk.ciphertext.take I.blk) (pk.plaintext.take I.blk)
        (A (pk.ciphertext.take I.blk) (pk.plaintext.take I.blk))) → Forges3 I O (pk.ciphertext.take I.blk) (pk.plaintext.take I.blk)
        (A (pk.ciphertext.take I.blk) (pk.plaintext.take I.blk)) := by
      rintro O ⟨pk', sk', g1, g2⟩
      obtain ⟨rfl, rfl⟩ := keys_unique h1 g1
      exact g2
    have e2 : ∀ O : Oracle N M, (Reveal3 I O (pk.ciphertext.take I.blk) (pk.plaintext.take I.blk)
        (Questions O (A (pk.ciphertext.take I.blk) (pk.plaintext.take I.blk))) ∧ Apart I O (Questions O (A (pk.ciphertext.take I.blk) (pk.plaintext.take I.blk)))) →
        ∃ pk sk, Keys E p D pk sk ∧ (Reveal3 I O (pk.ciphertext.take I.blk) (pk.plaintext.take I.blk)
        (Questions O (A (pk.ciphertext.take I.blk) (pk.plaintext.take I.blk))) ∧ Apart I O (Questions O (A (pk.ciphertext.take I.blk) (pk.plaintext.take I.blk)))) :=
      fun O hO => ⟨pk, sk, h1, hO⟩
    exact le_trans (Rom.prob_mono e1) (le_trans h (add_le_add (Rom.prob_mono e2) le_rfl))
  · obtain ⟨pk, sk, h1, hB⟩ := hB
    obtain ⟨pk', sk', g1, g2, g3, g4, g5⟩ := hgen D
    obtain ⟨rfl, rfl⟩ := keys_unique h1 g1
    obtain ⟨i, hi⟩ := Rom3.invert_right hI hreg A _ _ O (hA _ _ O) hB
    subst g2
    refine ⟨i, pk, sk, h1, bits_validate E hE pk sk g3 g4 P hP g5 _ fun j hj => ?_⟩
    have := hi j (by rw [hX]; exact hj)
    rw [toBits_eq, toBits_eq, toBits_eq, hX, hblk'] at this
    rw [hblk']
    exact this

/-- Concrete case: for every ZKB++ parameter set and two messages there are an oracle (the table of SHAKE) and a procedure that has the first message signed and
makes a valid signature on the second, for all random bytes of key generation.  C67_oneway applies to it. -/
theorem C67_example (p : ℕ) (hp : p ∈ zkbParams) (m m' : Buf) (hne : m' ≠ m) (hm : m.length + 200 ≤ 2 ^ 32) (hm' : m'.length + 200 ≤ 2 ^ 32) :
    ∃ (P : Params) (I : Picnic1.Inst) (N M l : ℕ) (A : (ct pt : Bytes) → Player N M (Bytes × Bytes)), getParamSet p = some P ∧ I.Is p ∧
      I.X = lowmcOf P (zeroEnv.lowmc P) ∧ 3 * I.T * (I.digest + I.seed + I.gate + 2 * I.blk) + 2 * I.blk + l + 33 ≤ N ∧ 3 * I.T * I.seed + 32 ≤ M ∧
      I.digest ≤ M ∧ I.blk + I.gate ≤ M ∧
      (∀ ct pt, (A ct pt).Within l [] 1 0 ∧ (A ct pt).Uses 1 ∧ (A ct pt).Ends {r | r.1.length ≤ l}) ∧
      ∀ D : Digest I.blk × Digest I.blk, ∃ pk sk, Keys zeroEnv p D pk sk ∧
        ForgesStrong I (shakeTable I N M) (sk.data.take I.blk) (pk.ciphertext.take I.blk) (pk.plaintext.take I.blk)
          (A (pk.ciphertext.take I.blk) (pk.plaintext.take I.blk)) := by
  classical
  obtain ⟨P, hP, h3⟩ := getParamSet_zkb hp
  have hI : (instOf zeroEnv P).Is p := instOf_is zeroEnv hp hP
  have hMt := match1_of hP hI rfl rfl
  generalize hIe : instOf zeroEnv P = I at hI hMt
  have hf : I.f = zeroEnv.perm := by rw [← hIe]; rfl
  have hX : I.X = lowmcOf P (zeroEnv.lowmc P) := by rw [← hIe]; rfl
  have hWF := paramsWF_of hP
  have hb := hWF.bytes
  set l := m.length + m'.length with hl
  set N := 3 * I.T * (I.digest + I.seed + I.gate + 2 * I.blk) + 2 * I.blk + l + 33 with hN
  set M := 3 * I.T * I.seed + 32 + I.digest + (I.seed + I.gate + I.blk) with hMd
  let A : (ct pt : Bytes) → Player N M (Bytes × Bytes) := fun ct pt =>
    .sign m fun _ => .done (m', if h : ∃ s, Valid I (shakeTable I N M) ct pt m' s then h.choose else [])
  refine ⟨P, I, N, M, l, A, hP, hI, hX, le_rfl, by omega, by omega, by omega, fun ct pt => ⟨?_, ?_, ?_⟩, ?_⟩
  · simp only [A, Player.Within]
    exact ⟨by omega, by omega, by simp, fun _ => trivial⟩
  · simp only [A, Player.Uses]
    exact ⟨by omega, fun _ => trivial⟩
  · simp only [A, Player.Ends]
    intro _
    show m'.length ≤ l
    omega
  have hblk : I.blk = bytesFor P.stateSizeBits := by rw [Picnic1.Inst.blk, hX]; rfl
  intro D
  obtain ⟨D', hD'⟩ : ∃ D' : Digest (bytesFor P.stateSizeBits) × Digest (bytesFor P.stateSizeBits), HEq D' D := by
    rw [← hblk]
    exact ⟨D, HEq.rfl⟩
  have hkk : ∀ pk sk, Keys zeroEnv p D' pk sk → Keys zeroEnv p D pk sk := by
    clear_value l N M
    clear hMd hN
    revert D D'
    rw [hblk]
    intro D D' h pk sk hk
    obtain rfl := eq_of_heq h
    exact hk
  obtain ⟨pk, sk, h1, h2, h2', rfl, g3, g4, g5, -, g6⟩ := keys_exist zeroEnv zeroEnv_wf (blockBits_of hP) D'
  refine ⟨sk.pk, sk, hkk _ _ h1, ?_⟩
  have hR : Relation P (zeroEnv.lowmc P) sk.data sk.pk.plaintext sk.pk.ciphertext := by
    obtain ⟨r, hr, -, hiff⟩ := C08_validate zeroEnv zeroEnv_wf sk sk.pk g4 g3
    rw [g6] at hr
    obtain ⟨-, P', hP', hR⟩ := hiff.1 (by simpa using hr.symm)
    rw [h2, hP] at hP'
    obtain rfl := Option.some.inj hP'
    exact hR
  subst h2'
  have hpad : ZeroPad P.stateSizeBits sk.data := fun i hi _ => by
    have := g5 i
    rw [if_neg (by omega)] at this
    unfold bitsOf at this
    unfold msbBit
    by_contra hc
    rw [Bool.not_eq_false] at hc
    have hd : sk.data.getD (i / 8) 0 = sk.data[i / 8]?.getD 0#8 := by rw [List.getD_eq_getElem?_getD]; rfl
    rw [hd] at hc
    simp [byteBit, hc] at this
  -- a signature on the second message
  obtain ⟨buf, sig, len, hs⟩ := zeroEnv_signs sk g4 hp P hP hR m' hm'
  obtain ⟨s, u1, u2, u3⟩ := C37_sign zeroEnv zeroEnv_wf sk g4 hp P hP I hI hf hX m' m'.length le_rfl hm' buf buf.length le_rfl sig len hs
  have hst : sig.take len = s := by rw [u2, u3]; simp
  have hacc : picnicVerify zeroEnv (some sk.pk) m' m'.length s s.length = Outcome.ok 0 := by
    have := C01_sign_verify zeroEnv zeroEnv_wf zeroEnv.junk zeroEnv.fuel le_rfl sk g4 hp P.stateSizeBits (blockBits_of hP) hpad m' m'.length le_rfl hm' buf buf.length
      le_rfl sig len hs sk.pk g3 h2 rfl rfl s
      (by rw [hst, u3, List.take_length]) (by omega)
    rw [u3] at this
    exact this
  obtain ⟨w, -, hw⟩ := (C63_library zeroEnv zeroEnv_wf sk.pk g3 (by rw [h2]; exact hp) P (by rw [h2]; exact hP) I (by rw [h2]; exact hI) hf hX m' m'.length le_rfl hm' N M
    (by omega) (by omega) (by omega) s).1 hacc
  rw [List.take_length] at hw
  -- the signature of the first message
  obtain ⟨buf1, sig1, len1, hs1⟩ := zeroEnv_signs sk g4 hp P hP hR m hm
  obtain ⟨-, s', e', u4, -, -⟩ := C62_library zeroEnv zeroEnv_wf sk g4 hp P hP I hI hf hX m m.length le_rfl hm buf1 buf1.length le_rfl sig1 len1 hs1 N M
    (by omega) (by omega) (by omega) (by omega)
  rw [List.take_length] at u4
  refine C65_other_message I _ _ _ N M _ _ ⟨[m], (m', if h : ∃ s, Valid I (shakeTable I N M) (sk.pk.ciphertext.take I.blk) (sk.pk.plaintext.take I.blk) m' s then
    h.choose else []), ?_, by simpa using hne, ?_⟩
  · simp only [A, Player.real, u4, Option.bind_some, Option.map_some]
  · have h : ∃ s, Valid I (shakeTable I N M) (sk.pk.ciphertext.take I.blk) (sk.pk.plaintext.take I.blk) m' s := ⟨_, hw⟩
    simp only [dif_pos h]
    exact h.choose_spec

/-- Concrete case for Picnic3: for every parameter set and message there are an oracle (the table of SHAKE) and a procedure without questions that makes a valid
signature, for all random bytes of key generation.  C67_p3_oneway applies to it. -/
theorem C67_p3_example (p : ℕ) (hp : p ∈ picnic3Params) (msg : Buf) (hm : msg.length + 200 ≤ 2 ^ 32) :
    ∃ (P : Params) (I : Picnic3.Inst) (κ N M : ℕ) (A : (ct pt : Bytes) → Adv N M (Bytes × Bytes)), EnvWF altEnv ∧ InvWF altEnv ∧ getParamSet p = some P ∧ I.Is p ∧
      I.X = lowmcOf P (altEnv.lowmc P) ∧ level p = some κ ∧ I.digest ≤ M ∧ (∀ ct pt O, ((A ct pt).asked O).length ≤ 0) ∧
      (∀ ct pt O, (I.T + 1) * I.digest + 32 + 2 * I.blk + ((A ct pt).run O).1.length ≤ N) ∧
      ∀ D : Digest I.blk × Digest I.blk, ∃ pk sk, Keys altEnv p D pk sk ∧
        Forges3 I (hashTable I N M) (pk.ciphertext.take I.blk) (pk.plaintext.take I.blk) (A (pk.ciphertext.take I.blk) (pk.plaintext.take I.blk)) := by
  classical
  obtain ⟨P, hP, hi3⟩ := getParamSet_p3 hp
  have hI : (inst3 altEnv P).Is p := inst3_is altEnv hp hP
  generalize hIe : inst3 altEnv P = I at hI
  have hf : I.Shake altEnv.perm := by rw [← hIe]; exact fun _ _ => rfl
  have hX : I.X = lowmcOf P (altEnv.lowmc P) := by rw [← hIe]; rfl
  have hWF := paramsWF_of hP
  have hκ : ∃ κ, level p = some κ := by
    simp only [picnic3Params, List.mem_cons, List.not_mem_nil, or_false] at hp
    rcases hp with h | h | h <;> rw [h] <;> exact ⟨_, rfl⟩
  obtain ⟨κ, hκ⟩ := hκ
  set N := (I.T + 1) * I.digest + 32 + 2 * I.blk + msg.length with hN
  set M := I.digest + 2 * I.seed + 2 * I.gate with hM
  let A : (ct pt : Bytes) → Adv N M (Bytes × Bytes) := fun ct pt =>
    .done (msg, if h : ∃ s, (over I (hashTable I N M)).IsValid ct pt msg s then h.choose else [])
  refine ⟨P, I, κ, N, M, A, altEnv_wf, altEnv_inv, hP, hI, hX, hκ, by omega, fun _ _ _ => by simp [A, Adv.asked], fun _ _ _ => by simp only [A, Adv.run]; omega, ?_⟩
  have hblk : I.blk = bytesFor P.stateSizeBits := by rw [Picnic3.Inst.blk, hX]; rfl
  intro D
  obtain ⟨D', hD'⟩ : ∃ D' : Digest (bytesFor P.stateSizeBits) × Digest (bytesFor P.stateSizeBits), HEq D' D := by
    rw [← hblk]
    exact ⟨D, HEq.rfl⟩
  have hkk : ∀ pk sk, Keys altEnv p D' pk sk → Keys altEnv p D pk sk := by
    clear_value N M
    clear hM hN
    revert D D'
    rw [hblk]
    intro D D' h pk sk hk
    obtain rfl := eq_of_heq h
    exact hk
  obtain ⟨pk, sk, h1, h2, h2', rfl, g3, g4, g5, -, g6⟩ := keys_exist altEnv altEnv_wf (blockBits_of hP) D'
  refine ⟨sk.pk, sk, hkk _ _ h1, ?_⟩
  have hR : Relation P (altEnv.lowmc P) sk.data sk.pk.plaintext sk.pk.ciphertext := by
    obtain ⟨r, hr, -, hiff⟩ := C08_validate altEnv altEnv_wf sk sk.pk g4 g3
    rw [g6] at hr
    obtain ⟨-, P', hP', hR⟩ := hiff.1 (by simpa using hr.symm)
    rw [h2, hP] at hP'
    obtain rfl := Option.some.inj hP'
    exact hR
  subst h2'
  obtain ⟨N0, hN0⟩ := (C03_p3 altEnv altEnv_wf altEnv_inv sk g4 hp P hP hR msg msg.length le_rfl hm
    (zeros (picnicSignatureSize sk.params)) (zeros (picnicSignatureSize sk.params)).length le_rfl (by simp)).2 fun d _ => altEnv_challenge hp hP d
  have hEW : EnvWF { altEnv with fuel := N0 } := ⟨altEnv_wf.perm, altEnv_wf.lowmc⟩
  have hIW : InvWF { altEnv with fuel := N0 } := ⟨altEnv_inv.len, altEnv_inv.inv⟩
  rcases (C03_p3 { altEnv with fuel := N0 } hEW hIW sk g4 hp P hP hR msg msg.length le_rfl hm
    (zeros (picnicSignatureSize sk.params)) (zeros (picnicSignatureSize sk.params)).length le_rfl (by simp)).1 with h | ⟨sig, len, h, hle, hsl⟩
  · exact absurd h (hN0 N0 le_rfl)
  have hlen : (sig.take len).length = len := by
    rw [List.length_take, hsl]
    simp only [zeros_length]
    omega
  have hacc := C02_sign_verify { altEnv with fuel := N0 } hEW hIW altEnv.junk N0 le_rfl sk g4 hp P.stateSizeBits (blockBits_of hP) msg msg.length le_rfl hm
    (zeros (picnicSignatureSize sk.params)) (zeros (picnicSignatureSize sk.params)).length le_rfl sig len h sk.pk g3 h2 rfl rfl (sig.take len)
    (by rw [List.take_take, min_self]) (by omega)
  obtain ⟨-, hv, -⟩ := C64_library { altEnv with fuel := N0 } hEW hIW sk.pk g3 (by rw [h2]; exact hp) P (by rw [h2]; exact hP) I (by rw [h2]; exact hI) hf hX msg msg.length le_rfl hm N M
    le_rfl (by omega) (by omega) (by omega) (sig.take len)
  have hv := hv (by rw [hlen]; exact hacc)
  rw [List.take_length] at hv
  have hex : ∃ s, (over I (hashTable I N M)).IsValid (sk.pk.ciphertext.take I.blk) (sk.pk.plaintext.take I.blk) msg s := ⟨_, hv⟩
  unfold Forges3
  simp only [A, Adv.run, dif_pos hex]
  exact hex.choose_spec

end Picnic
