import Verif.Model.Cycle
import Verif.Props.P3Example
import Verif.Props.Keys
import Verif.Props.Params

/-
Property C47 (the life cycle shown in /repo/example.c always succeeds) and C48 (default random source).
-/

namespace Picnic

open Spec Spec.Challenge

/-- What the calls of one life cycle return, for all parameter sets: auxiliary form with the result of signing given. -/
theorem cycle_ok (E : Env) (hE : EnvWF E) (rng : Rng) (J : CycleJunk) (p n : ℕ) (hn : blockBits p = some n)
    (pk : PublicKey) (sk : PrivateKey) (hpp : pk.params = p) (hsp : sk.params = p) (hskpk : sk.pk = pk) (hpa : pk.Arrays) (hsa : sk.Arrays)
    (hz0 : ZeroPad n sk.data) (hz1 : ZeroPad n pk.ciphertext) (hz2 : ZeroPad n pk.plaintext)
    (hval : ∀ E' : Env, EnvWF E' → E'.lowmc = E.lowmc → picnicValidateKeypair E' (some sk) (some pk) = Outcome.ok 0)
    (hgen : picnicKeygen { E with junk := J.call 0 } rng p (some J.pk) (some J.sk) = Outcome.ok (0, some pk, some sk))
    (msg sig : Buf) (len : ℕ) (hlen : len ≤ picnicSignatureSize p) (hsig : sig.length = picnicSignatureSize p)
    (hs : picnicSign { E with junk := J.call 1 } (some sk) msg msg.length ((List.range (picnicSignatureSize p)).map J.sig)
      (picnicSignatureSize p) = Outcome.ok (0, sig, len))
    (hv : ∀ (j : ℕ → ℕ → ℕ → Byte) (pk' : PublicKey) (b : Buf), pk'.Arrays → pk'.params = p →
      pk'.ciphertext.take (bytesFor n) = pk.ciphertext.take (bytesFor n) → pk'.plaintext.take (bytesFor n) = pk.plaintext.take (bytesFor n) →
      b.take len = sig.take len → len ≤ b.length → picnicVerify { E with junk := j } (some pk') msg msg.length b len = Outcome.ok 0) :
    picnicExample E rng J p msg = Outcome.ok 0 := by
  obtain ⟨P, hP, hPn⟩ := getParamSet_of hn
  have hWF := paramsWF_of hP
  have hmax := (C04_max_sizes.2.1) p n hn
  have hb : bytesFor n ≤ 32 := by have := hWF.nMax; rw [hPn] at this; unfold bytesFor; omega
  -- the signature buffer after realloc
  obtain ⟨b, hbdef⟩ : ∃ b, b = (if len < picnicSignatureSize p then sig.take len else sig) := ⟨_, rfl⟩
  have hbt : b.take len = sig.take len ∧ len ≤ b.length := by
    by_cases h : len < picnicSignatureSize p
    · rw [hbdef, if_pos h, List.take_take, Nat.min_self, List.length_take]; exact ⟨rfl, by omega⟩
    · rw [hbdef, if_neg h]; exact ⟨rfl, by omega⟩
  -- public key round trip
  obtain ⟨out, hw, hrd⟩ := C10_write_read pk PublicKey.zero hpa ⟨by simp [PublicKey.zero, PICNIC_MAX_LOWMC_BLOCK_SIZE], by simp [PublicKey.zero, PICNIC_MAX_LOWMC_BLOCK_SIZE]⟩ n
    (hpp ▸ hn) hz1 hz2 ((List.range PICNIC_MAX_PUBLICKEY_SIZE).map J.pkBuf) PICNIC_MAX_PUBLICKEY_SIZE (by simp) hmax.1
  have hol : out.length = PICNIC_MAX_PUBLICKEY_SIZE := by
    have h12 := C12_write_public_key pk hpa ((List.range PICNIC_MAX_PUBLICKEY_SIZE).map J.pkBuf) PICNIC_MAX_PUBLICKEY_SIZE (by simp)
    rw [hw, hpp, hn] at h12
    simp only [] at h12
    rw [if_neg (by have := hmax.1; simp only [PICNIC_MAX_PUBLICKEY_SIZE, PICNIC_MAX_LOWMC_BLOCK_SIZE]; omega)] at h12
    have h13 : out = _ := Option.some.inj (Prod.mk.inj (Outcome.ok.inj h12)).2
    have h1 := hpa.ct
    have h2 := hpa.pt
    have hm : 1 + 2 * bytesFor n ≤ PICNIC_MAX_PUBLICKEY_SIZE := hmax.1
    rw [h13]
    simp only [List.length_cons, List.length_append, List.length_take, List.length_drop, List.length_map, List.length_range]
    omega
  obtain ⟨pk', hr1, hp1, hc1, ht1⟩ := hrd (out.drop (1 + 2 * bytesFor n))
  rw [List.take_append_drop] at hr1
  have hln : 1 + 2 * bytesFor n + (out.drop (1 + 2 * bytesFor n)).length = PICNIC_MAX_PUBLICKEY_SIZE := by
    have hm : 1 + 2 * bytesFor n ≤ PICNIC_MAX_PUBLICKEY_SIZE := hmax.1
    rw [List.length_drop, hol]; omega
  rw [hln] at hr1
  have hpa' : pk'.Arrays := by
    obtain ⟨r, key', hr, -, -, hok⟩ := C12_read_public_key PublicKey.zero ⟨by simp [PublicKey.zero, PICNIC_MAX_LOWMC_BLOCK_SIZE], by simp [PublicKey.zero, PICNIC_MAX_LOWMC_BLOCK_SIZE]⟩
      out PICNIC_MAX_PUBLICKEY_SIZE (by omega)
    rw [hr1] at hr
    have h1 := Prod.mk.inj (Outcome.ok.inj hr)
    have h2 := Option.some.inj h1.2
    subst h2
    exact (hok h1.1.symm).choose_spec.2.2
  -- private key round trip
  obtain ⟨out2, hw2, hrd2⟩ := C11_write_read sk PrivateKey.zero hsa n (hsp ▸ hn) hz0 (hskpk ▸ hz1) (hskpk ▸ hz2)
    ((List.range PICNIC_MAX_PRIVATEKEY_SIZE).map J.skBuf) PICNIC_MAX_PRIVATEKEY_SIZE (by simp) hmax.2
  have hol2 : out2.length = PICNIC_MAX_PRIVATEKEY_SIZE := by
    have h12 := C12_write_private_key sk hsa ((List.range PICNIC_MAX_PRIVATEKEY_SIZE).map J.skBuf) PICNIC_MAX_PRIVATEKEY_SIZE (by simp)
    rw [hw2, hsp, hn] at h12
    simp only [] at h12
    rw [if_neg (by have := hmax.2; simp only [PICNIC_MAX_PRIVATEKEY_SIZE, PICNIC_MAX_LOWMC_BLOCK_SIZE]; omega)] at h12
    have h13 : out2 = _ := Option.some.inj (Prod.mk.inj (Outcome.ok.inj h12)).2
    have h1 := hsa.pk.ct
    have h2 := hsa.pk.pt
    have h3 := hsa.data
    have hm : 1 + 3 * bytesFor n ≤ PICNIC_MAX_PRIVATEKEY_SIZE := hmax.2
    rw [h13]
    simp only [List.length_cons, List.length_append, List.length_take, List.length_drop, List.length_map, List.length_range]
    omega
  obtain ⟨sk', hr2, hq1, hq2, hq3, hq4, hq5⟩ := hrd2 (out2.drop (1 + 3 * bytesFor n))
  rw [List.take_append_drop] at hr2
  have hln2 : 1 + 3 * bytesFor n + (out2.drop (1 + 3 * bytesFor n)).length = PICNIC_MAX_PRIVATEKEY_SIZE := by
    have hm : 1 + 3 * bytesFor n ≤ PICNIC_MAX_PRIVATEKEY_SIZE := hmax.2
    rw [List.length_drop, hol2]; omega
  rw [hln2] at hr2
  have hsa' : sk'.Arrays := by
    obtain ⟨r, key', hr, -, -, hok⟩ := C12_read_private_key PrivateKey.zero out2 PICNIC_MAX_PRIVATEKEY_SIZE (by omega)
    rw [hr2] at hr
    have h1 := Prod.mk.inj (Outcome.ok.inj hr)
    have h2 := Option.some.inj h1.2
    subst h2
    exact (hok h1.1.symm).choose_spec.2.2.2.1
  -- validation of what was read back
  have hE4 : EnvWF { E with junk := J.call 4 } := ⟨hE.perm, hE.lowmc⟩
  have hval' : picnicValidateKeypair { E with junk := J.call 4 } (some sk') (some pk') = Outcome.ok 0 := by
    have hbits : ∀ {x y : Buf}, x.length = 32 → y.length = 32 → x.take (bytesFor n) = y.take (bytesFor n) → ∀ i < n, bitsOf y i = bitsOf x i :=
      fun hx hy h i hi => ((take_eq_iff (by omega) (by omega)).1 h i (by unfold bytesFor; omega)).symm
    rw [← C08_unused_bytes { E with junk := J.call 4 } hE4 sk sk' pk pk' n hsa hpa hsa' hpa' (hpp ▸ hn) (by rw [hq1])
      (by rw [hp1]) (hbits hsa'.data hsa.data hq3)
      (hbits hpa'.pt hpa.pt ht1) hc1.symm]
    exact hval _ hE4 rfl
  have hv1 := hv (J.call 2) pk b hpa hpp rfl rfl hbt.1 hbt.2
  have hv2 := hv (J.call 3) pk' b hpa' (hp1.trans hpp) hc1 ht1 hbt.1 hbt.2
  have e1 : ¬ (((1 + 2 * bytesFor n : ℕ) : Int) ≤ 0) := by omega
  have e2 : ¬ (((1 + 3 * bytesFor n : ℕ) : Int) ≤ 0) := by omega
  unfold picnicExample
  rw [hgen, ok_bind]
  simp only [ne_eq, not_true_eq_false, if_false]
  rw [hs, ok_bind]
  simp only [not_true_eq_false, if_false, ← hbdef]
  rw [hv1, ok_bind]
  simp only [not_true_eq_false, if_false]
  rw [hw, ok_bind]
  simp only []
  rw [if_neg e1, hr1, ok_bind]
  simp only [not_true_eq_false, if_false]
  rw [hv2, ok_bind]
  simp only [not_true_eq_false, if_false]
  rw [hw2, ok_bind]
  simp only []
  rw [if_neg e2, hr2, ok_bind]
  simp only [not_true_eq_false, if_false]
  rw [hval', ok_bind]
  simp only [not_true_eq_false, if_false]
  rfl

/-- The keys that `picnic_keygen` returns have zero padding and satisfy the LowMC relation. -/
theorem keygen_facts (E : Env) (hE : EnvWF E) (rng : Rng) (hrng : RngLen rng) (p n : ℕ) (hn : blockBits p = some n) (pk0 : PublicKey)
    (sk0 : PrivateKey) (r0 r1 : Buf) (h0 : rng 0 (bytesFor n) = some r0) (h1 : rng 1 (bytesFor n) = some r1) :
    ∃ pk sk, picnicKeygen E rng p (some pk0) (some sk0) = Outcome.ok (0, some pk, some sk) ∧ pk.params = p ∧ sk.params = p ∧ sk.pk = pk ∧
      pk.Arrays ∧ sk.Arrays ∧ ZeroPad n sk.data ∧ ZeroPad n pk.ciphertext ∧ ZeroPad n pk.plaintext ∧
      ∃ P, getParamSet p = some P ∧ Relation P (E.lowmc P) sk.data pk.plaintext pk.ciphertext := by
  obtain ⟨pk, sk, e, k1, k2, k3, k4, k5, k6, k7, ⟨P, hP, hPn, k8⟩, k9⟩ := C07_keygen E hE rng hrng p n hn pk0 sk0 r0 r1 h0 h1
  refine ⟨pk, sk, e, k1, k2, k3, k4, k5, ?_, ?_, ?_, P, hP, ?_⟩
  · rw [zeroPad_iff]; intro i h11 _; rw [k6, if_neg (by omega)]
  · rw [zeroPad_iff]; intro i h11 _; rw [k8, if_neg (by omega)]
  · rw [zeroPad_iff]; intro i h11 _; rw [k7, if_neg (by omega)]
  · obtain ⟨r, hr, -, hiff⟩ := C08_validate E hE sk pk k5 k4
    rw [k9] at hr
    obtain ⟨-, P', hP', hR⟩ := hiff.1 (by simpa using hr.symm)
    rw [k1, hP] at hP'
    obtain rfl : P = P' := by simpa using hP'
    exact hR

theorem blockBits_cases {p n : ℕ} (h : blockBits p = some n) : p ∈ zkbParams ∨ p ∈ picnic3Params := by
  obtain ⟨P, hP, -⟩ := getParamSet_of h
  have hb := getParamSet_bounds hP
  obtain ⟨h1, h2⟩ : 1 ≤ p ∧ p ≤ 12 := by omega
  interval_cases p <;> decide

/-- What the generated keys are: the facts used below. -/
structure GenOK (L : Params → LowMCConsts) (p n : ℕ) (r0 : Buf) (pk : PublicKey) (sk : PrivateKey) : Prop where
  pkp : pk.params = p
  skp : sk.params = p
  skpk : sk.pk = pk
  pa : pk.Arrays
  sa : sk.Arrays
  z0 : ZeroPad n sk.data
  z1 : ZeroPad n pk.ciphertext
  z2 : ZeroPad n pk.plaintext
  rel : ∃ P, getParamSet p = some P ∧ Relation P (L P) sk.data pk.plaintext pk.ciphertext
  data : ∀ i, msbBit sk.data i = (decide (i < n) && msbBit r0 i)

theorem genOK (E : Env) (hE : EnvWF E) (rng : Rng) (hrng : RngLen rng) (p n : ℕ) (hn : blockBits p = some n) (pk0 : PublicKey)
    (sk0 : PrivateKey) (r0 r1 : Buf) (h0 : rng 0 (bytesFor n) = some r0) (h1 : rng 1 (bytesFor n) = some r1) :
    ∃ pk sk, picnicKeygen E rng p (some pk0) (some sk0) = Outcome.ok (0, some pk, some sk) ∧ GenOK E.lowmc p n r0 pk sk := by
  obtain ⟨pk, sk, e, k1, k2, k3, k4, k5, k6, k7, k8, hR⟩ := keygen_facts E hE rng hrng p n hn pk0 sk0 r0 r1 h0 h1
  refine ⟨pk, sk, e, k1, k2, k3, k4, k5, k6, k7, k8, hR, ?_⟩
  obtain ⟨pk2, sk2, e2, -, -, -, -, -, hd, -, -, -⟩ := C07_keygen E hE rng hrng p n hn pk0 sk0 r0 r1 h0 h1
  rw [e] at e2
  have h2 := Option.some.inj (Prod.mk.inj (Prod.mk.inj (Outcome.ok.inj e2)).2).2
  subst h2
  intro i
  have := hd i
  rw [bitsOf, byteBit_eq, bitsOf, byteBit_eq] at this
  unfold msbBit
  by_cases hi : i < n
  · rw [if_pos hi] at this
    rw [decide_eq_true hi, Bool.true_and]
    revert this
    cases (sk.data.getD (i / 8) 0).getLsbD (7 - i % 8) <;> cases (r0.getD (i / 8) 0).getLsbD (7 - i % 8) <;> decide
  · rw [if_neg hi] at this
    rw [decide_eq_false hi, Bool.false_and]
    revert this
    cases (sk.data.getD (i / 8) 0).getLsbD (7 - i % 8) <;> decide

/-- The signing call of the program. -/
def cycleSign (E : Env) (J : CycleJunk) (p : ℕ) (sk : PrivateKey) (msg : Buf) : M (Int × Buf × ℕ) :=
  picnicSign { E with junk := J.call 1 } (some sk) msg msg.length ((List.range (picnicSignatureSize p)).map J.sig) (picnicSignatureSize p)

theorem cycle_cases (E : Env) (hE : EnvWF E) (hI : p ∈ picnic3Params → InvWF E) (rng : Rng) (J : CycleJunk) (n : ℕ)
    (hn : blockBits p = some n) (r0 : Buf) (pk : PublicKey) (sk : PrivateKey)
    (e : picnicKeygen { E with junk := J.call 0 } rng p (some J.pk) (some J.sk) = Outcome.ok (0, some pk, some sk)) (hg : GenOK E.lowmc p n r0 pk sk)
    (msg : Buf) (hm : msg.length + 200 ≤ 2 ^ 32) :
    (cycleSign E J p sk msg = Outcome.diverge ∧ picnicExample E rng J p msg = Outcome.diverge) ∨
      picnicExample E rng J p msg = Outcome.ok 0 := by
  have hE0 : ∀ j, EnvWF { E with junk := j } := fun j => ⟨hE.perm, hE.lowmc⟩
  obtain ⟨k1, k2, k3, k4, k5, k6, k7, k8, ⟨P, hP, hR⟩, -⟩ := hg
  have hval : ∀ E' : Env, EnvWF E' → E'.lowmc = E.lowmc → picnicValidateKeypair E' (some sk) (some pk) = Outcome.ok 0 := by
    intro E' hE' hl
    obtain ⟨r, hr, -, hiff⟩ := C08_validate E' hE' sk pk k5 k4
    have : r = 0 := hiff.2 ⟨by rw [k1, k2], P, k1 ▸ hP, by rw [hl]; exact hR⟩
    rw [hr, this]
  have hdv : cycleSign E J p sk msg = Outcome.diverge → picnicExample E rng J p msg = Outcome.diverge := by
    intro h
    unfold cycleSign at h
    unfold picnicExample
    rw [e, ok_bind]
    simp only [ne_eq, not_true_eq_false, if_false]
    rw [h]
    rfl
  have hR' : Relation P (E.lowmc P) sk.data sk.pk.plaintext sk.pk.ciphertext := k3 ▸ hR
  rcases blockBits_cases hn with hp | hp
  · obtain ⟨hc, -⟩ := C03_zkb _ (hE0 (J.call 1)) sk k5 (k2 ▸ hp) P (k2 ▸ hP) hR' msg msg.length le_rfl hm
      ((List.range (picnicSignatureSize p)).map J.sig) (picnicSignatureSize p) (by simp) (by rw [k2])
    rcases hc with h | ⟨sig, len, h, hle, hsl⟩
    · exact Or.inl ⟨h, hdv h⟩
    · refine Or.inr (cycle_ok E hE rng J p n hn pk sk k1 k2 k3 k4 k5 k6 k7 k8 hval e msg sig len (k2 ▸ hle) (by simpa using hsl) h ?_)
      intro j pk' b a1 a2 a3 a4 a5 a6
      exact C01_sign_verify _ (hE0 (J.call 1)) j E.fuel le_rfl sk k5 (k2 ▸ hp) n (k2 ▸ hn) k6 msg msg.length le_rfl hm _ _ (by simp) sig len h pk' a1
        (by rw [a2, k2]) (by rw [k3]; exact a3) (by rw [k3]; exact a4) b a5 a6
  · have hI0 : ∀ j, InvWF { E with junk := j } := fun j => ⟨(hI hp).len, (hI hp).inv⟩
    obtain ⟨hc, -⟩ := C03_p3 _ (hE0 (J.call 1)) (hI0 (J.call 1)) sk k5 (k2 ▸ hp) P (k2 ▸ hP) hR' msg msg.length le_rfl hm
      ((List.range (picnicSignatureSize p)).map J.sig) (picnicSignatureSize p) (by simp) (by rw [k2])
    rcases hc with h | ⟨sig, len, h, hle, hsl⟩
    · exact Or.inl ⟨h, hdv h⟩
    · refine Or.inr (cycle_ok E hE rng J p n hn pk sk k1 k2 k3 k4 k5 k6 k7 k8 hval e msg sig len (k2 ▸ hle) (by simpa using hsl) h ?_)
      intro j pk' b a1 a2 a3 a4 a5 a6
      exact C02_sign_verify _ (hE0 (J.call 1)) (hI0 (J.call 1)) j E.fuel le_rfl sk k5 (k2 ▸ hp) n (k2 ▸ hn) msg msg.length le_rfl hm _ _ (by simp)
        sig len h pk' a1 (by rw [a2, k2]) (by rw [k3]; exact a3) (by rw [k3]; exact a4) b a5 a6

/-- **C47.** The life cycle of a key pair.  For every parameter set, every random bytes, every message and whatever uninitialised memory contains:
generating a key pair, signing, verifying, writing and reading back the public key, verifying again, writing and reading back the private
key and validating the pair all succeed, or signing does not terminate because the challenge is never sampled. -/
theorem C47_life_cycle (E : Env) (hE : EnvWF E) (p n : ℕ) (hI : p ∈ picnic3Params → InvWF E) (rng : Rng) (hrng : RngLen rng) (J : CycleJunk)
    (hn : blockBits p = some n) (r0 r1 : Buf) (h0 : rng 0 (bytesFor n) = some r0) (h1 : rng 1 (bytesFor n) = some r1)
    (msg : Buf) (hm : msg.length + 200 ≤ 2 ^ 32) :
    (∃ sk, sk.params = p ∧ (∀ i, msbBit sk.data i = (decide (i < n) && msbBit r0 i)) ∧
      cycleSign E J p sk msg = Outcome.diverge ∧ picnicExample E rng J p msg = Outcome.diverge) ∨
    picnicExample E rng J p msg = Outcome.ok 0 := by
  obtain ⟨pk, sk, e, hg⟩ := genOK { E with junk := J.call 0 } ⟨hE.perm, hE.lowmc⟩ rng hrng p n hn J.pk J.sk r0 r1 h0 h1
  rcases cycle_cases E hE hI rng J n hn r0 pk sk e hg msg hm with ⟨h2, h3⟩ | h
  · exact Or.inl ⟨sk, hg.skp, hg.data, h2, h3⟩
  · exact Or.inr h

/-- **C47**, termination (ZKB++): if the challenge sampler finds enough values within its bound for every digest, the program returns 0. -/
theorem C47_zkb (E : Env) (hE : EnvWF E) (p n : ℕ) (hp : p ∈ zkbParams) (rng : Rng) (hrng : RngLen rng) (J : CycleJunk)
    (hn : blockBits p = some n) (r0 r1 : Buf) (h0 : rng 0 (bytesFor n) = some r0) (h1 : rng 1 (bytesFor n) = some r1)
    (msg : Buf) (hm : msg.length + 200 ≤ 2 ^ 32) (P : Params) (hP : getParamSet p = some P)
    (ht : ∀ d : Buf, d.length = P.digestSizeBytes → P.numMPCRounds ≤ (stream (nextDigest E P) d E.fuel).length) :
    picnicExample E rng J p msg = Outcome.ok 0 := by
  have hp3 : p ∈ picnic3Params → InvWF E := by
    intro h
    simp only [picnic3Params, List.mem_cons, List.not_mem_nil, or_false] at h
    rcases h with rfl | rfl | rfl <;> exact absurd hp (by decide)
  obtain ⟨pk, sk, e, hg⟩ := genOK { E with junk := J.call 0 } ⟨hE.perm, hE.lowmc⟩ rng hrng p n hn J.pk J.sk r0 r1 h0 h1
  rcases cycle_cases E hE hp3 rng J n hn r0 pk sk e hg msg hm with ⟨h2, h3⟩ | h
  · obtain ⟨P', hP', hR⟩ := hg.rel
    rw [hP] at hP'
    obtain rfl : P = P' := by simpa using hP'
    have hR' : Relation P (E.lowmc P) sk.data sk.pk.plaintext sk.pk.ciphertext := hg.skpk ▸ hR
    refine absurd h2 ((C03_zkb { E with junk := J.call 1 } ⟨hE.perm, hE.lowmc⟩ sk hg.sa (hg.skp ▸ hp) P (hg.skp ▸ hP) hR' msg msg.length le_rfl hm
      _ (picnicSignatureSize p) (by simp) (by rw [hg.skp])).2 fun d hd => ?_)
    exact ht d hd
  · exact h

/-- **C47**, termination (Picnic3): if every digest leads to a challenge, the program returns 0 as soon as the bound on the sampling loop is large enough. -/
theorem C47_picnic3 (E : Env) (hE : EnvWF E) (hI : InvWF E) (p n : ℕ) (hp : p ∈ picnic3Params) (rng : Rng) (hrng : RngLen rng) (J : CycleJunk)
    (hn : blockBits p = some n) (r0 r1 : Buf) (h0 : rng 0 (bytesFor n) = some r0) (h1 : rng 1 (bytesFor n) = some r1)
    (msg : Buf) (hm : msg.length + 200 ≤ 2 ^ 32) (P : Params) (hP : getParamSet p = some P)
    (ht : ∀ d : Buf, d.length = P.digestSizeBytes → ∃ C Q, IsChallenge3 P.numMPCRounds P.numMPCParties P.numOpenedRounds (nextDigest E P) d C Q) :
    ∃ N, ∀ fuel ≥ N, picnicExample { E with fuel := fuel } rng J p msg = Outcome.ok 0 := by
  obtain ⟨pk, sk, e, hg⟩ := genOK { E with junk := J.call 0 } ⟨hE.perm, hE.lowmc⟩ rng hrng p n hn J.pk J.sk r0 r1 h0 h1
  obtain ⟨P', hP', hR⟩ := hg.rel
  rw [hP] at hP'
  obtain rfl : P = P' := by simpa using hP'
  have hR' : Relation P (E.lowmc P) sk.data sk.pk.plaintext sk.pk.ciphertext := hg.skpk ▸ hR
  obtain ⟨N, hN⟩ := (C03_p3 { E with junk := J.call 1 } ⟨hE.perm, hE.lowmc⟩ ⟨hI.len, hI.inv⟩ sk hg.sa (hg.skp ▸ hp) P (hg.skp ▸ hP) hR' msg
    msg.length le_rfl hm ((List.range (picnicSignatureSize p)).map J.sig) (picnicSignatureSize p) (by simp) (by rw [hg.skp])).2 fun d hd => ht d hd
  refine ⟨N, fun fuel hf => ?_⟩
  rcases cycle_cases { E with fuel := fuel } ⟨hE.perm, hE.lowmc⟩ (fun _ => ⟨hI.len, hI.inv⟩) rng J n hn r0 pk sk e
    ⟨hg.pkp, hg.skp, hg.skpk, hg.pa, hg.sa, hg.z0, hg.z1, hg.z2, hg.rel, hg.data⟩ msg hm with ⟨h2, h3⟩ | h
  · exact absurd h2 (hN fuel hf)
  · exact h

/-- **C47**, failure: with an invalid parameter set or a failing random source the program stops with the exit status -1. -/
theorem C47_no_keys (E : Env) (hE : EnvWF E) (rng : Rng) (hrng : RngLen rng) (J : CycleJunk) (p : ℕ) (msg : Buf)
    (h : blockBits p = none ∨ ∃ n, blockBits p = some n ∧ (rng 0 (bytesFor n) = none ∨ rng 1 (bytesFor n) = none)) :
    picnicExample E rng J p msg = Outcome.ok (-1) := by
  obtain ⟨pk, sk, e⟩ := C07_keygen_error { E with junk := J.call 0 } ⟨hE.perm, hE.lowmc⟩ rng hrng p (some J.pk) (some J.sk)
    (by rcases h with h | h; exacts [Or.inl h, Or.inr (Or.inr (Or.inr h))])
  unfold picnicExample
  rw [e, ok_bind]
  rfl

/-- The junk of the examples: bytes 0xaa everywhere, invalid key structures. -/
def cycleJunk : CycleJunk where
  pk := ⟨99, [1], []⟩
  sk := ⟨77, [2], ⟨3, [], [4]⟩⟩
  sig _ := 0xaa
  pkBuf _ := 0xaa
  skBuf _ := 0xaa
  call _ _ _ _ := 0xaa

/-- Instances: there are environments in which the program of /repo/example.c runs to its end, for every ZKB++ and every Picnic3 parameter set. -/
theorem C47_example :
    (∀ p ∈ zkbParams, picnicExample zeroEnv (fun _ n => some (List.replicate n 0xff)) cycleJunk p (List.replicate 500 1) = Outcome.ok 0) ∧
    (∀ p ∈ picnic3Params, ∃ fuel, picnicExample { altEnv with fuel := fuel } (fun _ n => some (List.replicate n 0xff)) cycleJunk p
      (List.replicate 500 1) = Outcome.ok 0) := by
  constructor
  · intro p hp
    obtain ⟨P, hP, h3⟩ := getParamSet_zkb hp
    refine C47_zkb zeroEnv zeroEnv_wf p P.stateSizeBits hp _ (fun k n r h => by injection h with h; subst h; simp) cycleJunk (blockBits_of hP) _ _ rfl rfl
      _ (by rw [List.length_replicate]; norm_num) P hP fun d _ => ?_
    have hdig := (zkbWF_of hP h3).digPos
    have hT := (zkbWF_of hP h3).T
    refine Nat.le_trans ?_ (zeroEnv_stream hP 999 d)
    have : 4 * 1 * 999 ≤ 4 * P.digestSizeBytes * 999 := by
      apply Nat.mul_le_mul_right
      omega
    omega
  · intro p hp
    obtain ⟨P, hP, hi3⟩ := getParamSet_p3 hp
    obtain ⟨N, hN⟩ := C47_picnic3 altEnv altEnv_wf altEnv_inv p P.stateSizeBits hp (fun _ n => some (List.replicate n 0xff))
      (fun k n r h => by injection h with h; subst h; simp) cycleJunk (blockBits_of hP) _ _ rfl rfl
      (List.replicate 500 1) (by rw [List.length_replicate]; norm_num) P hP fun d _ => altEnv_challenge hp hP d
    exact ⟨N, hN N le_rfl⟩

/-! ### C48: the default random source -/

theorem default_eq (U : Urandom) (hU : ∀ k n, (U.reads k n).length ≤ n) (k : ℕ) (buf : Buf) (len h : ℕ) (hb : len ≤ buf.length) :
    randomBytesDefault U k buf len h = Outcome.ok (if U.opens k = false then (-1, buf, h) else
      if (U.reads k len).length ≠ len then (-2, U.reads k len ++ buf.drop (U.reads k len).length, h + 1) else
        (0, U.reads k len ++ buf.drop (U.reads k len).length, h)) := by
  unfold randomBytesDefault
  by_cases ho : U.opens k = false
  · rw [if_pos ho, if_pos ho]; rfl
  · rw [if_neg ho, if_neg ho]
    have ht : (U.reads k len).take len = U.reads k len := List.take_of_length_le (hU k len)
    simp only [ht]
    rw [wrN_zero (le_trans (hU k len) hb), ok_bind]
    by_cases hl : (U.reads k len).length ≠ len
    · rw [if_pos hl, if_pos hl]; rfl
    · rw [if_neg hl, if_neg hl]; rfl

/-- **C48**, what the default random source stores and reports.  `random_bytes_default` returns 0 exactly if /dev/urandom could be opened and
delivered all `len` bytes; then the buffer starts with these bytes.  It never writes beyond the first `len` bytes. -/
theorem C48_random_bytes (U : Urandom) (hU : ∀ k n, (U.reads k n).length ≤ n) (k : ℕ) (buf : Buf) (len h : ℕ) (hb : len ≤ buf.length) :
    ∃ r buf' h', randomBytesDefault U k buf len h = Outcome.ok (r, buf', h') ∧ buf'.length = buf.length ∧ buf'.drop len = buf.drop len ∧
      (r = 0 ↔ U.opens k = true ∧ (U.reads k len).length = len) ∧ (r = 0 → buf'.take len = U.reads k len) ∧
      (r = -1 ↔ U.opens k = false) ∧ (r = -1 → buf' = buf) ∧ (r = 0 ∨ r = -1 ∨ r = -2) := by
  have hle := hU k len
  rw [default_eq U hU k buf len h hb]
  by_cases ho : U.opens k = false
  · rw [if_pos ho]
    exact ⟨-1, buf, h, rfl, rfl, rfl, by simp [ho], by simp, by simp [ho], by simp, by simp⟩
  · rw [if_neg ho]
    have ho' : U.opens k = true := by simpa using ho
    have hlen : (U.reads k len ++ buf.drop (U.reads k len).length).length = buf.length := by
      rw [List.length_append, List.length_drop]; omega
    have hdrop : (U.reads k len ++ buf.drop (U.reads k len).length).drop len = buf.drop len := by
      rw [List.drop_append, List.drop_eq_nil_of_le hle, List.nil_append, List.drop_drop]
      congr 1; omega
    by_cases hl : (U.reads k len).length = len
    · rw [if_neg (by simpa using hl)]
      refine ⟨0, _, _, rfl, hlen, hdrop, by simp [ho', hl], fun _ => ?_, by simp [ho'], by simp, by simp⟩
      rw [List.take_append_of_le_length (by omega), List.take_of_length_le hle]
    · rw [if_pos hl]
      exact ⟨-2, _, _, rfl, hlen, hdrop, by simp [hl], by simp, by simp [ho'], by simp, by simp⟩

/-- **C48**, partial: the number of open files is unchanged after the call, unless the read is short. -/
theorem C48_handles_partial (U : Urandom) (hU : ∀ k n, (U.reads k n).length ≤ n) (k : ℕ) (buf : Buf) (len h : ℕ) (hb : len ≤ buf.length)
    (hr : U.opens k = false ∨ (U.reads k len).length = len) :
    ∃ r buf', randomBytesDefault U k buf len h = Outcome.ok (r, buf', h) := by
  rw [default_eq U hU k buf len h hb]
  by_cases ho : U.opens k = false
  · rw [if_pos ho]
    exact ⟨_, _, rfl⟩
  · rw [if_neg ho, if_neg (by simpa [ho] using hr)]
    exact ⟨_, _, rfl⟩

/-- `n` calls one after the other on the same buffer: the number of open files at the end. -/
def openAfter (U : Urandom) (buf : Buf) (len : ℕ) : ℕ → M ℕ
  | 0 => pure 0
  | n + 1 => do
    let h ← openAfter U buf len n
    let (_, _, h') ← randomBytesDefault U n buf len h
    pure h'

/-- **C48** is violated: every short read leaves its file open.  After `n` calls there are as many open files as there were short reads. -/
theorem C48_handles_violated (U : Urandom) (hU : ∀ k n, (U.reads k n).length ≤ n) (buf : Buf) (len n : ℕ) (hb : len ≤ buf.length) :
    openAfter U buf len n = Outcome.ok ((List.range n).countP fun k => U.opens k && decide ((U.reads k len).length < len)) := by
  induction n with
  | zero => rfl
  | succ n ih =>
    rw [openAfter, ih, ok_bind, default_eq U hU n buf len _ hb, ok_bind, List.range_succ, List.countP_append, List.countP_singleton]
    have hle := hU n len
    cases ho : U.opens n
    · simp [Pure.pure]
    · by_cases hl : (U.reads n len).length = len
      · simp [hl, Pure.pure]
      · have : (U.reads n len).length < len := by omega
        simp [hl, this, Pure.pure]

/-- Instance: a random source that always fails after 3 bytes; 1000 calls leave 1000 files open. -/
theorem C48_handles_example :
    openAfter ⟨fun _ => true, fun _ n => List.replicate (min 3 n) 7⟩ (zeros 16) 16 1000 = Outcome.ok 1000 := by
  rw [C48_handles_violated _ (by intro k n; simp) _ _ _ (by decide)]
  have : (List.range 1000).countP (fun _ => true) = 1000 := by rw [List.countP_true, List.length_range]
  simp

theorem urandom_rng (U : Urandom) (hU : ∀ k n, (U.reads k n).length ≤ n) (k n : ℕ) :
    U.rng k n = if U.opens k = true ∧ (U.reads k n).length = n then some (U.reads k n) else none := by
  unfold Urandom.rng
  rw [default_eq U hU k (zeros n) n 0 (by simp [zeros])]
  cases ho : U.opens k
  · simp
  · by_cases hl : (U.reads k n).length = n
    · have : (zeros n).drop n = [] := List.drop_eq_nil_of_le (by simp [zeros])
      simp [hl, this]
    · simp [hl]

/-- **C48**, key generation with the default random source: it meets the contract the key generation theorems require, so keys are generated from
the bytes the operating system delivered, and without them key generation fails. -/
theorem C48_keygen (U : Urandom) (hU : ∀ k n, (U.reads k n).length ≤ n) (E : Env) (hE : EnvWF E) (p n : ℕ) (hn : blockBits p = some n)
    (pk0 : PublicKey) (sk0 : PrivateKey) :
    RngLen U.rng ∧
    ((∀ k < 2, U.opens k = true ∧ (U.reads k (bytesFor n)).length = bytesFor n) →
      ∃ pk sk, picnicKeygen E U.rng p (some pk0) (some sk0) = Outcome.ok (0, some pk, some sk) ∧
        ∀ i, msbBit sk.data i = (decide (i < n) && msbBit (U.reads 0 (bytesFor n)) i)) ∧
    ((∃ k < 2, U.opens k = false ∨ (U.reads k (bytesFor n)).length < bytesFor n) →
      ∃ pk sk, picnicKeygen E U.rng p (some pk0) (some sk0) = Outcome.ok (-1, pk, sk)) := by
  have hl : RngLen U.rng := by
    intro k m r h
    rw [urandom_rng U hU] at h
    by_cases hc : U.opens k = true ∧ (U.reads k m).length = m
    · rw [if_pos hc] at h
      rw [← Option.some.inj h]; exact hc.2
    · rw [if_neg hc] at h; cases h
  refine ⟨hl, fun h => ?_, fun h => ?_⟩
  · obtain ⟨pk, sk, e, hg⟩ := genOK E hE U.rng hl p n hn pk0 sk0 (U.reads 0 (bytesFor n)) (U.reads 1 (bytesFor n))
      (by rw [urandom_rng U hU, if_pos (h 0 (by decide))]) (by rw [urandom_rng U hU, if_pos (h 1 (by decide))])
    exact ⟨pk, sk, e, hg.data⟩
  · refine C07_keygen_error E hE U.rng hl p _ _ (Or.inr (Or.inr (Or.inr ⟨n, hn, ?_⟩)))
    obtain ⟨k, hk, hc⟩ := h
    have hz : U.rng k (bytesFor n) = none := by
      rw [urandom_rng U hU, if_neg]
      rintro ⟨h1, h2⟩
      rcases hc with h3 | h3
      · rw [h1] at h3; cases h3
      · omega
    rcases (by omega : k = 0 ∨ k = 1) with rfl | rfl
    · exact Or.inl hz
    · exact Or.inr hz

/-- Instances of both cases. -/
example : ∃ U V : Urandom, (∀ k n, (U.reads k n).length ≤ n) ∧ (∀ k n, (V.reads k n).length ≤ n) ∧
    (∀ k < 2, U.opens k = true ∧ (U.reads k 17).length = 17) ∧ (∃ k < 2, V.opens k = false ∨ (V.reads k 17).length < 17) :=
  ⟨⟨fun _ => true, fun k n => List.replicate n (BitVec.ofNat 8 k)⟩, ⟨fun k => k == 0, fun _ _ => []⟩, by intro k n; simp, by intro k n; simp,
    by intro k _; simp, ⟨1, by decide, Or.inl rfl⟩⟩

end Picnic
