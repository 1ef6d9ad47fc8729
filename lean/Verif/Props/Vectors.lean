import Verif.Model.Vectors
import Verif.Props.Cycle
import Verif.Props.Print

/-
C56: the program that creates test vectors.
-/

namespace Picnic

open Spec Spec.Challenge

/-- The message of the test vectors. -/
def vectorMessage : Buf := [0, 1, 2, 3, 4, 5, 6, 7, 8, 9]

/-- The items a test vector of block length `n` starts with: the parameter set, the private key, the public key, its two halves, the message
and the signature. -/
def vectorItems (p n : ℕ) (pk : PublicKey) (sk : PrivateKey) (sig : Buf) : List Printed :=
  let c := pk.ciphertext.take (bytesFor n)
  let t := pk.plaintext.take (bytesFor n)
  [.text (picnicGetParamName p), .hex "sk" (sk.data.take (bytesFor n) ++ c ++ t), .hex "pk" (c ++ t), .hex "pk_p" c, .hex "pk_C" t,
    .hex "message" vectorMessage, .hex "signature" sig]

theorem vectors_run (E : Env) (p n : ℕ) (rng : Rng) (J : CycleJunk) (hn : blockBits p = some n) (r0 : Buf) (pk : PublicKey) (sk : PrivateKey)
    (e : picnicKeygen { E with junk := J.call 0 } rng p (some J.pk) (some J.sk) = Outcome.ok (0, some pk, some sk)) (hg : GenOK E.lowmc p n r0 pk sk) :
    createTestVectors E rng J p = (do
      let (ret, signature, signature_len) ← cycleSign E J p sk vectorMessage
      if ret ≠ 0 then pure (-1, (vectorItems p n pk sk []).take 6) else do
      let signature := if signature_len < picnicSignatureSize p then signature.take signature_len else signature
      let a6 ← printHex "signature" signature signature_len
      let a7 ← printSignature { E with junk := J.call 2 } signature signature_len p
      let out := (vectorItems p n pk sk []).take 6 ++ [a6] ++ a7
      let ret ← picnicVerify { E with junk := J.call 3 } (some pk) vectorMessage vectorMessage.length signature signature_len
      if ret ≠ 0 then pure (-1, out) else
      pure (1, out ++ [.text "verify:  success"])) := by
  obtain ⟨P, hP, hPn⟩ := getParamSet_of hn
  have hWF := paramsWF_of hP
  have hb : bytesFor n ≤ 32 := by have := hWF.nMax; rw [hPn] at this; unfold bytesFor; omega
  have hmax := (C04_max_sizes.2.1) p n hn
  have hm2 : 1 + 3 * bytesFor n ≤ PICNIC_MAX_PRIVATEKEY_SIZE := hmax.2
  obtain ⟨k1, k2, k3, k4, k5, k6, k7, k8, -, -⟩ := hg
  have h1 := k4.ct
  have h2 := k4.pt
  have h3 := k5.data
  unfold vectorItems
  simp only []
  obtain ⟨m, hm⟩ : ∃ m, bytesFor n = m := ⟨_, rfl⟩
  have l0 : (sk.data.take m).length = m := by rw [List.length_take]; omega
  have l1 : (pk.ciphertext.take m).length = m := by rw [List.length_take]; omega
  have l2 : (pk.plaintext.take m).length = m := by rw [List.length_take]; omega
  unfold createTestVectors
  rw [e, ok_bind]
  simp only [ne_eq, not_true_eq_false, if_false]
  rw [C12_write_private_key sk k5 _ _ (by simp), k2, hn]
  rw [hm] at hm2
  obtain ⟨d, hd⟩ : ∃ d, sk.data.take m = d := ⟨_, rfl⟩
  obtain ⟨c, hc⟩ : ∃ c, pk.ciphertext.take m = c := ⟨_, rfl⟩
  obtain ⟨t, ht⟩ : ∃ t, pk.plaintext.take m = t := ⟨_, rfl⟩
  rw [hd] at l0
  rw [hc] at l1
  rw [ht] at l2
  simp only [hm, k3, hd, hc, ht]
  rw [if_neg (by omega), ok_bind]
  simp only []
  rw [if_neg (by omega)]
  simp only [deref, ok_bind]
  have t1 : (((1 + 3 * m : ℕ) : ℤ).toNat - 1) = 3 * m := by omega
  have t2 : (((1 + 2 * m : ℕ) : ℤ).toNat - 1) = 2 * m := by omega
  have t3 : 2 * m / 2 = m := by omega
  obtain ⟨r, hr⟩ : ∃ r, ((List.range (PICNIC_MAX_PRIVATEKEY_SIZE + 1)).map J.skBuf).drop (1 + 3 * m) = r := ⟨_, rfl⟩
  have lr : r.length + (1 + 3 * m) = PICNIC_MAX_PRIVATEKEY_SIZE + 1 := by
    rw [← hr, List.length_drop, List.length_map, List.length_range]; omega
  have hlen : ∀ x : Byte, (x :: (d ++ c ++ t ++ r)).length = PICNIC_MAX_PRIVATEKEY_SIZE + 1 := by
    intro x; simp only [List.length_cons, List.length_append]; omega
  rw [hr, t1, printHex_ok (by rw [List.length_drop, hlen]; omega), ok_bind, C12_write_public_key pk k4 _ _ (by rw [hlen]), k1, hn]
  simp only [hm, hc, ht]
  rw [if_neg (by omega), ok_bind]
  simp only []
  rw [if_neg (by omega)]
  simp only [ok_bind]
  obtain ⟨r', hr'⟩ : ∃ r', (BitVec.ofNat 8 p :: (d ++ c ++ t ++ r)).drop (1 + 2 * m) = r' := ⟨_, rfl⟩
  have d1 : ∀ x : Byte, (x :: (d ++ c ++ t ++ r)).drop 1 = d ++ c ++ t ++ r := fun x => rfl
  have d2 : ∀ x : Byte, (x :: (c ++ t ++ r')).drop 1 = c ++ t ++ r' := fun x => rfl
  have d3 : ∀ x : Byte, (x :: (c ++ t ++ r')).drop (1 + m) = t ++ r' := fun x => by
    rw [Nat.add_comm, List.drop_succ_cons, List.append_assoc, List.drop_left' l1]
  have e1 : (d ++ c ++ t ++ r).take (3 * m) = d ++ c ++ t := List.take_left' (by simp only [List.length_append]; omega)
  have e2 : (c ++ t ++ r').take (2 * m) = c ++ t := List.take_left' (by simp only [List.length_append]; omega)
  have e3 : (c ++ t ++ r').take m = c := by rw [List.append_assoc]; exact List.take_left' l1
  have e4 : (t ++ r').take m = t := List.take_left' l2
  rw [hr', t2, t3, d1, d2, d3, e1, printHex_ok (by simp only [List.length_append]; omega), ok_bind, e2,
    printHex_ok (by simp only [List.length_append]; omega), ok_bind, e3, printHex_ok (by simp only [List.length_append]; omega), ok_bind, e4,
    printHex_ok le_rfl, ok_bind]
  rfl

/-- What signing and verifying do in this program. -/
theorem vectors_sign (E : Env) (hE : EnvWF E) (p n : ℕ) (hI : p ∈ picnic3Params → InvWF E) (rng : Rng) (J : CycleJunk)
    (hn : blockBits p = some n) (r0 : Buf) (pk : PublicKey) (sk : PrivateKey) (hg : GenOK E.lowmc p n r0 pk sk)
    (msg : Buf) (hm : msg.length + 200 ≤ 2 ^ 32) :
    cycleSign E J p sk msg = Outcome.diverge ∨
    ∃ sig len, cycleSign E J p sk msg = Outcome.ok (0, sig, len) ∧ len ≤ sig.length ∧ sig.length = picnicSignatureSize p ∧
      ∀ j, picnicVerify { E with junk := j } (some pk) msg msg.length (sig.take len) len = Outcome.ok 0 := by
  have hE0 : ∀ j, EnvWF { E with junk := j } := fun j => ⟨hE.perm, hE.lowmc⟩
  obtain ⟨k1, k2, k3, k4, k5, k6, k7, k8, ⟨P, hP, hR⟩, -⟩ := hg
  have hR' : Relation P (E.lowmc P) sk.data sk.pk.plaintext sk.pk.ciphertext := k3 ▸ hR
  rcases blockBits_cases hn with hp | hp
  · obtain ⟨hc, -⟩ := C03_zkb _ (hE0 (J.call 1)) sk k5 (k2 ▸ hp) P (k2 ▸ hP) hR' msg msg.length le_rfl hm
      ((List.range (picnicSignatureSize p)).map J.sig) (picnicSignatureSize p) (by simp) (by rw [k2])
    rcases hc with h | ⟨sig, len, h, hle, hsl⟩
    · exact Or.inl h
    · have hsl' : sig.length = picnicSignatureSize p := by simpa using hsl
      have hle' : len ≤ picnicSignatureSize p := k2 ▸ hle
      refine Or.inr ⟨sig, len, h, by omega, hsl', fun j => ?_⟩
      exact C01_sign_verify _ (hE0 (J.call 1)) j E.fuel le_rfl sk k5 (k2 ▸ hp) n (k2 ▸ hn) k6 msg msg.length le_rfl hm _ _ (by simp) sig len h pk k4
        (by rw [k1, k2]) (by rw [k3]) (by rw [k3]) (sig.take len) (by rw [List.take_take, Nat.min_self]) (by rw [List.length_take]; omega)
  · have hI0 : ∀ j, InvWF { E with junk := j } := fun j => ⟨(hI hp).len, (hI hp).inv⟩
    obtain ⟨hc, -⟩ := C03_p3 _ (hE0 (J.call 1)) (hI0 (J.call 1)) sk k5 (k2 ▸ hp) P (k2 ▸ hP) hR' msg msg.length le_rfl hm
      ((List.range (picnicSignatureSize p)).map J.sig) (picnicSignatureSize p) (by simp) (by rw [k2])
    rcases hc with h | ⟨sig, len, h, hle, hsl⟩
    · exact Or.inl h
    · have hsl' : sig.length = picnicSignatureSize p := by simpa using hsl
      have hle' : len ≤ picnicSignatureSize p := k2 ▸ hle
      refine Or.inr ⟨sig, len, h, by omega, hsl', fun j => ?_⟩
      exact C02_sign_verify _ (hE0 (J.call 1)) (hI0 (J.call 1)) j E.fuel le_rfl sk k5 (k2 ▸ hp) n (k2 ▸ hn) msg msg.length le_rfl hm _ _ (by simp)
        sig len h pk k4 (by rw [k1, k2]) (by rw [k3]) (by rw [k3]) (sig.take len) (by rw [List.take_take, Nat.min_self])
        (by rw [List.length_take]; omega)

theorem vectors_signed (E : Env) (p n : ℕ) (rng : Rng) (J : CycleJunk) (hn : blockBits p = some n) (r0 : Buf) (pk : PublicKey) (sk : PrivateKey)
    (e : picnicKeygen { E with junk := J.call 0 } rng p (some J.pk) (some J.sk) = Outcome.ok (0, some pk, some sk)) (hg : GenOK E.lowmc p n r0 pk sk)
    (sig : Buf) (len : ℕ) (h : cycleSign E J p sk vectorMessage = Outcome.ok (0, sig, len)) (hle : len ≤ sig.length)
    (hsl : sig.length = picnicSignatureSize p)
    (hv : ∀ j, picnicVerify { E with junk := j } (some pk) vectorMessage vectorMessage.length (sig.take len) len = Outcome.ok 0) :
    createTestVectors E rng J p = (do
      let a ← printSignature { E with junk := J.call 2 } (sig.take len) len p
      pure (1, vectorItems p n pk sk (sig.take len) ++ a ++ [.text "verify:  success"])) := by
  have hif : (if len < picnicSignatureSize p then sig.take len else sig) = sig.take len := by
    split
    · rfl
    · rw [List.take_of_length_le (by omega)]
  rw [vectors_run E p n rng J hn r0 pk sk e hg, h, ok_bind]
  simp only [ne_eq, not_true_eq_false, if_false, hif]
  rw [printHex_ok (by rw [List.length_take]; omega), ok_bind, List.take_take, Nat.min_self]
  cases printSignature { E with junk := J.call 2 } (sig.take len) len p with
  | ok a =>
    rw [ok_bind, hv, ok_bind]
    simp only [not_true_eq_false, if_false]
    simp only [vectorItems, ok_bind]
    rfl
  | _ => rfl

/-- **C56**, what holds (ZKB++): for all random bytes and all contents of uninitialised memory the program prints the parameter set, the private key and the
public key as serialised (without the first byte), the message, a signature that verifies, the parts of the signature, and returns normally; or
signing does not terminate.  The two halves of the public key are shown in the order ciphertext, plaintext, under the labels `pk_p` and `pk_C`. -/
theorem C56_zkb_partial (E : Env) (hE : EnvWF E) (p n : ℕ) (hp : p ∈ zkbParams) (rng : Rng) (hrng : RngLen rng) (J : CycleJunk)
    (hn : blockBits p = some n) (r0 r1 : Buf) (h0 : rng 0 (bytesFor n) = some r0) (h1 : rng 1 (bytesFor n) = some r1) :
    ∃ pk sk, picnicKeygen { E with junk := J.call 0 } rng p (some J.pk) (some J.sk) = Outcome.ok (0, some pk, some sk) ∧
      ((cycleSign E J p sk vectorMessage = Outcome.diverge ∧ createTestVectors E rng J p = Outcome.diverge) ∨
        ∃ sig parts k, createTestVectors E rng J p =
            Outcome.ok (1, vectorItems p n pk sk sig ++ parts ++ [.text "verify:  success"]) ∧
          (∀ j, picnicVerify { E with junk := j } (some pk) vectorMessage vectorMessage.length sig sig.length = Outcome.ok 0) ∧
          k ≤ sig.length ∧ hexBytes parts = sig.take k) := by
  have hp3 : p ∈ picnic3Params → InvWF E := by
    intro h
    simp only [picnic3Params, List.mem_cons, List.not_mem_nil, or_false] at h
    rcases h with rfl | rfl | rfl <;> exact absurd hp (by decide)
  obtain ⟨pk, sk, e, hg⟩ := genOK { E with junk := J.call 0 } ⟨hE.perm, hE.lowmc⟩ rng hrng p n hn J.pk J.sk r0 r1 h0 h1
  refine ⟨pk, sk, e, ?_⟩
  rcases vectors_sign E hE p n hp3 rng J hn r0 pk sk hg vectorMessage (by decide) with h | ⟨sig, len, h, hle, hsl, hv⟩
  · refine Or.inl ⟨h, ?_⟩
    rw [vectors_run E p n rng J hn r0 pk sk e hg, h]
    rfl
  · have hlen : (sig.take len).length = len := by rw [List.length_take]; omega
    have hv' := hv (J.call 2)
    obtain ⟨parts, k, e2, hk, hx⟩ := C33_zkb { E with junk := J.call 2 } pk (hg.pkp ▸ hp) vectorMessage vectorMessage.length (sig.take len) (by
      rw [hlen]; exact hv')
    refine Or.inr ⟨sig.take len, parts, k, ?_, by rw [hlen]; exact hv, hk, hx⟩
    rw [vectors_signed E p n rng J hn r0 pk sk e hg sig len h hle hsl hv, ← hg.pkp]
    rw [hlen] at e2
    rw [e2]
    rfl

/-- **C56** is false for Picnic3: for all random bytes, whenever signing succeeds, the program reads past the end of a buffer while printing the
signature and never reaches the verification. -/
theorem C56_p3_violated (E : Env) (hE : EnvWF E) (hI : InvWF E) (p n : ℕ) (hp : p ∈ picnic3Params) (rng : Rng) (hrng : RngLen rng) (J : CycleJunk)
    (hn : blockBits p = some n) (r0 r1 : Buf) (h0 : rng 0 (bytesFor n) = some r0) (h1 : rng 1 (bytesFor n) = some r1) :
    ∃ pk sk, picnicKeygen { E with junk := J.call 0 } rng p (some J.pk) (some J.sk) = Outcome.ok (0, some pk, some sk) ∧
      ((cycleSign E J p sk vectorMessage = Outcome.diverge ∧ createTestVectors E rng J p = Outcome.diverge) ∨
        createTestVectors E rng J p = Outcome.ub UB.oobRead) := by
  obtain ⟨pk, sk, e, hg⟩ := genOK { E with junk := J.call 0 } ⟨hE.perm, hE.lowmc⟩ rng hrng p n hn J.pk J.sk r0 r1 h0 h1
  refine ⟨pk, sk, e, ?_⟩
  rcases vectors_sign E hE p n (fun _ => hI) rng J hn r0 pk sk hg vectorMessage (by decide) with h | ⟨sig, len, h, hle, hsl, hv⟩
  · refine Or.inl ⟨h, ?_⟩
    rw [vectors_run E p n rng J hn r0 pk sk e hg, h]
    rfl
  · have hlen : (sig.take len).length = len := by rw [List.length_take]; omega
    have hv' := hv (J.call 2)
    have e2 := C33_p3_violated { E with junk := J.call 2 } ⟨hE.perm, hE.lowmc⟩ pk (hg.pkp ▸ hp) vectorMessage vectorMessage.length (sig.take len) (by
      rw [hlen]; exact hv')
    refine Or.inr ?_
    rw [vectors_signed E p n rng J hn r0 pk sk e hg sig len h hle hsl hv, ← hg.pkp]
    rw [hlen] at e2
    rw [e2]
    rfl

/-- **C56**, no keys: with an invalid parameter set or a failing random source the program stops with the exit status -1 after the first line. -/
theorem C56_no_keys (E : Env) (hE : EnvWF E) (rng : Rng) (hrng : RngLen rng) (J : CycleJunk) (p : ℕ)
    (h : blockBits p = none ∨ ∃ n, blockBits p = some n ∧ (rng 0 (bytesFor n) = none ∨ rng 1 (bytesFor n) = none)) :
    createTestVectors E rng J p = Outcome.ok (-1, [.text (picnicGetParamName p)]) := by
  obtain ⟨pk, sk, e⟩ := C07_keygen_error { E with junk := J.call 0 } ⟨hE.perm, hE.lowmc⟩ rng hrng p (some J.pk) (some J.sk)
    (by rcases h with h | h; exacts [Or.inl h, Or.inr (Or.inr (Or.inr h))])
  unfold createTestVectors
  rw [e, ok_bind]
  rfl

/-- **C56**, the program returns normally (ZKB++) if every digest leads to a challenge within the bound on the sampling loop. -/
theorem C56_zkb_returns_partial (E : Env) (hE : EnvWF E) (p n : ℕ) (hp : p ∈ zkbParams) (rng : Rng) (hrng : RngLen rng) (J : CycleJunk)
    (hn : blockBits p = some n) (r0 r1 : Buf) (h0 : rng 0 (bytesFor n) = some r0) (h1 : rng 1 (bytesFor n) = some r1)
    (P : Params) (hP : getParamSet p = some P)
    (ht : ∀ d : Buf, d.length = P.digestSizeBytes → P.numMPCRounds ≤ (stream (nextDigest E P) d E.fuel).length) :
    ∃ pk sk sig parts, picnicKeygen { E with junk := J.call 0 } rng p (some J.pk) (some J.sk) = Outcome.ok (0, some pk, some sk) ∧
      createTestVectors E rng J p = Outcome.ok (1, vectorItems p n pk sk sig ++ parts ++ [.text "verify:  success"]) := by
  obtain ⟨pk, sk, e, h⟩ := C56_zkb_partial E hE p n hp rng hrng J hn r0 r1 h0 h1
  rcases h with ⟨h2, -⟩ | ⟨sig, parts, k, h, -⟩
  · obtain ⟨pk', sk', e', hg⟩ := genOK { E with junk := J.call 0 } ⟨hE.perm, hE.lowmc⟩ rng hrng p n hn J.pk J.sk r0 r1 h0 h1
    rw [e] at e'
    obtain ⟨-, e'⟩ := Prod.mk.inj (Outcome.ok.inj e')
    obtain ⟨e1, e2⟩ := Prod.mk.inj e'
    obtain rfl := Option.some.inj e1
    obtain rfl := Option.some.inj e2
    obtain ⟨P', hP', hR⟩ := hg.rel
    rw [hP] at hP'
    obtain rfl : P = P' := by simpa using hP'
    have hR' : Relation P (E.lowmc P) sk.data sk.pk.plaintext sk.pk.ciphertext := hg.skpk ▸ hR
    refine absurd h2 ((C03_zkb { E with junk := J.call 1 } ⟨hE.perm, hE.lowmc⟩ sk hg.sa (hg.skp ▸ hp) P (hg.skp ▸ hP) hR' vectorMessage
      vectorMessage.length le_rfl (by decide) _ (picnicSignatureSize p) (by simp) (by rw [hg.skp])).2 fun d hd => ?_)
    exact ht d hd
  · exact ⟨pk, sk, sig, parts, e, h⟩

/-- A matrix with ones on the diagonal changes nothing. -/
theorem mulVec_idMatrix {P : Params} (hP : ParamsWF P) (v : Bits) {i : ℕ} (hi : i < P.stateSizeBits) :
    mulVec P.stateSizeBits (matBits P.stateSizeWords (idMatrix P)) v i = v i := by
  unfold mulVec
  rw [if_pos hi, Finset.sum_eq_single i]
  · rw [matBits_idMatrix hP hi hi, if_pos rfl, one_mul]
  · intro j hj hne
    rw [matBits_idMatrix hP hi (Finset.mem_range.1 hj), if_neg (Ne.symm hne), zero_mul]
  · intro h
    exact absurd (Finset.mem_range.2 hi) h

/-- The last bit of the block in the example environment. -/
theorem idConsts_state {P : Params} (hP : ParamsWF P) (key pt : Bits) {i : ℕ} (hi : i < P.stateSizeBits) (hs : 3 * P.numSboxes ≤ i) (h0 : 0 < i) (t : ℕ) :
    (lowmcOf P (idConsts P)).state key pt t i = pt i + (t + 1 : ℕ) * key i := by
  induction t with
  | zero =>
    rw [LowMC.state, Pi.add_apply]
    change pt i + mulVec P.stateSizeBits (matBits P.stateSizeWords (idMatrix P)) key i = _
    rw [mulVec_idMatrix hP _ hi]
    simp
  | succ t ih =>
    rw [LowMC.state, Pi.add_apply, Pi.add_apply]
    change mulVec P.stateSizeBits (matBits P.stateSizeWords (idMatrix P)) (sboxLayer P.numSboxes ((lowmcOf P (idConsts P)).state key pt t)) i +
      trunc P.stateSizeBits (bitsOf ((idConsts P).RC t)) i + mulVec P.stateSizeBits (matBits P.stateSizeWords (idMatrix P)) key i = _
    have hw := hP.words
    rw [mulVec_idMatrix hP _ hi, mulVec_idMatrix hP _ hi, sboxLayer, if_neg (by omega), ih, trunc, if_pos hi, idConsts,
      bitsOf_ofBits _ (by omega), if_neg (by omega)]
    push_cast
    ring

/-- **C56** is false: the label `pk_p` does not show the plaintext.  A run with the parameter set Picnic_L1_FS that returns normally, and in which the item
labelled `pk_p` is the ciphertext, not the plaintext, of the public key. -/
theorem C56_labels_violated : ∃ (E : Env) (rng : Rng) (J : CycleJunk) (pk : PublicKey) (sk : PrivateKey) (out : List Printed),
    EnvWF E ∧ RngLen rng ∧ picnicKeygen { E with junk := J.call 0 } rng 1 (some J.pk) (some J.sk) = Outcome.ok (0, some pk, some sk) ∧
      createTestVectors E rng J 1 = Outcome.ok (1, out) ∧ out[3]? = some (.hex "pk_p" (pk.ciphertext.take 16)) ∧
      out[4]? = some (.hex "pk_C" (pk.plaintext.take 16)) ∧ pk.ciphertext.take 16 ≠ pk.plaintext.take 16 := by
  have hrng : RngLen (fun _ n => some (List.replicate n 0xff)) := fun k n r h => by injection h with h; subst h; simp
  obtain ⟨P, hP, h3⟩ := getParamSet_zkb (p := 1) (by decide)
  have hWF := paramsWF_of hP
  obtain ⟨pk, sk, sig, parts, e, h⟩ := C56_zkb_returns_partial zeroEnv zeroEnv_wf 1 128 (by decide) (fun _ n => some (List.replicate n 0xff)) hrng cycleJunk
    rfl _ _ rfl rfl P hP fun d _ => by
      have hdig := (zkbWF_of hP h3).digPos
      have hT := (zkbWF_of hP h3).T
      refine Nat.le_trans ?_ (zeroEnv_stream hP 999 d)
      have : 4 * 1 * 999 ≤ 4 * P.digestSizeBytes * 999 := by
        apply Nat.mul_le_mul_right
        omega
      omega
  refine ⟨zeroEnv, _, cycleJunk, pk, sk, _, zeroEnv_wf, hrng, e, h, rfl, rfl, fun hc => ?_⟩
  obtain ⟨pk', sk', e', -, -, -, ha, -, -, hpt, ⟨P', hP', hP8, hct⟩, -⟩ := C07_keygen { zeroEnv with junk := cycleJunk.call 0 } ⟨zeroEnv_wf.perm, zeroEnv_wf.lowmc⟩
    (fun _ n => some (List.replicate n 0xff)) hrng 1 128 rfl cycleJunk.pk cycleJunk.sk _ _ rfl rfl
  rw [e] at e'
  obtain ⟨-, e'⟩ := Prod.mk.inj (Outcome.ok.inj e')
  obtain rfl := Option.some.inj (Prod.mk.inj e').1
  rw [hP] at hP'
  obtain rfl : P = P' := by simpa using hP'
  have hr : P.numRounds = 20 ∧ P.numSboxes = 10 := by
    have : getParamSet 1 = some P := hP
    injection this with this
    rw [← this]
    exact ⟨rfl, rfl⟩
  have hbit : bitsOf (List.replicate (bytesFor 128) (0xff : Byte)) 127 = 1 := by decide
  have hb := (take_eq_iff (n := 16) (by have := ha.ct; omega) (by have := ha.pt; omega)).1 hc 127 (by norm_num)
  rw [hct, hpt, if_pos (by norm_num), if_pos (by norm_num)] at hb
  change (lowmcOf P (idConsts P)).state _ _ P.numRounds 127 = _ at hb
  rw [idConsts_state hWF _ _ (by omega) (by omega) (by norm_num), hbit, hr.1] at hb
  revert hb
  decide

/-- Instances of C56_p3_violated: a run with each Picnic3 parameter set in which signing succeeds and the program reads past the end of a buffer. -/
theorem C56_p3_example (p : ℕ) (hp : p ∈ picnic3Params) : ∃ fuel,
    createTestVectors { altEnv with fuel := fuel } (fun _ n => some (List.replicate n 0xff)) cycleJunk p = Outcome.ub UB.oobRead := by
  obtain ⟨P, hP, hi3⟩ := getParamSet_p3 hp
  have hrng : RngLen (fun _ n => some (List.replicate n 0xff)) := fun k n r h => by injection h with h; subst h; simp
  obtain ⟨N, hN⟩ := C47_picnic3 altEnv altEnv_wf altEnv_inv p P.stateSizeBits hp (fun _ n => some (List.replicate n 0xff))
    hrng cycleJunk (blockBits_of hP) _ _ rfl rfl vectorMessage (by decide) P hP fun d _ => altEnv_challenge hp hP d
  refine ⟨N, ?_⟩
  obtain ⟨pk, sk, e, h⟩ := C56_p3_violated { altEnv with fuel := N } ⟨altEnv_wf.perm, altEnv_wf.lowmc⟩ ⟨altEnv_inv.len, altEnv_inv.inv⟩ p P.stateSizeBits hp
    (fun _ n => some (List.replicate n 0xff)) hrng cycleJunk (blockBits_of hP) _ _ rfl rfl
  rcases h with ⟨h, -⟩ | h
  · exfalso
    have h2 := hN N le_rfl
    unfold picnicExample at h2
    rw [e, ok_bind] at h2
    simp only [ne_eq, not_true_eq_false, if_false] at h2
    unfold cycleSign at h
    rw [h] at h2
    cases h2
  · exact h

end Picnic
