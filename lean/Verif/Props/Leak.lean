import Verif.Proofs.LeakSim
import Verif.Props.Conform3
import Verif.Props.P3Example

/-
C45: what an observer of branches and memory addresses learns from the operations that handle a secret key.

`Leak.picnicSign` and so on are the functions of the model with observations (Model/Leak*).  C45_same_results says that they
compute what the functions of the other theorems compute.  Then:

* C45_sign_zkb, C45_sign_picnic3: there is one function `Sim` that gives the observations of every successful signing run, for
  every key, every message and every hash function, from public values only: LowMC constants, parameter set, lengths, and the
  digests from which the challenge is derived.  The first of these digests is found in the signature (Picnic3) or is computed by
  every verifier (ZKB++).  `Sim` is not given the key, and it does not depend on the permutation of the hash function, so it
  has no way to compute the key from the rest.
* C45_keygen, C45_write, C45_read, C45_validate, C45_permutation: the observations of the other operations are the same for
  all secrets.
-/

namespace Picnic

open Spec Spec.Challenge Leak

/-- The functions with observations have the results of the functions without. -/
theorem C45_same_results (E : Env) :
    (∀ sk msg mlen buf slen, (Leak.picnicSign E sk msg mlen buf slen).out = picnicSign E sk msg mlen buf slen) ∧
    (∀ rng p pk sk, (Leak.picnicKeygen E rng p pk sk).out = picnicKeygen E rng p pk sk) ∧
    (∀ sk buf n, (Leak.picnicWritePrivateKey sk buf n).out = picnicWritePrivateKey sk buf n) ∧
    (∀ sk buf n, (Leak.picnicReadPrivateKey sk buf n).out = picnicReadPrivateKey sk buf n) ∧
    (∀ sk pk, (Leak.picnicValidateKeypair E sk pk).out = picnicValidateKeypair E sk pk) ∧
    (∀ s, (Leak.keccakPermute24 s).out = keccakPermute24 s) :=
  ⟨fun _ _ _ _ _ => out_picnicSign _ _ _ _ _ _, fun _ _ _ _ => out_picnicKeygen _ _ _ _ _, fun _ _ _ => out_picnicWritePrivateKey _ _ _,
    fun _ _ _ => out_picnicReadPrivateKey _ _ _, fun _ _ => out_picnicValidateKeypair _ _ _, fun _ => out_keccakPermute24 _⟩

/-- **C45, signing with ZKB++.** One function gives the observations of all successful runs of `picnic_sign` from public
values: the digest `d` from which the challenge is computed is the one that every verifier obtains from the signature. -/
theorem C45_sign_zkb : ∃ Sim : Public → List Ev, ∀ (E : Env) (_ : EnvWF E) (sk : PrivateKey) (_ : sk.Arrays) (_ : sk.params ∈ zkbParams)
    (P : Params) (_ : getParamSet sk.params = some P) (_ : ZeroPad P.stateSizeBits sk.data)
    (I : Picnic1.Inst) (_ : I.Is sk.params) (_ : I.f = E.perm) (_ : I.X = lowmcOf P (E.lowmc P))
    (msg : Buf) (mlen : ℕ) (_ : mlen ≤ msg.length) (_ : mlen + 200 ≤ 2 ^ 32) (buf : Buf) (slen : ℕ) (_ : slen ≤ buf.length)
    (sig : Buf) (len : ℕ) (_ : picnicSign E (some sk) msg mlen buf slen = Outcome.ok (0, sig, len)),
    ∃ d, (∀ d', I.ValidWith (sk.pk.ciphertext.take I.blk) (sk.pk.plaintext.take I.blk) (msg.take mlen) (sig.take len) d' ↔ d' = d) ∧
      (Leak.picnicSign E (some sk) msg mlen buf slen).tr =
        Sim ⟨E.lowmc, E.fuel, sk.params, sk.pk.params, mlen, msg.length, slen, buf.length,
          fun i => (fun d => I.hash ([1] ++ d) I.digest)^[i] d⟩ := by
  obtain ⟨Sim, hSim⟩ := run1_sim
  refine ⟨Sim, fun E hE sk hsk hp P hP hpad I hI hf hX msg mlen hm hm32 buf slen hbuf sig len hs => ?_⟩
  have h3 : isPicnic3 sk.params = false := (getParamSet_zkb hp).choose_spec.2
  have M := match1_of hP hI hf hX
  obtain ⟨d, ch, k, h1, h2, h4, h5⟩ := pubs_picnicSign_valid hE hP hp hI hf hX hsk hpad hm hm32 hbuf hs
  refine ⟨d, fun d' => ⟨fun h => M.validWith_unique (paramsWF_of hP) (zkbWF_of hP h3) h h1, fun h => h ▸ h1⟩, ?_⟩
  rw [M.next]
  exact hSim ⟨E, hE, sk, hsk, hp, P, hP, msg, mlen, buf, slen, d, ch, k, h2, h4, h5⟩

/-- **C45, signing with Picnic3.** One function gives the observations of all successful runs of `picnic_sign` from public
values: the digest from which the challenge is computed is at the start of the signature. -/
theorem C45_sign_picnic3 : ∃ Sim : Public → List Ev, ∀ (E : Env) (_ : EnvWF E) (_ : InvWF E) (sk : PrivateKey) (_ : sk.Arrays)
    (_ : sk.params ∈ picnic3Params) (P : Params) (_ : getParamSet sk.params = some P)
    (I : Picnic3.Inst) (_ : I.Is sk.params) (_ : I.Shake E.perm) (_ : I.X = lowmcOf P (E.lowmc P))
    (msg : Buf) (mlen : ℕ) (_ : mlen ≤ msg.length) (_ : mlen + 200 ≤ 2 ^ 32) (buf : Buf) (slen : ℕ) (_ : slen ≤ buf.length)
    (sig : Buf) (len : ℕ) (_ : picnicSign E (some sk) msg mlen buf slen = Outcome.ok (0, sig, len)),
    I.digest ≤ len ∧ len ≤ sig.length ∧ (Leak.picnicSign E (some sk) msg mlen buf slen).tr =
        Sim ⟨E.lowmc, E.fuel, sk.params, sk.pk.params, mlen, msg.length, slen, buf.length,
          fun i => (fun d => I.hash ([1] ++ d) I.digest)^[i] (sig.take I.digest)⟩ := by
  obtain ⟨Sim, hSim⟩ := run3_sim
  refine ⟨Sim, fun E hE hIv sk hsk hp P hP I hI hf hX msg mlen hm hm32 buf slen hbuf sig len hs => ?_⟩
  obtain rfl := inst3_of hP hI hf hX
  obtain ⟨h1, h2, h3⟩ := pubs_picnicSign_p3 hE hIv hP hp hsk hm hm32 hbuf hs
  rw [List.take_take, Nat.min_eq_left h1] at h3
  refine ⟨h1, by rw [List.length_take] at h2; omega, ?_⟩
  rw [nextDigest_eq]
  exact hSim ⟨E, hE, sk, hsk, P, hP, msg, mlen, buf, slen, _, h3⟩

/-! ### the other operations -/

/-- **C45, key generation.** The observations do not depend on the random bytes, only on whether the generator delivers them
and how many. -/
theorem C45_keygen (E : Env) (hE : EnvWF E) (rng rng' : Rng) (hr : ∀ i n, (rng i n).map List.length = (rng' i n).map List.length)
    (p : ℕ) (pk pk' : PublicKey) (sk sk' : PrivateKey) (hpk : pk.params = pk'.params) (hsk : sk.params = sk'.params)
    (hq : sk.pk.params = sk'.pk.params) (h : pk.Arrays) (h' : pk'.Arrays) (hs : sk.Arrays) (hs' : sk'.Arrays) :
    (Leak.picnicKeygen E rng p (some pk) (some sk)).tr = (Leak.picnicKeygen E rng' p (some pk') (some sk')).tr := by
  refine Rel.tr (rel_picnicKeygen ⟨hE.perm, hE.perm, rfl, rfl⟩ (fun i n => ?_) rfl ⟨hpk, same_buf (h.pt.trans h'.pt.symm),
    same_buf (h.ct.trans h'.ct.symm)⟩ (same_sk hsk hq hs hs')) (q_picnicKeygen.trans q_picnicKeygen.symm)
  have := hr i n
  cases h1 : rng i n <;> cases h2 : rng' i n <;> rw [h1, h2] at this <;> simp at this
  · trivial
  · exact same_buf this

/-- **C45, writing a private key.** The observations are the same for all keys of a parameter set. -/
theorem C45_write (sk sk' : PrivateKey) (h : sk.Arrays) (h' : sk'.Arrays) (hp : sk.params = sk'.params)
    (hq : sk.pk.params = sk'.pk.params) (buf buf' : Buf) (hb : buf.length = buf'.length) (n : ℕ) :
    (Leak.picnicWritePrivateKey (some sk) (some buf) n).tr = (Leak.picnicWritePrivateKey (some sk') (some buf') n).tr :=
  Rel.tr (rel_picnicWritePrivateKey (same_sk hp hq h h') (show le (some buf) (some buf') from same_buf hb) rfl)
    (q_picnicWritePrivateKey.trans q_picnicWritePrivateKey.symm)

/-- **C45, validating a key pair.** The observations depend on the result only. -/
theorem C45_validate (E : Env) (hE : EnvWF E) (sk sk' : PrivateKey) (pk pk' : PublicKey) (hs : sk.Arrays) (hs' : sk'.Arrays)
    (h : pk.Arrays) (h' : pk'.Arrays) (hp : sk.params = sk'.params) (hq : sk.pk.params = sk'.pk.params) (hr : pk.params = pk'.params)
    (r : ℤ) (h1 : picnicValidateKeypair E (some sk) (some pk) = Outcome.ok r)
    (h2 : picnicValidateKeypair E (some sk') (some pk') = Outcome.ok r) :
    (Leak.picnicValidateKeypair E (some sk) (some pk)).tr = (Leak.picnicValidateKeypair E (some sk') (some pk')).tr := by
  have hrel := rel_picnicValidateKeypair (E := E) (E' := E) ⟨hE.perm, hE.perm, rfl, rfl⟩ (same_sk hp hq hs hs')
    (show le (some pk) (some pk') from ⟨hr, same_buf (h.pt.trans h'.pt.symm), same_buf (h.ct.trans h'.ct.symm)⟩)
  have e1 := pubs_picnicValidateKeypair (E := E) (sk := some sk) (pk := some pk) _ ((out_picnicValidateKeypair _ _ _).trans h1)
  have e2 := pubs_picnicValidateKeypair (E := E) (sk := some sk') (pk := some pk') _ ((out_picnicValidateKeypair _ _ _).trans h2)
  rcases e1 with e1 | e1 <;> rcases e2 with e2 | e2
  · exact hrel.tr (by rw [e1, e2])
  · exact (hrel [.flag (decide (r = 0))] [] (by rw [e1, e2]; rfl)).1
  · exact (hrel [] [.flag (decide (r = 0))] (by rw [e1, e2]; rfl)).1
  · exact hrel.tr (by rw [e1, e2])

/-- **C45, reading a private key.** The observations are the same for all well-formed encodings of keys of a parameter set
(the first byte is the parameter set). -/
theorem C45_read (sk sk' : PrivateKey) (h : sk.Arrays) (h' : sk'.Arrays) (hp : sk.params = sk'.params)
    (hq : sk.pk.params = sk'.pk.params) (x : Byte) (buf buf' : Buf) (hb : buf.length = buf'.length) (n : ℕ) (k k' : Option PrivateKey)
    (h1 : picnicReadPrivateKey (some sk) (some (x :: buf)) n = Outcome.ok (0, k))
    (h2 : picnicReadPrivateKey (some sk') (some (x :: buf')) n = Outcome.ok (0, k')) :
    (Leak.picnicReadPrivateKey (some sk) (some (x :: buf)) n).tr = (Leak.picnicReadPrivateKey (some sk') (some (x :: buf')) n).tr := by
  refine chain_eq_of_pub (A := [.byte x, .byte x]) (f := fun i => List.replicate i (.flag true)) (fun i j => ⟨_, List.replicate_add ..⟩)
    (rel_picnicReadPrivateKey (same_sk hp hq h h') (show le (some (x :: buf)) (some (x :: buf')) from same_buf (by simp [hb])) rfl) ?_ ?_
  · exact pubs_picnicReadPrivateKey _ ((out_picnicReadPrivateKey _ _ _).trans h1) rfl
  · exact pubs_picnicReadPrivateKey _ ((out_picnicReadPrivateKey _ _ _).trans h2) rfl

/-- **C45, the permutation.** The observations are the same for all states. -/
theorem C45_permutation (a b : Buf) (ha : a.length = 200) (hb : b.length = 200) : (Leak.keccakPermute24 a).tr = (Leak.keccakPermute24 b).tr :=
  Rel.tr (rel_keccakPermute24 (same_buf (ha.trans hb.symm))) (q_keccakPermute24.trans q_keccakPermute24.symm)

/-! ### examples -/

/-- For every ZKB++ parameter set there are two different keys whose owners sign different messages of the same length
successfully, with the same observations. -/
theorem C45_example_zkb (p : ℕ) (hp : p ∈ zkbParams) (msg msg' : Buf) (hmm : msg.length = msg'.length) (hm : msg.length + 200 ≤ 2 ^ 32) :
    ∃ (sk sk' : PrivateKey) (buf buf' sig sig' : Buf) (len len' : ℕ), sk.params = p ∧ sk'.params = p ∧ sk.data ≠ sk'.data ∧ buf.length = buf'.length ∧
      picnicSign zeroEnv (some sk) msg msg.length buf buf.length = Outcome.ok (0, sig, len) ∧
      picnicSign zeroEnv (some sk') msg' msg'.length buf' buf'.length = Outcome.ok (0, sig', len') ∧
      (Leak.picnicSign zeroEnv (some sk) msg msg.length buf buf.length).tr =
        (Leak.picnicSign zeroEnv (some sk') msg' msg'.length buf' buf'.length).tr := by
  obtain ⟨sk, P, n, buf, sig, len, hE, a1, a2, a3, a4, a5, a6, a7, a8, a9, a10⟩ := zkb_example_of 0xff p hp msg hm
  obtain ⟨sk', P', n', buf', sig', len', -, b1, b2, b3, b4, b5, b6, b7, b8, b9, b10⟩ := zkb_example_of 0 p hp msg' (hmm ▸ hm)
  have hPP : P = P' := Option.some.inj (a3.symm.trans b3)
  subst hPP
  obtain ⟨Sim, hSim⟩ := C45_sign_zkb
  have hnP := blockBits_of a3
  have hI := instOf_is zeroEnv hp a3
  have hf : (instOf zeroEnv P).f = zeroEnv.perm := rfl
  have hX : (instOf zeroEnv P).X = lowmcOf P (zeroEnv.lowmc P) := rfl
  generalize instOf zeroEnv P = I at hI hf hX
  have M := match1_of a3 hI hf hX
  have hbb : buf.length = buf'.length := a9.trans b9.symm
  rw [a4] at hnP
  obtain rfl : n = P.stateSizeBits := by simpa using hnP
  rw [a4] at b4
  obtain rfl : P.stateSizeBits = n' := by simpa using b4
  obtain ⟨d, hd, ht⟩ := hSim zeroEnv hE sk a1 (a2 ▸ hp) P (a2 ▸ a3) a5 I (a2 ▸ hI) hf hX msg msg.length le_rfl hm buf buf.length le_rfl
    sig len a10
  obtain ⟨d', hd', ht'⟩ := hSim zeroEnv hE sk' b1 (b2 ▸ hp) P (b2 ▸ b3) b5 I (b2 ▸ hI) hf hX msg' msg'.length le_rfl (hmm ▸ hm) buf'
    buf'.length le_rfl sig' len' b10
  have hz : ∀ {ct pt m s d}, I.ValidWith ct pt m s d → d = zeros I.digest := by
    rintro ct pt m s d ⟨e, salt, o, a, b, -, -, -, rfl, -⟩
    rw [Picnic1.Inst.challengeDigest]
    simp only [List.append_assoc]
    rw [M.hash1 (by decide)]
    exact zeroEnv_H (rateOf_two a3)
  have h1 := hz ((hd d).2 rfl)
  have h2 := hz ((hd' d').2 rfl)
  refine ⟨sk, sk', buf, buf', sig, sig', len, len', a2, b2, fun h => ?_, hbb, a10, b10, ?_⟩
  · rw [h, b7] at a7
    exact absurd a7 (by decide)
  · rw [ht, ht', h1, h2, a2, b2, a8, b8, hmm, hbb]

/-- The observer is not blind: a table lookup at a secret position is seen. -/
theorem C45_example_lookup : (Leak.rd [5, 6, 7, 8] 2 : Leak.M ℕ).tr ≠ (Leak.rd [5, 6, 7, 8] 3).tr := by decide

/-- And so is a branch on a secret bit. -/
theorem C45_example_branch : (Leak.getBit [0x80] 0 >>= fun b => LM.ite (b = 1) (Leak.rd [1] 0) (LM.ok 0) : Leak.M ℕ).tr ≠
    (Leak.getBit [0x00] 0 >>= fun b => LM.ite (b = 1) (Leak.rd [1] 0) (LM.ok 0)).tr := by decide

/-- Two keys for the other operations: equal parameters, different secrets. -/
theorem C45_example_keys : ∃ (sk sk' : PrivateKey), sk.Arrays ∧ sk'.Arrays ∧ sk.params = sk'.params ∧ sk.pk.params = sk'.pk.params ∧
    sk.data ≠ sk'.data ∧ (Leak.picnicWritePrivateKey (some sk) (some (zeros 100)) 100).tr ≠ [] ∧
    (Leak.picnicWritePrivateKey (some sk) (some (zeros 100)) 100).out ≠ (Leak.picnicWritePrivateKey (some sk') (some (zeros 100)) 100).out ∧
    (Leak.picnicWritePrivateKey (some sk) (some (zeros 100)) 100).tr = (Leak.picnicWritePrivateKey (some sk') (some (zeros 100)) 100).tr := by
  refine ⟨⟨1, zeros 32, ⟨1, zeros 32, zeros 32⟩⟩, ⟨1, List.replicate 32 1, ⟨1, zeros 32, zeros 32⟩⟩, ⟨by decide, by decide, by decide⟩,
    ⟨by decide, by decide, by decide⟩, rfl, rfl, by decide, ?_, ?_, ?_⟩
  · decide +kernel
  · decide +kernel
  · exact C45_write _ _ ⟨by decide, by decide, by decide⟩ ⟨by decide, by decide, by decide⟩ rfl rfl _ _ rfl _

end Picnic
