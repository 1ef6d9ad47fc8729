import Verif.Proofs.CrossSet
import Verif.Props.Binding
import Verif.Props.RomForge

/-
C73: a signature belongs to one parameter set.  For messages of the same length the strings that are hashed for the challenge
in verifications with different parameter sets are different, with the exception of two pairs of sets, for which the strings
hashed for the commitments are different.  If one byte string is accepted with two parameter sets, there is thus a
coincidence between hash values of different strings.

`E` and `E'` describe the two verifications (matrices, contents of uninitialised memory, iterations granted), which may take
place on different machines.
-/

namespace Picnic

open Spec Spec.Challenge

/-- The transcript of an accepted ZKB++ signature. -/
theorem transcript_zkb {E : Env} (hE : EnvWF E) {pk : PublicKey} (hpk : pk.Arrays) (hp : pk.params ∈ zkbParams) {P : Params}
    (hP : getParamSet pk.params = some P) {I : Picnic1.Inst} (hIs : I.Is pk.params) (hf : I.f = E.perm)
    (hX : I.X = lowmcOf P (E.lowmc P)) {msg b : Buf} (hm : msg.length + 200 ≤ 2 ^ 32)
    (hacc : picnicVerify E (some pk) msg msg.length b b.length = Outcome.ok 0) :
    ∃ n ≤ b.length, bytesFor (2 * I.T) ≤ n ∧ ∃ τ, I.TranscriptOf (pk.ciphertext.take I.blk) (pk.plaintext.take I.blk) msg (b.take n) τ := by
  obtain ⟨n, hn, hv⟩ := C37_verify_sound E hE pk hpk hp P hP I hIs hf hX msg msg.length le_rfl hm b hacc
  rw [List.take_length] at hv
  obtain ⟨e, salt, o, v, w, h1, h2, h3, h4⟩ := hv
  have hl := congrArg List.length h1
  rw [Picnic1.Inst.encode, List.length_append, List.length_append, Picnic1.encodeChallenge_length, List.length_take] at hl
  exact ⟨n, hn, by omega, ⟨e, salt, o, v, w⟩, h1, h2, h3, h4⟩

/-- The transcript of an accepted Picnic3 signature. -/
theorem transcript_p3 {E : Env} (hE : EnvWF E) (hI : InvWF E) {pk : PublicKey} (hpk : pk.Arrays) (hp : pk.params ∈ picnic3Params) {P : Params}
    (hP : getParamSet pk.params = some P) {I : Picnic3.Inst} (hIs : I.Is pk.params) (hf : I.Shake E.perm)
    (hX : I.X = lowmcOf P (E.lowmc P)) {msg b : Buf} (hm : msg.length + 200 ≤ 2 ^ 32)
    (hacc : picnicVerify E (some pk) msg msg.length b b.length = Outcome.ok 0) :
    ∃ salt τ, I.TranscriptOf (pk.ciphertext.take I.blk) (pk.plaintext.take I.blk) msg b salt τ := by
  have := C38_verify_sound E hE hI pk hpk hp P hP I hIs hf hX msg msg.length le_rfl hm b hacc
  rw [List.take_length] at this
  obtain ⟨salt, s, h, v, C, Q, h1, h2, h3, h4⟩ := this
  exact ⟨salt, ⟨s, h, v, C, Q⟩, h1, h2, h3, h4⟩

theorem blk_le1 {I : Picnic1.Inst} {p : ℕ} (h : I.Is p) : I.blk ≤ 32 := by
  unfold Picnic1.Inst.Is Picnic1.table at h
  unfold Picnic1.Inst.blk bytesFor
  split at h <;> simp only [Option.some.injEq, Prod.mk.injEq, reduceCtorEq] at h <;> omega

theorem blk_le3 {I : Picnic3.Inst} {p : ℕ} (h : I.Is p) : I.blk ≤ 32 := by
  unfold Picnic3.Inst.Is Picnic3.table at h
  unfold Picnic3.Inst.blk bytesFor
  split at h <;> simp only [Option.some.injEq, Prod.mk.injEq, reduceCtorEq] at h <;> omega

/-- **C73**, ZKB++: if `picnic_verify` accepts, with different parameter sets and for messages of the same length (for instance
the same message), two byte strings that start with the same challenge (for instance the same string), then the transcripts
contain a coincidence: the challenges for two different strings are the same, or the commitments for two different strings. -/
theorem C73_zkb (E E' : Env) (hE : EnvWF E) (hE' : EnvWF E') (pk pk' : PublicKey) (hpk : pk.Arrays) (hpk' : pk'.Arrays)
    (hp : pk.params ∈ zkbParams) (hp' : pk'.params ∈ zkbParams) (hne : pk.params ≠ pk'.params) (P P' : Params)
    (hP : getParamSet pk.params = some P) (hP' : getParamSet pk'.params = some P') (I I' : Picnic1.Inst) (hIs : I.Is pk.params)
    (hIs' : I'.Is pk'.params) (hperm : E.perm = E'.perm) (hf : I.f = E.perm) (hf' : I'.f = E'.perm) (hX : I.X = lowmcOf P (E.lowmc P))
    (hX' : I'.X = lowmcOf P' (E'.lowmc P')) (msg msg' b b' : Buf) (hm : msg.length + 200 ≤ 2 ^ 32) (hmm : msg.length = msg'.length)
    (hacc : picnicVerify E (some pk) msg msg.length b b.length = Outcome.ok 0)
    (hacc' : picnicVerify E' (some pk') msg' msg'.length b' b'.length = Outcome.ok 0)
    (hd : ∀ k, k ≤ bytesFor (2 * I.T) → k ≤ bytesFor (2 * I'.T) → b.take k = b'.take k) :
    ∃ n ≤ b.length, ∃ n' ≤ b'.length, ∃ τ τ',
      I.TranscriptOf (pk.ciphertext.take I.blk) (pk.plaintext.take I.blk) msg (b.take n) τ ∧
      I'.TranscriptOf (pk'.ciphertext.take I'.blk) (pk'.plaintext.take I'.blk) msg' (b'.take n') τ' ∧
      Picnic1.CrossClash I I' (pk.ciphertext.take I.blk) (pk.plaintext.take I.blk) msg τ (pk'.ciphertext.take I'.blk)
        (pk'.plaintext.take I'.blk) msg' τ' := by
  obtain ⟨n, hn, hn1, τ, hτ⟩ := transcript_zkb hE hpk hp hP hIs hf hX hm hacc
  obtain ⟨n', hn', hn1', τ', hτ'⟩ := transcript_zkb hE' hpk' hp' hP' hIs' hf' hX' (hmm ▸ hm) hacc'
  have b1 := blk_le1 hIs
  have b2 := blk_le1 hIs'
  refine ⟨n, hn, n', hn', τ, τ', hτ, hτ', Picnic1.cross_clash hIs hIs' hne (by rw [hf, hf', hperm])
    (by rw [List.length_take, hpk.ct]; omega) (by rw [List.length_take, hpk.pt]; omega) (by rw [List.length_take, hpk'.ct]; omega)
    (by rw [List.length_take, hpk'.pt]; omega) hmm hτ hτ' fun k h1 h2 => ?_⟩
  rw [List.take_take, List.take_take, min_eq_left (by omega), min_eq_left (by omega)]
  exact hd k h1 h2

/-- **C73**, Picnic3: two signatures accepted with different parameter sets, for messages of the same length, start with digests of different
strings.  (If the byte strings are the same, the shorter digest is the beginning of the longer one.) -/
theorem C73_p3 (E E' : Env) (hE : EnvWF E) (hE' : EnvWF E') (hI : InvWF E) (hI' : InvWF E') (pk pk' : PublicKey) (hpk : pk.Arrays)
    (hpk' : pk'.Arrays) (hp : pk.params ∈ picnic3Params) (hp' : pk'.params ∈ picnic3Params) (hne : pk.params ≠ pk'.params) (P P' : Params)
    (hP : getParamSet pk.params = some P) (hP' : getParamSet pk'.params = some P') (I I' : Picnic3.Inst) (hIs : I.Is pk.params)
    (hIs' : I'.Is pk'.params) (hf : I.Shake E.perm) (hf' : I'.Shake E'.perm) (hX : I.X = lowmcOf P (E.lowmc P))
    (hX' : I'.X = lowmcOf P' (E'.lowmc P')) (msg msg' b b' : Buf) (hm : msg.length + 200 ≤ 2 ^ 32) (hmm : msg.length = msg'.length)
    (hacc : picnicVerify E (some pk) msg msg.length b b.length = Outcome.ok 0)
    (hacc' : picnicVerify E' (some pk') msg' msg'.length b' b'.length = Outcome.ok 0) :
    ∃ salt salt' τ τ',
      I.TranscriptOf (pk.ciphertext.take I.blk) (pk.plaintext.take I.blk) msg b salt τ ∧
      I'.TranscriptOf (pk'.ciphertext.take I'.blk) (pk'.plaintext.take I'.blk) msg' b' salt' τ' ∧
      (let x := I.challengeString (pk.ciphertext.take I.blk) (pk.plaintext.take I.blk) msg salt τ
       let x' := I'.challengeString (pk'.ciphertext.take I'.blk) (pk'.plaintext.take I'.blk) msg' salt' τ'
       x ≠ x' ∧ b.take I.digest = I.hash x I.digest ∧ b'.take I'.digest = I'.hash x' I'.digest) := by
  obtain ⟨salt, τ, hτ⟩ := transcript_p3 hE hI hpk hp hP hIs hf hX hm hacc
  obtain ⟨salt', τ', hτ'⟩ := transcript_p3 hE' hI' hpk' hp' hP' hIs' hf' hX' (hmm ▸ hm) hacc'
  have b1 := blk_le3 hIs
  have b2 := blk_le3 hIs'
  refine ⟨salt, salt', τ, τ', hτ, hτ', fun hx => ?_, Picnic3.take_digest hτ, Picnic3.take_digest hτ'⟩
  have hl := congrArg List.length hx
  rw [Picnic3.challengeString_length hIs (by rw [List.length_take, hpk.ct]; omega) (by rw [List.length_take, hpk.pt]; omega) hτ,
    Picnic3.challengeString_length hIs' (by rw [List.length_take, hpk'.ct]; omega) (by rw [List.length_take, hpk'.pt]; omega) hτ'] at hl
  exact Picnic3.overhead_ne _ (Picnic3.is_mem hIs) _ (Picnic3.is_mem hIs') hne (by omega)

/-- **C73**, ZKB++ and Picnic3: the two strings that are hashed are different; and if the ZKB++ signature starts with the digest of the
Picnic3 signature, then this digest is, in groups of two bits, the beginning of the ZKB++ challenge (for the numbers of the parameter sets: of its
128, 192 or 256 first values), so that no group is 3. -/
theorem C73_mixed (E E' : Env) (hE : EnvWF E) (hE' : EnvWF E') (hI' : InvWF E') (pk pk' : PublicKey) (hpk : pk.Arrays)
    (hpk' : pk'.Arrays) (hp : pk.params ∈ zkbParams) (hp' : pk'.params ∈ picnic3Params) (P P' : Params)
    (hP : getParamSet pk.params = some P) (hP' : getParamSet pk'.params = some P') (I : Picnic1.Inst) (I' : Picnic3.Inst) (hIs : I.Is pk.params)
    (hIs' : I'.Is pk'.params) (hf : I.f = E.perm) (hf' : I'.Shake E'.perm) (hX : I.X = lowmcOf P (E.lowmc P))
    (hX' : I'.X = lowmcOf P' (E'.lowmc P')) (msg msg' b b' : Buf) (hm : msg.length + 200 ≤ 2 ^ 32) (hmm : msg.length = msg'.length)
    (hacc : picnicVerify E (some pk) msg msg.length b b.length = Outcome.ok 0)
    (hacc' : picnicVerify E' (some pk') msg' msg'.length b' b'.length = Outcome.ok 0) :
    ∃ n ≤ b.length, ∃ τ salt' τ',
      I.TranscriptOf (pk.ciphertext.take I.blk) (pk.plaintext.take I.blk) msg (b.take n) τ ∧
      I'.TranscriptOf (pk'.ciphertext.take I'.blk) (pk'.plaintext.take I'.blk) msg' b' salt' τ' ∧
      (let x := I.challengeString (pk.ciphertext.take I.blk) (pk.plaintext.take I.blk) msg τ
       let x' := I'.challengeString (pk'.ciphertext.take I'.blk) (pk'.plaintext.take I'.blk) msg' salt' τ'
       x ≠ x' ∧ I.Challenge (I.hash x I.digest) τ.e ∧ b'.take I'.digest = I'.hash x' I'.digest ∧
       (b.take I'.digest = b'.take I'.digest → ∀ i < 4 * I'.digest, i < I.T →
         value (I'.hash x' I'.digest) i = τ.e.getD i 0 ∧ τ.e.getD i 0 < 3)) := by
  obtain ⟨n, hn, hn1, τ, hτ⟩ := transcript_zkb hE hpk hp hP hIs hf hX hm hacc
  obtain ⟨salt', τ', hτ'⟩ := transcript_p3 hE' hI' hpk' hp' hP' hIs' hf' hX' (hmm ▸ hm) hacc'
  have b1 := blk_le1 hIs
  have b2 := blk_le3 hIs'
  refine ⟨n, hn, τ, salt', τ', hτ, hτ', fun hx => ?_, hτ.2.2.2, Picnic3.take_digest hτ', fun hd i hi hiT => ?_⟩
  · have hl := congrArg List.length hx
    rw [Picnic1.challengeString_length hIs (by rw [List.length_take, hpk.ct]; omega) (by rw [List.length_take, hpk.pt]; omega) hτ,
      Picnic3.challengeString_length hIs' (by rw [List.length_take, hpk'.ct]; omega) (by rw [List.length_take, hpk'.pt]; omega) hτ'] at hl
    exact Picnic3.overhead_mixed _ (Picnic1.is_mem hIs) _ (Picnic3.is_mem hIs') (by omega)
  · refine ⟨?_, Picnic1.getD_lt hτ.2.2.2.facts.2 i⟩
    rw [← Picnic3.take_digest hτ', ← hd, ← chal_eq_value, Picnic1.chal_take (by omega)]
    have := Picnic1.values_of hτ (k := n) hiT (by unfold bytesFor at hn1; omega)
    rw [Picnic1.chal_take (by unfold bytesFor at hn1; omega), Picnic1.chal_take (by unfold bytesFor at hn1; omega)] at this
    exact this

/-! ### concrete cases -/

theorem encodeChallenge_zero (I : Picnic1.Inst) (e : List ℕ) (h : ∀ v ∈ e, v = 0) : I.encodeChallenge e = List.replicate (bytesFor (2 * I.T)) 0 := by
  have hz : ∀ t, e.getD t 0 = 0 := fun t => by
    by_cases hl : t < e.length
    · rw [List.getD_eq_getElem _ _ hl]
      exact h _ (List.getElem_mem hl)
    · exact List.getD_eq_default _ _ (by omega)
  unfold Picnic1.Inst.encodeChallenge Picnic1.ofBits
  simp only [hz]
  simp

/-- In the environment whose permutation is zero, all challenges are zero. -/
theorem zeroEnv_challenge {p : ℕ} {P : Params} (hP : getParamSet p = some P) (x : Buf) (e : List ℕ)
    (h : (instOf zeroEnv P).Challenge ((instOf zeroEnv P).hash x (instOf zeroEnv P).digest) e) : ∀ v ∈ e, v = 0 := by
  have hz : ∀ x : Buf, (instOf zeroEnv P).hash x (instOf zeroEnv P).digest = zeros P.digestSizeBytes := fun x =>
    zeroEnv_H (P := P) (p := 0xff) (m := x) (rateOf_two hP)
  have hs : ∀ n d, d = zeros P.digestSizeBytes → ∀ v ∈ stream (fun d => (instOf zeroEnv P).hash ([1] ++ d) (instOf zeroEnv P).digest) d n, v = 0 := by
    intro n
    induction n with
    | zero => intro d _ v hv; simp [stream] at hv
    | succ n ih =>
      rintro d rfl v hv
      rw [stream, List.mem_append] at hv
      rcases hv with hv | hv
      · unfold trits at hv
        rw [List.mem_filter, List.mem_flatMap] at hv
        obtain ⟨⟨c, hc, hv⟩, -⟩ := hv
        obtain rfl := List.eq_of_mem_replicate hc
        revert hv v
        decide
      · exact ih _ (hz _) v hv
  obtain ⟨n, -, rfl⟩ := h
  exact fun v hv => hs n _ (hz _) v (List.mem_of_mem_take hv)

/-- A concrete case for C73_zkb: for any two parameter sets there are accepted signatures that start with the same challenge (the permutation of the
environment is zero). -/
theorem C73_zkb_example (p p' : ℕ) (hp : p ∈ zkbParams) (hp' : p' ∈ zkbParams) (msg : Buf) (hm : msg.length + 200 ≤ 2 ^ 32) :
    ∃ (pk pk' : PublicKey) (P P' : Params) (b b' : Buf), pk.Arrays ∧ pk'.Arrays ∧ pk.params = p ∧ pk'.params = p' ∧
      getParamSet p = some P ∧ getParamSet p' = some P' ∧ (instOf zeroEnv P).Is p ∧ (instOf zeroEnv P').Is p' ∧
      picnicVerify zeroEnv (some pk) msg msg.length b b.length = Outcome.ok 0 ∧
      picnicVerify zeroEnv (some pk') msg msg.length b' b'.length = Outcome.ok 0 ∧
      ∀ k, k ≤ bytesFor (2 * (instOf zeroEnv P).T) → k ≤ bytesFor (2 * (instOf zeroEnv P').T) → b.take k = b'.take k := by
  obtain ⟨pk, b, hpk, rfl, -, h1, -, -⟩ := zkb_verify_example p hp msg hm
  obtain ⟨pk', b', hpk', rfl, -, h1', -, -⟩ := zkb_verify_example p' hp' msg hm
  obtain ⟨P, hP, -⟩ := getParamSet_zkb hp
  obtain ⟨P', hP', -⟩ := getParamSet_zkb hp'
  have key : ∀ (pk : PublicKey) (b : Buf) (P : Params), pk.Arrays → pk.params ∈ zkbParams → getParamSet pk.params = some P →
      picnicVerify zeroEnv (some pk) msg msg.length b b.length = Outcome.ok 0 → ∀ k, k ≤ bytesFor (2 * (instOf zeroEnv P).T) →
      b.take k = List.replicate k 0 := by
    intro pk b P hpk hp hP hacc k hk
    obtain ⟨n, hn, hn1, τ, hτ⟩ := transcript_zkb zeroEnv_wf hpk hp hP (instOf_is zeroEnv hp hP) rfl rfl hm hacc
    have he := encodeChallenge_zero (instOf zeroEnv P) τ.e (zeroEnv_challenge hP _ _ hτ.2.2.2)
    have : b.take k = (b.take n).take k := by rw [List.take_take, min_eq_left (by omega)]
    rw [this, hτ.1, Picnic1.Inst.encode, he, List.append_assoc, List.take_append_of_le_length (by simpa using hk), List.take_replicate,
      min_eq_left hk]
  refine ⟨pk, pk', P, P', b, b', hpk, hpk', rfl, rfl, hP, hP', instOf_is zeroEnv hp hP, instOf_is zeroEnv hp' hP', h1, h1', fun k a1 a2 => ?_⟩
  rw [key pk b P hpk hp hP h1 k a1, key pk' b' P' hpk' hp' hP' h1' k a2]

/-- A concrete case for C73_p3: accepted signatures for any two parameter sets, with one permutation. -/
theorem C73_p3_example (p p' : ℕ) (hp : p ∈ picnic3Params) (hp' : p' ∈ picnic3Params) (msg : Buf) (hm : msg.length + 200 ≤ 2 ^ 32) :
    ∃ (E E' : Env) (pk pk' : PublicKey) (P P' : Params) (b b' : Buf), EnvWF E ∧ EnvWF E' ∧ InvWF E ∧ InvWF E' ∧ E.perm = E'.perm ∧
      pk.Arrays ∧ pk'.Arrays ∧ pk.params = p ∧ pk'.params = p' ∧ getParamSet p = some P ∧ getParamSet p' = some P' ∧
      (inst3 E P).Is p ∧ (inst3 E' P').Is p' ∧ (inst3 E P).Shake E.perm ∧ (inst3 E' P').Shake E'.perm ∧
      picnicVerify E (some pk) msg msg.length b b.length = Outcome.ok 0 ∧
      picnicVerify E' (some pk') msg msg.length b' b'.length = Outcome.ok 0 := by
  obtain ⟨E, sk, P, buf, sig, len, S, ⟨N, -, hN⟩, h1, h2, h3, rfl, h5, -, -, -, -, -, -, h12, -⟩ := p3_example_alt p hp msg hm
  obtain ⟨E', sk', P', buf', sig', len', S', ⟨N', -, hN'⟩, g1, g2, g3, rfl, g5, -, -, -, -, -, -, g12, -⟩ := p3_example_alt p' hp' msg hm
  exact ⟨E, E', { sk.pk with params := sk.params }, { sk'.pk with params := sk'.params }, P, P', _, _, h1, g1, h2, g2, by rw [hN, hN'],
    ⟨h3.pk.pt, h3.pk.ct⟩, ⟨g3.pk.pt, g3.pk.ct⟩, rfl, rfl, h5, g5, inst3_is E hp h5, inst3_is E' hp' g5, fun _ _ => rfl, fun _ _ => rfl, h12, g12⟩

/-- A concrete case for C73_mixed: accepted signatures for any two parameter sets. -/
theorem C73_mixed_example (p p' : ℕ) (hp : p ∈ zkbParams) (hp' : p' ∈ picnic3Params) (msg : Buf) (hm : msg.length + 200 ≤ 2 ^ 32) :
    ∃ (E E' : Env) (pk pk' : PublicKey) (P P' : Params) (b b' : Buf), EnvWF E ∧ EnvWF E' ∧ InvWF E' ∧
      pk.Arrays ∧ pk'.Arrays ∧ pk.params = p ∧ pk'.params = p' ∧ getParamSet p = some P ∧ getParamSet p' = some P' ∧
      (instOf E P).Is p ∧ (inst3 E' P').Is p' ∧ (inst3 E' P').Shake E'.perm ∧
      picnicVerify E (some pk) msg msg.length b b.length = Outcome.ok 0 ∧
      picnicVerify E' (some pk') msg msg.length b' b'.length = Outcome.ok 0 := by
  obtain ⟨pk, b, hpk, rfl, -, h1, -, -⟩ := zkb_verify_example p hp msg hm
  obtain ⟨P, hP, -⟩ := getParamSet_zkb hp
  obtain ⟨E', sk', P', buf', sig', len', S', -, g1, g2, g3, rfl, g5, -, -, -, -, -, -, g12, -⟩ := p3_example_alt p' hp' msg hm
  exact ⟨zeroEnv, E', pk, { sk'.pk with params := sk'.params }, P, P', b, _, zeroEnv_wf, g1, g2, hpk, ⟨g3.pk.pt, g3.pk.ct⟩, rfl, rfl, hP, g5,
    instOf_is zeroEnv hp hP, inst3_is E' hp' g5, fun _ _ => rfl, h1, g12⟩

end Picnic
