import Verif.Proofs.Conf3Ver
import Verif.Props.P3Example

/-
C38: with the Picnic3 parameter sets the library computes exactly the signatures of the Picnic specification and accepts
exactly the valid ones (Verif/Spec/Picnic3.lean).
-/

namespace Picnic

open Spec Spec.Challenge Spec.Tree Finset

/-- C38, signing: whatever `picnic_sign` returns as a signature is the signature of the specification, byte for byte, written
to the start of the buffer; the rest of the buffer is unchanged. -/
theorem C38_sign (E : Env) (hE : EnvWF E) (hI : InvWF E) (sk : PrivateKey) (hsk : sk.Arrays) (hp : sk.params ∈ picnic3Params) (P : Params)
    (hP : getParamSet sk.params = some P) (I : Picnic3.Inst) (hIs : I.Is sk.params) (hf : I.Shake E.perm)
    (hX : I.X = lowmcOf P (E.lowmc P)) (msg : Buf) (mlen : ℕ) (hm : mlen ≤ msg.length) (hm32 : mlen + 200 ≤ 2 ^ 32)
    (buf : Buf) (slen : ℕ) (hbuf : slen ≤ buf.length) (sig : Buf) (len : ℕ)
    (hs : picnicSign E (some sk) msg mlen buf slen = Outcome.ok (0, sig, len)) :
    ∃ s, I.IsSignature (sk.data.take I.blk) (sk.pk.ciphertext.take I.blk) (sk.pk.plaintext.take I.blk) (msg.take mlen) s ∧
      sig = s ++ buf.drop s.length ∧ len = s.length := by
  obtain ⟨P', hP', hi3⟩ := getParamSet_p3 hp
  have hWF := paramsWF_of hP
  have h3 := p3WF_of hP hi3
  have hInv := hI.inv _ hp _ hP
  have hT1 := h3.Tpos
  have hT2 := h3.T
  have hlg := ceilLog2_le (by omega : 1 ≤ P.numMPCRounds) (by omega)
  have hp1 : 1 ≤ 2 ^ ceilLog2 P.numMPCRounds := Nat.one_le_two_pow
  obtain rfl := inst3_of hP hIs hf hX
  obtain ⟨salt, hsalt⟩ : ∃ x, x = sSalt E P sk.data sk.pk.ciphertext sk.pk.plaintext (msg.take mlen) := ⟨_, rfl⟩
  obtain ⟨root, hroot⟩ : ∃ x, x = sRoot E P sk.data sk.pk.ciphertext sk.pk.plaintext (msg.take mlen) := ⟨_, rfl⟩
  obtain ⟨-, C, Q, hx, hc, hlen, -, hsig, hsl⟩ := picnicSign_p3_zero hE hI hP hp hsk hm hm32 hbuf hsalt hroot hs
  refine ⟨_, ?_, by rw [hsl]; exact hsig, hsl.symm⟩
  have hrl : root.length = P.seedSizeBytes := by rw [hroot]; exact sRoot_length
  obtain ⟨v, hv⟩ : ∃ v : ℕ → Picnic3.Round, ∀ t, v t = ⟨fun x => sNode E P salt root t (x - 1), auxOf E P (sTape E P salt root t),
      (sMk E P salt root sk.data t).take P.stateSizeBytes, sMsgs E P salt root sk.data sk.pk.plaintext t, sCom E P salt root t⟩ := ⟨_, fun _ => rfl⟩
  have hrnd := fun t => sRound_spec (E := E) (salt := salt) (root := root) (key := sk.data) (pt := sk.pk.plaintext) hWF h3 hInv t (hv t)
  have hmk := merkle_mk (E := E) (P := P) (salt := salt) (input := []) (rv := []) (l := []) (S := fun _ => True) (v := v)
    (ld := fun t => some ((inst3 E P).msgDigest (v t))) (inst3_depth h3).symm hlg (by simp) (fun t _ _ => rfl) (fun r => top_nil r)
  generalize (fun x => if x = 0 then zeros P.digestSizeBytes else _) = h at hmk
  have heq := signed_eq (E := E) (P := P) (salt := salt) (root := root) (key := sk.data) (pk := sk.pk.ciphertext) (pt := sk.pk.plaintext) (msg := msg.take mlen)
    (s := fun x => sTree E P salt root (x - 1)) h3 hrl (fun _ _ => rfl) (v := v) (fun t _ => by rw [hv t]; exact ⟨fun _ _ => rfl, rfl, rfl, fun _ _ => rfl, fun _ _ => rfl⟩) hmk
  have hsec : (inst3 E P).secrets (sk.data.take P.stateSizeBytes) (sk.pk.ciphertext.take P.stateSizeBytes) (sk.pk.plaintext.take P.stateSizeBytes)
      (msg.take mlen) = sSaltRoot E P sk.data sk.pk.ciphertext sk.pk.plaintext (msg.take mlen) := secrets_eq hWF h3
  have e1 : (sSaltRoot E P sk.data sk.pk.ciphertext sk.pk.plaintext (msg.take mlen)).take 32 = salt := by rw [hsalt, sSalt, h3.salt]
  have e2 : (sSaltRoot E P sk.data sk.pk.ciphertext sk.pk.plaintext (msg.take mlen)).drop 32 = root := by rw [hroot, sRoot, h3.salt]
  rw [inst3_blk hWF]
  refine ⟨fun x => sTree E P salt root (x - 1), h, v, fun t => kap P (E.lowmc P) (sTape E P salt root t), C, Q, ?_⟩
  rw [hsec, e1, e2]
  refine ⟨?_, fun t _ => ?_, hmk, ?_, ?_⟩
  · rw [inst3_depth h3]
    exact seedTree_mk (by change 1 ≤ P.numMPCRounds; omega) hlg
  · have := hrnd t
    refine ⟨?_, this.2⟩
    have e : sTree E P salt root (2 ^ (inst3 E P).depth + t - 1) = sLeaf E P salt root t := by
      rw [inst3_depth h3, sLeaf, show 2 ^ ceilLog2 P.numMPCRounds + t - 1 = 2 ^ ceilLog2 P.numMPCRounds - 1 + t by omega]
    beta_reduce
    rw [e]
    exact this.1
  · rw [heq.1]
    exact (challenge3_iff h3).2 (expandR_spec h3 hx)
  · rw [heq.1, heq.2 C Q hc]

/-- C38, signing, converse: for a valid key pair and a large enough buffer `picnic_sign` returns the signature of the
specification, provided that the sampling of the challenge may hash often enough (`n` times). -/
theorem C38_sign_complete (E : Env) (hE : EnvWF E) (hI : InvWF E) (sk : PrivateKey) (hsk : sk.Arrays) (hp : sk.params ∈ picnic3Params)
    (P : Params) (hP : getParamSet sk.params = some P) (hR : Relation P (E.lowmc P) sk.data sk.pk.plaintext sk.pk.ciphertext)
    (I : Picnic3.Inst) (hIs : I.Is sk.params) (hf : I.Shake E.perm)
    (hX : I.X = lowmcOf P (E.lowmc P)) (msg : Buf) (mlen : ℕ) (hm : mlen ≤ msg.length) (hm32 : mlen + 200 ≤ 2 ^ 32)
    (s : Buf)
    (hs : I.IsSignature (sk.data.take I.blk) (sk.pk.ciphertext.take I.blk) (sk.pk.plaintext.take I.blk) (msg.take mlen) s) :
    ∃ n, ∀ fuel ≥ n, ∀ (junk : ℕ → ℕ → ℕ → Byte) (buf : Buf) (slen : ℕ), slen ≤ buf.length →
      picnicSignatureSize sk.params ≤ slen →
      picnicSign { E with junk := junk, fuel := fuel } (some sk) msg mlen buf slen =
        Outcome.ok (0, s ++ buf.drop s.length, s.length) := by
  classical
  obtain ⟨P', hP', hi3⟩ := getParamSet_p3 hp
  have hWF := paramsWF_of hP
  have h3 := p3WF_of hP hi3
  have hInv := hI.inv _ hp _ hP
  have hT1 := h3.Tpos
  have hT2 := h3.T
  have hlg := ceilLog2_le (by omega : 1 ≤ P.numMPCRounds) (by omega)
  have hp1 : 1 ≤ 2 ^ ceilLog2 P.numMPCRounds := Nat.one_le_two_pow
  obtain rfl := inst3_of hP hIs hf hX
  obtain ⟨salt, hsalt⟩ : ∃ x, x = sSalt E P sk.data sk.pk.ciphertext sk.pk.plaintext (msg.take mlen) := ⟨_, rfl⟩
  obtain ⟨root, hroot⟩ : ∃ x, x = sRoot E P sk.data sk.pk.ciphertext sk.pk.plaintext (msg.take mlen) := ⟨_, rfl⟩
  have hrl : root.length = P.seedSizeBytes := by rw [hroot]; exact sRoot_length
  have hsl : salt.length = P.saltSizeBytes := by rw [hsalt]; exact sSalt_length
  have hsec : (inst3 E P).secrets (sk.data.take P.stateSizeBytes) (sk.pk.ciphertext.take P.stateSizeBytes) (sk.pk.plaintext.take P.stateSizeBytes)
      (msg.take mlen) = sSaltRoot E P sk.data sk.pk.ciphertext sk.pk.plaintext (msg.take mlen) := secrets_eq hWF h3
  have e1 : (sSaltRoot E P sk.data sk.pk.ciphertext sk.pk.plaintext (msg.take mlen)).take 32 = salt := by rw [hsalt, sSalt, h3.salt]
  have e2 : (sSaltRoot E P sk.data sk.pk.ciphertext sk.pk.plaintext (msg.take mlen)).drop 32 = root := by rw [hroot, sRoot, h3.salt]
  rw [inst3_blk hWF] at hs
  obtain ⟨st, h, v, κ, C, Q, hs⟩ := hs
  rw [hsec, e1, e2] at hs
  obtain ⟨hS, hv, hM, hch, hsig⟩ := hs
  rw [inst3_depth h3] at hS hv
  have hst := seedTree_val (n := P.numMPCRounds) hlg hS
  have hrnd : ∀ t < P.numMPCRounds, SRound E P salt root sk.data sk.pk.plaintext t (v t) := fun t ht => by
    obtain ⟨v1, v2, v3, v4⟩ := hv t ht
    have e : st (2 ^ ceilLog2 P.numMPCRounds + t) = sLeaf E P salt root t := by
      rw [hst _ (up_self ⟨by omega, by omega⟩), show 2 ^ ceilLog2 P.numMPCRounds + t - 1 = 2 ^ ceilLog2 P.numMPCRounds - 1 + t by omega]; rfl
    rw [e] at v1
    exact sRound_iff hWF h3 hInv ⟨v1, ⟨κ t, v2, v3⟩, v4⟩
  have heq := signed_eq (E := E) (P := P) (salt := salt) (root := root) (key := sk.data) (pk := sk.pk.ciphertext) (pt := sk.pk.plaintext) (msg := msg.take mlen)
    h3 hrl hst hrnd hM
  rw [heq.1] at hch hsig
  have hch := (challenge3_iff h3).1 hch
  have hc := isChallenge3_wf hch
  rw [heq.2 C Q hc] at hsig
  obtain ⟨n, hn⟩ := expandR_some_of h3 hch
  refine ⟨n, fun fuel hfuel junk buf slen hbuf hsize => ?_⟩
  rw [picnicSign_p3 (E := { E with junk := junk, fuel := fuel }) ⟨hE.perm, hE.lowmc⟩ ⟨hI.len, hI.inv⟩ hP hp hsk hm hm32 hbuf
    (salt := salt) (root := root) hsalt hroot, if_pos (show Relation P ((({ E with junk := junk, fuel := fuel } : Env)).lowmc P) _ _ _ from hR),
    sHash_env, sSig_env, expandR_env]
  change (match expandR E P fuel _ with | none => _ | some (C, Q) => _) = _
  rw [hn fuel hfuel]
  have hle := sig2Len_le hp hP hc
  have hl : s.length = sig2Len P C Q := by
    rw [hsig]
    exact pre2_length (sSig_wf h3 hc hsl hrl) _
  dsimp only
  rw [if_neg (by omega), ← hsig, hl]

/-- C38, verification: what `picnic_verify` accepts is a valid signature of the specification. -/
theorem C38_verify_sound (E : Env) (hE : EnvWF E) (hI : InvWF E) (pk : PublicKey) (hpk : pk.Arrays) (hp : pk.params ∈ picnic3Params) (P : Params)
    (hP : getParamSet pk.params = some P) (I : Picnic3.Inst) (hIs : I.Is pk.params) (hf : I.Shake E.perm)
    (hX : I.X = lowmcOf P (E.lowmc P)) (msg : Buf) (mlen : ℕ) (hm : mlen ≤ msg.length) (hm32 : mlen + 200 ≤ 2 ^ 32)
    (b : Buf) (hv : picnicVerify E (some pk) msg mlen b b.length = Outcome.ok 0) :
    I.IsValid (pk.ciphertext.take I.blk) (pk.plaintext.take I.blk) (msg.take mlen) b := by
  obtain ⟨P', hP', hi3⟩ := getParamSet_p3 hp
  have hWF := paramsWF_of hP
  have h3 := p3WF_of hP hi3
  obtain rfl := inst3_of hP hIs hf hX
  obtain ⟨C, Q, h0, hx, hn, hpad, hout, hh⟩ := picnicVerify_p3_zero hE hI hP hp hpk hm hm32 le_rfl hv
  have hc := expandR_wf h3 hx
  have hwf : Sig2WF P (decSig2 P b C Q) := decSig2_wf hc hn.ge
  have hb : sig2Bytes P (decSig2 P b C Q) = b := by
    rw [sig2Bytes, enc_dec2 hc, show off2 P C Q P.numMPCRounds = b.length from hn.symm, List.take_length]
  have := valid_of (E := E) (ct := pk.ciphertext) (pt := pk.plaintext) (msg := msg.take mlen) hWF h3 (hI.inv _ hp _ hP) hwf
    (fun t ht => by rw [(decSig2_proof hc ht).2]; exact hpad t (hc.ltC t ht) ht) hout hh (expandR_spec h3 hx)
  rwa [hb, ← inst3_blk (E := E) hWF] at this

/-- C38, verification, converse: `picnic_verify` accepts every valid signature of the specification, provided that the sampling
of the challenge may hash often enough (`n` times). -/
theorem C38_verify_complete (E : Env) (hE : EnvWF E) (hI : InvWF E) (pk : PublicKey) (hpk : pk.Arrays) (hp : pk.params ∈ picnic3Params)
    (P : Params) (hP : getParamSet pk.params = some P) (I : Picnic3.Inst) (hIs : I.Is pk.params) (hf : I.Shake E.perm)
    (hX : I.X = lowmcOf P (E.lowmc P)) (msg : Buf) (mlen : ℕ) (hm : mlen ≤ msg.length) (hm32 : mlen + 200 ≤ 2 ^ 32)
    (b : Buf) (hs : I.IsValid (pk.ciphertext.take I.blk) (pk.plaintext.take I.blk) (msg.take mlen) b) :
    ∃ n, ∀ fuel ≥ n, ∀ junk : ℕ → ℕ → ℕ → Byte,
      picnicVerify { E with junk := junk, fuel := fuel } (some pk) msg mlen b b.length = Outcome.ok 0 := by
  classical
  obtain ⟨P', hP', hi3⟩ := getParamSet_p3 hp
  have hWF := paramsWF_of hP
  have h3 := p3WF_of hP hi3
  obtain rfl := inst3_of hP hIs hf hX
  rw [inst3_blk hWF] at hs
  obtain ⟨sg, hwf, hno, h15, hpad, hout, hh, hch, rfl⟩ := valid_to hWF h3 (hI.inv _ hp _ hP) hs
  have hc := hwf.chal
  have hdec := dec_enc2 (r := []) hwf hno h15
  rw [List.append_nil] at hdec
  have hl : (sig2Bytes P sg).length = sig2Len P sg.challengeC sg.challengeP := pre2_length hwf _
  have h0 : P.digestSizeBytes + P.saltSizeBytes ≤ (sig2Bytes P sg).length := by
    rw [hl, sig2Len, off2]; omega
  have hd : (sig2Bytes P sg).take P.digestSizeBytes = sg.challengeHash := by
    conv_rhs => rw [← hdec]
    rfl
  obtain ⟨n, hn⟩ := expandR_some_of h3 hch
  refine ⟨n, fun fuel hfuel junk => ?_⟩
  rw [picnicVerify_p3 (E := { E with junk := junk, fuel := fuel }) ⟨hE.perm, hE.lowmc⟩ ⟨hI.len, hI.inv⟩ hP hp hpk hm hm32 le_rfl, if_neg (by omega), hd,
    expandR_env, accepts3_env]
  change (match expandR E P fuel _ with | none => _ | some (C, Q) => _) = _
  rw [hn fuel hfuel]
  dsimp only
  rw [if_pos]
  refine ⟨hl, fun t _ ht => ?_, ?_, ?_⟩
  · have := hpad t ht
    rw [← (decSig2_proof (b := sig2Bytes P sg) hc ht).2, hdec]
    exact this
  · rw [hdec]; exact hout
  · rw [hdec, hd]; exact hh

/-- C38, verification: what `picnic_verify` rejects is not a valid signature of the specification. -/
theorem C38_verify_reject (E : Env) (hE : EnvWF E) (hI : InvWF E) (pk : PublicKey) (hpk : pk.Arrays) (hp : pk.params ∈ picnic3Params) (P : Params)
    (hP : getParamSet pk.params = some P) (I : Picnic3.Inst) (hIs : I.Is pk.params) (hf : I.Shake E.perm)
    (hX : I.X = lowmcOf P (E.lowmc P)) (msg : Buf) (mlen : ℕ) (hm : mlen ≤ msg.length) (hm32 : mlen + 200 ≤ 2 ^ 32)
    (b : Buf) (hv : picnicVerify E (some pk) msg mlen b b.length = Outcome.ok (-1)) :
    ¬ I.IsValid (pk.ciphertext.take I.blk) (pk.plaintext.take I.blk) (msg.take mlen) b := by
  classical
  intro hs
  obtain ⟨P', hP', hi3⟩ := getParamSet_p3 hp
  have h3 := p3WF_of hP hi3
  obtain ⟨n, hn⟩ := C38_verify_complete E hE hI pk hpk hp P hP I hIs hf hX msg mlen hm hm32 b hs
  have hacc := hn (max n E.fuel) (le_max_left _ _) E.junk
  obtain ⟨C, Q, h0, hx, ha⟩ := picnicVerify_p3_zero (E := { E with junk := E.junk, fuel := max n E.fuel }) ⟨hE.perm, hE.lowmc⟩ ⟨hI.len, hI.inv⟩ hP hp hpk hm hm32 le_rfl hacc
  rw [accepts3_env] at ha
  rw [expandR_env] at hx
  rw [picnicVerify_p3 hE hI hP hp hpk hm hm32 le_rfl, if_neg (by omega)] at hv
  cases hx' : expandR E P E.fuel (b.take P.digestSizeBytes) with
  | none => rw [hx'] at hv; cases hv
  | some r =>
    have := expandR_mono hx' (le_max_right n E.fuel)
    obtain rfl : r = (C, Q) := by
      have e := this.symm.trans hx
      injection e
    rw [hx'] at hv
    dsimp only at hv
    rw [if_pos ha] at hv
    exact absurd hv (by decide)

/-! ### concrete case -/

theorem inst3_is (E : Env) {p : ℕ} (hp : p ∈ picnic3Params) {P : Params} (hP : getParamSet p = some P) : (inst3 E P).Is p := by
  obtain ⟨h1, h2⟩ := getParamSet_bounds hP
  interval_cases p <;> first
    | (injection hP with hP; subst hP; rfl)
    | exact absurd hp (by decide)

/-- Concrete case for C38: for every parameter set there are an environment, a key pair and a signature of the specification
that the library computes and accepts. -/
theorem p3_conform_example (p : ℕ) (hp : p ∈ picnic3Params) (msg : Buf) (hm : msg.length + 200 ≤ 2 ^ 32) :
    ∃ (E : Env) (I : Picnic3.Inst) (sk : PrivateKey) (P : Params) (buf s : Buf), EnvWF E ∧ InvWF E ∧ I.Is p ∧ I.Shake E.perm ∧ sk.params = p ∧
      getParamSet p = some P ∧ I.X = lowmcOf P (E.lowmc P) ∧ bitsOf sk.data 0 = 1 ∧
      I.IsSignature (sk.data.take I.blk) (sk.pk.ciphertext.take I.blk) (sk.pk.plaintext.take I.blk) msg s ∧
      I.IsValid (sk.pk.ciphertext.take I.blk) (sk.pk.plaintext.take I.blk) msg s ∧
      picnicSign E (some sk) msg msg.length buf buf.length = Outcome.ok (0, s ++ buf.drop s.length, s.length) ∧
      picnicVerify E (some { sk.pk with params := p }) msg msg.length s s.length = Outcome.ok 0 := by
  obtain ⟨E, sk, P, buf, sig, len, S, h1, h2, h3, rfl, h5, h6, h7, h8, h9, h10, h11, h12, h13⟩ := p3_example p hp msg hm
  obtain ⟨s, hs, rfl, rfl⟩ := C38_sign E h1 h2 sk h3 hp P h5 (inst3 E P) (inst3_is E hp h5) (fun _ _ => rfl) rfl msg msg.length le_rfl hm buf buf.length le_rfl sig len h11
  rw [List.take_left' rfl] at h12
  rw [List.take_length] at hs
  have hv := C38_verify_sound E h1 h2 { sk.pk with params := sk.params } ⟨h3.pk.pt, h3.pk.ct⟩ hp P h5 (inst3 E P) (inst3_is E hp h5) (fun _ _ => rfl) rfl msg msg.length le_rfl hm s h12
  rw [List.take_length] at hv
  exact ⟨E, inst3 E P, sk, P, buf, s, h1, h2, inst3_is E hp h5, fun _ _ => rfl, rfl, h5, rfl, h8, hs, hv, h11, h12⟩

end Picnic
