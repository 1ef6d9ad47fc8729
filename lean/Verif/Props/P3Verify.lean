import Verif.Props.P3Sign

/-
Properties of verification with the Picnic3 parameter sets: C13, C14, C15, C16, C17, C18, C31 (verification).
-/

namespace Picnic

open Spec Spec.Challenge Finset

/-- A chain of digests has at most one challenge. -/
theorem isChallenge3_unique {E : Env} {P : Params} {d : Buf} {C Q C' Q' : List ℕ} (h3 : P3WF P)
    (h : IsChallenge3 P.numMPCRounds P.numMPCParties P.numOpenedRounds (nextDigest E P) d C Q)
    (h' : IsChallenge3 P.numMPCRounds P.numMPCParties P.numOpenedRounds (nextDigest E P) d C' Q') : C = C' ∧ Q = Q' := by
  obtain ⟨N, hN⟩ := expandR_some_of h3 h
  obtain ⟨N', hN'⟩ := expandR_some_of h3 h'
  have e := (hN (max N N') (le_max_left _ _)).symm.trans (hN' (max N N') (le_max_right _ _))
  simpa using e

/-- What is known when `picnic_verify` has returned 0 for a Picnic3 key. -/
theorem picnicVerify_p3_zero {E : Env} {P : Params} {pk : PublicKey} {msg b : Buf} {mlen n : ℕ} (hE : EnvWF E) (hI : InvWF E)
    (hP : getParamSet pk.params = some P) (hp : pk.params ∈ picnic3Params) (hpk : pk.Arrays) (hm : mlen ≤ msg.length)
    (hm32 : mlen + 200 ≤ 2 ^ 32) (hn : n ≤ b.length) (h : picnicVerify E (some pk) msg mlen b n = Outcome.ok 0) :
    ∃ C Q, P.digestSizeBytes + P.saltSizeBytes ≤ n ∧ expandR E P E.fuel (b.take P.digestSizeBytes) = some (C, Q) ∧
      Accepts3 E P pk.ciphertext pk.plaintext (msg.take mlen) b n C Q := by
  classical
  rw [picnicVerify_p3 hE hI hP hp hpk hm hm32 hn] at h
  by_cases h0 : n < P.digestSizeBytes + P.saltSizeBytes
  · rw [if_pos h0] at h; exact absurd h (by decide)
  rw [if_neg h0] at h
  cases hx : expandR E P E.fuel (b.take P.digestSizeBytes) with
  | none => rw [hx] at h; cases h
  | some r =>
    obtain ⟨C, Q⟩ := r
    rw [hx] at h
    dsimp only at h
    by_cases ha : Accepts3 E P pk.ciphertext pk.plaintext (msg.take mlen) b n C Q
    · exact ⟨C, Q, by omega, rfl, ha⟩
    · rw [if_neg ha] at h; exact absurd h (by decide)

/-! ### C14, C13 -/

/-- C14 for Picnic3: for every byte string of every length (`b` is exactly the buffer of `signature_len` bytes) verification has
no undefined behaviour and returns 0 or -1, unless the sampling of the challenge does not terminate within `E.fuel` digests.
The sampling terminates if the chain of digests that starts with the first bytes of the signature has a challenge in the
sense of the specification. -/
theorem C14_p3 (E : Env) (hE : EnvWF E) (hI : InvWF E) (pk : PublicKey) (hpk : pk.Arrays) (hp : pk.params ∈ picnic3Params)
    (P : Params) (hP : getParamSet pk.params = some P) (msg : Buf) (mlen : ℕ)
    (hm : mlen ≤ msg.length) (hm32 : mlen + 200 ≤ 2 ^ 32) (b : Buf) :
    (picnicVerify E (some pk) msg mlen b b.length = Outcome.ok 0 ∨ picnicVerify E (some pk) msg mlen b b.length = Outcome.ok (-1) ∨
      picnicVerify E (some pk) msg mlen b b.length = Outcome.diverge) ∧
    ((∃ C Q, IsChallenge3 P.numMPCRounds P.numMPCParties P.numOpenedRounds (nextDigest E P) (b.take P.digestSizeBytes) C Q) →
      ∃ N, ∀ n ≥ N, picnicVerify { E with fuel := n } (some pk) msg mlen b b.length ≠ Outcome.diverge) := by
  classical
  obtain ⟨P', hP', hi3⟩ := getParamSet_p3 hp
  have h3 := p3WF_of hP hi3
  constructor
  · rw [picnicVerify_p3 hE hI hP hp hpk hm hm32 le_rfl]
    split_ifs
    · exact Or.inr (Or.inl rfl)
    · cases expandR E P E.fuel (b.take P.digestSizeBytes) with
      | none => exact Or.inr (Or.inr rfl)
      | some r =>
        obtain ⟨C, Q⟩ := r
        dsimp only
        split_ifs
        · exact Or.inl rfl
        · exact Or.inr (Or.inl rfl)
  · rintro ⟨C, Q, hCQ⟩
    obtain ⟨N, hN⟩ := expandR_some_of h3 hCQ
    refine ⟨N, fun n hn => ?_⟩
    rw [picnicVerify_p3 (E := { E with fuel := n }) ⟨hE.perm, hE.lowmc⟩ ⟨hI.len, hI.inv⟩ hP hp hpk hm hm32 le_rfl]
    simp only [expandR_env (E := E) (junk' := E.junk)]
    rw [hN n hn]
    split_ifs <;> simp

/-- C13 for Picnic3: a verification that is given exactly the `b.length` bytes of the signature never reads outside of them. -/
theorem C13_p3 (E : Env) (hE : EnvWF E) (hI : InvWF E) (pk : PublicKey) (hpk : pk.Arrays) (hp : pk.params ∈ picnic3Params)
    (msg : Buf) (mlen : ℕ) (hm : mlen ≤ msg.length) (hm32 : mlen + 200 ≤ 2 ^ 32) (b : Buf) (u : UB) :
    picnicVerify E (some pk) msg mlen b b.length ≠ Outcome.ub u := by
  obtain ⟨P, hP, -⟩ := getParamSet_p3 hp
  rcases (C14_p3 E hE hI pk hpk hp P hP msg mlen hm hm32 b).1 with h | h | h <;> rw [h] <;> simp

/-! ### C15 -/

/-- C15 for Picnic3: if a signature is accepted, then with any bytes appended it is rejected.  More generally the length of a
signature that is not rejected is determined by its first `digestSizeBytes` bytes. -/
theorem C15_p3 (E : Env) (hE : EnvWF E) (hI : InvWF E) (pk pk' : PublicKey) (hpk : pk.Arrays) (hpk' : pk'.Arrays) (hp : pk.params ∈ picnic3Params)
    (hpp : pk'.params = pk.params) (P : Params) (hP : getParamSet pk.params = some P)
    (msg msg' : Buf) (mlen mlen' : ℕ) (hm : mlen ≤ msg.length) (hm32 : mlen + 200 ≤ 2 ^ 32) (hm' : mlen' ≤ msg'.length)
    (hm32' : mlen' + 200 ≤ 2 ^ 32) (b : Buf)
    (h : picnicVerify E (some pk) msg mlen b b.length = Outcome.ok 0) :
    (∀ s : Buf, s ≠ [] → picnicVerify E (some pk') msg' mlen' (b ++ s) (b ++ s).length = Outcome.ok (-1)) ∧
    ∀ b' : Buf, b'.take P.digestSizeBytes = b.take P.digestSizeBytes → b'.length ≠ b.length →
      picnicVerify E (some pk') msg' mlen' b' b'.length = Outcome.ok (-1) := by
  classical
  obtain ⟨C, Q, h0, hx, ha⟩ := picnicVerify_p3_zero hE hI hP hp hpk hm hm32 le_rfl h
  have key : ∀ b' : Buf, b'.take P.digestSizeBytes = b.take P.digestSizeBytes → b'.length ≠ b.length →
      picnicVerify E (some pk') msg' mlen' b' b'.length = Outcome.ok (-1) := by
    intro b' hb hl
    rw [picnicVerify_p3 hE hI (hpp ▸ hP) (hpp ▸ hp) hpk' hm' hm32' le_rfl]
    by_cases h1 : b'.length < P.digestSizeBytes + P.saltSizeBytes
    · rw [if_pos h1]
    · rw [if_neg h1, hb, hx]
      dsimp only
      rw [if_neg]
      intro ha'
      exact hl (ha'.1.trans ha.1.symm)
  refine ⟨fun s hs => key _ ?_ ?_, key⟩
  · exact List.take_append_of_le_length (by omega)
  · have := List.length_pos_iff.2 hs
    rw [List.length_append]; omega

/-! ### C16 -/

theorem deserialize2_some {E : Env} {P : Params} {b : Buf} {n : ℕ} {S : Signature2} (hE : PermWF E) (hP : ParamsWF P) (h3 : P3WF P) (hn : n ≤ b.length)
    (hd : deserializeSignature2 E P (allocateSignature2 E P) b n = Outcome.ok (some S)) :
    ∃ C Q, expandR E P E.fuel (b.take P.digestSizeBytes) = some (C, Q) ∧ n = sig2Len P C Q ∧ AllPad2 P b C Q P.numMPCRounds ∧ S = decSig2 P b C Q := by
  rw [deserializeSignature2_ok hE hP h3 hn, dec2R] at hd
  by_cases h0 : n < P.digestSizeBytes + P.saltSizeBytes
  · rw [if_pos h0] at hd; cases hd
  rw [if_neg h0] at hd
  cases hx : expandR E P E.fuel (b.take P.digestSizeBytes) with
  | none => rw [hx] at hd; cases hd
  | some r =>
    obtain ⟨C, Q⟩ := r
    rw [hx] at hd
    dsimp only at hd
    by_cases ha : n = sig2Len P C Q ∧ AllPad2 P b C Q P.numMPCRounds
    · rw [if_pos ha] at hd
      injection hd with hd
      injection hd with hd
      exact ⟨C, Q, rfl, ha.1, ha.2, hd.symm⟩
    · rw [if_neg ha] at hd; cases hd

/-- C16 for Picnic3, decoding then encoding: if the decoder accepts the bytes `b`, then the encoder, given a buffer with room for
them, writes back exactly `b`. -/
theorem C16_p3_reencode (E : Env) (hE : EnvWF E) (p : ℕ) (hp : p ∈ picnic3Params) (P : Params) (hP : getParamSet p = some P) (b : Buf) (S : Signature2)
    (hd : deserializeSignature2 E P (allocateSignature2 E P) b b.length = Outcome.ok (some S))
    (buf : Buf) (slen : ℕ) (hbuf : slen ≤ buf.length) (hsize : b.length ≤ slen) :
    serializeSignature2 P S buf slen = Outcome.ok (some (b ++ buf.drop b.length, b.length)) ∧ b.length ≤ picnicSignatureSize p := by
  obtain ⟨P', hP', hi3⟩ := getParamSet_p3 hp
  have h3 := p3WF_of hP hi3
  obtain ⟨C, Q, hx, hl, -, rfl⟩ := deserialize2_some hE.perm (paramsWF_of hP) h3 le_rfl hd
  have hc := expandR_wf h3 hx
  refine ⟨?_, hl ▸ sig2Len_le hp hP hc⟩
  rw [serializeSignature2_ok h3 (decSig2_wf hc hl.ge) hbuf]
  change Outcome.ok (if slen < sig2Len P C Q then none else some (pre2 (decSig2 P b C Q) P.numMPCRounds ++ buf.drop (sig2Len P C Q), sig2Len P C Q)) = _
  rw [← hl, if_neg (by omega), enc_dec2 hc, show off2 P C Q P.numMPCRounds = b.length from hl.symm, List.take_length]

/-- C16 for Picnic3: two byte strings that decode to the same signature are equal. -/
theorem C16_p3_inj (E : Env) (hE : EnvWF E) (p : ℕ) (hp : p ∈ picnic3Params) (P : Params) (hP : getParamSet p = some P) (b b' : Buf) (S : Signature2)
    (hd : deserializeSignature2 E P (allocateSignature2 E P) b b.length = Outcome.ok (some S))
    (hd' : deserializeSignature2 E P (allocateSignature2 E P) b' b'.length = Outcome.ok (some S)) : b = b' := by
  have e := (C16_p3_reencode E hE p hp P hP b S hd (zeros (b.length + b'.length)) (b.length + b'.length) (by simp) (by omega)).1
  have e' := (C16_p3_reencode E hE p hp P hP b' S hd' (zeros (b.length + b'.length)) (b.length + b'.length) (by simp) (by omega)).1
  rw [e] at e'
  injection e' with e'
  injection e' with e'
  injection e' with e1 e2
  exact List.append_inj_left e1 e2

/-- C16 for Picnic3, encoding then decoding: the bytes written by `picnic_sign` decode to exactly the signature that was
computed, from any buffer that starts with them, and whatever uninitialised memory contains. -/
theorem C16_p3_sign (E : Env) (hE : EnvWF E) (hI : InvWF E) (sk : PrivateKey) (hsk : sk.Arrays) (hp : sk.params ∈ picnic3Params) (P : Params)
    (hP : getParamSet sk.params = some P) (msg : Buf) (mlen : ℕ) (hm : mlen ≤ msg.length) (hm32 : mlen + 200 ≤ 2 ^ 32)
    (S : Signature2) (hS : signPicnic3 E P sk.data sk.pk.ciphertext sk.pk.plaintext msg mlen (allocateSignature2 E P) = Outcome.ok (some S))
    (buf : Buf) (slen : ℕ) (hbuf : slen ≤ buf.length) (sig : Buf) (len : ℕ)
    (hs : picnicSign E (some sk) msg mlen buf slen = Outcome.ok (0, sig, len))
    (junk' : ℕ → ℕ → ℕ → Byte) (b : Buf) (hb : b.take len = sig.take len) (hbl : len ≤ b.length) :
    deserializeSignature2 { E with junk := junk' } P (allocateSignature2 { E with junk := junk' } P) b len = Outcome.ok (some S) := by
  obtain ⟨P', hP', hi3⟩ := getParamSet_p3 hp
  have hWF := paramsWF_of hP
  have h3 := p3WF_of hP hi3
  have hw := hWF.words
  have hby := hWF.bytes
  have hn := hWF.nMax
  obtain ⟨hR, C, Q, hx, hc, hlen, hle, hsig, hsl⟩ := picnicSign_p3_zero hE hI hP hp hsk hm hm32 hbuf rfl rfl hs
  rw [signPicnic3_ok hE.perm hWF (seedWF_of hP) (merkleWF_of hP) h3 (p3Sz_of hP hi3) (hE.lowmc _ _ hP) (hI.len _ hp _ hP)
    (hI.inv _ hp _ hP) (by rw [hsk.data]; omega) (by rw [hsk.pk.pt]; omega) (by rw [hsk.pk.ct]; omega) hm hm32] at hS
  unfold signR at hS
  rw [if_pos ((relation_iff hWF (by rw [hsk.pk.ct]; omega)).2 hR), hx] at hS
  injection hS with hS
  injection hS with hS
  rw [deserializeSignature2_ok (E := { E with junk := junk' }) hE.perm hWF h3 hbl, dec2R]
  have hd := dec_sSig (E := E) (P := P) (b := b) h3 hc (sSalt_length (key := sk.data) (pk := sk.pk.ciphertext) (pt := sk.pk.plaintext) (msg := msg.take mlen))
    (sRoot_length (key := sk.data) (pk := sk.pk.ciphertext) (pt := sk.pk.plaintext) (msg := msg.take mlen)) (by
      rw [← hlen, hb, hsig]; exact List.take_left' hsl)
  simp only [expandR_env (E := E) (fuel' := E.fuel)]
  rw [hd.2.2, hx]
  have h0 : P.digestSizeBytes + P.saltSizeBytes ≤ len := by
    rw [hlen]; unfold sig2Len off2; omega
  rw [if_neg (by omega)]
  dsimp only
  rw [if_pos ⟨hlen, hd.2.1⟩, hd.1, hS]

/-! ### C17, C18 -/

/-- `m` is the string whose hash verification of the signature `b` compares with the first bytes of `b`: commitments that the
opened data determine, the root of the Merkle tree, the salt, the public key and the message.  The challenge in `b` determines
which data are opened. -/
def ChallengeInput3 (E : Env) (P : Params) (pk : PublicKey) (msg b m : Buf) : Prop :=
  ∃ C Q, IsChallenge3 P.numMPCRounds P.numMPCParties P.numOpenedRounds (nextDigest E P) (b.take P.digestSizeBytes) C Q ∧
    m = hcpInput P (vCh E P (decSig2 P b C Q)) (vRoot E P (decSig2 P b C Q) pk.plaintext) ((b.drop P.digestSizeBytes).take P.saltSizeBytes)
      (pk.ciphertext.take P.stateSizeBytes) (pk.plaintext.take P.stateSizeBytes) msg

/-- There is only one such string. -/
theorem challengeInput3_unique {E : Env} {P : Params} {pk : PublicKey} {msg b m m' : Buf} (h3 : P3WF P)
    (h : ChallengeInput3 E P pk msg b m) (h' : ChallengeInput3 E P pk msg b m') : m = m' := by
  obtain ⟨C, Q, h1, rfl⟩ := h
  obtain ⟨C', Q', h1', rfl⟩ := h'
  obtain ⟨rfl, rfl⟩ := isChallenge3_unique h3 h1 h1'
  rfl

theorem vRoot_length {E : Env} {P : Params} {s : Signature2} {pt : Buf} (hs : Sig2WF P s) : (vRoot E P s pt).length = P.digestSizeBytes := by
  refine mvl_length (fun i => leafVl_length (fun i => inVl_length hs.cvInfo.ge i) fun j hj d hd => ?_) 0
  unfold vCv at hd
  by_cases h : j ∈ s.challengeC
  · rw [if_pos h] at hd; injection hd with hd; rw [← hd]; exact (H_length _ _ _ _ _).ge
  · rw [if_neg h] at hd; cases hd

/-- C17 for Picnic3, verification: an accepted signature starts with the hash of the string `ChallengeInput3`; the rounds and
parties that verification takes as opened and unopened are those that the specification derives from this digest. -/
theorem C17_p3_verify (E : Env) (hE : EnvWF E) (hI : InvWF E) (pk : PublicKey) (hpk : pk.Arrays) (hp : pk.params ∈ picnic3Params) (P : Params)
    (hP : getParamSet pk.params = some P) (msg : Buf) (mlen : ℕ) (hm : mlen ≤ msg.length) (hm32 : mlen + 200 ≤ 2 ^ 32) (b : Buf)
    (h : picnicVerify E (some pk) msg mlen b b.length = Outcome.ok 0) :
    ∃ (m : Buf) (S : Signature2), ChallengeInput3 E P pk (msg.take mlen) b m ∧
      b.take P.digestSizeBytes = H E P HASH_PREFIX_NONE m P.digestSizeBytes ∧
      deserializeSignature2 E P (allocateSignature2 E P) b b.length = Outcome.ok (some S) ∧
      IsChallenge3 P.numMPCRounds P.numMPCParties P.numOpenedRounds (nextDigest E P) (b.take P.digestSizeBytes) S.challengeC S.challengeP ∧
      S.challengeC.length = P.numOpenedRounds ∧ S.challengeC.Nodup ∧ (∀ t ∈ S.challengeC, t < P.numMPCRounds) ∧
      S.challengeP.length = P.numOpenedRounds ∧ ∀ q ∈ S.challengeP, q < P.numMPCParties := by
  obtain ⟨P', hP', hi3⟩ := getParamSet_p3 hp
  have h3 := p3WF_of hP hi3
  obtain ⟨C, Q, h0, hx, ha⟩ := picnicVerify_p3_zero hE hI hP hp hpk hm hm32 le_rfl h
  have hc := expandR_wf h3 hx
  have hsp := expandR_spec h3 hx
  refine ⟨_, decSig2 P b C Q, ⟨C, Q, hsp, rfl⟩, ha.2.2.2, ?_, hsp, hc.lenC, hc.nodup, hc.ltC, hc.lenQ, hc.ltQ⟩
  rw [deserializeSignature2_ok hE.perm (paramsWF_of hP) h3 le_rfl, dec2R, if_neg (by omega), hx]
  dsimp only
  rw [if_pos ⟨ha.1, ha.2.1⟩]

/-- C18 for Picnic3: if the same bytes are accepted for two pairs of public key and message, then the two strings that
verification hashes are determined by the data at hand, have the same digest, and are different unless the encoded
public keys and the messages are the same.  So accepting for two different pairs exhibits a collision of the hash function. -/
theorem C18_p3 (E : Env) (hE : EnvWF E) (hI : InvWF E) (pk pk' : PublicKey) (hpk : pk.Arrays) (hpk' : pk'.Arrays) (hp : pk.params ∈ picnic3Params)
    (hpp : pk'.params = pk.params) (P : Params) (hP : getParamSet pk.params = some P)
    (msg msg' : Buf) (hm : msg.length + 200 ≤ 2 ^ 32) (hm' : msg'.length + 200 ≤ 2 ^ 32) (b : Buf)
    (h : picnicVerify E (some pk) msg msg.length b b.length = Outcome.ok 0)
    (h' : picnicVerify E (some pk') msg' msg'.length b b.length = Outcome.ok 0) :
    ∃ m m' : Buf, ChallengeInput3 E P pk msg b m ∧ ChallengeInput3 E P pk' msg' b m' ∧
      H E P HASH_PREFIX_NONE m P.digestSizeBytes = H E P HASH_PREFIX_NONE m' P.digestSizeBytes ∧
      (m = m' → pk.ciphertext.take P.stateSizeBytes = pk'.ciphertext.take P.stateSizeBytes ∧
        pk.plaintext.take P.stateSizeBytes = pk'.plaintext.take P.stateSizeBytes ∧ msg = msg') := by
  obtain ⟨P', hP', hi3⟩ := getParamSet_p3 hp
  have h3 := p3WF_of hP hi3
  obtain ⟨C, Q, h0, hx, ha⟩ := picnicVerify_p3_zero hE hI hP hp hpk le_rfl hm le_rfl h
  obtain ⟨C', Q', h0', hx', ha'⟩ := picnicVerify_p3_zero hE hI (hpp ▸ hP) (hpp ▸ hp) hpk' le_rfl hm' le_rfl h'
  rw [hx] at hx'
  injection hx' with hx'
  injection hx' with e1 e2
  subst e1 e2
  have hc := expandR_wf h3 hx
  have hsp := expandR_spec h3 hx
  rw [List.take_length] at ha ha'
  refine ⟨_, _, ⟨C, Q, hsp, rfl⟩, ⟨C, Q, hsp, rfl⟩, ha.2.2.2.symm.trans ha'.2.2.2, fun e => ?_⟩
  have hwf := decSig2_wf (P := P) (b := b) hc ha.1.ge
  unfold hcpInput at e
  simp only [List.append_assoc] at e
  have e1 := List.append_cancel_left e
  obtain ⟨-, e2⟩ := List.append_inj e1 (by rw [vRoot_length hwf, vRoot_length hwf])
  have e3 := List.append_cancel_left e2
  obtain ⟨e4, e5⟩ := List.append_inj e3 (by rw [List.length_take, List.length_take, hpk.ct, hpk'.ct])
  obtain ⟨e6, e7⟩ := List.append_inj e5 (by rw [List.length_take, List.length_take, hpk.pt, hpk'.pt])
  exact ⟨e4, e6, e7⟩

/-! ### C31 -/

/-- C31 and C17 for Picnic3, verification: the result does not depend on uninitialised memory, on the unused bytes of the key
structure, or on the number of digests the sampling loops may use, once they have terminated. -/
theorem C31_p3_verify (E : Env) (hE : EnvWF E) (hI : InvWF E) (junk' : ℕ → ℕ → ℕ → Byte) (fuel' : ℕ) (hfuel : E.fuel ≤ fuel')
    (pk pk' : PublicKey) (hpk : pk.Arrays) (hpk' : pk'.Arrays) (hp : pk.params ∈ picnic3Params) (n : ℕ)
    (hn : blockBits pk.params = some n) (h1 : pk'.params = pk.params)
    (h2 : pk'.plaintext.take (bytesFor n) = pk.plaintext.take (bytesFor n))
    (h3 : pk'.ciphertext.take (bytesFor n) = pk.ciphertext.take (bytesFor n))
    (msg : Buf) (mlen : ℕ) (hm : mlen ≤ msg.length) (hm32 : mlen + 200 ≤ 2 ^ 32) (b : Buf)
    (hterm : picnicVerify E (some pk) msg mlen b b.length ≠ Outcome.diverge) :
    picnicVerify { E with junk := junk', fuel := fuel' } (some pk') msg mlen b b.length =
      picnicVerify E (some pk) msg mlen b b.length := by
  classical
  obtain ⟨P, hP, hi3⟩ := getParamSet_p3 hp
  have hnP := blockBits_of hP
  rw [hn] at hnP
  obtain rfl : n = P.stateSizeBits := by simpa using hnP
  have hWF := paramsWF_of hP
  have hp3 := p3WF_of hP hi3
  rw [bytesFor, ← hWF.bytes] at h2 h3
  rw [picnicVerify_p3 hE hI hP hp hpk hm hm32 le_rfl] at hterm ⊢
  rw [picnicVerify_p3 (E := { E with junk := junk', fuel := fuel' }) ⟨hE.perm, hE.lowmc⟩ ⟨hI.len, hI.inv⟩ (h1 ▸ hP) (h1 ▸ hp) hpk' hm hm32 le_rfl]
  simp only [expandR_env, accepts3_env]
  by_cases h0 : b.length < P.digestSizeBytes + P.saltSizeBytes
  · rw [if_pos h0, if_pos h0]
  rw [if_neg h0] at hterm ⊢
  rw [if_neg h0]
  cases hx : expandR E P E.fuel (b.take P.digestSizeBytes) with
  | none => rw [hx] at hterm; exact absurd rfl hterm
  | some r =>
    obtain ⟨C, Q⟩ := r
    rw [expandR_mono hx hfuel]
    dsimp only
    rw [if_congr (accepts3_congr hWF hp3 h2 h3) rfl rfl]

end Picnic
