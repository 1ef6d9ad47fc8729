import Verif.Proofs.P3Congr
import Verif.Props.ZkbSign

/-
Properties of signing with the Picnic3 parameter sets: C02, C03, C05, C17, C21, C31, C32 (Picnic3 part).
-/

namespace Picnic

open Spec Spec.Challenge Finset

/-- What is known when `picnic_sign` has returned 0 for a Picnic3 key. -/
theorem picnicSign_p3_zero {E : Env} {P : Params} {sk : PrivateKey} {msg buf sig : Buf} {mlen slen len : ℕ} (hE : EnvWF E) (hI : InvWF E)
    (hP : getParamSet sk.params = some P) (hp : sk.params ∈ picnic3Params) (hsk : sk.Arrays) (hm : mlen ≤ msg.length)
    (hm32 : mlen + 200 ≤ 2 ^ 32) (hbuf : slen ≤ buf.length) {salt root : Buf}
    (hsalt : salt = sSalt E P sk.data sk.pk.ciphertext sk.pk.plaintext (msg.take mlen))
    (hroot : root = sRoot E P sk.data sk.pk.ciphertext sk.pk.plaintext (msg.take mlen))
    (hs : picnicSign E (some sk) msg mlen buf slen = Outcome.ok (0, sig, len)) :
    Relation P (E.lowmc P) sk.data sk.pk.plaintext sk.pk.ciphertext ∧ ∃ C Q,
      expandR E P E.fuel (sHash E P salt root sk.data sk.pk.ciphertext sk.pk.plaintext (msg.take mlen)) = some (C, Q) ∧
      ChalWF P C Q ∧ len = sig2Len P C Q ∧ len ≤ slen ∧
      sig = sig2Bytes P (sSig E P salt root sk.data sk.pk.ciphertext sk.pk.plaintext (msg.take mlen) C Q) ++ buf.drop len ∧
      (sig2Bytes P (sSig E P salt root sk.data sk.pk.ciphertext sk.pk.plaintext (msg.take mlen) C Q)).length = len := by
  classical
  obtain ⟨P', hP', hi3⟩ := getParamSet_p3 hp
  have h3 := p3WF_of hP hi3
  rw [picnicSign_p3 hE hI hP hp hsk hm hm32 hbuf hsalt hroot] at hs
  by_cases hR : Relation P (E.lowmc P) sk.data sk.pk.plaintext sk.pk.ciphertext
  · rw [if_pos hR] at hs
    refine ⟨hR, ?_⟩
    cases hx : expandR E P E.fuel (sHash E P salt root sk.data sk.pk.ciphertext sk.pk.plaintext (msg.take mlen)) with
    | none => rw [hx] at hs; cases hs
    | some r =>
      obtain ⟨C, Q⟩ := r
      rw [hx] at hs
      dsimp only at hs
      by_cases hl : slen < sig2Len P C Q
      · rw [if_pos hl] at hs; cases hs
      · rw [if_neg hl] at hs
        injection hs with hs
        injection hs with _ hs
        injection hs with h1 h2
        have hc := expandR_wf h3 hx
        refine ⟨C, Q, rfl, hc, h2.symm, by omega, ?_, ?_⟩
        · rw [← h2]; exact h1.symm
        · rw [← h2]
          exact pre2_length (sSig_wf h3 hc (by rw [hsalt]; exact sSalt_length) (by rw [hroot]; exact sRoot_length)) _
  · rw [if_neg hR] at hs; cases hs

/-! ### C02 -/

/-- C02: if `picnic_sign` returns 0, then `picnic_verify` accepts the signature, from any buffer that starts with the
returned bytes, for any public key structure with the same encoded public key, whatever the uninitialised memory of
either call contains (`E.junk`, `junk'`). -/
theorem C02_sign_verify (E : Env) (hE : EnvWF E) (hI : InvWF E) (junk' : ℕ → ℕ → ℕ → Byte) (fuel' : ℕ) (hfuel : E.fuel ≤ fuel')
    (sk : PrivateKey) (hsk : sk.Arrays) (hp : sk.params ∈ picnic3Params) (n : ℕ) (hn : blockBits sk.params = some n)
    (msg : Buf) (mlen : ℕ) (hm : mlen ≤ msg.length) (hm32 : mlen + 200 ≤ 2 ^ 32)
    (buf : Buf) (slen : ℕ) (hbuf : slen ≤ buf.length) (sig : Buf) (len : ℕ)
    (hs : picnicSign E (some sk) msg mlen buf slen = Outcome.ok (0, sig, len))
    (pk : PublicKey) (hpk : pk.Arrays) (hpp : pk.params = sk.params)
    (hct : pk.ciphertext.take (bytesFor n) = sk.pk.ciphertext.take (bytesFor n))
    (hpt : pk.plaintext.take (bytesFor n) = sk.pk.plaintext.take (bytesFor n))
    (b : Buf) (hb : b.take len = sig.take len) (hbl : len ≤ b.length) :
    picnicVerify { E with junk := junk', fuel := fuel' } (some pk) msg mlen b len = Outcome.ok 0 := by
  classical
  obtain ⟨P, hP, hi3⟩ := getParamSet_p3 hp
  have hnP := blockBits_of hP
  rw [hn] at hnP
  obtain rfl : n = P.stateSizeBits := by simpa using hnP
  have hWF := paramsWF_of hP
  have h3 := p3WF_of hP hi3
  rw [bytesFor, ← hWF.bytes] at hct hpt
  obtain ⟨hR, C, Q, hx, hc, hlen, hle, hsig, hsl⟩ := picnicSign_p3_zero hE hI hP hp hsk hm hm32 hbuf rfl rfl hs
  have hrl := sRoot_length (E := E) (P := P) (key := sk.data) (pk := sk.pk.ciphertext) (pt := sk.pk.plaintext) (msg := msg.take mlen)
  have hll := sSalt_length (E := E) (P := P) (key := sk.data) (pk := sk.pk.ciphertext) (pt := sk.pk.plaintext) (msg := msg.take mlen)
  generalize hsalt : sSalt E P sk.data sk.pk.ciphertext sk.pk.plaintext (msg.take mlen) = salt at *
  generalize hroot : sRoot E P sk.data sk.pk.ciphertext sk.pk.plaintext (msg.take mlen) = root at *
  have hbt : b.take (sig2Len P C Q) = sig2Bytes P (sSig E P salt root sk.data sk.pk.ciphertext sk.pk.plaintext (msg.take mlen) C Q) := by
    rw [← hlen, hb, hsig, List.take_left' hsl]
  obtain ⟨hd, hpad, hh⟩ := dec_sSig h3 hc hll hrl hbt
  rw [picnicVerify_p3 (E := { E with junk := junk', fuel := fuel' }) ⟨hE.perm, hE.lowmc⟩ ⟨hI.len, hI.inv⟩ (hpp ▸ hP) (hpp ▸ hp) hpk hm hm32 hbl]
  have hlong : ¬ len < P.digestSizeBytes + P.saltSizeBytes := by rw [hlen, sig2Len, off2]; omega
  rw [if_neg hlong]
  simp only [expandR_env, accepts3_env]
  rw [hh, expandR_mono hx hfuel]
  dsimp only
  rw [if_pos]
  refine ⟨hlen, hpad, fun t ht => ?_, ?_⟩
  · rw [hd]
    have h1 := (online_eq (E := E) (salt := salt) (root := root) (key := sk.data) (pk := sk.pk.ciphertext) (pt := sk.pk.plaintext) (msg := msg.take mlen) (C := C) (Q := Q)
      h3 hc hrl hWF hpt ht).1
    rw [h1, sOut_enc hWF h3 (hI.inv _ hp _ hP), hct]
    exact (relation_iff hWF (by have := hWF.nMax; have := hWF.bytes; rw [hsk.pk.ct]; omega)).2 hR
  · rw [hd, hh]
    exact (vHash_eq (E := E) (salt := salt) (root := root) (key := sk.data) (pk := sk.pk.ciphertext) (pt := sk.pk.plaintext) (msg := msg.take mlen) (C := C) (Q := Q)
      h3 hc hrl hWF hpt hct).symm

/-! ### C03, C05 -/

theorem expandR_some_of {E : Env} {P : Params} {d : Buf} {C Q : List ℕ} (h3 : P3WF P)
    (h : IsChallenge3 P.numMPCRounds P.numMPCParties P.numOpenedRounds (nextDigest E P) d C Q) :
    ∃ N, ∀ n ≥ N, expandR E P n d = some (C, Q) := by
  obtain ⟨N, hN⟩ := expandR_complete h3 h
  exact ⟨N, fun n hn => expandR_mono hN hn⟩

/-- C03 for Picnic3: with a matching key pair and a buffer of `picnic_signature_size` bytes signing returns 0 and at most
that many bytes; the only alternative is that the sampling of the challenge has not finished after `E.fuel` digests.  The
sampling finishes (for every large enough number of digests) if every chain of digests has a challenge in the sense of the
specification. -/
theorem C03_p3 (E : Env) (hE : EnvWF E) (hI : InvWF E) (sk : PrivateKey) (hsk : sk.Arrays) (hp : sk.params ∈ picnic3Params) (P : Params)
    (hP : getParamSet sk.params = some P) (hR : Relation P (E.lowmc P) sk.data sk.pk.plaintext sk.pk.ciphertext)
    (msg : Buf) (mlen : ℕ) (hm : mlen ≤ msg.length) (hm32 : mlen + 200 ≤ 2 ^ 32) (buf : Buf) (slen : ℕ)
    (hbuf : slen ≤ buf.length) (hsize : picnicSignatureSize sk.params ≤ slen) :
    (picnicSign E (some sk) msg mlen buf slen = Outcome.diverge ∨
      ∃ sig len, picnicSign E (some sk) msg mlen buf slen = Outcome.ok (0, sig, len) ∧
        len ≤ picnicSignatureSize sk.params ∧ sig.length = buf.length) ∧
    ((∀ d : Buf, d.length = P.digestSizeBytes → ∃ C Q, IsChallenge3 P.numMPCRounds P.numMPCParties P.numOpenedRounds (nextDigest E P) d C Q) →
      ∃ N, ∀ n ≥ N, picnicSign { E with fuel := n } (some sk) msg mlen buf slen ≠ Outcome.diverge) := by
  classical
  obtain ⟨P', hP', hi3⟩ := getParamSet_p3 hp
  have h3 := p3WF_of hP hi3
  constructor
  · rw [picnicSign_p3 hE hI hP hp hsk hm hm32 hbuf rfl rfl, if_pos hR]
    have hrl := sRoot_length (E := E) (P := P) (key := sk.data) (pk := sk.pk.ciphertext) (pt := sk.pk.plaintext) (msg := msg.take mlen)
    have hll := sSalt_length (E := E) (P := P) (key := sk.data) (pk := sk.pk.ciphertext) (pt := sk.pk.plaintext) (msg := msg.take mlen)
    generalize sSalt E P sk.data sk.pk.ciphertext sk.pk.plaintext (msg.take mlen) = salt at *
    generalize sRoot E P sk.data sk.pk.ciphertext sk.pk.plaintext (msg.take mlen) = root at *
    cases hx : expandR E P E.fuel (sHash E P salt root sk.data sk.pk.ciphertext sk.pk.plaintext (msg.take mlen)) with
    | none => exact Or.inl rfl
    | some r =>
      obtain ⟨C, Q⟩ := r
      have hc := expandR_wf h3 hx
      have hle := sig2Len_le hp hP hc
      dsimp only
      rw [if_neg (by omega)]
      refine Or.inr ⟨_, _, rfl, hle, ?_⟩
      rw [List.length_append, show (sig2Bytes P _).length = _ from pre2_length (sSig_wf h3 hc hll hrl) _, List.length_drop]
      have : sig2Len P C Q = off2 P C Q P.numMPCRounds := rfl
      change off2 P C Q P.numMPCRounds + _ = _
      omega
  · intro hd
    obtain ⟨C, Q, hCQ⟩ := hd (sHash E P (sSalt E P sk.data sk.pk.ciphertext sk.pk.plaintext (msg.take mlen))
      (sRoot E P sk.data sk.pk.ciphertext sk.pk.plaintext (msg.take mlen)) sk.data sk.pk.ciphertext sk.pk.plaintext (msg.take mlen)) (H_length _ _ _ _ _)
    obtain ⟨N, hN⟩ := expandR_some_of h3 hCQ
    refine ⟨N, fun n hn => ?_⟩
    rw [picnicSign_p3 (E := { E with fuel := n }) ⟨hE.perm, hE.lowmc⟩ ⟨hI.len, hI.inv⟩ hP hp hsk hm hm32 hbuf rfl rfl, if_pos hR]
    simp only [expandR_env (E := E) (junk' := E.junk), sHash_env (E := E) (junk' := E.junk), sSalt_env (E := E) (junk' := E.junk), sRoot_env (E := E) (junk' := E.junk)]
    rw [hN n hn]
    simp

/-- C05 for Picnic3: whenever signing returns, it either returns -1 and has changed neither the buffer nor the length, or it
returns 0, the returned length is at most the given one, and the bytes from the returned length on are unchanged.  A length
that is too short for the signature is refused: if a larger buffer would receive `len'` bytes, a given length below `len'`
leads to -1. -/
theorem C05_p3 (E : Env) (hE : EnvWF E) (hI : InvWF E) (sk : PrivateKey) (hsk : sk.Arrays) (hp : sk.params ∈ picnic3Params)
    (msg : Buf) (mlen : ℕ) (hm : mlen ≤ msg.length) (hm32 : mlen + 200 ≤ 2 ^ 32) (buf : Buf) (slen : ℕ)
    (hbuf : slen ≤ buf.length) (r : Int) (sig : Buf) (len : ℕ)
    (h : picnicSign E (some sk) msg mlen buf slen = Outcome.ok (r, sig, len)) :
    ((r = -1 ∧ sig = buf ∧ len = slen) ∨
      (r = 0 ∧ len ≤ slen ∧ sig.length = buf.length ∧ sig.drop len = buf.drop len)) ∧
    (∀ buf' slen' sig' len', slen' ≤ buf'.length → picnicSign E (some sk) msg mlen buf' slen' = Outcome.ok (0, sig', len') →
      slen < len' → r = -1) := by
  classical
  obtain ⟨P, hP, hi3⟩ := getParamSet_p3 hp
  have h3 := p3WF_of hP hi3
  constructor
  · have h' := h
    rw [picnicSign_p3 hE hI hP hp hsk hm hm32 hbuf rfl rfl] at h
    by_cases hR : Relation P (E.lowmc P) sk.data sk.pk.plaintext sk.pk.ciphertext
    · rw [if_pos hR] at h
      cases hx : expandR E P E.fuel (sHash E P (sSalt E P sk.data sk.pk.ciphertext sk.pk.plaintext (msg.take mlen))
          (sRoot E P sk.data sk.pk.ciphertext sk.pk.plaintext (msg.take mlen)) sk.data sk.pk.ciphertext sk.pk.plaintext (msg.take mlen)) with
      | none => rw [hx] at h; cases h
      | some x =>
        obtain ⟨C, Q⟩ := x
        rw [hx] at h
        dsimp only at h
        by_cases hl : slen < sig2Len P C Q
        · rw [if_pos hl] at h
          injection h with h
          injection h with h1 h2
          injection h2 with h2 h4
          exact Or.inl ⟨h1.symm, h2.symm, h4.symm⟩
        · rw [if_neg hl] at h
          injection h with h
          injection h with h1 _
          subst h1
          obtain ⟨-, C', Q', -, -, -, hle, hsig, hsl⟩ := picnicSign_p3_zero hE hI hP hp hsk hm hm32 hbuf rfl rfl h'
          refine Or.inr ⟨rfl, hle, ?_, ?_⟩
          · rw [hsig, List.length_append, hsl, List.length_drop]; omega
          · rw [hsig]; exact List.drop_left' hsl
    · rw [if_neg hR] at h
      injection h with h
      injection h with h1 h2
      injection h2 with h2 h4
      exact Or.inl ⟨h1.symm, h2.symm, h4.symm⟩
  · intro buf' slen' sig' len' hb' hs' hlt
    obtain ⟨hR, C, Q, hx, hc, hlen, -⟩ := picnicSign_p3_zero hE hI hP hp hsk hm hm32 hb' rfl rfl hs'
    rw [picnicSign_p3 hE hI hP hp hsk hm hm32 hbuf rfl rfl, if_pos hR, hx] at h
    dsimp only at h
    rw [if_pos (by omega)] at h
    injection h with h
    injection h with h1 _
    exact h1.symm

/-! ### C17 -/

/-- C17 for Picnic3, signing: a signature starts with a digest, the hash of a string that ends with the salt (which follows
the digest in the signature), the public key and the message; the opened rounds and unopened parties are the ones that the
specification derives from this digest: `numOpenedRounds` different rounds below `numMPCRounds`, and as many parties below
`numMPCParties`. -/
theorem C17_p3_sign (E : Env) (hE : EnvWF E) (hI : InvWF E) (sk : PrivateKey) (hsk : sk.Arrays) (hp : sk.params ∈ picnic3Params) (P : Params)
    (hP : getParamSet sk.params = some P) (msg : Buf) (mlen : ℕ) (hm : mlen ≤ msg.length) (hm32 : mlen + 200 ≤ 2 ^ 32)
    (S : Signature2) (hS : signPicnic3 E P sk.data sk.pk.ciphertext sk.pk.plaintext msg mlen (allocateSignature2 E P) = Outcome.ok (some S)) :
    (∃ front : Buf, front.length = (P.numMPCRounds + 1) * P.digestSizeBytes ∧
      S.challengeHash = H E P HASH_PREFIX_NONE (front ++ S.salt ++ sk.pk.ciphertext.take P.stateSizeBytes ++ sk.pk.plaintext.take P.stateSizeBytes ++
        msg.take mlen) P.digestSizeBytes) ∧
    IsChallenge3 P.numMPCRounds P.numMPCParties P.numOpenedRounds (nextDigest E P) S.challengeHash S.challengeC S.challengeP ∧
    S.challengeC.length = P.numOpenedRounds ∧ S.challengeC.Nodup ∧ (∀ t ∈ S.challengeC, t < P.numMPCRounds) ∧
    S.challengeP.length = P.numOpenedRounds ∧ ∀ q ∈ S.challengeP, q < P.numMPCParties := by
  obtain ⟨P', hP', hi3⟩ := getParamSet_p3 hp
  have hWF := paramsWF_of hP
  have h3 := p3WF_of hP hi3
  have hw := hWF.words
  have hb := hWF.bytes
  have hn := hWF.nMax
  rw [signPicnic3_ok hE.perm hWF (seedWF_of hP) (merkleWF_of hP) h3 (p3Sz_of hP hi3) (hE.lowmc _ _ hP) (hI.len _ hp _ hP)
    (hI.inv _ hp _ hP) (by rw [hsk.data]; omega) (by rw [hsk.pk.pt]; omega) (by rw [hsk.pk.ct]; omega) hm hm32] at hS
  unfold signR at hS
  generalize sSalt E P sk.data sk.pk.ciphertext sk.pk.plaintext (msg.take mlen) = salt at *
  generalize sRoot E P sk.data sk.pk.ciphertext sk.pk.plaintext (msg.take mlen) = root at *
  by_cases hR : ofBits ((lowmcOf P (E.lowmc P)).enc (bitsOf sk.data) (bitsOf sk.pk.plaintext)) P.stateSizeBytes = sk.pk.ciphertext.take P.stateSizeBytes
  · rw [if_pos hR] at hS
    cases hx : expandR E P E.fuel (sHash E P salt root sk.data sk.pk.ciphertext sk.pk.plaintext (msg.take mlen)) with
    | none => rw [hx] at hS; cases hS
    | some r =>
      obtain ⟨C, Q⟩ := r
      rw [hx] at hS
      injection hS with hS
      injection hS with hS
      subst hS
      have hc := expandR_wf h3 hx
      refine ⟨⟨cat P.numMPCRounds (sCh E P salt root) ++ sMerkle E P salt root sk.data sk.pk.plaintext 0, ?_, rfl⟩, expandR_spec h3 hx, hc.lenC, hc.nodup,
        hc.ltC, hc.lenQ, hc.ltQ⟩
      rw [List.length_append, cat_length (f := sCh E P salt root) fun t _ => H_length _ _ _ _ _, sMerkle_length]
      ring
  · rw [if_neg hR] at hS; cases hS

/-! ### C21 -/

/-- C21: whatever the sixteen tapes and the key, plaintext and ciphertext are, preprocessing leaves fifteen tapes alone, and
the online phase run on the tapes and the masked key that it returns succeeds if and only if the key encrypts the plaintext
to the ciphertext. -/
theorem C21_online (E : Env) (hE : EnvWF E) (hI : InvWF E) (p : ℕ) (hp : p ∈ picnic3Params) (P : Params) (hP : getParamSet p = some P)
    (tag : ℕ) (tapes : List Buf) (hT : tapes.length = 16) (hTl : ∀ t ∈ tapes, t.length = 2 * P.andSizeBytes)
    (key pt ct : Buf) (hkey : key.length = 32) (hpt : pt.length = 32) (hct : ct.length = 32) :
    ∃ (tapes' : List Buf) (mask masked : Buf) (r : Bool) (tapes'' : RandomTape) (msgs : Msgs),
      computeAuxTape E P tag ⟨tapes, 0⟩ (some (zeros (P.stateSizeWords * 4))) = Outcome.ok (⟨tapes', 0⟩, some mask) ∧
      tapes'.take 15 = tapes.take 15 ∧ tapes'.length = 16 ∧
      xorArray mask mask key P.stateSizeWords = Outcome.ok masked ∧
      simulateOnline E P tag masked ⟨tapes', 0⟩ (allocateMsgs P) pt ct = Outcome.ok (r, tapes'', msgs) ∧
      (r = true ↔ Relation P (E.lowmc P) key pt ct) := by
  obtain ⟨P', hP', hi3⟩ := getParamSet_p3 hp
  have hWF := paramsWF_of hP
  have h3 := p3WF_of hP hi3
  have hw := hWF.words
  have hby := hWF.bytes
  have hn := hWF.nMax
  have hbw := h3.bytes
  obtain ⟨tp, htp⟩ : ∃ tp : ℕ → Buf, tp = fun j => tapes.getD j [] := ⟨_, rfl⟩
  have htl : tapes = arrN 16 tp := by
    apply List.ext_getElem (by simp [arrN, hT])
    intro i h1 h2
    simp [arrN, htp, h1]
  have hl : ∀ j < 16, (tp j).length = 2 * P.andSizeBytes := fun j hj => by
    rw [htp]
    dsimp only
    rw [List.getD_eq_getElem _ _ (by omega)]
    exact hTl _ (List.getElem_mem _)
  have haux := computeAuxTape_ok (E := E) (tag := tag) (inputs := some (zeros (P.stateSizeWords * 4))) hWF h3 (hE.lowmc _ _ hP) (hI.len _ hp _ hP) hl
    (by intro i h; injection h with h; rw [← h, zeros_length]; omega)
  rw [Option.map_some] at haux
  have hin : ofBits (kap P (E.lowmc P) tp) P.stateSizeBytes ++ (zeros (P.stateSizeWords * 4)).drop P.stateSizeBytes =
      ofBits (kap P (E.lowmc P) tp) (4 * P.stateSizeWords) := by
    refine buf_ext (by simp; omega) fun i hi' => ?_
    simp only [List.length_append, ofBits_length, List.length_drop, zeros_length] at hi'
    rw [bitsOf_ofBits _ (by omega)]
    by_cases h : i < 8 * P.stateSizeBytes
    · rw [bitsOf_append_left (by simpa using h), bitsOf_ofBits _ h]
    · obtain ⟨q, rfl⟩ : ∃ q, i = 8 * (ofBits (kap P (E.lowmc P) tp) P.stateSizeBytes).length + q := ⟨i - 8 * P.stateSizeBytes, by simp; omega⟩
      rw [bitsOf_append_right, bitsOf_drop, bitsOf_zeros, kap, mulVec_ge (by simp; omega)]
  rw [hin] at haux
  have hrep : allocateMsgs P = msgs16 (fun _ => zeros P.andSizeBytes) 0 none := by
    unfold allocateMsgs
    rw [h3.parties]
    congr 1
  have hon := simulateOnline_ok (E := E) (P := P) (tag := tag) (mkey := ofBits (kap P (E.lowmc P) tp + bitsOf key) (4 * P.stateSizeWords)) (pt := pt) (pk := ct)
    (tp := auxTp P (E.lowmc P) tp) (ms := fun _ => zeros P.andSizeBytes) (u := none) hWF h3 (hE.lowmc _ _ hP) (by intro q hq; cases hq)
    (fun j hj => by rw [auxTp_length]; exact hl j hj) (fun j _ => by simp) (by simp; omega) (by omega) (by omega)
  rw [← hrep] at hon
  refine ⟨arrN 16 (auxTp P (E.lowmc P) tp), _, _, _, _, _, by rw [htl]; exact haux, ?_, by simp [arrN], xorArray_ofBits (by omega), hon, ?_⟩
  · rw [htl]
    apply List.ext_getElem (by simp [arrN])
    intro i h1 h2
    simp only [List.length_take, arrN, List.length_map, List.length_range] at h1
    rw [List.getElem_take, List.getElem_take]
    simp only [arrN, List.getElem_map, List.getElem_range]
    exact auxTp_ne (by omega)
  · rw [beq_iff_eq, onState_enc (key := bitsOf key) hWF h3 (hI.inv _ hp _ hP) (hl 15 (by omega)) fun i hi => by
      rw [bitsOf_ofBits _ (by omega), Pi.add_apply, add_comm]]
    exact relation_iff hWF (by omega)

/-- C21: signing with a Picnic3 parameter set and a buffer of `picnic_signature_size` bytes returns an error exactly when the
key pair does not match; it then has written nothing. -/
theorem C21_sign (E : Env) (hE : EnvWF E) (hI : InvWF E) (sk : PrivateKey) (hsk : sk.Arrays) (hp : sk.params ∈ picnic3Params) (P : Params)
    (hP : getParamSet sk.params = some P) (msg : Buf) (mlen : ℕ) (hm : mlen ≤ msg.length) (hm32 : mlen + 200 ≤ 2 ^ 32) (buf : Buf) (slen : ℕ)
    (hbuf : slen ≤ buf.length) :
    (¬ Relation P (E.lowmc P) sk.data sk.pk.plaintext sk.pk.ciphertext → picnicSign E (some sk) msg mlen buf slen = Outcome.ok (-1, buf, slen)) ∧
    (picnicSignatureSize sk.params ≤ slen → ∀ r sig len, picnicSign E (some sk) msg mlen buf slen = Outcome.ok (r, sig, len) → r ≠ 0 →
      ¬ Relation P (E.lowmc P) sk.data sk.pk.plaintext sk.pk.ciphertext) := by
  classical
  constructor
  · intro hR
    rw [picnicSign_p3 hE hI hP hp hsk hm hm32 hbuf rfl rfl, if_neg hR]
  · intro hsize r sig len h h0 hR
    rcases (C03_p3 E hE hI sk hsk hp P hP hR msg mlen hm hm32 buf slen hbuf hsize).1 with h' | ⟨s, l, h', -⟩
    · rw [h] at h'; cases h'
    · rw [h] at h'
      injection h' with h'
      injection h' with h'
      exact h0 h'

/-! ### C31 -/

/-- C17 and C31 for Picnic3, signing: the result does not depend on uninitialised memory, on the unused bytes of the key
structure, or on the number of digests the sampling loops may use, once they have terminated. -/
theorem C31_p3_sign (E : Env) (hE : EnvWF E) (hI : InvWF E) (junk' : ℕ → ℕ → ℕ → Byte) (fuel' : ℕ) (hfuel : E.fuel ≤ fuel')
    (sk sk' : PrivateKey) (hsk : sk.Arrays) (hsk' : sk'.Arrays) (hp : sk.params ∈ picnic3Params) (n : ℕ)
    (hn : blockBits sk.params = some n) (h1 : sk'.params = sk.params)
    (h2 : sk'.data.take (bytesFor n) = sk.data.take (bytesFor n))
    (h3 : sk'.pk.plaintext.take (bytesFor n) = sk.pk.plaintext.take (bytesFor n))
    (h4 : sk'.pk.ciphertext.take (bytesFor n) = sk.pk.ciphertext.take (bytesFor n))
    (msg : Buf) (mlen : ℕ) (hm : mlen ≤ msg.length) (hm32 : mlen + 200 ≤ 2 ^ 32)
    (buf : Buf) (slen : ℕ) (hbuf : slen ≤ buf.length)
    (hterm : picnicSign E (some sk) msg mlen buf slen ≠ Outcome.diverge) :
    picnicSign { E with junk := junk', fuel := fuel' } (some sk') msg mlen buf slen =
      picnicSign E (some sk) msg mlen buf slen := by
  classical
  obtain ⟨P, hP, hi3⟩ := getParamSet_p3 hp
  have hnP := blockBits_of hP
  rw [hn] at hnP
  obtain rfl : n = P.stateSizeBits := by simpa using hnP
  have hWF := paramsWF_of hP
  have hp3 := p3WF_of hP hi3
  have hb := hWF.bytes
  have hnM := hWF.nMax
  rw [bytesFor, ← hb] at h2 h3 h4
  have hRR : Relation P (E.lowmc P) sk'.data sk'.pk.plaintext sk'.pk.ciphertext ↔
      Relation P (E.lowmc P) sk.data sk.pk.plaintext sk.pk.ciphertext :=
    relation_congr hWF (fun i hi => bits_take h2 i (by omega)) (fun i hi => bits_take h3 i (by omega))
      (by rw [bytesFor, ← hb]; exact bits_take h4)
  have hsr : sSaltRoot E P sk'.data sk'.pk.ciphertext sk'.pk.plaintext (msg.take mlen) = sSaltRoot E P sk.data sk.pk.ciphertext sk.pk.plaintext (msg.take mlen) := by
    unfold sSaltRoot; rw [h2, h3, h4]
  have hsalt : sSalt E P sk.data sk.pk.ciphertext sk.pk.plaintext (msg.take mlen) =
      sSalt { E with junk := junk', fuel := fuel' } P sk'.data sk'.pk.ciphertext sk'.pk.plaintext (msg.take mlen) := by
    exact (congrArg (List.take P.saltSizeBytes) hsr).symm.trans (congrFun (congrFun (congrFun (congrFun sSalt_env _) _) _) _).symm
  have hroot : sRoot E P sk.data sk.pk.ciphertext sk.pk.plaintext (msg.take mlen) =
      sRoot { E with junk := junk', fuel := fuel' } P sk'.data sk'.pk.ciphertext sk'.pk.plaintext (msg.take mlen) := by
    exact (congrArg (List.drop P.saltSizeBytes) hsr).symm.trans (congrFun (congrFun (congrFun (congrFun sRoot_env _) _) _) _).symm
  rw [picnicSign_p3 hE hI hP hp hsk hm hm32 hbuf rfl rfl] at hterm ⊢
  rw [picnicSign_p3 (E := { E with junk := junk', fuel := fuel' }) ⟨hE.perm, hE.lowmc⟩ ⟨hI.len, hI.inv⟩ (h1 ▸ hP) (h1 ▸ hp) hsk' hm hm32 hbuf hsalt hroot]
  generalize sSalt E P sk.data sk.pk.ciphertext sk.pk.plaintext (msg.take mlen) = salt at hterm ⊢
  generalize sRoot E P sk.data sk.pk.ciphertext sk.pk.plaintext (msg.take mlen) = root at hterm ⊢
  simp only [sHash_env, sSig_env, expandR_env]
  have hH := fun C Q => sSig_congr (E := E) (salt := salt) (root := root) (C := C) (Q := Q) (msg := msg.take mlen) hWF hp3 h2 h3 h4
  generalize sHash E P salt root sk'.data sk'.pk.ciphertext sk'.pk.plaintext (msg.take mlen) = h' at hH ⊢
  generalize sHash E P salt root sk.data sk.pk.ciphertext sk.pk.plaintext (msg.take mlen) = h0 at hH hterm ⊢
  by_cases hR : Relation P (E.lowmc P) sk.data sk.pk.plaintext sk.pk.ciphertext
  · rw [if_pos hR] at hterm ⊢
    rw [if_pos (hRR.2 hR), (hH [] []).1]
    cases hx : expandR E P E.fuel h0 with
    | none => rw [hx] at hterm; exact absurd rfl hterm
    | some r =>
      obtain ⟨C, Q⟩ := r
      rw [expandR_mono hx hfuel]
      dsimp only
      rw [(hH C Q).2]
  · rw [if_neg hR, if_neg (fun h => hR (hRR.1 h))]

end Picnic
