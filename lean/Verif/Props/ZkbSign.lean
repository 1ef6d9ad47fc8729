import Verif.Proofs.ZkbApi
import Verif.Props.Example

/-
Properties of signing with the ZKB++ parameter sets: C01, C03, C05, C06, C17 (ZKB++), C22, C31 (signing), C32.
-/

namespace Picnic

open Spec Spec.Challenge Finset

/-- Three values. -/
def pick3 (a b c : Buf) : ℕ → Buf := fun i => if i = 0 then a else if i = 1 then b else c

theorem pick3_all {p : Buf → Prop} {a b c : Buf} (h0 : p a) (h1 : p b) (h2 : p c) : ∀ i < 3, p (pick3 a b c i) := by
  intro i _
  unfold pick3
  split_ifs <;> assumption

theorem andSize_le {p : ℕ} {P : Params} (h : getParamSet p = some P) : 3 * P.numSboxes * P.numRounds ≤ 8 * P.andSizeBytes := by
  obtain ⟨h1, h2⟩ := getParamSet_bounds h
  interval_cases p <;> (injection h with h; subst h; decide)

/-! ### C01 -/

/-- C01: if `picnic_sign` returns 0, then `picnic_verify` accepts the signature, from any buffer that starts with the
returned bytes, for any public key structure with the same encoded public key, whatever the uninitialised memory of
either call contains (`E.junk`, `junk'`).  The padding bits of the secret have to be zero, as `picnic_keygen` and
`picnic_read_private_key` ensure. -/
theorem C01_sign_verify (E : Env) (hE : EnvWF E) (junk' : ℕ → ℕ → ℕ → Byte) (fuel' : ℕ) (hfuel : E.fuel ≤ fuel')
    (sk : PrivateKey) (hsk : sk.Arrays) (hp : sk.params ∈ zkbParams) (n : ℕ) (hn : blockBits sk.params = some n)
    (hpad : ZeroPad n sk.data) (msg : Buf) (mlen : ℕ) (hm : mlen ≤ msg.length) (hm32 : mlen + 200 ≤ 2 ^ 32)
    (buf : Buf) (slen : ℕ) (hbuf : slen ≤ buf.length) (sig : Buf) (len : ℕ)
    (hs : picnicSign E (some sk) msg mlen buf slen = Outcome.ok (0, sig, len))
    (pk : PublicKey) (hpk : pk.Arrays) (hpp : pk.params = sk.params)
    (hct : pk.ciphertext.take (bytesFor n) = sk.pk.ciphertext.take (bytesFor n))
    (hpt : pk.plaintext.take (bytesFor n) = sk.pk.plaintext.take (bytesFor n))
    (b : Buf) (hb : b.take len = sig.take len) (hbl : len ≤ b.length) :
    picnicVerify { E with junk := junk', fuel := fuel' } (some pk) msg mlen b len = Outcome.ok 0 := by
  classical
  obtain ⟨P, hP, h3⟩ := getParamSet_zkb hp
  have hnP := blockBits_of hP
  rw [hn] at hnP
  obtain rfl : n = P.stateSizeBits := by simpa using hnP
  have hWF := paramsWF_of hP
  have hZ := zkbWF_of hP h3
  have hbytes := hWF.bytes
  have hnM := hWF.nMax
  have hnb := numBytes_eq (2 * P.numMPCRounds)
  rw [bytesFor, ← hbytes] at hct hpt
  obtain ⟨views, ch, hv, hR, hx, hchl, hch3, hslen, hsig, hlen⟩ := picnicSign_zkb_zero hE hP h3 hsk hm hm32 hbuf rfl hs
  generalize hslab : seedSlab E P sk.data sk.pk.ciphertext sk.pk.plaintext (msg.take mlen) = slab at hv hx hsig
  obtain ⟨hsl1, hsl2⟩ := slab_lengths hZ hslab.symm
  have hq : ∀ k < P.numMPCRounds, QWF P (chal ch k) (honestProof E P (slabSeed P slab k) (views k) (chal ch k)) :=
    fun k hk => honestProof_wf (hv k hk) (hsl2 k hk) (hch3 k hk)
  have hel := encSig_length hchl hsl1 hq
  have hb' : b = encSig P ch (slabSalt P slab) (fun i => honestProof E P (slabSeed P slab i) (views i) (chal ch i)) ++
      b.drop len := by
    have : b.take len = encSig P ch (slabSalt P slab) (fun i => honestProof E P (slabSeed P slab i) (views i) (chal ch i)) := by
      rw [hb, hsig, hlen]; exact List.take_left' hel
    rw [← this, List.take_append_drop]
  obtain ⟨hd1, hd2, hd3, hd4, hd5, hd6⟩ := dec_of_encSig hchl hsl1 hq hb'
  have hb3 : ∀ i < P.numMPCRounds, chal b i < 3 := fun i hi => by rw [hd3 i hi]; exact hch3 i hi
  have hD : Decodes P b len := by
    refine ⟨?_, ?_, hb3, ?_⟩
    · rw [hlen, encSigLen, offOf]; omega
    · rw [hlen, ← hd5]; exact decLen_le hZ hb3
    · intro i hi h0
      rw [← decProofs, hd6 i hi]
      rw [hd3 i hi] at h0
      simp only [honestProof, if_neg h0]
      rw [(hv i hi).inp 2 (by omega), ← zpad_share2 hWF (zeroPad_iff.1 hpad)]
      intro p hp _
      rw [bitsOf_zpad, trunc, if_neg (by omega)]
  obtain ⟨v1, v2, hov, e⟩ := picnicVerify_zkb (E := { E with junk := junk', fuel := fuel' }) (b := b) (n := len) (msg := msg)
    (mlen := mlen) (pk := pk) ⟨hE.perm, hE.lowmc⟩ (hpp ▸ hP) (hpp ▸ h3) hpk hm hm32 hbl (fun _ _ => by rw [hd5, ← hlen]; exact hbl)
  rw [e, if_pos hD, hd1]
  have hov' := hov hD
  have hptb : ∀ i < P.stateSizeBits, bitsOf sk.pk.plaintext i = bitsOf pk.plaintext i := fun i hi =>
    ((take_eq_iff (by rw [hpk.pt]; omega) (by rw [hsk.pk.pt]; omega)).1 hpt i (by omega)).symm
  have hctb := (take_eq_iff (by rw [hpk.ct]; omega) (by rw [hsk.pk.ct]; omega)).1 hct
  have hviews : ∀ k < P.numMPCRounds, v1 k = views k (chal ch k) ∧ v2 k = views k ((chal ch k + 1) % 3) := by
    intro k hk
    have h := hov' k hk
    rw [hd6 k hk, hd3 k hk, hd2] at h
    exact honest_opened hWF hptb (zeroPad_iff.1 hpad) (hch3 k hk) (hv k hk) (opened_env h)
  have hin : verInput { E with junk := junk', fuel := fuel' } P pk.ciphertext pk.plaintext (decSalt P b) (msg.take mlen)
      (chal b) (decProofs P b) v1 v2 =
      signInput E P sk.pk.ciphertext sk.pk.plaintext (slabSalt P slab) (msg.take mlen) (slabSeed P slab) views := by
    rw [hd2]
    unfold verInput signInput
    have hcongr : ∀ outs coms gs salt m, h3Input P pk.ciphertext pk.plaintext outs coms gs salt m =
        h3Input P sk.pk.ciphertext sk.pk.plaintext outs coms gs salt m := by
      intro outs coms gs salt m
      unfold h3Input
      rw [hct, hpt]
    rw [hcongr]
    refine h3Input_congr ?_ ?_ ?_
    · intro k hk j hj
      rw [hd3 k hk, (hviews k hk).1, (hviews k hk).2]
      refine honest_verOuts (hv k hk) (by rw [hpk.ct]; omega) ?_ (hch3 k hk) hj
      rw [honest_sum hWF (hv k hk), hct]
      refine buf_ext (by simp [hsk.pk.ct]; omega) fun i hi => ?_
      have hi' : i < 8 * P.stateSizeBytes := by simpa using hi
      rw [bitsOf_ofBits _ hi', bitsOf_take hi', hR i (by rw [bytesFor]; omega)]
      split_ifs with h
      · rfl
      · exact enc_ge hWF.rounds (by omega)
    · intro k hk j hj
      rw [hd3 k hk, (hviews k hk).1, (hviews k hk).2, hd6 k hk]
      exact honest_verComs (hch3 k hk) hj
    · intro hU k hk j hj
      rw [hd3 k hk, (hviews k hk).1, (hviews k hk).2, hd6 k hk]
      exact congrArg _ (honest_verGs hU (hch3 k hk) hj)
  rw [hin]
  have hx' := expandTrits_fuel (junk := junk') (fuel := fuel') hfuel hx
  rw [show h3Digest { E with junk := junk', fuel := fuel' } P = h3Digest E P from rfl, hx', ok_bind, if_pos rfl]

/-! ### C03, C05, C06 -/

/-- C03 for ZKB++: with a matching key pair and a buffer of `picnic_signature_size` bytes signing returns 0 and at most
that many bytes; the only alternative is that the sampling of the challenge has not finished after `E.fuel` digests, which
cannot happen if any chain of `E.fuel` digests has enough usable values. -/
theorem C03_zkb (E : Env) (hE : EnvWF E) (sk : PrivateKey) (hsk : sk.Arrays) (hp : sk.params ∈ zkbParams) (P : Params)
    (hP : getParamSet sk.params = some P) (hR : Relation P (E.lowmc P) sk.data sk.pk.plaintext sk.pk.ciphertext)
    (msg : Buf) (mlen : ℕ) (hm : mlen ≤ msg.length) (hm32 : mlen + 200 ≤ 2 ^ 32) (buf : Buf) (slen : ℕ)
    (hbuf : slen ≤ buf.length) (hsize : picnicSignatureSize sk.params ≤ slen) :
    (picnicSign E (some sk) msg mlen buf slen = Outcome.diverge ∨
      ∃ sig len, picnicSign E (some sk) msg mlen buf slen = Outcome.ok (0, sig, len) ∧
        len ≤ picnicSignatureSize sk.params ∧ sig.length = buf.length) ∧
    ((∀ d : Buf, d.length = P.digestSizeBytes → P.numMPCRounds ≤ (stream (nextDigest E P) d E.fuel).length) →
      picnicSign E (some sk) msg mlen buf slen ≠ Outcome.diverge) := by
  classical
  obtain ⟨P', hP', h3⟩ := getParamSet_zkb hp
  rw [hP] at hP'
  obtain rfl : P = P' := by simpa using hP'
  have hZ := zkbWF_of hP h3
  have hs := serLen_eq hP h3
  obtain ⟨views, hv, e⟩ := picnicSign_zkb hE hP h3 hsk hm hm32 hbuf rfl
  rw [e, if_pos hR]
  generalize hslab : seedSlab E P sk.data sk.pk.ciphertext sk.pk.plaintext (msg.take mlen) = slab at hv e ⊢
  obtain ⟨hsl1, hsl2⟩ := slab_lengths hZ hslab.symm
  rcases expandTrits_cases E P (h3Digest E P (signInput E P sk.pk.ciphertext sk.pk.plaintext (slabSalt P slab)
      (msg.take mlen) (slabSeed P slab) views)) with h | ⟨ch, h, h4, h5⟩
  · rw [h]
    refine ⟨Or.inl rfl, fun hd => ?_⟩
    exfalso
    unfold expandTrits at h
    rw [if_pos (hd _ (by simp [h3Digest]))] at h
    cases h
  · rw [h, ok_bind, if_neg (by omega)]
    refine ⟨Or.inr ⟨_, _, rfl, ?_, ?_⟩, fun _ => by simp⟩
    · rw [← hs]; exact encSigLen_le hZ h5
    · have := encSigLen_le hZ h5
      rw [List.length_append, encSig_length h4 hsl1 fun k hk => honestProof_wf (hv k hk) (hsl2 k hk) (h5 k hk)]
      simp; omega

/-- C05 for ZKB++: whenever signing returns, it either returns -1 and has changed neither the buffer nor the length, or it
returns 0, the returned length is at most the given one, and the bytes from the returned length on are unchanged.  It
returns -1 if the given length is less than `picnic_signature_size`. -/
theorem C05_zkb (E : Env) (hE : EnvWF E) (sk : PrivateKey) (hsk : sk.Arrays) (hp : sk.params ∈ zkbParams)
    (msg : Buf) (mlen : ℕ) (hm : mlen ≤ msg.length) (hm32 : mlen + 200 ≤ 2 ^ 32) (buf : Buf) (slen : ℕ)
    (hbuf : slen ≤ buf.length) (r : Int) (sig : Buf) (len : ℕ)
    (h : picnicSign E (some sk) msg mlen buf slen = Outcome.ok (r, sig, len)) :
    ((r = -1 ∧ sig = buf ∧ len = slen) ∨
      (r = 0 ∧ len ≤ slen ∧ sig.length = buf.length ∧ sig.drop len = buf.drop len)) ∧
    (slen < picnicSignatureSize sk.params → r = -1) := by
  classical
  obtain ⟨P, hP, h3⟩ := getParamSet_zkb hp
  have hZ := zkbWF_of hP h3
  have hs := serLen_eq hP h3
  obtain ⟨views, hv, e⟩ := picnicSign_zkb hE hP h3 hsk hm hm32 hbuf rfl
  rw [e] at h
  generalize hslab : seedSlab E P sk.data sk.pk.ciphertext sk.pk.plaintext (msg.take mlen) = slab at hv h
  obtain ⟨hsl1, hsl2⟩ := slab_lengths hZ hslab.symm
  by_cases hR : Relation P (E.lowmc P) sk.data sk.pk.plaintext sk.pk.ciphertext
  · rw [if_pos hR] at h
    rcases expandTrits_cases E P (h3Digest E P (signInput E P sk.pk.ciphertext sk.pk.plaintext (slabSalt P slab)
      (msg.take mlen) (slabSeed P slab) views)) with hd | ⟨ch, hd, h4, h5⟩
    · rw [hd] at h; cases h
    · rw [hd, ok_bind] at h
      by_cases hl : slen < serLen P
      · rw [if_pos hl] at h
        simp only [Outcome.ok.injEq, Prod.mk.injEq] at h
        exact ⟨Or.inl ⟨h.1.symm, h.2.1.symm, h.2.2.symm⟩, fun _ => h.1.symm⟩
      · rw [if_neg hl] at h
        simp only [Outcome.ok.injEq, Prod.mk.injEq] at h
        obtain ⟨rfl, rfl, rfl⟩ := h
        have hle := encSigLen_le hZ h5
        have hel := encSig_length h4 hsl1 fun k hk => honestProof_wf (hv k hk) (hsl2 k hk) (h5 k hk)
        refine ⟨Or.inr ⟨rfl, by omega, ?_, ?_⟩, fun hc => by omega⟩
        · rw [List.length_append, hel]; simp; omega
        · exact List.drop_left' hel
  · rw [if_neg hR] at h
    simp only [Outcome.ok.injEq, Prod.mk.injEq] at h
    exact ⟨Or.inl ⟨h.1.symm, h.2.1.symm, h.2.2.symm⟩, fun _ => h.1.symm⟩

/-! ### C17 -/

theorem chal_eq_value (b : Buf) (i : ℕ) : chal b i = value b i := by
  have key : ∀ j, (bitsOf b j).val = bit b j := by
    intro j
    unfold bitsOf byteBit bit
    have h : ∀ (x : Byte) (k : ℕ), (x.getLsbD k) = decide (x.toNat / 2 ^ k % 2 = 1) := by
      intro x k
      rw [BitVec.getLsbD, Nat.testBit_eq_decide_div_mod_eq]
    rw [h]
    have := Nat.mod_two_eq_zero_or_one ((b.getD (j / 8) 0).toNat / 2 ^ (7 - j % 8))
    rcases this with h | h <;> rw [h] <;> decide
  unfold chal value
  rw [key, key]; omega

theorem bitsOf_eq_zero {b : Buf} {i : ℕ} (h : bitsOf b i = 0) : bit b i = 0 := by
  unfold bitsOf byteBit at h
  unfold bit
  have h' : ∀ (x : Byte) (k : ℕ), (x.getLsbD k) = decide (x.toNat / 2 ^ k % 2 = 1) := by
    intro x k
    rw [BitVec.getLsbD, Nat.testBit_eq_decide_div_mod_eq]
  rw [h'] at h
  have := Nat.mod_two_eq_zero_or_one ((b.getD (i / 8) 0).toNat / 2 ^ (7 - i % 8))
  rcases this with h2 | h2
  · exact h2
  · rw [h2] at h; exact absurd h (by decide)

theorem expandTrits_spec {E : Env} {P : Params} {d ch : Buf} (h : expandTrits E P d = Outcome.ok ch) :
    ∃ l, IsChallenge P.numMPCRounds (nextDigest E P) d l ∧ l.length = P.numMPCRounds ∧
      (∀ i < P.numMPCRounds, value ch i = l.getD i 0 ∧ value ch i < 3) ∧
      ∀ i, 2 * P.numMPCRounds ≤ i → bit ch i = 0 := by
  unfold expandTrits at h
  by_cases hd : P.numMPCRounds ≤ (stream (nextDigest E P) d E.fuel).length
  · rw [if_pos hd] at h
    obtain rfl : encTrits P.numMPCRounds ((stream (nextDigest E P) d E.fuel).take P.numMPCRounds) = ch := by simpa using h
    have hl3 : ∀ x ∈ (stream (nextDigest E P) d E.fuel).take P.numMPCRounds, x < 3 := fun x hx =>
      stream_lt (List.mem_of_mem_take hx)
    refine ⟨_, ⟨E.fuel, hd, rfl⟩, by simp; omega, fun i hi => ?_, fun i hi => ?_⟩
    · rw [← chal_eq_value, chal_encTrits hl3 hi]
      refine ⟨rfl, ?_⟩
      rw [List.getD_eq_getElem _ _ (by simp; omega)]
      exact hl3 _ (List.getElem_mem _)
    · apply bitsOf_eq_zero
      by_cases h2 : i < 8 * numBytes (2 * P.numMPCRounds)
      · rw [encTrits, bitsOf_ofBits _ h2, if_neg (by omega)]
      · exact bitsOf_ge (by simp; omega)
  · rw [if_neg hd] at h; cases h

/-- C17 for ZKB++, signing: a signature starts with the challenge, which is the sequence of values in {0, 1, 2} that the
specification derives from a digest, followed by zero bits up to the byte boundary.  The digest is the hash of a string that
ends with the public key, the salt (which follows the challenge in the signature) and the message. -/
theorem C17_zkb_sign (E : Env) (hE : EnvWF E) (sk : PrivateKey) (hsk : sk.Arrays) (hp : sk.params ∈ zkbParams) (P : Params)
    (hP : getParamSet sk.params = some P) (msg : Buf) (mlen : ℕ) (hm : mlen ≤ msg.length) (hm32 : mlen + 200 ≤ 2 ^ 32)
    (buf : Buf) (slen : ℕ) (hbuf : slen ≤ buf.length) (sig : Buf) (len : ℕ)
    (hs : picnicSign E (some sk) msg mlen buf slen = Outcome.ok (0, sig, len)) :
    ∃ (d front : Buf) (l : List ℕ),
      d = H E P HASH_PREFIX_1 (front ++ sk.pk.ciphertext.take P.stateSizeBytes ++ sk.pk.plaintext.take P.stateSizeBytes ++
        (sig.drop (bytesFor (2 * P.numMPCRounds))).take P.saltSizeBytes ++ msg.take mlen) P.digestSizeBytes ∧
      IsChallenge P.numMPCRounds (nextDigest E P) d l ∧ l.length = P.numMPCRounds ∧
      (∀ i < P.numMPCRounds, value sig i = l.getD i 0 ∧ value sig i < 3) ∧
      ∀ i, 2 * P.numMPCRounds ≤ i → i < 8 * bytesFor (2 * P.numMPCRounds) → bit sig i = 0 := by
  obtain ⟨P', hP', h3⟩ := getParamSet_zkb hp
  rw [hP] at hP'
  obtain rfl : P = P' := by simpa using hP'
  have hZ := zkbWF_of hP h3
  have hnb := numBytes_eq (2 * P.numMPCRounds)
  obtain ⟨views, ch, hv, hR, hx, hchl, hch3, hslen, hsig, hlen⟩ := picnicSign_zkb_zero hE hP h3 hsk hm hm32 hbuf rfl hs
  generalize hslab : seedSlab E P sk.data sk.pk.ciphertext sk.pk.plaintext (msg.take mlen) = slab at hv hx hsig
  obtain ⟨hsl1, hsl2⟩ := slab_lengths hZ hslab.symm
  have hq : ∀ k < P.numMPCRounds, QWF P (chal ch k) (honestProof E P (slabSeed P slab k) (views k) (chal ch k)) :=
    fun k hk => honestProof_wf (hv k hk) (hsl2 k hk) (hch3 k hk)
  obtain ⟨hd1, hd2, hd3, -⟩ := dec_of_encSig hchl hsl1 hq hsig
  obtain ⟨l, h1, h2, h4, h5⟩ := expandTrits_spec hx
  refine ⟨_, h3Front P (fun k j => (views k j).outputShare) (fun k j => commitOf E P (slabSeed P slab k j) (views k j))
    (fun k j => gOf E P j (slabSeed P slab k j) (views k j)), l, ?_, h1, h2, fun i hi => ?_, fun i h6 h7 => ?_⟩
  · rw [h3Digest, signInput, h3Input_front, bytesFor, ← hnb, ← hd2]; rfl
  · rw [← chal_eq_value, hd3 i hi, chal_eq_value]; exact h4 i hi
  · have : bit sig i = bit (sig.take (numBytes (2 * P.numMPCRounds))) i := by
      unfold bit
      rw [bytesFor] at h7
      rw [List.getD_eq_getElem?_getD, List.getD_eq_getElem?_getD, List.getElem?_take_of_lt (by omega)]
    rw [this, hd1]
    exact h5 i h6

theorem outcome_bind_diverge {α β : Type} {x : M α} {f : α → M β} (hx : x = Outcome.diverge ∨ ∃ a, x = Outcome.ok a)
    (hf : ∀ a, ∃ b, f a = Outcome.ok b) (h : x >>= f ≠ Outcome.diverge) : ∃ a, x = Outcome.ok a := by
  rcases hx with rfl | h'
  · exact absurd rfl h
  · exact h'

/-- C17 and C31 for ZKB++, signing: the result does not depend on uninitialised memory, on the unused bytes of the key
structure, or on the number of digests the sampling loop may use, once it has terminated. -/
theorem C31_zkb_sign (E : Env) (hE : EnvWF E) (junk' : ℕ → ℕ → ℕ → Byte) (fuel' : ℕ) (hfuel : E.fuel ≤ fuel')
    (sk sk' : PrivateKey) (hsk : sk.Arrays) (hsk' : sk'.Arrays) (hp : sk.params ∈ zkbParams) (n : ℕ)
    (hn : blockBits sk.params = some n) (h1 : sk'.params = sk.params)
    (h2 : sk'.data.take (bytesFor n) = sk.data.take (bytesFor n))
    (h3 : sk'.pk.plaintext.take (bytesFor n) = sk.pk.plaintext.take (bytesFor n))
    (h4 : sk'.pk.ciphertext.take (bytesFor n) = sk.pk.ciphertext.take (bytesFor n))
    (msg : Buf) (mlen : ℕ) (hm : mlen ≤ msg.length) (hm32 : mlen + 200 ≤ 2 ^ 32)
    (buf : Buf) (slen : ℕ) (hbuf : slen ≤ buf.length)
    (hterm : picnicSign E (some sk) msg mlen buf slen ≠ Outcome.diverge) :
    picnicSign { E with junk := junk', fuel := fuel' } (some sk') msg mlen buf slen =
      picnicSign E (some sk) msg mlen buf slen := by
  classical
  obtain ⟨P, hP, h3'⟩ := getParamSet_zkb hp
  have hnP := blockBits_of hP
  rw [hn] at hnP
  obtain rfl : n = P.stateSizeBits := by simpa using hnP
  have hWF := paramsWF_of hP
  have hZ := zkbWF_of hP h3'
  have hbytes := hWF.bytes
  have hnM := hWF.nMax
  rw [bytesFor, ← hbytes] at h2 h3 h4
  have b2 := (take_eq_iff (by rw [hsk'.data]; omega) (by rw [hsk.data]; omega)).1 h2
  have b3 := (take_eq_iff (by rw [hsk'.pk.pt]; omega) (by rw [hsk.pk.pt]; omega)).1 h3
  have b4 := (take_eq_iff (by rw [hsk'.pk.ct]; omega) (by rw [hsk.pk.ct]; omega)).1 h4
  obtain ⟨views, hv, e⟩ := picnicSign_zkb hE hP h3' hsk hm hm32 hbuf rfl
  obtain ⟨views', hv', e'⟩ := picnicSign_zkb (E := { E with junk := junk', fuel := fuel' }) (sk := sk') (msg := msg) (mlen := mlen)
    (buf := buf) (slen := slen) ⟨hE.perm, hE.lowmc⟩ (h1 ▸ hP) (h1 ▸ h3') hsk' hm hm32 hbuf rfl
  have hslab : seedSlab { E with junk := junk', fuel := fuel' } P sk'.data sk'.pk.ciphertext sk'.pk.plaintext (msg.take mlen) =
      seedSlab E P sk.data sk.pk.ciphertext sk.pk.plaintext (msg.take mlen) := by
    unfold seedSlab; rw [h2, h3, h4]; rfl
  rw [hslab] at hv' e'
  generalize seedSlab E P sk.data sk.pk.ciphertext sk.pk.plaintext (msg.take mlen) = slab at *
  have hvv : ∀ k < P.numMPCRounds, ∀ j < 3, views' k j = views k j := fun k hk =>
    honest_unique hWF (honest_congr hWF b2 (fun i hi => b3 i (by omega)) (honest_env (hv' k hk))) (hv k hk)
  have hin : signInput { E with junk := junk', fuel := fuel' } P sk'.pk.ciphertext sk'.pk.plaintext (slabSalt P slab)
      (msg.take mlen) (slabSeed P slab) views' = signInput E P sk.pk.ciphertext sk.pk.plaintext (slabSalt P slab)
      (msg.take mlen) (slabSeed P slab) views := by
    unfold signInput
    have hcongr : ∀ outs coms gs salt m, h3Input P sk'.pk.ciphertext sk'.pk.plaintext outs coms gs salt m =
        h3Input P sk.pk.ciphertext sk.pk.plaintext outs coms gs salt m := by
      intro outs coms gs salt m
      unfold h3Input
      rw [h3, h4]
    rw [hcongr]
    refine h3Input_congr ?_ ?_ ?_
    · intro k hk j hj; rw [hvv k hk j hj]
    · intro k hk j hj; rw [hvv k hk j hj]; rfl
    · intro _ k hk j hj; rw [hvv k hk j hj]; rfl
  have hRR : Relation P (E.lowmc P) sk'.data sk'.pk.plaintext sk'.pk.ciphertext ↔
      Relation P (E.lowmc P) sk.data sk.pk.plaintext sk.pk.ciphertext :=
    relation_congr hWF (fun i hi => b2 i (by omega)) (fun i hi => b3 i (by omega))
      (by rw [bytesFor, ← hbytes]; exact b4)
  rw [e] at hterm
  rw [e, e', hin]
  by_cases hR : Relation P (E.lowmc P) sk.data sk.pk.plaintext sk.pk.ciphertext
  · rw [if_pos hR] at hterm
    rw [if_pos hR, if_pos (hRR.2 hR)]
    rcases expandTrits_cases E P (h3Digest E P (signInput E P sk.pk.ciphertext sk.pk.plaintext (slabSalt P slab)
      (msg.take mlen) (slabSeed P slab) views)) with hd | ⟨ch, hd, h6, h5⟩
    · rw [hd] at hterm; exact absurd rfl hterm
    · have hd' := expandTrits_fuel (junk := junk') (fuel := fuel') hfuel hd
      rw [show h3Digest { E with junk := junk', fuel := fuel' } P = h3Digest E P from rfl, hd', hd, ok_bind, ok_bind]
      congr 5
      exact encSig_congr fun i hi => honestProof_congr (h5 i hi) (hvv i hi)
  · rw [if_neg hR, if_neg (fun h => hR (hRR.1 h))]

/-! ### C22 -/

/-- C22: whatever the three tapes and key shares are, the three-party computation does not go out of bounds, leaves the
key shares alone, and its three output shares add up to the encryption of the plaintext under the sum of the key shares. -/
theorem C22_mpc (E : Env) (hE : EnvWF E) (p : ℕ) (P : Params) (hP : getParamSet p = some P) (tag : ℕ)
    (t0 t1 t2 k0 k1 k2 c0 c1 c2 o0 o1 o2 pt slab : Buf) (hs : 24 * P.stateSizeWords ≤ slab.length) (hp : pt.length = 32)
    (hk0 : k0.length = P.stateSizeBytes) (hk1 : k1.length = P.stateSizeBytes) (hk2 : k2.length = P.stateSizeBytes)
    (ht0 : t0.length = P.andSizeBytes) (ht1 : t1.length = P.andSizeBytes) (ht2 : t2.length = P.andSizeBytes)
    (hc0 : c0.length = P.andSizeBytes) (hc1 : c1.length = P.andSizeBytes) (hc2 : c2.length = P.andSizeBytes)
    (ho0 : o0.length = P.stateSizeBytes) (ho1 : o1.length = P.stateSizeBytes) (ho2 : o2.length = P.stateSizeBytes) :
    ∃ d0 d1 d2 q0 q1 q2 : Buf, ∃ tapes,
      mpcLowMC E P tag ⟨[t0, t1, t2], 0⟩ [⟨k0, c0, o0⟩, ⟨k1, c1, o1⟩, ⟨k2, c2, o2⟩] pt slab =
        Outcome.ok ([⟨k0, d0, q0⟩, ⟨k1, d1, q1⟩, ⟨k2, d2, q2⟩], tapes) ∧
      q0.length = P.stateSizeBytes ∧ q1.length = P.stateSizeBytes ∧ q2.length = P.stateSizeBytes ∧
      ∀ i < 8 * P.stateSizeBytes, bitsOf q0 i + bitsOf q1 i + bitsOf q2 i =
        if i < P.stateSizeBits then (lowmcOf P (E.lowmc P)).enc (bitsOf k0 + bitsOf k1 + bitsOf k2) (bitsOf pt) i else 0 := by
  have hWF := paramsWF_of hP
  have hb := hWF.bytes
  have hw := hWF.words
  have hn := hWF.nMax
  have hand := andSize_le hP
  have hk := pick3_all (p := fun x => x.length = P.stateSizeBytes) hk0 hk1 hk2
  have ht := pick3_all (p := fun x => x.length = P.andSizeBytes) ht0 ht1 ht2
  have hc := pick3_all (p := fun x => x.length = P.andSizeBytes) hc0 hc1 hc2
  have ho := pick3_all (p := fun x => x.length = P.stateSizeBytes) ho0 ho1 ho2
  obtain ⟨d, e, -, -, hcons⟩ := mpcLowMC_ok (E := E) (P := P) (tag := tag) (tape := pick3 t0 t1 t2) (key := pick3 k0 k1 k2)
    (comm := pick3 c0 c1 c2) (out := pick3 o0 o1 o2) (plaintext := pt) (slab := slab) hWF (hE.lowmc _ _ hP) (by omega) (by omega)
    (fun i hi => by rw [hk i hi]; omega) (fun i hi => by rw [ht i hi]; exact hand)
    (fun i hi => by rw [hc i hi]; exact hand) ho
  have hsum := output_sum (hcons 0 (by omega)) (hcons 1 (by omega)) (hcons 2 (by omega))
  refine ⟨d 0, d 1, d 2, _, _, _, _, e, by simp, by simp, by simp, fun i hi => ?_⟩
  rw [bitsOf_ofBits _ hi, bitsOf_ofBits _ hi, bitsOf_ofBits _ hi]
  have := congrFun hsum i
  simp only [Pi.add_apply] at this
  rw [this]
  split_ifs with h
  · rfl
  · exact enc_ge hWF.rounds (by omega)

/-- C22: signing with a ZKB++ parameter set fails if the key pair does not match. -/
theorem C22_mismatch (E : Env) (hE : EnvWF E) (sk : PrivateKey) (hsk : sk.Arrays) (hp : sk.params ∈ zkbParams) (P : Params)
    (hP : getParamSet sk.params = some P) (hR : ¬ Relation P (E.lowmc P) sk.data sk.pk.plaintext sk.pk.ciphertext)
    (msg : Buf) (mlen : ℕ) (hm : mlen ≤ msg.length) (hm32 : mlen + 200 ≤ 2 ^ 32) (buf : Buf) (slen : ℕ)
    (hbuf : slen ≤ buf.length) : picnicSign E (some sk) msg mlen buf slen = Outcome.ok (-1, buf, slen) := by
  classical
  obtain ⟨P', hP', h3⟩ := getParamSet_zkb hp
  rw [hP] at hP'
  obtain rfl : P = P' := by simpa using hP'
  obtain ⟨views, hv, e⟩ := picnicSign_zkb hE hP h3 hsk hm hm32 hbuf rfl
  rw [e, if_neg hR]

/-! ### C32 -/

/-- C32: seeds and salt are the output of SHAKE on one string, for all (secret, message, public key), and no two different
triples give the same string.  (That signing is a function of these data is `C31_zkb_sign`.) -/
theorem C32_seed_input (E : Env) (hE : EnvWF E) (p : ℕ) (hp : p ∈ zkbParams) (P : Params) (hP : getParamSet p = some P) :
    ∃ input : Buf → Buf → Buf → Buf → Buf,
      (∀ sk ct pt msg : Buf, ∀ mlen, sk.length = 32 → ct.length = 32 → pt.length = 32 → mlen ≤ msg.length →
        mlen + 200 ≤ 2 ^ 32 → computeSeeds E P sk ct pt msg mlen = Outcome.ok
          (shake E.perm (rateOf P) (input (sk.take P.stateSizeBytes) (ct.take P.stateSizeBytes) (pt.take P.stateSizeBytes)
            (msg.take mlen)) (3 * P.numMPCRounds * P.seedSizeBytes + P.saltSizeBytes))) ∧
      (∀ sk ct pt msg sk' ct' pt' msg' : Buf, sk.length = P.stateSizeBytes → ct.length = P.stateSizeBytes →
        pt.length = P.stateSizeBytes → sk'.length = P.stateSizeBytes → ct'.length = P.stateSizeBytes →
        pt'.length = P.stateSizeBytes → input sk ct pt msg = input sk' ct' pt' msg' →
        sk = sk' ∧ ct = ct' ∧ pt = pt' ∧ msg = msg') := by
  obtain ⟨P', hP', h3⟩ := getParamSet_zkb hp
  rw [hP] at hP'
  obtain rfl : P = P' := by simpa using hP'
  have hZ := zkbWF_of hP h3
  have hst := hZ.state
  refine ⟨fun sk ct pt msg => sk ++ msg ++ ct ++ pt ++ le16 P.stateSizeBits, ?_, ?_⟩
  · intro sk ct pt msg mlen h1 h2 h4 hm hm32
    rw [computeSeeds_ok hE.perm hZ (by omega) (by omega) (by omega) hm hm32, seedSlab, H, hZ.parties]
    have : P.seedSizeBytes * (3 * P.numMPCRounds) = 3 * P.numMPCRounds * P.seedSizeBytes := by ring
    rw [this]
    rfl
  · intro sk ct pt msg sk' ct' pt' msg' h1 h2 h4 h1' h2' h4' h
    simp only at h
    rw [List.append_left_inj] at h
    obtain ⟨h, r1⟩ := List.append_inj' h (by omega)
    obtain ⟨h, r2⟩ := List.append_inj' h (by omega)
    obtain ⟨r3, r4⟩ := List.append_inj h (by omega)
    exact ⟨r3, r2, r1, r4⟩

/-- C06: the length of a ZKB++ signature is `picnic_signature_size` for UR parameter sets; for the others one secret share
(⌈n/8⌉ bytes) is missing for each repetition with challenge 0. -/
theorem C06_length (E : Env) (hE : EnvWF E) (sk : PrivateKey) (hsk : sk.Arrays) (hp : sk.params ∈ zkbParams) (P : Params)
    (hP : getParamSet sk.params = some P) (msg : Buf) (mlen : ℕ) (hm : mlen ≤ msg.length) (hm32 : mlen + 200 ≤ 2 ^ 32)
    (buf : Buf) (slen : ℕ) (hbuf : slen ≤ buf.length) (sig : Buf) (len : ℕ)
    (hs : picnicSign E (some sk) msg mlen buf slen = Outcome.ok (0, sig, len)) :
    (sk.params ∈ urParams → len = picnicSignatureSize sk.params) ∧
    (sk.params ∉ urParams → len + bytesFor P.stateSizeBits *
      ((List.range P.numMPCRounds).countP fun i => value sig i = 0) = picnicSignatureSize sk.params) := by
  obtain ⟨P', hP', h3⟩ := getParamSet_zkb hp
  rw [hP] at hP'
  obtain rfl : P = P' := by simpa using hP'
  have hZ := zkbWF_of hP h3
  have hWF := paramsWF_of hP
  have hb := hWF.bytes
  obtain ⟨views, ch, hv, hR, hx, hchl, hch3, hslen, hsig, hlen⟩ := picnicSign_zkb_zero hE hP h3 hsk hm hm32 hbuf rfl hs
  generalize hslab : seedSlab E P sk.data sk.pk.ciphertext sk.pk.plaintext (msg.take mlen) = slab at hv hx hsig
  obtain ⟨hsl1, hsl2⟩ := slab_lengths hZ hslab.symm
  have hq : ∀ k < P.numMPCRounds, QWF P (chal ch k) (honestProof E P (slabSeed P slab k) (views k) (chal ch k)) :=
    fun k hk => honestProof_wf (hv k hk) (hsl2 k hk) (hch3 k hk)
  obtain ⟨hd1, -, hd3, -⟩ := dec_of_encSig hchl hsl1 hq hsig
  rw [← serLen_eq hP h3, hlen, ← transform_ur hP]
  refine ⟨fun hU => encSigLen_ur hZ hU hch3, fun hU => ?_⟩
  have hcount : (List.range P.numMPCRounds).countP (fun i => value sig i = 0) =
      (List.range P.numMPCRounds).countP (fun i => chal ch i = 0) := by
    apply List.countP_congr
    intro i hi
    rw [← chal_eq_value, hd3 i (List.mem_range.1 hi)]
  rw [hcount, bytesFor, ← hb, encSigLen, offOf, sum_congr rfl fun i hi => encLen_fs hU _, serLen]
  simp only [if_neg hU]
  have key : ∀ n, (∑ k ∈ range n, (2 * P.seedSizeBytes + P.andSizeBytes + P.digestSizeBytes + encInp P (chal ch k))) +
      P.stateSizeBytes * ((List.range n).countP fun i => chal ch i = 0) =
      n * (2 * P.seedSizeBytes + P.stateSizeBytes + P.andSizeBytes + P.digestSizeBytes) := by
    intro n
    induction n with
    | zero => simp
    | succ n ih =>
      rw [sum_range_succ, List.range_succ, List.countP_append, Nat.mul_add, Nat.succ_mul n, ← ih]
      unfold encInp
      by_cases h0 : chal ch n = 0
      · simp [h0]; ring
      · simp [h0]; ring
  have := key P.numMPCRounds
  omega

/-! ### the hypotheses can be met -/

theorem iter_zero (n : ℕ) : iter (fun _ => zeros 200) n (zeros 200) = zeros 200 := by
  induction n with
  | zero => rfl
  | succ n ih => rw [iter]; exact ih

theorem zeroEnv_H {P : Params} {p : Byte} {m : Buf} {n : ℕ} (hr : 2 ≤ rateOf P) : H zeroEnv P p m n = zeros n := by
  have key : absorbPadded (fun _ => zeros 200) (rateOf P) (padShake (rateOf P) (prefixBytes p ++ m)) = zeros 200 := by
    unfold absorbPadded
    have hpos : 0 < (padShake (rateOf P) (prefixBytes p ++ m)).length / rateOf P := by
      apply Nat.div_pos _ (by omega)
      unfold padShake
      have := Nat.mod_lt (prefixBytes p ++ m).length (show 0 < rateOf P by omega)
      have := Nat.mod_le (prefixBytes p ++ m).length (rateOf P)
      dsimp only
      split_ifs <;> simp only [List.length_append, List.length_replicate, List.length_cons, List.length_nil] at * <;> omega
    obtain ⟨k, hk⟩ : ∃ k, (padShake (rateOf P) (prefixBytes p ++ m)).length / rateOf P = k + 1 := ⟨_ - 1, (Nat.sub_add_cancel hpos).symm⟩
    rw [hk, List.range_succ, List.foldl_append]
    rfl
  unfold H shake
  rw [show zeroEnv.perm = fun _ => zeros 200 from rfl, key]
  apply List.ext_getElem (by simp)
  intro i h1 h2
  rw [List.getElem_map, List.getElem_range, streamByte, iter_zero]
  have hz : ∀ k j, (zeros k).getD j 0 = 0 := by
    intro k j
    rw [zeros, List.getD_eq_getElem?_getD, List.getElem?_replicate]
    split_ifs <;> rfl
  rw [hz, ← List.getD_eq_getElem _ 0, hz]

theorem trits_zeros (n : ℕ) : (trits (zeros n)).length = 4 * n := by
  unfold trits
  induction n with
  | zero => rfl
  | succ n ih =>
    rw [show zeros (n + 1) = 0 :: zeros n from rfl, List.flatMap_cons, List.filter_append, List.length_append, ih]
    rw [show ((pairs 0).filter (· < 3)).length = 4 from by decide]
    omega

theorem rateOf_two {p : ℕ} {P : Params} (h : getParamSet p = some P) : 2 ≤ rateOf P := by
  obtain ⟨h1, h2⟩ := getParamSet_bounds h
  interval_cases p <;> (injection h with h; subst h; decide)

theorem zeroEnv_stream {p : ℕ} {P : Params} (h : getParamSet p = some P) (n : ℕ) (d : Buf) :
    4 * P.digestSizeBytes * n ≤ (stream (nextDigest zeroEnv P) d (n + 1)).length := by
  have hz : ∀ n (d : Buf), d = zeros P.digestSizeBytes → (stream (nextDigest zeroEnv P) d n).length = 4 * P.digestSizeBytes * n := by
    intro n
    induction n with
    | zero => intro d _; rfl
    | succ n ih =>
      intro d hd
      rw [stream, List.length_append, ih (nextDigest zeroEnv P d) (zeroEnv_H (rateOf_two h)), hd, trits_zeros]
      ring
  rw [stream, List.length_append, hz _ (nextDigest zeroEnv P d) (zeroEnv_H (rateOf_two h))]
  omega

/-- In the environment with the constant digest, for every ZKB++ parameter set, a key pair that `picnic_keygen` generates from
random bytes `x` signs a message successfully. -/
theorem zkb_example_of (x : Byte) (p : ℕ) (hp : p ∈ zkbParams) (msg : Buf) (hm : msg.length + 200 ≤ 2 ^ 32) :
    ∃ (sk : PrivateKey) (P : Params) (n : ℕ) (buf sig : Buf) (len : ℕ), EnvWF zeroEnv ∧ sk.Arrays ∧ sk.params = p ∧
      getParamSet p = some P ∧ blockBits p = some n ∧ ZeroPad n sk.data ∧
      Relation P (zeroEnv.lowmc P) sk.data sk.pk.plaintext sk.pk.ciphertext ∧ bitsOf sk.data 0 = bitsOf [x] 0 ∧ sk.pk.params = p ∧
      buf.length = picnicSignatureSize p ∧
      picnicSign zeroEnv (some sk) msg msg.length buf buf.length = Outcome.ok (0, sig, len) := by
  obtain ⟨P, hP, h3⟩ := getParamSet_zkb hp
  have hn := blockBits_of hP
  have hWF := paramsWF_of hP
  have hpos := hWF.nPos
  obtain ⟨pk, sk, e, h1, h2, rfl, h5, h6, h7, h8, -, h10⟩ := C07_keygen zeroEnv zeroEnv_wf (fun _ n => some (List.replicate n x))
    (fun k n r h => by injection h with h; subst h; simp) p P.stateSizeBits hn ⟨0, [], []⟩ PrivateKey.zero _ _ rfl rfl
  have hR : Relation P (zeroEnv.lowmc P) sk.data sk.pk.plaintext sk.pk.ciphertext := by
    obtain ⟨r, hr, -, hiff⟩ := C08_validate zeroEnv zeroEnv_wf sk sk.pk h6 h5
    rw [h10] at hr
    obtain ⟨-, P', hP', hR⟩ := hiff.1 (by simpa using hr.symm)
    rw [h1, hP] at hP'
    obtain rfl : P = P' := by simpa using hP'
    exact hR
  obtain ⟨hc1, hc2⟩ := C03_zkb zeroEnv zeroEnv_wf sk h6 (h2 ▸ hp) P (h2 ▸ hP) hR msg msg.length le_rfl hm
    (zeros (picnicSignatureSize p)) (zeros (picnicSignatureSize p)).length le_rfl (by rw [h2]; simp)
  have hdig := (zkbWF_of hP h3).digPos
  have hT := (zkbWF_of hP h3).T
  have hnd := hc2 fun d _ => by
    refine Nat.le_trans ?_ (zeroEnv_stream hP 999 d)
    have : 4 * 1 * 999 ≤ 4 * P.digestSizeBytes * 999 := by
      apply Nat.mul_le_mul_right
      omega
    omega
  rcases hc1 with h | ⟨sig, len, h, -, -⟩
  · exact absurd h hnd
  · refine ⟨sk, P, P.stateSizeBits, _, sig, len, zeroEnv_wf, h6, h2, hP, hn, ?_, hR, ?_, h1, by simp, h⟩
    · rw [zeroPad_iff]
      intro i h11 h12
      rw [h7, if_neg (by omega)]
    · rw [h7, if_pos hpos]
      obtain ⟨m, hm⟩ : ∃ m, bytesFor P.stateSizeBits = m + 1 := ⟨bytesFor P.stateSizeBits - 1, by unfold bytesFor; omega⟩
      rw [hm, List.replicate_succ]
      rfl

/-- There is an environment in which, for every ZKB++ parameter set, some key pair (generated by `picnic_keygen` from
non-zero random bytes) signs a message successfully: the hypotheses of C01, C03, C05, C06, C17, C31 are met. -/
theorem zkb_example (p : ℕ) (hp : p ∈ zkbParams) (msg : Buf) (hm : msg.length + 200 ≤ 2 ^ 32) :
    ∃ (sk : PrivateKey) (P : Params) (n : ℕ) (buf sig : Buf) (len : ℕ), EnvWF zeroEnv ∧ sk.Arrays ∧ sk.params = p ∧
      getParamSet p = some P ∧ blockBits p = some n ∧ ZeroPad n sk.data ∧
      Relation P (zeroEnv.lowmc P) sk.data sk.pk.plaintext sk.pk.ciphertext ∧ bitsOf sk.data 0 = 1 ∧
      buf.length = picnicSignatureSize p ∧
      picnicSign zeroEnv (some sk) msg msg.length buf buf.length = Outcome.ok (0, sig, len) := by
  obtain ⟨sk, P, n, buf, sig, len, h1, h2, h3, h4, h5, h6, h7, h8, -, h9⟩ := zkb_example_of 0xff p hp msg hm
  exact ⟨sk, P, n, buf, sig, len, h1, h2, h3, h4, h5, h6, h7, h8.trans (by decide), h9⟩

end Picnic
