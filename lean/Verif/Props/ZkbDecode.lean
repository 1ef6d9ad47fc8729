import Verif.Props.ZkbVerify
import Verif.Proofs.ZkbOob2

/-
Further properties of verification and of signature encodings for the ZKB++ parameter sets: C13 (witness), C15, C16, C17, C18,
C31.
-/

namespace Picnic

open Spec Spec.Challenge Finset

theorem full_of {p : ℕ} {P : Params} {b : Buf} {n : ℕ} (hP : getParamSet p = some P) (h3 : isPicnic3 p = false) (hn : n ≤ b.length)
    (hU : p ∈ urParams → picnicSignatureSize p ≤ b.length) : Full P b n := by
  by_cases h : p ∈ urParams
  · exact full_size hP h3 (hU h)
  · exact full_fs hP h hn

/-- What decodes is there, also for UR parameter sets. -/
theorem full_of_dec {p : ℕ} {P : Params} {E : Env} {b : Buf} {n : ℕ} {S : Signature} (hP : getParamSet p = some P)
    (h3 : isPicnic3 p = false) (hn : n ≤ b.length)
    (h : deserializeSignature P (allocateSignature E P) b n = Outcome.ok (some S)) : Full P b n := fun _ _ =>
  deserializeSignature_full (paramsWF_of hP) (zkbWF_of hP h3) (allocateSignature_wf (zkbWF_of hP h3)) hn h

theorem full_of_zero {P : Params} {E : Env} {pk : PublicKey} {msg b : Buf} {mlen n : ℕ} (hP : getParamSet pk.params = some P)
    (h3 : isPicnic3 pk.params = false) (hn : n ≤ b.length)
    (h : picnicVerify E (some pk) msg mlen b n = Outcome.ok 0) : Full P b n := by
  unfold picnicVerify at h
  simp only [deref, ok_bind, hP, h3] at h
  obtain ⟨r, hx, hk⟩ := bind_ok_inv h
  obtain _ | S := r
  · change Outcome.ok (-1 : ℤ) = Outcome.ok 0 at hk
    exact absurd hk (by decide)
  · exact full_of_dec hP h3 hn hx

theorem full_append {P : Params} {b s : Buf} (hd : Decodes P b b.length) (hf : Full P b b.length) :
    Full P (b ++ s) (b ++ s).length := by
  intro _ _
  have hlen := hf hd.len hd.valid
  have hnb := numBytes_eq (2 * P.numMPCRounds)
  have hpre : b.take (encSigLen P b) = (b ++ s).take (encSigLen P b) := (List.take_append_of_le_length hlen).symm
  rw [← (pre_same hpre).2.2.1, List.length_append]
  omega

/-! ### C31, C17: independence -/

theorem verify_short {p : ℕ} {P : Params} {b : Buf} (hP : getParamSet p = some P) (h3 : isPicnic3 p = false) (hf : ¬ Full P b b.length) :
    ∃ r, ∀ (E : Env) (pk : PublicKey) (msg : Buf) (mlen : ℕ), pk.params = p → picnicVerify E (some pk) msg mlen b b.length = r := by
  have hZ := zkbWF_of hP h3
  rcases deserialize_short (paramsWF_of hP) hZ hf with h | h
  · refine ⟨Outcome.ub UB.oobRead, fun E pk msg mlen hp => ?_⟩
    simp only [picnicVerify, deref, pure_eq_ok, ok_bind, hp, hP, h3, Bool.not_false, if_true]
    exact bind_of_ub (h _ (allocateSignature_wf hZ))
  · refine ⟨Outcome.ok (-1), fun E pk msg mlen hp => ?_⟩
    simp only [picnicVerify, deref, pure_eq_ok, ok_bind, hp, hP, h3, Bool.not_false, if_true]
    exact bind_of_ok (h _ (allocateSignature_wf hZ))

/-- C31 and C17 for ZKB++, verification: the result does not depend on uninitialised memory, on the unused bytes of the key
structure, or on the number of digests the sampling loop may use, once it has terminated; the same holds for reads past the end (`C13_zkb_exact`). -/
theorem C31_zkb_verify (E : Env) (hE : EnvWF E) (junk' : ℕ → ℕ → ℕ → Byte) (fuel' : ℕ) (hfuel : E.fuel ≤ fuel')
    (pk pk' : PublicKey) (hpk : pk.Arrays) (hpk' : pk'.Arrays) (hp : pk.params ∈ zkbParams) (n : ℕ)
    (hn : blockBits pk.params = some n) (h1 : pk'.params = pk.params)
    (h2 : pk'.plaintext.take (bytesFor n) = pk.plaintext.take (bytesFor n))
    (h3 : pk'.ciphertext.take (bytesFor n) = pk.ciphertext.take (bytesFor n))
    (msg : Buf) (mlen : ℕ) (hm : mlen ≤ msg.length) (hm32 : mlen + 200 ≤ 2 ^ 32) (b : Buf)
    (hterm : picnicVerify E (some pk) msg mlen b b.length ≠ Outcome.diverge) :
    picnicVerify { E with junk := junk', fuel := fuel' } (some pk') msg mlen b b.length =
      picnicVerify E (some pk) msg mlen b b.length := by
  obtain ⟨P, hP, h3'⟩ := getParamSet_zkb hp
  have hnP := blockBits_of hP
  rw [hn] at hnP
  obtain rfl : n = P.stateSizeBits := by simpa using hnP
  rw [bytesFor, ← (paramsWF_of hP).bytes] at h2 h3
  by_cases hf : Full P b b.length
  · exact picnicVerify_congr hE hfuel hP h3' hpk hpk' h1 h3 h2 hm hm32 hm hm32 rfl le_rfl le_rfl hf hf Iff.rfl (fun _ => rfl) hterm
  · obtain ⟨r, hr⟩ := verify_short hP h3' hf
    rw [hr _ _ _ _ rfl, hr _ _ _ _ h1]

/-! ### C15 -/

theorem decodes_append {P : Params} {b s : Buf} (h : Decodes P b b.length) (hf : Full P b b.length) :
    Decodes P (b ++ s) (b ++ s).length ∧ b.take (encSigLen P b) = (b ++ s).take (encSigLen P b) := by
  have hlen := hf h.len h.valid
  have hpre : b.take (encSigLen P b) = (b ++ s).take (encSigLen P b) := (List.take_append_of_le_length hlen).symm
  obtain ⟨p1, p2, p3, p4, p5⟩ := pre_same hpre
  refine ⟨⟨?_, ?_, ?_, ?_⟩, hpre⟩
  · rw [List.length_append]; have := h.chlen; omega
  · rw [List.length_append, ← decLen_congr p2]; have := h.len; omega
  · intro i hi; rw [← p2 i hi]; exact h.valid i hi
  · intro i hi h0
    have := p5 i hi
    unfold decProofs at this
    rw [← this]
    exact h.pad i hi (by rw [p2 i hi]; exact h0)

/-- C15 is false for ZKB++: every accepted signature is accepted with any bytes appended. -/
theorem C15_zkb_violated (E : Env) (hE : EnvWF E) (pk : PublicKey) (hpk : pk.Arrays) (hp : pk.params ∈ zkbParams)
    (msg : Buf) (mlen : ℕ) (hm : mlen ≤ msg.length) (hm32 : mlen + 200 ≤ 2 ^ 32) (b : Buf)
    (h : picnicVerify E (some pk) msg mlen b b.length = Outcome.ok 0) (s : Buf) :
    picnicVerify E (some pk) msg mlen (b ++ s) (b ++ s).length = Outcome.ok 0 := by
  classical
  obtain ⟨P, hP, h3⟩ := getParamSet_zkb hp
  have hf : Full P b b.length := full_of_zero hP h3 le_rfl h
  have hD : Decodes P b b.length := by
    obtain ⟨v1, v2, -, e⟩ := picnicVerify_zkb hE hP h3 hpk hm hm32 le_rfl hf
    by_contra hD
    rw [e, if_neg hD] at h
    exact absurd h (by decide)
  have hf' : Full P (b ++ s) (b ++ s).length := full_append hD hf
  obtain ⟨hD', hpre⟩ := decodes_append (s := s) hD hf
  rw [← h]
  exact picnicVerify_congr (junk' := E.junk) (fuel' := E.fuel) hE le_rfl hP h3 hpk hpk rfl rfl rfl hm hm32 hm hm32 rfl le_rfl le_rfl
    hf hf' ⟨fun _ => hD', fun _ => hD⟩ (fun _ => hpre) (by rw [h]; simp)

/-! ### C16 -/

/-- Two proofs agree in what is transmitted for challenge `c`: the secret share of the third party is sent for the
challenges 1 and 2 only, the value G of the hidden party only with the Unruh transform. -/
structure SameSent (P : Params) (c : ℕ) (p p' : Proof) : Prop where
  seed1 : p.seed1 = p'.seed1
  seed2 : p.seed2 = p'.seed2
  comm : p.communicatedBits = p'.communicatedBits
  com3 : p.view3Commitment = p'.view3Commitment
  inp : c ≠ 0 → p.inputShare = p'.inputShare
  g3 : P.transform = .UR → ∃ g g', p.view3UnruhG = some g ∧ p'.view3UnruhG = some g' ∧
    g.take (P.seedSizeBytes + P.andSizeBytes + if c = 0 then P.stateSizeBytes else 0) =
      g'.take (P.seedSizeBytes + P.andSizeBytes + if c = 0 then P.stateSizeBytes else 0)

theorem sameSent_of {P : Params} {c : ℕ} {p p' : Proof} (hc : c < 3) (h : ProofWF P p) (h' : ProofWF P p')
    (e : qproof P c p = qproof P c p') : SameSent P c p p' := by
  simp only [qproof, QProof.mk.injEq] at e
  refine ⟨e.1, e.2.1, e.2.2.2.1, e.2.2.2.2.1, fun h0 => ?_, fun hU => ?_⟩
  · simpa [h0] using e.2.2.1
  · obtain ⟨g, hg, -⟩ := h.g3 hU
    obtain ⟨g', hg', -⟩ := h'.g3 hU
    refine ⟨g, g', hg, hg', ?_⟩
    have := e.2.2.2.2.2
    rw [if_pos hU, if_pos hU, hg, hg'] at this
    have hl : gLen P ((c + 2) % 3) = P.seedSizeBytes + P.andSizeBytes + if c = 0 then P.stateSizeBytes else 0 := by
      unfold gLen
      split_ifs <;> omega
    rw [← hl]
    exact this

theorem sigWF_getD {P : Params} {S : Signature} (h : SigWF P S) {i : ℕ} (hi : i < P.numMPCRounds) : ProofWF P (S.proofs.getD i default) := by
  obtain ⟨p, -, e, hp⟩ := h.rd hi
  rw [List.getD_eq_getElem?_getD, e]
  exact hp

/-- C16, decoding then encoding: if the decoder accepts the `n` bytes `b`, then the encoder, given a large enough buffer,
writes back the first `len` bytes of `b`, where `len` is at most the number of bytes there are. -/
theorem C16_zkb_reencode (E : Env) (p : ℕ) (hp : p ∈ zkbParams) (P : Params) (hP : getParamSet p = some P) (b : Buf) (S : Signature)
    (hd : deserializeSignature P (allocateSignature E P) b b.length = Outcome.ok (some S))
    (buf : Buf) (slen : ℕ) (hbuf : slen ≤ buf.length) (hsize : picnicSignatureSize p ≤ slen) :
    ∃ len ≤ b.length, len ≤ slen ∧ serializeSignature P S buf slen = Outcome.ok (some (b.take len ++ buf.drop len, len)) := by
  obtain ⟨P', hP', h3⟩ := getParamSet_zkb hp
  rw [hP] at hP'
  obtain rfl : P = P' := by simpa using hP'
  have hZ := zkbWF_of hP h3
  have hf : Full P b b.length := full_of_dec hP h3 le_rfl hd
  have hnb := numBytes_eq (2 * P.numMPCRounds)
  obtain ⟨S', e, hS⟩ := deserializeSignature_ok (sig0 := allocateSignature E P) (paramsWF_of hP) hZ (allocateSignature_wf hZ)
    le_rfl hf
  rw [e] at hd
  split_ifs at hd with hc
  · obtain rfl : S' = S := by simpa using hd
    obtain ⟨hw, hch, hsalt, hq⟩ := hS ⟨hc.1, hc.2.1, hc.2.2.1⟩
    have hcc : ∀ i < P.numMPCRounds, chal b i = chal S'.challengeBits i := fun i hi => by
      rw [hch]; exact (chal_take (by omega)).symm
    have hlen := hf hc.2.1 hc.2.2.1
    have he : encSigLen P S'.challengeBits = encSigLen P b := (offOf_congr hcc le_rfl).symm
    have hle := encSigLen_le hZ hc.2.2.1
    have hs := serLen_eq hP h3
    refine ⟨encSigLen P b, hlen, by omega, ?_⟩
    rw [serializeSignature_ok hZ hw (fun i hi => by rw [← hcc i hi]; exact hc.2.2.1 i hi) hbuf, if_neg (by omega), he]
    congr 4
    have := enc_decSig (P := P) (b := b) (q := sigProofs P S') (i := P.numMPCRounds) hch hsalt fun k hk => by
      rw [hq k hk, hcc k hk, offOf_congr hcc (show k ≤ P.numMPCRounds by omega)]
    rw [encSig, this]
    congr 1
  · cases hd

/-- C16, injectivity of decoding (the part that holds): if two byte strings decode to the same signature, they agree in the
first `len` bytes, where `len` depends on the signature only; and two accepted strings that are no longer than their
re-encoding are equal.  Missing: strings with trailing bytes, see `C16_zkb_violated`. -/
theorem C16_zkb_inj_partial (E : Env) (p : ℕ) (hp : p ∈ zkbParams) (P : Params) (hP : getParamSet p = some P) (b b' : Buf)
    (S : Signature)
    (hd : deserializeSignature P (allocateSignature E P) b b.length = Outcome.ok (some S))
    (hd' : deserializeSignature P (allocateSignature E P) b' b'.length = Outcome.ok (some S)) :
    ∃ len ≤ b.length, len ≤ b'.length ∧ b.take len = b'.take len ∧
      serializeSignature P S (zeros (picnicSignatureSize p)) (picnicSignatureSize p) =
        Outcome.ok (some (b.take len ++ (zeros (picnicSignatureSize p)).drop len, len)) ∧
      (b.length = len → b'.length = len → b = b') := by
  obtain ⟨l, h1, -, e⟩ := C16_zkb_reencode E p hp P hP b S hd (zeros (picnicSignatureSize p)) (picnicSignatureSize p) (by simp) le_rfl
  obtain ⟨l', h1', -, e'⟩ := C16_zkb_reencode E p hp P hP b' S hd' (zeros (picnicSignatureSize p)) (picnicSignatureSize p) (by simp) le_rfl
  have h := e.symm.trans e'
  simp only [Outcome.ok.injEq, Option.some.injEq, Prod.mk.injEq] at h
  obtain ⟨h2, rfl⟩ := h
  have h3 : b.take l = b'.take l := List.append_inj_left h2 (by simp; omega)
  refine ⟨l, h1, h1', h3, e, fun hl hl' => ?_⟩
  rw [← List.take_of_length_le (l := b) hl.le, ← List.take_of_length_le (l := b') hl'.le]
  exact h3

/-- C16 is false for ZKB++ strings with trailing bytes: whatever is appended, the string decodes, and to the same
transmitted values. -/
theorem C16_zkb_violated (E : Env) (p : ℕ) (hp : p ∈ zkbParams) (P : Params) (hP : getParamSet p = some P) (b : Buf) (S : Signature)
    (hd : deserializeSignature P (allocateSignature E P) b b.length = Outcome.ok (some S)) (s : Buf) :
    ∃ S', deserializeSignature P (allocateSignature E P) (b ++ s) (b ++ s).length = Outcome.ok (some S') ∧
      S'.challengeBits = S.challengeBits ∧ S'.salt = S.salt ∧ S'.proofs.length = S.proofs.length ∧
      ∀ i < P.numMPCRounds, SameSent P (value S.challengeBits i) (S'.proofs.getD i default) (S.proofs.getD i default) := by
  obtain ⟨P', hP', h3⟩ := getParamSet_zkb hp
  rw [hP] at hP'
  obtain rfl : P = P' := by simpa using hP'
  have hZ := zkbWF_of hP h3
  have hnb := numBytes_eq (2 * P.numMPCRounds)
  have hf : Full P b b.length := full_of_dec hP h3 le_rfl hd
  have hf' : Full P (b ++ s) (b ++ s).length := by
    obtain ⟨T, e, -⟩ := deserializeSignature_ok (sig0 := allocateSignature E P) (paramsWF_of hP) hZ (allocateSignature_wf hZ)
      le_rfl hf
    rw [e] at hd
    split_ifs at hd with hc
    · exact full_append ⟨hc.1, hc.2.1, hc.2.2.1, hc.2.2.2⟩ hf
    · cases hd
  obtain ⟨T, e, hT⟩ := deserializeSignature_ok (sig0 := allocateSignature E P) (paramsWF_of hP) hZ (allocateSignature_wf hZ)
    le_rfl hf
  obtain ⟨T', e', hT'⟩ := deserializeSignature_ok (sig0 := allocateSignature E P) (paramsWF_of hP) hZ (allocateSignature_wf hZ)
    le_rfl hf'
  rw [e] at hd
  split_ifs at hd with hc
  · obtain rfl : T = S := by simpa using hd
    obtain ⟨hD', hpre⟩ := decodes_append (s := s) ⟨hc.1, hc.2.1, hc.2.2.1, hc.2.2.2⟩ hf
    obtain ⟨p1, p2, p3, p4, p5⟩ := pre_same hpre
    obtain ⟨hw, hch, hsalt, hq⟩ := hT ⟨hc.1, hc.2.1, hc.2.2.1⟩
    obtain ⟨hw', hch', hsalt', hq'⟩ := hT' ⟨hD'.chlen, hD'.len, hD'.valid⟩
    have hcs : T'.challengeBits = T.challengeBits := by rw [hch, hch', p1]
    refine ⟨T', ?_, hcs, ?_, by rw [hw.len, hw'.len], fun i hi => ?_⟩
    · rw [e', if_pos ⟨hD'.chlen, hD'.len, hD'.valid, hD'.pad⟩]
    · rw [hsalt, hsalt']; exact p4.symm
    · have hv : chal T.challengeBits i < 3 := by rw [hch, chal_take (by omega)]; exact hc.2.2.1 i hi
      rw [← chal_eq_value]
      refine sameSent_of hv (sigWF_getD hw' hi) (sigWF_getD hw hi) ?_
      have h1 := hq i hi
      have h2 := hq' i hi
      have h4 := p5 i hi
      unfold decProofs at h4
      unfold sigProofs at h1 h2
      rw [hcs] at h2
      rw [h1, h2, h4]
  · cases hd

/-- C16, encoding then decoding: the bytes written by `picnic_sign` decode to the signature that was computed, from any
buffer that starts with them. -/
theorem C16_zkb_sign (E : Env) (hE : EnvWF E) (sk : PrivateKey) (hsk : sk.Arrays) (hp : sk.params ∈ zkbParams) (P : Params)
    (hP : getParamSet sk.params = some P) (hpad : ZeroPad P.stateSizeBits sk.data)
    (msg : Buf) (mlen : ℕ) (hm : mlen ≤ msg.length) (hm32 : mlen + 200 ≤ 2 ^ 32)
    (S : Signature) (hS : signPicnic1 E P sk.data sk.pk.ciphertext sk.pk.plaintext msg mlen (allocateSignature E P) = Outcome.ok (some S))
    (buf : Buf) (slen : ℕ) (hbuf : slen ≤ buf.length) (sig : Buf) (len : ℕ)
    (hs : picnicSign E (some sk) msg mlen buf slen = Outcome.ok (0, sig, len))
    (E' : Env) (b : Buf) (hb : b.take len = sig.take len) (hbl : len ≤ b.length) :
    ∃ S', deserializeSignature P (allocateSignature E' P) b len = Outcome.ok (some S') ∧
      S'.challengeBits = S.challengeBits ∧ S'.salt = S.salt ∧ S'.proofs.length = S.proofs.length ∧
      ∀ i < P.numMPCRounds, SameSent P (value S.challengeBits i) (S'.proofs.getD i default) (S.proofs.getD i default) := by
  obtain ⟨P', hP', h3⟩ := getParamSet_zkb hp
  rw [hP] at hP'
  obtain rfl : P = P' := by simpa using hP'
  have hWF := paramsWF_of hP
  have hZ := zkbWF_of hP h3
  have hb0 := hWF.bytes
  have hw0 := hWF.words
  have hn0 := hWF.nMax
  have hnb := numBytes_eq (2 * P.numMPCRounds)
  have h1 := hsk.data
  have h2 := hsk.pk.pt
  have h4 := hsk.pk.ct
  obtain ⟨views, hv, hcase⟩ := signPicnic1_ok (E := E) (P := P) (sk := sk.data) (ct := sk.pk.ciphertext) (pt := sk.pk.plaintext)
    (msg := msg) (mlen := mlen) (sig0 := allocateSignature E P) hE.perm hWF (hE.lowmc _ _ hP) hZ (allocateSignature_wf hZ)
    (by omega) (by omega) (by omega) hm hm32 rfl
  generalize seedSlab E P sk.data sk.pk.ciphertext sk.pk.plaintext (msg.take mlen) = slab at hv hcase
  have hcase' : SigWF P S ∧ (∀ i < P.numMPCRounds, chal S.challengeBits i < 3) ∧ ∀ i < P.numMPCRounds, sigProofs P S i =
      honestProof E P (slabSeed P slab i) (views i) (chal S.challengeBits i) := by
    rcases hcase with ⟨-, e⟩ | ⟨-, -, e⟩ | ⟨-, T, -, e, hw, -, hc, hq⟩
    · rw [hS] at e; simp at e
    · rw [hS] at e; cases e
    · rw [hS] at e
      obtain rfl : S = T := by simpa using e
      exact ⟨hw, hc, hq⟩
  obtain ⟨hw, hc, hq⟩ := hcase'
  have hqw : ∀ k < P.numMPCRounds, QWF P (chal S.challengeBits k) (sigProofs P S k) := fun k hk => hw.qwf hk
  simp only [picnicSign, deref, pure_eq_ok, ok_bind, hP, h3, Bool.not_false, if_true, hS] at hs
  rw [serializeSignature_ok hZ hw hc hbuf] at hs
  by_cases hl : slen < serLen P
  · rw [if_pos hl] at hs
    simp at hs
  · rw [if_neg hl] at hs
    simp only [ok_bind, Outcome.ok.injEq, Prod.mk.injEq] at hs
    obtain ⟨-, hsig, hlen⟩ := hs
    have hel := encSig_length hw.ch hw.salt hqw
    have hb' : b = encSig P S.challengeBits S.salt (sigProofs P S) ++ b.drop len := by
      have : b.take len = encSig P S.challengeBits S.salt (sigProofs P S) := by
        rw [hb, ← hsig, ← hlen]; exact List.take_left' hel
      rw [← this, List.take_append_drop]
    obtain ⟨hd1, hd2, hd3, hd4, hd5, hd6⟩ := dec_of_encSig hw.ch hw.salt hqw hb'
    have hb3 : ∀ i < P.numMPCRounds, chal b i < 3 := fun i hi => by rw [hd3 i hi]; exact hc i hi
    obtain ⟨S', e', hS'⟩ := deserializeSignature_ok (sig0 := allocateSignature E' P) (b := b) (n := len) hWF hZ (allocateSignature_wf hZ)
      hbl (fun _ _ => by rw [hd5, hlen]; exact hbl)
    have hchl : numBytes (2 * P.numMPCRounds) ≤ len := by rw [← hlen, encSigLen, offOf]; omega
    have hdl : decLen P b ≤ len := by rw [← hlen, ← hd5]; exact decLen_le hZ hb3
    obtain ⟨hw', hch', hsalt', hq'⟩ := hS' ⟨hchl, hdl, hb3⟩
    have hcs : S'.challengeBits = S.challengeBits := by rw [hch', hd1]
    refine ⟨S', ?_, hcs, ?_, by rw [hw.len, hw'.len], fun i hi => ?_⟩
    · refine e'.trans (congrArg _ (if_pos ⟨hchl, hdl, hb3, ?_⟩))
      intro i hi h0
      rw [← decProofs, hd6 i hi, hq i hi]
      rw [hd3 i hi] at h0
      simp only [honestProof, if_neg h0]
      rw [(hv i hi).inp 2 (by omega), ← zpad_share2 hWF (zeroPad_iff.1 hpad)]
      intro p hp _
      rw [bitsOf_zpad, trunc, if_neg (by omega)]
    · rw [hsalt']; exact hd2
    · rw [← chal_eq_value]
      refine sameSent_of (hc i hi) (sigWF_getD hw' hi) (sigWF_getD hw hi) ?_
      have h5 := hq' i hi
      have h6 := hd6 i hi
      unfold decProofs at h6
      unfold sigProofs at h5 h6
      rw [hcs] at h5
      rw [h5, h6]

/-! ### C17, C18 -/

/-- `m` is the string that verification of the signature `b` hashes to get the challenge, for the given key and message: it is
made from the two views per repetition that the opened seeds, the transmitted messages and the plaintext determine. -/
def ChallengeInput (E : Env) (P : Params) (pk : PublicKey) (msg b m : Buf) : Prop :=
  ∃ v1 v2 : ℕ → View,
    (∀ k < P.numMPCRounds, OpenedViews E P (decProofs P b k).toProof (decSalt P b) pk.plaintext k (chal b k) (v1 k) (v2 k)) ∧
    m = verInput E P pk.ciphertext pk.plaintext (decSalt P b) msg (chal b) (decProofs P b) v1 v2

/-- There is only one such string. -/
theorem challengeInput_unique {E : Env} {P : Params} {pk : PublicKey} {msg b m m' : Buf} (hP : ParamsWF P)
    (h : ChallengeInput E P pk msg b m) (h' : ChallengeInput E P pk msg b m') : m = m' := by
  obtain ⟨v1, v2, ho, rfl⟩ := h
  obtain ⟨w1, w2, ho', rfl⟩ := h'
  have hvw := fun k hk => opened_unique hP (fun _ _ => rfl) (ho k hk) (ho' k hk)
  unfold verInput
  refine h3Input_congr ?_ ?_ ?_
  · intro i hi j _; rw [(hvw i hi).1, (hvw i hi).2]
  · intro i hi j _; rw [(hvw i hi).1, (hvw i hi).2]
  · intro _ i hi j _; rw [(hvw i hi).1, (hvw i hi).2]

/-- The string ends with the public key, the salt and the message. -/
theorem challengeInput_parts {E : Env} {P : Params} {pk : PublicKey} {msg b m : Buf} (h : ChallengeInput E P pk msg b m) :
    ∃ front, m = front ++ pk.ciphertext.take P.stateSizeBytes ++ pk.plaintext.take P.stateSizeBytes ++
      (b.drop (bytesFor (2 * P.numMPCRounds))).take P.saltSizeBytes ++ msg := by
  obtain ⟨v1, v2, -, rfl⟩ := h
  have hnb := numBytes_eq (2 * P.numMPCRounds)
  rw [verInput, h3Input_front, bytesFor, ← hnb]
  exact ⟨_, rfl⟩

/-- C17 for ZKB++, verification: an accepted signature starts with the challenge that the specification derives from the hash
of the string `ChallengeInput`, followed by zero bits. -/
theorem C17_zkb_verify (E : Env) (hE : EnvWF E) (pk : PublicKey) (hpk : pk.Arrays) (hp : pk.params ∈ zkbParams) (P : Params)
    (hP : getParamSet pk.params = some P) (msg : Buf) (mlen : ℕ) (hm : mlen ≤ msg.length) (hm32 : mlen + 200 ≤ 2 ^ 32) (b : Buf)
    (h : picnicVerify E (some pk) msg mlen b b.length = Outcome.ok 0) :
    ∃ (m : Buf) (l : List ℕ), ChallengeInput E P pk (msg.take mlen) b m ∧
      IsChallenge P.numMPCRounds (nextDigest E P) (H E P HASH_PREFIX_1 m P.digestSizeBytes) l ∧ l.length = P.numMPCRounds ∧
      (∀ i < P.numMPCRounds, value b i = l.getD i 0 ∧ value b i < 3) ∧
      ∀ i, 2 * P.numMPCRounds ≤ i → i < 8 * bytesFor (2 * P.numMPCRounds) → bit b i = 0 := by
  classical
  obtain ⟨P', hP', h3⟩ := getParamSet_zkb hp
  rw [hP] at hP'
  obtain rfl : P = P' := by simpa using hP'
  have hnb := numBytes_eq (2 * P.numMPCRounds)
  obtain ⟨v1, v2, ho, e⟩ := picnicVerify_zkb hE hP h3 hpk hm hm32 le_rfl (full_of_zero hP h3 le_rfl h)
  rw [e] at h
  by_cases hD : Decodes P b b.length
  · rw [if_pos hD] at h
    rcases expandTrits_cases E P (h3Digest E P (verInput E P pk.ciphertext pk.plaintext (decSalt P b) (msg.take mlen) (chal b)
      (decProofs P b) v1 v2)) with hx | ⟨ch, hx, -⟩
    · rw [hx] at h; cases h
    · rw [hx, ok_bind] at h
      by_cases hc : b.take (numBytes (2 * P.numMPCRounds)) = ch
      · obtain ⟨l, h1, h2, h4, h5⟩ := expandTrits_spec hx
        refine ⟨_, l, ⟨v1, v2, ho hD, rfl⟩, h1, h2, fun i hi => ?_, fun i h6 h7 => ?_⟩
        · rw [← chal_eq_value, ← chal_take (b := b) (n := numBytes (2 * P.numMPCRounds)) (by omega), hc, chal_eq_value]
          exact h4 i hi
        · have : bit b i = bit (b.take (numBytes (2 * P.numMPCRounds))) i := by
            unfold bit
            rw [bytesFor] at h7
            rw [List.getD_eq_getElem?_getD, List.getD_eq_getElem?_getD, List.getElem?_take_of_lt (by omega)]
          rw [this, hc]
          exact h5 i h6
      · rw [if_neg hc] at h
        exact absurd h (by decide)
  · rw [if_neg hD] at h
    exact absurd h (by decide)

theorem tripleBytes_length_congr {T : ℕ} {xs ys : ℕ → ℕ → Buf} {len : ℕ → ℕ} (h : ∀ i < T, ∀ j < 3, (xs i j).length = (ys i j).length) :
    (tripleBytes T xs len).length = (tripleBytes T ys len).length := by
  unfold tripleBytes
  rw [List.length_flatMap, List.length_flatMap]
  congr 1
  refine List.map_congr_left fun i hi => ?_
  rw [List.length_flatMap, List.length_flatMap]
  congr 1
  refine List.map_congr_left fun j hj => ?_
  rw [List.length_take, List.length_take, h i (List.mem_range.1 hi) j (List.mem_range.1 hj)]

theorem pick_length {c : ℕ} {a b d a' b' d' : Buf} (h1 : a.length = a'.length) (h2 : b.length = b'.length) (h3 : d.length = d'.length)
    (j : ℕ) : (pick c a b d j).length = (pick c a' b' d' j).length := by
  unfold pick
  split_ifs <;> assumption

theorem h3Front_length_congr {P : Params} {o o' c c' g g' : ℕ → ℕ → Buf}
    (h1 : ∀ i < P.numMPCRounds, ∀ j < 3, (o i j).length = (o' i j).length)
    (h2 : ∀ i < P.numMPCRounds, ∀ j < 3, (c i j).length = (c' i j).length)
    (h3 : ∀ i < P.numMPCRounds, ∀ j < 3, (g i j).length = (g' i j).length) : (h3Front P o c g).length = (h3Front P o' c' g').length := by
  unfold h3Front
  rw [List.length_append, List.length_append, List.length_append, List.length_append, tripleBytes_length_congr h1,
    tripleBytes_length_congr h2]
  split_ifs
  · rw [tripleBytes_length_congr h3]
  · rfl

/-- The strings of two public keys and messages agree only if the public keys and the messages do. -/
theorem challengeInput_inj {E : Env} {P : Params} {pk pk' : PublicKey} {msg msg' b m : Buf} (hP : ParamsWF P)
    (hpk : pk.Arrays) (hpk' : pk'.Arrays) (h : ChallengeInput E P pk msg b m) (h' : ChallengeInput E P pk' msg' b m) :
    pk.ciphertext.take P.stateSizeBytes = pk'.ciphertext.take P.stateSizeBytes ∧
      pk.plaintext.take P.stateSizeBytes = pk'.plaintext.take P.stateSizeBytes ∧ msg = msg' := by
  obtain ⟨v1, v2, ho, e⟩ := h
  obtain ⟨w1, w2, ho', e'⟩ := h'
  rw [e] at e'
  unfold verInput at e'
  rw [h3Input_front, h3Input_front] at e'
  simp only [List.append_assoc] at e'
  have hfl : (h3Front P (fun k => verOuts P pk.ciphertext (chal b k) (v1 k) (v2 k)) (fun k => verComs E P (decProofs P b k) (chal b k) (v1 k) (v2 k))
      (fun k => verGs E P (decProofs P b k) (chal b k) (v1 k) (v2 k))).length =
      (h3Front P (fun k => verOuts P pk'.ciphertext (chal b k) (w1 k) (w2 k)) (fun k => verComs E P (decProofs P b k) (chal b k) (w1 k) (w2 k))
      (fun k => verGs E P (decProofs P b k) (chal b k) (w1 k) (w2 k))).length := by
    refine h3Front_length_congr ?_ ?_ ?_
    · refine fun i hi j _ => pick_length ?_ ?_ ?_ j
      · rw [(ho i hi).out1, (ho' i hi).out1, ofBits_length, ofBits_length]
      · rw [(ho i hi).out2, (ho' i hi).out2, ofBits_length, ofBits_length]
      · rw [ofBits_length, ofBits_length]
    · exact fun i _ j _ => pick_length (by rw [commitOf, H_length, commitOf, H_length]) (by rw [commitOf, H_length, commitOf, H_length]) rfl j
    · exact fun i _ j _ => pick_length (by rw [gOf_length, gOf_length]) (by rw [gOf_length, gOf_length]) rfl j
  obtain ⟨-, e1⟩ := List.append_inj e' hfl
  obtain ⟨e2, e3⟩ := List.append_inj e1 (by rw [List.length_take, List.length_take, hpk.ct, hpk'.ct])
  obtain ⟨e4, e5⟩ := List.append_inj e3 (by rw [List.length_take, List.length_take, hpk.pt, hpk'.pt])
  exact ⟨e2, e4, List.append_cancel_left e5⟩

/-- C18 for ZKB++: if the same bytes are accepted for two pairs of public key and message, then the two strings that
verification hashes are determined by the data at hand, have the same challenge, and are different unless the encoded
public keys and the messages are the same.  So accepting for two different pairs exhibits a collision of the challenge hash. -/
theorem C18_zkb (E : Env) (hE : EnvWF E) (pk pk' : PublicKey) (hpk : pk.Arrays) (hpk' : pk'.Arrays) (hp : pk.params ∈ zkbParams)
    (hpp : pk'.params = pk.params) (P : Params) (hP : getParamSet pk.params = some P)
    (msg msg' : Buf) (hm : msg.length + 200 ≤ 2 ^ 32) (hm' : msg'.length + 200 ≤ 2 ^ 32) (b : Buf)
    (h : picnicVerify E (some pk) msg msg.length b b.length = Outcome.ok 0)
    (h' : picnicVerify E (some pk') msg' msg'.length b b.length = Outcome.ok 0) :
    ∃ (m m' : Buf) (l : List ℕ), ChallengeInput E P pk msg b m ∧ ChallengeInput E P pk' msg' b m' ∧
      IsChallenge P.numMPCRounds (nextDigest E P) (H E P HASH_PREFIX_1 m P.digestSizeBytes) l ∧
      IsChallenge P.numMPCRounds (nextDigest E P) (H E P HASH_PREFIX_1 m' P.digestSizeBytes) l ∧
      (m = m' → pk.ciphertext.take P.stateSizeBytes = pk'.ciphertext.take P.stateSizeBytes ∧
        pk.plaintext.take P.stateSizeBytes = pk'.plaintext.take P.stateSizeBytes ∧ msg = msg') := by
  obtain ⟨m, l, h1, h2, h3, h4, -⟩ := C17_zkb_verify E hE pk hpk hp P hP msg msg.length le_rfl hm b h
  obtain ⟨m', l', h1', h2', h3', h4', -⟩ := C17_zkb_verify E hE pk' hpk' (hpp ▸ hp) P (hpp ▸ hP) msg' msg'.length le_rfl hm' b h'
  rw [List.take_length] at h1 h1'
  have hl : l = l' := by
    apply List.ext_getElem (by omega)
    intro i h5 h6
    have e := (h4 i (by omega)).1
    have e' := (h4' i (by omega)).1
    rw [List.getD_eq_getElem _ _ h5] at e
    rw [List.getD_eq_getElem _ _ h6] at e'
    rw [← e, ← e']
  subst hl
  refine ⟨m, m', l, h1, h1', h2, h2', ?_⟩
  rintro rfl
  exact challengeInput_inj (paramsWF_of hP) hpk hpk' h1 h1'

/-! ### witnesses -/

theorem trits_zeros_mem {n x : ℕ} (h : x ∈ trits (zeros n)) : x = 0 := by
  unfold trits at h
  obtain ⟨b, hb, hx⟩ := List.mem_flatMap.1 (List.mem_of_mem_filter h)
  obtain rfl := List.eq_of_mem_replicate hb
  clear h hb
  revert x
  decide

theorem stream_zero {p : ℕ} {P : Params} (h : getParamSet p = some P) (n x : ℕ)
    (hx : x ∈ stream (nextDigest zeroEnv P) (zeros P.digestSizeBytes) n) : x = 0 := by
  induction n with
  | zero => simp [stream] at hx
  | succ n ih =>
    rw [stream, List.mem_append] at hx
    rcases hx with hx | hx
    · exact trits_zeros_mem hx
    · rw [show nextDigest zeroEnv P (zeros P.digestSizeBytes) = zeros P.digestSizeBytes from zeroEnv_H (rateOf_two h)] at hx
      exact ih hx

/-- Concrete case for C13_ur_violated, C15_zkb_violated, C17_zkb_verify, C18_zkb, C31_zkb_verify: a signature that is accepted,
also with any byte appended, and that, for UR parameter sets, leads to a read past the end of the buffer without its last byte. -/
theorem zkb_verify_example (p : ℕ) (hp : p ∈ zkbParams) (msg : Buf) (hm : msg.length + 200 ≤ 2 ^ 32) :
    ∃ (pk : PublicKey) (b : Buf), pk.Arrays ∧ pk.params = p ∧ (p ∈ urParams → picnicSignatureSize p ≤ b.length) ∧
      picnicVerify zeroEnv (some pk) msg msg.length b b.length = Outcome.ok 0 ∧
      (∀ s : Buf, picnicVerify zeroEnv (some pk) msg msg.length (b ++ s) (b ++ s).length = Outcome.ok 0) ∧
      (p ∈ urParams → picnicVerify zeroEnv (some pk) msg msg.length (b.take (b.length - 1)) (b.length - 1) = Outcome.ub UB.oobRead) := by
  obtain ⟨sk, P, n, buf, sig, len, hE, hsk, rfl, hP, hn, hpad, hR, -, hbl, hs⟩ := zkb_example p hp msg hm
  obtain ⟨P', hP', h3⟩ := getParamSet_zkb hp
  rw [hP] at hP'
  obtain rfl : P = P' := by simpa using hP'
  obtain ⟨hc5, -⟩ := C05_zkb zeroEnv hE sk hsk hp msg msg.length le_rfl hm buf buf.length le_rfl 0 sig len hs
  have hlen : len ≤ sig.length := by
    rcases hc5 with ⟨h, -⟩ | ⟨-, h1, h2, -⟩
    · exact absurd h (by decide)
    · omega
  have hbl' : (sig.take len).length = len := by simp; omega
  have hacc : picnicVerify zeroEnv (some { sk.pk with params := sk.params }) msg msg.length (sig.take len) (sig.take len).length = Outcome.ok 0 := by
    rw [hbl']
    exact C01_sign_verify zeroEnv hE zeroEnv.junk zeroEnv.fuel le_rfl sk hsk hp n hn hpad msg msg.length le_rfl hm buf buf.length
      le_rfl sig len hs { sk.pk with params := sk.params } ⟨hsk.pk.pt, hsk.pk.ct⟩ rfl rfl rfl (sig.take len) (by rw [List.take_take, Nat.min_self]) (by omega)
  obtain ⟨h6, -⟩ := C06_length zeroEnv hE sk hsk hp P hP msg msg.length le_rfl hm buf buf.length le_rfl sig len hs
  have hU : sk.params ∈ urParams → picnicSignatureSize sk.params ≤ (sig.take len).length := fun h => by rw [hbl', h6 h]
  refine ⟨{ sk.pk with params := sk.params }, sig.take len, ⟨hsk.pk.pt, hsk.pk.ct⟩, rfl, hU, hacc, fun s => ?_, fun hur => ?_⟩
  · exact C15_zkb_violated zeroEnv hE { sk.pk with params := sk.params } ⟨hsk.pk.pt, hsk.pk.ct⟩ hp msg msg.length le_rfl hm _
      hacc s
  · obtain ⟨d, front, l, hd, hl, hll, hval, -⟩ := C17_zkb_sign zeroEnv hE sk hsk hp P hP msg msg.length le_rfl hm buf buf.length
      le_rfl sig len hs
    rw [zeroEnv_H (rateOf_two hP)] at hd
    subst hd
    have hz : ∀ i < P.numMPCRounds, value sig i = 0 := by
      intro i hi
      rw [(hval i hi).1, List.getD_eq_getElem _ _ (by omega)]
      obtain ⟨k, -, rfl⟩ := hl
      exact stream_zero hP k _ (List.mem_of_mem_take (List.getElem_mem _))
    have hcount : (List.range P.numMPCRounds).countP (fun i => decide (value sig i = 0)) = P.numMPCRounds := by
      rw [List.countP_eq_length.2 (fun i hi => by simpa using hz i (List.mem_range.1 hi)), List.length_range]
    have hT := (zkbWF_of hP h3).Tpos
    have hnP := blockBits_of hP
    rw [hn] at hnP
    obtain rfl : n = P.stateSizeBits := by simpa using hnP
    have hnpos := (paramsWF_of hP).nPos
    have hpos : 1 ≤ P.numMPCRounds * bytesFor P.stateSizeBits := Nat.mul_pos hT (by unfold bytesFor; omega)
    have hlpos : 0 < len := by
      have := (zkbWF_of hP h3).Tpos
      have h7 := h6 hur
      rw [h7, ← serLen_eq hP h3, serLen]
      have hnb := numBytes_eq (2 * P.numMPCRounds)
      split_ifs <;> omega
    rw [hbl', List.take_take, Nat.min_eq_left (by omega)]
    exact C13_ur_violated zeroEnv hE sk hsk hur P.stateSizeBits hn hpad P hP msg msg.length le_rfl hm buf buf.length le_rfl sig len hs
      P.numMPCRounds hcount.symm (len - 1) (by omega) (by omega) { sk.pk with params := sk.params } rfl msg msg.length

end Picnic
