import Verif.Proofs.Kats
import Verif.Props.Cycle

/-
How the result of `picnic_sign` depends on the buffer.
-/

namespace Picnic

open Spec Spec.Challenge

/-- The size of the buffer that `picnic_sign` asks for, when the signature has `len` bytes. -/
def needed (p len : ℕ) : ℕ := if p ∈ zkbParams then picnicSignatureSize p else len

/-- Signing with a valid key yields the same bytes for all buffers that are large enough. -/
theorem sign_sizes (E : Env) (hE : EnvWF E) (sk : PrivateKey) (hI : sk.params ∈ picnic3Params → InvWF E) (hsk : sk.Arrays) (n : ℕ)
    (hn : blockBits sk.params = some n) (P : Params) (hP : getParamSet sk.params = some P)
    (hR : Relation P (E.lowmc P) sk.data sk.pk.plaintext sk.pk.ciphertext) (msg : Buf) (mlen : ℕ) (hm : mlen ≤ msg.length) (hm32 : mlen + 200 ≤ 2 ^ 32) :
    (∀ (buf : Buf) (slen : ℕ), slen ≤ buf.length → picnicSign E (some sk) msg mlen buf slen = Outcome.diverge) ∨
    ∃ s : Buf, s.length ≤ picnicSignatureSize sk.params ∧ ∀ (buf : Buf) (slen : ℕ), slen ≤ buf.length → picnicSign E (some sk) msg mlen buf slen =
      Outcome.ok (if slen < needed sk.params s.length then (-1, buf, slen) else (0, s ++ buf.drop s.length, s.length)) := by
  classical
  rcases blockBits_cases hn with hp | hp
  · obtain ⟨P', hP', h3⟩ := getParamSet_zkb hp
    have hZ := zkbWF_of hP h3
    have hWF := paramsWF_of hP
    have hb := hWF.bytes
    have hw := hWF.words
    have hn := hWF.nMax
    have h1 := hsk.data
    have h2 := hsk.pk.pt
    have h4 := hsk.pk.ct
    have hse := serLen_eq hP h3
    obtain ⟨views, hv, hcase⟩ := signPicnic1_ok (E := E) (P := P) (sk := sk.data) (ct := sk.pk.ciphertext) (pt := sk.pk.plaintext)
      (msg := msg) (mlen := mlen) (sig0 := allocateSignature E P) hE.perm hWF (hE.lowmc _ _ hP) hZ (allocateSignature_wf hZ)
      (by omega) (by omega) (by omega) hm hm32 rfl
    generalize hslab : seedSlab E P sk.data sk.pk.ciphertext sk.pk.plaintext (msg.take mlen) = slab at hv hcase
    obtain ⟨hsl1, hsl2⟩ := slab_lengths hZ hslab.symm
    rcases hcase with ⟨hne, e⟩ | ⟨heq, hd, e⟩ | ⟨heq, sig, hd, e, hs, hsalt, hch, hq⟩
    · exfalso
      refine hne ?_
      have e : ofBits ((lowmcOf P (E.lowmc P)).enc (bitsOf sk.data) (bitsOf sk.pk.plaintext)) P.stateSizeBytes =
          (ofBits ((lowmcOf P (E.lowmc P)).enc (bitsOf sk.data) (bitsOf sk.pk.plaintext)) P.stateSizeBytes).take
            P.stateSizeBytes := by rw [List.take_of_length_le (by simp)]
      rw [e, take_eq_iff (by simp) (by omega)]
      intro i hi
      rw [bitsOf_ofBits _ (by omega), hR i (by rw [bytesFor, ← hb]; exact hi)]
      by_cases hin : i < P.stateSizeBits
      · rw [if_pos hin]
      · rw [if_neg hin, enc_ge hWF.rounds (by omega)]
    · refine Or.inl fun buf slen hbuf => ?_
      simp only [picnicSign, deref, pure_eq_ok, ok_bind, hP, h3, Bool.not_false, if_true]
      rw [e]
      rfl
    · have hex := expandTrits_cases E P (h3Digest E P (signInput E P sk.pk.ciphertext sk.pk.plaintext (slabSalt P slab) (msg.take mlen)
        (slabSeed P slab) views))
      rw [hd] at hex
      rcases hex with hex | ⟨ch, hex, h5, h6⟩
      · cases hex
      obtain rfl := Outcome.ok.inj hex
      have hsig : encSig P sig.challengeBits sig.salt (sigProofs P sig) = encSig P sig.challengeBits (slabSalt P slab)
          (fun i => honestProof E P (slabSeed P slab i) (views i) (chal sig.challengeBits i)) := by
        rw [hsalt]
        exact encSig_congr hq
      have hel := encSig_length h5 hsl1 fun k hk => honestProof_wf (hv k hk) (hsl2 k hk) (h6 k hk)
      have hle := encSigLen_le hZ h6
      refine Or.inr ⟨_, hel.trans_le (hle.trans hse.le), fun buf slen hbuf => ?_⟩
      simp only [picnicSign, deref, pure_eq_ok, ok_bind, hP, h3, Bool.not_false, if_true]
      rw [e, ok_bind]
      dsimp only
      rw [serializeSignature_ok hZ hs hch hbuf, ok_bind, needed, if_pos hp, ← hse, hsig, hel]
      by_cases hl : slen < serLen P
      · rw [if_pos hl, if_pos hl]
      · rw [if_neg hl, if_neg hl]
  · obtain ⟨P', hP', hi3⟩ := getParamSet_p3 hp
    have h3 := p3WF_of hP hi3
    have hz : sk.params ∉ zkbParams := fun h => by
      simp only [zkbParams, picnic3Params, List.mem_cons, List.not_mem_nil, or_false] at h hp
      omega
    have hrl := sRoot_length (E := E) (P := P) (key := sk.data) (pk := sk.pk.ciphertext) (pt := sk.pk.plaintext) (msg := msg.take mlen)
    have hll := sSalt_length (E := E) (P := P) (key := sk.data) (pk := sk.pk.ciphertext) (pt := sk.pk.plaintext) (msg := msg.take mlen)
    have key := fun buf slen (hbuf : slen ≤ List.length buf) => picnicSign_p3 (buf := buf) hE (hI hp) hP hp hsk hm hm32 hbuf rfl rfl
    generalize sSalt E P sk.data sk.pk.ciphertext sk.pk.plaintext (msg.take mlen) = salt at *
    generalize sRoot E P sk.data sk.pk.ciphertext sk.pk.plaintext (msg.take mlen) = root at *
    cases hx : expandR E P E.fuel (sHash E P salt root sk.data sk.pk.ciphertext sk.pk.plaintext (msg.take mlen)) with
    | none => exact Or.inl fun buf slen hbuf => by rw [key buf slen hbuf, if_pos hR, hx]
    | some r =>
      obtain ⟨C, Q⟩ := r
      have hc := expandR_wf h3 hx
      have hle := sig2Len_le hp hP hc
      have hlen : (sig2Bytes P (sSig E P salt root sk.data sk.pk.ciphertext sk.pk.plaintext (msg.take mlen) C Q)).length = sig2Len P C Q :=
        pre2_length (sSig_wf h3 hc hll hrl) _
      refine Or.inr ⟨_, hlen.trans_le hle, fun buf slen hbuf => ?_⟩
      rw [key buf slen hbuf, if_pos hR, hx, needed, if_neg hz, hlen]

end Picnic
