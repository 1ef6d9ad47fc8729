import Verif.Proofs.P3Ser
import Verif.Props.KeyGen
import Verif.Props.Merkle
import Mathlib.Algebra.Order.BigOperators.Ring.Finset
import Mathlib.Algebra.BigOperators.Ring.Finset

/-
Closed forms of `picnic_sign` and `picnic_verify` for the Picnic3 parameter sets.
-/

namespace Picnic

open Spec Spec.Tree Finset

theorem getParamSet_p3 {p : ℕ} (h : p ∈ picnic3Params) : ∃ P, getParamSet p = some P ∧ isPicnic3 p = true := by
  simp only [picnic3Params, List.mem_cons, List.not_mem_nil, or_false] at h
  rcases h with rfl | rfl | rfl <;> exact ⟨_, rfl, rfl⟩

/-- The tables of inverse matrices, for the Picnic3 parameter sets: their sizes, and that they are inverses. -/
structure InvWF (E : Env) : Prop where
  len : ∀ p ∈ picnic3Params, ∀ P, getParamSet p = some P → InvLen P (E.lowmc P)
  inv : ∀ p ∈ picnic3Params, ∀ P, getParamSet p = some P → InvOK P (E.lowmc P)

theorem relation_iff {P : Params} {C : LowMCConsts} {key pt ct : Buf} (hP : ParamsWF P) (hct : P.stateSizeBytes ≤ ct.length) :
    ofBits ((lowmcOf P C).enc (bitsOf key) (bitsOf pt)) P.stateSizeBytes = ct.take P.stateSizeBytes ↔ Relation P C key pt ct := by
  have hb := hP.bytes
  have e : ofBits ((lowmcOf P C).enc (bitsOf key) (bitsOf pt)) P.stateSizeBytes =
      (ofBits ((lowmcOf P C).enc (bitsOf key) (bitsOf pt)) P.stateSizeBytes).take P.stateSizeBytes := by rw [List.take_of_length_le (by simp)]
  rw [e, take_eq_iff (by simp) (by omega), Relation, bytesFor, ← hb]
  refine forall_congr' fun i => forall_congr' fun hi => ?_
  rw [bitsOf_ofBits _ (by omega), eq_comm]
  by_cases hin : i < P.stateSizeBits
  · rw [if_pos hin]
  · rw [if_neg hin, enc_ge hP.rounds (by omega)]

/-- Bound of the encoded length. -/
theorem sig2Len_le {p : ℕ} {P : Params} {C Q : List ℕ} (hp : p ∈ picnic3Params) (hP : getParamSet p = some P) (hc : ChalWF P C Q) :
    sig2Len P C Q ≤ picnicSignatureSize p := by
  obtain ⟨P', hP', hi3⟩ := getParamSet_p3 hp
  have h3 := p3WF_of hP hi3
  have h7 : 7 ≤ p ∧ p ≤ 9 := by
    simp only [picnic3Params, List.mem_cons, List.not_mem_nil, or_false] at hp; omega
  have hT1 := h3.Tpos
  have hT2 := h3.T
  have hlg := ceilLog2_le (by omega : 1 ≤ P.numMPCRounds) (by omega)
  have hD := clog_pos (by omega : 2 ≤ P.numMPCRounds) (by omega)
  obtain ⟨⟨k, hk, hkb⟩, ⟨k', hk', hkb'⟩, -⟩ := C29_opening_sizes (ml := missing P.numMPCRounds C) hP h7 hc.ltC hc.nodup hc.lenC
    (fun j hj => by rw [mem_missing]; simp [hj]) (fun h hh => (mem_missing.1 hh).1)
  obtain ⟨m1, m2, m3, m4, m5, m6, m7⟩ := mrev_facts h3 hc.lenC hc.ltC
  obtain ⟨n1, n2, n3⟩ := revN_spec hD (by omega) hlg hc.ltC
  rw [revealSeedsSize_ok (P := P) (by omega : 1 ≤ P.numMPCRounds) (by omega) n1] at hk
  rw [openMerkleTreeSize_ok (P := P) (by omega : 1 ≤ P.numMPCRounds) (by omega) m1] at hk'
  injection hk with hk
  injection hk' with hk'
  have hsum : ∑ t ∈ range P.numMPCRounds, rLen P C Q t ≤ P.numOpenedRounds *
      (4 * P.seedSizeBytes + P.andSizeBytes + P.stateSizeBytes + P.andSizeBytes + P.digestSizeBytes) := by
    have h1 : ∀ t ∈ range P.numMPCRounds, rLen P C Q t ≤ (if t ∈ C then 1 else 0) *
        (4 * P.seedSizeBytes + P.andSizeBytes + P.stateSizeBytes + P.andSizeBytes + P.digestSizeBytes) := by
      intro t _
      unfold rLen pfLen axLen
      split_ifs <;> omega
    refine (sum_le_sum h1).trans ?_
    rw [← sum_mul]
    refine Nat.mul_le_mul_right _ ?_
    rw [sum_boole, Nat.cast_id, ← hc.lenC, ← List.toFinset_card_of_nodup hc.nodup]
    exact card_le_card fun t ht => by simpa using (mem_filter.1 ht).2
  have hsd : sdLen P C ≤ P.numOpenedRounds * Nat.clog 2 ((P.numMPCRounds + P.numOpenedRounds - 1) / P.numOpenedRounds) * P.seedSizeBytes := by
    unfold sdLen; rw [hk]; exact Nat.mul_le_mul_right _ hkb
  have hcv : cvLen P C ≤ P.numOpenedRounds * Nat.clog 2 ((P.numMPCRounds + P.numOpenedRounds - 1) / P.numOpenedRounds) * P.digestSizeBytes := by
    unfold cvLen; rw [hk']; exact Nat.mul_le_mul_right _ hkb'
  have hfin : P.digestSizeBytes + P.saltSizeBytes +
      P.numOpenedRounds * Nat.clog 2 ((P.numMPCRounds + P.numOpenedRounds - 1) / P.numOpenedRounds) * P.seedSizeBytes +
      P.numOpenedRounds * Nat.clog 2 ((P.numMPCRounds + P.numOpenedRounds - 1) / P.numOpenedRounds) * P.digestSizeBytes +
      P.numOpenedRounds * (4 * P.seedSizeBytes + P.andSizeBytes + P.stateSizeBytes + P.andSizeBytes + P.digestSizeBytes) ≤ picnicSignatureSize p := by
    clear * - hP h7
    obtain ⟨h1, h2⟩ := h7
    interval_cases p <;> (injection hP with h; subst h; decide)
  unfold sig2Len off2
  omega

section
variable {E : Env} {P : Params}

open Classical in
/-- Signing with a Picnic3 parameter set. -/
theorem picnicSign_p3 {sk : PrivateKey} {msg buf : Buf} {mlen slen : ℕ} (hE : EnvWF E) (hI : InvWF E)
    (hP : getParamSet sk.params = some P) (hp : sk.params ∈ picnic3Params) (hsk : sk.Arrays) (hm : mlen ≤ msg.length)
    (hm32 : mlen + 200 ≤ 2 ^ 32) (hbuf : slen ≤ buf.length) {salt root : Buf}
    (hsalt : salt = sSalt E P sk.data sk.pk.ciphertext sk.pk.plaintext (msg.take mlen))
    (hroot : root = sRoot E P sk.data sk.pk.ciphertext sk.pk.plaintext (msg.take mlen)) :
    picnicSign E (some sk) msg mlen buf slen =
      if Relation P (E.lowmc P) sk.data sk.pk.plaintext sk.pk.ciphertext then
        match expandR E P E.fuel (sHash E P salt root sk.data sk.pk.ciphertext sk.pk.plaintext (msg.take mlen)) with
        | none => .diverge
        | some (C, Q) => .ok (if slen < sig2Len P C Q then (-1, buf, slen) else
            (0, sig2Bytes P (sSig E P salt root sk.data sk.pk.ciphertext sk.pk.plaintext (msg.take mlen) C Q) ++ buf.drop (sig2Len P C Q), sig2Len P C Q))
      else .ok (-1, buf, slen) := by
  obtain ⟨P', hP', hi3⟩ := getParamSet_p3 hp
  have hWF := paramsWF_of hP
  have h3 := p3WF_of hP hi3
  have hw := hWF.words
  have hby := hWF.bytes
  have hn := hWF.nMax
  have h1 := hsk.data
  have h2 := hsk.pk.pt
  have h4 := hsk.pk.ct
  simp only [picnicSign, deref, pure_eq_ok, ok_bind, hP, hi3, Bool.not_true]
  rw [if_neg (by simp), signPicnic3_ok hE.perm hWF (seedWF_of hP) (merkleWF_of hP) h3 (p3Sz_of hP hi3) (hE.lowmc _ _ hP) (hI.len _ hp _ hP)
    (hI.inv _ hp _ hP) (by omega) (by omega) (by omega) hm hm32]
  unfold signR
  rw [← hsalt, ← hroot]
  by_cases hR : Relation P (E.lowmc P) sk.data sk.pk.plaintext sk.pk.ciphertext
  · rw [if_pos hR, if_pos ((relation_iff hWF (by omega)).2 hR)]
    cases hx : expandR E P E.fuel (sHash E P salt root sk.data sk.pk.ciphertext sk.pk.plaintext (msg.take mlen)) with
    | none => rfl
    | some r =>
      obtain ⟨C, Q⟩ := r
      have hc := expandR_wf h3 hx
      dsimp only
      rw [ok_bind]
      dsimp only
      rw [serializeSignature2_ok h3 (sSig_wf h3 hc (by rw [hsalt]; exact sSalt_length) (by rw [hroot]; exact sRoot_length)) hbuf, ok_bind]
      change (match (if slen < sig2Len P C Q then none else some (_, sig2Len P C Q) : Option (Buf × ℕ)) with
        | none => Outcome.ok (-1, buf, slen)
        | some (signature, len) => Outcome.ok (0, signature, len)) = _
      by_cases hl : slen < sig2Len P C Q
      · rw [if_pos hl, if_pos hl]
      · rw [if_neg hl, if_neg hl]; rfl
  · rw [if_neg hR, if_neg (fun h => hR ((relation_iff hWF (by omega)).1 h))]
    rfl

/-- What `picnic_verify` checks with a Picnic3 parameter set, once the challenge is known. -/
def Accepts3 (E : Env) (P : Params) (ct pt msg b : Buf) (n : ℕ) (C Q : List ℕ) : Prop :=
  n = sig2Len P C Q ∧ AllPad2 P b C Q P.numMPCRounds ∧ (∀ t ∈ C, vOut E P (decSig2 P b C Q) pt t = ct.take P.stateSizeBytes) ∧
    b.take P.digestSizeBytes = vHash E P (decSig2 P b C Q) ct pt msg

open Classical in
/-- Verifying with a Picnic3 parameter set. -/
theorem picnicVerify_p3 {pk : PublicKey} {msg b : Buf} {mlen n : ℕ} (hE : EnvWF E) (hI : InvWF E)
    (hP : getParamSet pk.params = some P) (hp : pk.params ∈ picnic3Params) (hpk : pk.Arrays) (hm : mlen ≤ msg.length)
    (hm32 : mlen + 200 ≤ 2 ^ 32) (hn : n ≤ b.length) :
    picnicVerify E (some pk) msg mlen b n =
      if n < P.digestSizeBytes + P.saltSizeBytes then .ok (-1)
      else match expandR E P E.fuel (b.take P.digestSizeBytes) with
        | none => .diverge
        | some (C, Q) => .ok (if Accepts3 E P pk.ciphertext pk.plaintext (msg.take mlen) b n C Q then 0 else -1) := by
  obtain ⟨P', hP', hi3⟩ := getParamSet_p3 hp
  have hWF := paramsWF_of hP
  have h3 := p3WF_of hP hi3
  have hw := hWF.words
  have hby := hWF.bytes
  have hnM := hWF.nMax
  have h2 := hpk.pt
  have h4 := hpk.ct
  simp only [picnicVerify, deref, pure_eq_ok, ok_bind, hP, hi3, Bool.not_true]
  rw [if_neg (by simp), deserializeSignature2_ok hE.perm hWF h3 hn]
  unfold dec2R
  by_cases h0 : n < P.digestSizeBytes + P.saltSizeBytes
  · rw [if_pos h0, if_pos h0]; rfl
  rw [if_neg h0, if_neg h0]
  cases hx : expandR E P E.fuel (b.take P.digestSizeBytes) with
  | none => rfl
  | some r =>
    obtain ⟨C, Q⟩ := r
    have hc := expandR_wf h3 hx
    dsimp only
    rw [ok_bind]
    by_cases hl : n = sig2Len P C Q ∧ AllPad2 P b C Q P.numMPCRounds
    · rw [if_pos hl]
      dsimp only
      rw [verifyPicnic3_ok hE.perm hWF (seedWF_of hP) (merkleWF_of hP) h3 (p3Sz_of hP hi3) (hE.lowmc _ _ hP) (hI.len _ hp _ hP)
        (decSig2_wf hc (by omega)) (by omega) (by omega) hm hm32, ok_bind]
      congr 1
      refine if_congr ?_ rfl rfl
      rw [Bool.and_eq_true, decide_eq_true_iff, beq_iff_eq]
      unfold Accepts3
      constructor
      · rintro ⟨a, b⟩; exact ⟨hl.1, hl.2, a, b⟩
      · rintro ⟨-, -, a, b⟩; exact ⟨a, b⟩
    · rw [if_neg hl, if_neg (fun h => hl ⟨h.1, h.2.1⟩)]

theorem padZero_ofBits {f : ℕ → ZMod 2} {len m : ℕ} (h : ∀ i, m ≤ i → f i = 0) : PadZero (ofBits f len) m := fun i h1 _ => by
  by_cases hi : i < 8 * len
  · rw [bitsOf_ofBits _ hi, h i h1]
  · exact bitsOf_ge (by rw [ofBits_length]; omega)

/-- The padding bits in proofs made by the signer are zero. -/
theorem sPf_pad {salt root key pt : Buf} {t k : ℕ} (h3 : P3WF P) : Pad2 P (sPf E P salt root key pt t k) := by
  have e : 3 * P.numRounds * P.numSboxes = P.stateSizeBits * P.numRounds := by rw [← h3.full]; ring
  constructor
  · change PadZero (if k ≠ 15 then _ else _) _
    split
    · refine padZero_ofBits fun i hi => ?_
      rw [auxBitsOf, if_neg (by omega)]
    · exact padZero_zeros _ _
  · refine padZero_ofBits fun i hi => ?_
    rw [onMsg, if_neg (by omega), bitsOf_zeros]

/-- Bytes that start with an encoded signature of the signer decode to that signature. -/
theorem dec_sSig {salt root key pk pt msg b : Buf} {C Q : List ℕ} (h3 : P3WF P) (hc : ChalWF P C Q) (hsl : salt.length = P.saltSizeBytes)
    (hr : root.length = P.seedSizeBytes) (hb : b.take (sig2Len P C Q) = sig2Bytes P (sSig E P salt root key pk pt msg C Q)) :
    decSig2 P b C Q = sSig E P salt root key pk pt msg C Q ∧ AllPad2 P b C Q P.numMPCRounds ∧
      b.take P.digestSizeBytes = sHash E P salt root key pk pt msg := by
  have hwf := sSig_wf (E := E) (key := key) (pk := pk) (pt := pt) (msg := msg) h3 hc hsl hr
  have e : b = sig2Bytes P (sSig E P salt root key pk pt msg C Q) ++ b.drop (sig2Len P C Q) := by rw [← hb, List.take_append_drop]
  have hd : decSig2 P b C Q = sSig E P salt root key pk pt msg C Q := by
    rw [e]
    exact dec_enc2 hwf (fun t ht hC => by
      change (arrN _ _).getD t none = none
      rw [getD_arrN ht, if_neg (by exact hC)]) (fun t ht h15 => by
      rw [pfOf_sSig hc ht]
      exact if_neg (fun h => h h15))
  refine ⟨hd, fun t _ hC => ?_, ?_⟩
  · have := (decSig2_proof (b := b) hc hC).2
    rw [hd, pfOf_sSig hc hC] at this
    rw [← this]
    exact sPf_pad h3
  · have : (decSig2 P b C Q).challengeHash = sHash E P salt root key pk pt msg := by rw [hd]; rfl
    exact this

end

end Picnic
