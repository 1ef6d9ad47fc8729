import Verif.Props.ZkbSign
import Verif.Proofs.ZkbOob

/-
Properties of verification with the ZKB++ parameter sets: C13, C14, C15, C16, C17, C18, C31 (verification).
-/

namespace Picnic

open Spec Spec.Challenge Finset

/-! ### helper lemmas: buffers with the same beginning -/

theorem sl_take {b : Buf} {m off n : ℕ} (h : off + n ≤ m) : sl (b.take m) off n = sl b off n := by
  unfold sl
  rw [List.drop_take, List.take_take, Nat.min_eq_left (by omega)]

theorem offOf_congr {P : Params} {b b' : Buf} (h : ∀ i < P.numMPCRounds, chal b i = chal b' i) {i : ℕ} (hi : i ≤ P.numMPCRounds) :
    offOf P b i = offOf P b' i := by
  unfold offOf
  rw [Finset.sum_congr rfl fun k hk => by rw [h k (by have := Finset.mem_range.1 hk; omega)]]

theorem decLen_congr {P : Params} {b b' : Buf} (h : ∀ i < P.numMPCRounds, chal b i = chal b' i) : decLen P b = decLen P b' := by
  unfold decLen inpTotal
  rw [Finset.sum_congr rfl fun k hk => by rw [h k (Finset.mem_range.1 hk)]]

theorem chal_pre {P : Params} {b b' : Buf} (h : b.take (numBytes (2 * P.numMPCRounds)) = b'.take (numBytes (2 * P.numMPCRounds))) :
    ∀ i < P.numMPCRounds, chal b i = chal b' i := by
  intro i hi
  have hnb := numBytes_eq (2 * P.numMPCRounds)
  rw [← chal_take (b := b) (n := numBytes (2 * P.numMPCRounds)) (by omega), h, chal_take (by omega)]

theorem take_mono {b b' : Buf} {m n : ℕ} (h : b.take n = b'.take n) (hm : m ≤ n) : b.take m = b'.take m := by
  rw [← Nat.min_eq_left hm, ← List.take_take, h, List.take_take]

theorem decProof_pre {P : Params} {b b' : Buf} {m off c : ℕ} (h : b.take m = b'.take m) (ho : off + encLen P c ≤ m) :
    decProof P b off c = decProof P b' off c := by
  have key : ∀ o n, o + n ≤ m → sl b o n = sl b' o n := fun o n hon => by rw [← sl_take hon, h, sl_take hon]
  unfold encLen at ho
  simp only [decProof]
  rw [key _ _ (by omega), key _ _ (by omega), key _ _ (by omega), key _ _ (by omega), key _ _ (by omega), key _ _ (by omega)]

theorem off_le {P : Params} {b : Buf} {i : ℕ} (hi : i < P.numMPCRounds) : offOf P b i + encLen P (chal b i) ≤ encSigLen P b := by
  rw [← offOf_succ]
  exact offOf_mono (by omega)

/-- Two buffers that agree on an encoded signature. -/
theorem pre_same {P : Params} {b b' : Buf} (h : b.take (encSigLen P b) = b'.take (encSigLen P b)) :
    b.take (numBytes (2 * P.numMPCRounds)) = b'.take (numBytes (2 * P.numMPCRounds)) ∧
      (∀ i < P.numMPCRounds, chal b i = chal b' i) ∧ encSigLen P b = encSigLen P b' ∧ decSalt P b = decSalt P b' ∧
      ∀ i < P.numMPCRounds, decProofs P b i = decProofs P b' i := by
  have h0 : numBytes (2 * P.numMPCRounds) + P.saltSizeBytes ≤ encSigLen P b := by rw [encSigLen, offOf]; omega
  have h1 := take_mono h (show numBytes (2 * P.numMPCRounds) ≤ encSigLen P b by omega)
  have h2 := chal_pre h1
  refine ⟨h1, h2, offOf_congr h2 le_rfl, ?_, fun i hi => ?_⟩
  · unfold decSalt
    rw [← sl_take (b := b) h0, h, sl_take h0]
  · unfold decProofs
    rw [← h2 i hi, ← offOf_congr h2 (show i ≤ P.numMPCRounds by omega)]
    exact decProof_pre h (off_le hi)

/-- The physical buffer holds what the decoder reads. -/
def Full (P : Params) (b : Buf) (n : ℕ) : Prop :=
  decLen P b ≤ n → (∀ i < P.numMPCRounds, chal b i < 3) → encSigLen P b ≤ b.length

theorem full_fs {p : ℕ} {P : Params} {b : Buf} {n : ℕ} (hP : getParamSet p = some P) (hU : p ∉ urParams) (hn : n ≤ b.length) :
    Full P b n := by
  intro h1 h2
  rw [← decLen_fs (fun h => hU ((transform_ur hP).1 h)) h2]
  omega

theorem full_size {p : ℕ} {P : Params} {b : Buf} {n : ℕ} (hP : getParamSet p = some P) (h3 : isPicnic3 p = false)
    (hn : picnicSignatureSize p ≤ b.length) : Full P b n := by
  intro h1 h2
  rw [← serLen_eq hP h3] at hn
  exact (encSigLen_le (zkbWF_of hP h3) h2).trans hn

/-- Verification depends only on the first bytes of the signature, the message, and the encoded public key. -/
theorem picnicVerify_congr {E : Env} {P : Params} {pk pk' : PublicKey} {msg msg' b b' : Buf} {mlen mlen' n n' : ℕ} (hE : EnvWF E)
    {junk' : ℕ → ℕ → ℕ → Byte} {fuel' : ℕ} (hfuel : E.fuel ≤ fuel')
    (hP : getParamSet pk.params = some P) (h3 : isPicnic3 pk.params = false) (hpk : pk.Arrays) (hpk' : pk'.Arrays)
    (hpp : pk'.params = pk.params) (hct : pk'.ciphertext.take P.stateSizeBytes = pk.ciphertext.take P.stateSizeBytes)
    (hpt : pk'.plaintext.take P.stateSizeBytes = pk.plaintext.take P.stateSizeBytes)
    (hm : mlen ≤ msg.length) (hm32 : mlen + 200 ≤ 2 ^ 32) (hm' : mlen' ≤ msg'.length) (hm32' : mlen' + 200 ≤ 2 ^ 32)
    (hmsg : msg'.take mlen' = msg.take mlen)
    (hn : n ≤ b.length) (hn' : n' ≤ b'.length) (hf : Full P b n) (hf' : Full P b' n')
    (hD : Decodes P b n ↔ Decodes P b' n') (hpre : Decodes P b n → b.take (encSigLen P b) = b'.take (encSigLen P b))
    (hterm : picnicVerify E (some pk) msg mlen b n ≠ Outcome.diverge) :
    picnicVerify { E with junk := junk', fuel := fuel' } (some pk') msg' mlen' b' n' = picnicVerify E (some pk) msg mlen b n := by
  classical
  have hWF := paramsWF_of hP
  have hZ := zkbWF_of hP h3
  have hb := hWF.bytes
  have hnM := hWF.nMax
  obtain ⟨v1, v2, ho, e⟩ := picnicVerify_zkb hE hP h3 hpk hm hm32 hn hf
  obtain ⟨w1, w2, ho', e'⟩ := picnicVerify_zkb (E := { E with junk := junk', fuel := fuel' }) ⟨hE.perm, hE.lowmc⟩ (hpp ▸ hP)
    (hpp ▸ h3) hpk' hm' hm32' hn' hf'
  rw [e] at hterm
  rw [e, e']
  by_cases hd : Decodes P b n
  · rw [if_pos hd] at hterm
    rw [if_pos hd, if_pos (hD.1 hd)]
    obtain ⟨p1, p2, p3, p4, p5⟩ := pre_same (hpre hd)
    have ho := ho hd
    have ho' := ho' (hD.1 hd)
    have hptb : ∀ i < P.stateSizeBits, bitsOf pk.plaintext i = bitsOf pk'.plaintext i := fun i hi =>
      ((take_eq_iff (by rw [hpk'.pt]; omega) (by rw [hpk.pt]; omega)).1 hpt i (by omega)).symm
    have hctb : ∀ i < 8 * P.stateSizeBytes, bitsOf pk'.ciphertext i = bitsOf pk.ciphertext i :=
      (take_eq_iff (by rw [hpk'.ct]; omega) (by rw [hpk.ct]; omega)).1 hct
    have hvw : ∀ k < P.numMPCRounds, v1 k = w1 k ∧ v2 k = w2 k := by
      intro k hk
      have := opened_env (ho' k hk)
      rw [← p5 k hk, ← p2 k hk, ← p4] at this
      exact opened_unique hWF hptb (ho k hk) this
    have hin : verInput { E with junk := junk', fuel := fuel' } P pk'.ciphertext pk'.plaintext (decSalt P b') (msg'.take mlen')
        (chal b') (decProofs P b') w1 w2 =
        verInput E P pk.ciphertext pk.plaintext (decSalt P b) (msg.take mlen) (chal b) (decProofs P b) v1 v2 := by
      unfold verInput
      rw [← p4, hmsg]
      have hcongr : ∀ outs coms gs salt m, h3Input P pk'.ciphertext pk'.plaintext outs coms gs salt m =
          h3Input P pk.ciphertext pk.plaintext outs coms gs salt m := by
        intro outs coms gs salt m
        unfold h3Input
        rw [hct, hpt]
      rw [hcongr]
      refine h3Input_congr ?_ ?_ ?_
      · intro i hi j hj
        rw [p2 i hi, (hvw i hi).1, (hvw i hi).2]
        unfold verOuts
        rw [ofBits_congr fun x hx => by simp only [Pi.add_apply, hctb x hx]; rfl]
        rfl
      · intro i hi j hj
        rw [p2 i hi, p5 i hi, (hvw i hi).1, (hvw i hi).2]
        rfl
      · intro _ i hi j hj
        rw [p2 i hi, p5 i hi, (hvw i hi).1, (hvw i hi).2]
        rfl
    rw [hin, ← p1, show h3Digest { E with junk := junk', fuel := fuel' } P = h3Digest E P from rfl]
    rcases expandTrits_cases E P (h3Digest E P (verInput E P pk.ciphertext pk.plaintext (decSalt P b) (msg.take mlen) (chal b)
      (decProofs P b) v1 v2)) with h | ⟨ch, h, -⟩
    · rw [h] at hterm; exact absurd rfl hterm
    · rw [expandTrits_fuel hfuel h, h]
  · rw [if_neg hd, if_neg (fun h => hd (hD.2 h))]

/-! ### C14, C13 -/

/-- The possible outcomes of a verification: accepted, rejected, or (if the sampling of the challenge does not finish)
not terminated.  In particular no undefined behaviour and no failed assertion. -/
theorem verify_outcomes {E : Env} {P : Params} {pk : PublicKey} {msg b : Buf} {mlen n : ℕ} (hE : EnvWF E)
    (hP : getParamSet pk.params = some P) (h3 : isPicnic3 pk.params = false) (hpk : pk.Arrays) (hm : mlen ≤ msg.length)
    (hm32 : mlen + 200 ≤ 2 ^ 32) (hn : n ≤ b.length) (hf : Full P b n) :
    (picnicVerify E (some pk) msg mlen b n = Outcome.ok 0 ∨ picnicVerify E (some pk) msg mlen b n = Outcome.ok (-1) ∨
      picnicVerify E (some pk) msg mlen b n = Outcome.diverge) ∧
    ((∀ d : Buf, d.length = P.digestSizeBytes → P.numMPCRounds ≤ (stream (nextDigest E P) d E.fuel).length) →
      picnicVerify E (some pk) msg mlen b n ≠ Outcome.diverge) := by
  classical
  obtain ⟨v1, v2, ho, e⟩ := picnicVerify_zkb hE hP h3 hpk hm hm32 hn hf
  rw [e]
  by_cases hd : Decodes P b n
  · rw [if_pos hd]
    rcases expandTrits_cases E P (h3Digest E P (verInput E P pk.ciphertext pk.plaintext (decSalt P b) (msg.take mlen) (chal b)
      (decProofs P b) v1 v2)) with h | ⟨ch, h, -⟩
    · rw [h]
      refine ⟨Or.inr (Or.inr rfl), fun hs => ?_⟩
      exfalso
      unfold expandTrits at h
      rw [if_pos (hs _ (by simp [h3Digest]))] at h
      cases h
    · rw [h, ok_bind]
      by_cases hc : b.take (numBytes (2 * P.numMPCRounds)) = ch
      · rw [if_pos hc]; exact ⟨Or.inl rfl, fun _ => by simp⟩
      · rw [if_neg hc]; exact ⟨Or.inr (Or.inl rfl), fun _ => by simp⟩
  · rw [if_neg hd]; exact ⟨Or.inr (Or.inl rfl), fun _ => by simp⟩

/-- C14 for the FS and full parameter sets: for every byte string of every length (`b` is exactly the buffer of
`signature_len` bytes) verification has no undefined behaviour and returns 0 or -1, unless the sampling of the challenge does
not terminate within `E.fuel` digests. -/
theorem C14_zkb_fs (E : Env) (hE : EnvWF E) (pk : PublicKey) (hpk : pk.Arrays) (hp : pk.params ∈ zkbParams)
    (hU : pk.params ∉ urParams) (P : Params) (hP : getParamSet pk.params = some P) (msg : Buf) (mlen : ℕ)
    (hm : mlen ≤ msg.length) (hm32 : mlen + 200 ≤ 2 ^ 32) (b : Buf) :
    (picnicVerify E (some pk) msg mlen b b.length = Outcome.ok 0 ∨ picnicVerify E (some pk) msg mlen b b.length = Outcome.ok (-1) ∨
      picnicVerify E (some pk) msg mlen b b.length = Outcome.diverge) ∧
    ((∀ d : Buf, d.length = P.digestSizeBytes → P.numMPCRounds ≤ (stream (nextDigest E P) d E.fuel).length) →
      picnicVerify E (some pk) msg mlen b b.length ≠ Outcome.diverge) := by
  obtain ⟨P', hP', h3⟩ := getParamSet_zkb hp
  exact verify_outcomes hE hP h3 hpk hm hm32 le_rfl (full_fs hP hU le_rfl)

/-- C13 (the part that holds for ZKB++): a verification that is given exactly the `b.length` bytes of the signature never
reads outside of them, for FS and full parameter sets, and for UR parameter sets if the signature has at least
`picnic_signature_size` bytes.  Missing: UR signatures that are shorter, see `C13_ur_violated`. -/
theorem C13_zkb_partial (E : Env) (hE : EnvWF E) (pk : PublicKey) (hpk : pk.Arrays) (hp : pk.params ∈ zkbParams)
    (msg : Buf) (mlen : ℕ) (hm : mlen ≤ msg.length) (hm32 : mlen + 200 ≤ 2 ^ 32) (b : Buf)
    (hU : pk.params ∈ urParams → picnicSignatureSize pk.params ≤ b.length) (u : UB) :
    picnicVerify E (some pk) msg mlen b b.length ≠ Outcome.ub u := by
  obtain ⟨P, hP, h3⟩ := getParamSet_zkb hp
  have hf : Full P b b.length := by
    by_cases h : pk.params ∈ urParams
    · exact full_size hP h3 (hU h)
    · exact full_fs hP h le_rfl
  rcases (verify_outcomes hE hP h3 hpk hm hm32 le_rfl hf).1 with h | h | h <;> rw [h] <;> simp

/-- C13 is false for UR parameter sets: take a signature that `picnic_sign` has produced, with `z` repetitions of challenge
0, and drop between 1 and `z·⌈n/8⌉` of its last bytes.  Verification of the rest reads past its end. -/
theorem C13_ur_violated (E : Env) (hE : EnvWF E) (sk : PrivateKey) (hsk : sk.Arrays) (hp : sk.params ∈ urParams) (n : ℕ)
    (hn : blockBits sk.params = some n) (hpad : ZeroPad n sk.data) (P : Params) (hP : getParamSet sk.params = some P)
    (msg : Buf) (mlen : ℕ) (hm : mlen ≤ msg.length) (hm32 : mlen + 200 ≤ 2 ^ 32)
    (buf : Buf) (slen : ℕ) (hbuf : slen ≤ buf.length) (sig : Buf) (len : ℕ)
    (hs : picnicSign E (some sk) msg mlen buf slen = Outcome.ok (0, sig, len))
    (z : ℕ) (hz : z = (List.range P.numMPCRounds).countP fun i => value sig i = 0)
    (m : ℕ) (hm1 : m < len) (hm2 : len ≤ m + z * bytesFor n) (pk : PublicKey) (hpp : pk.params = sk.params)
    (msg' : Buf) (mlen' : ℕ) :
    picnicVerify E (some pk) msg' mlen' (sig.take m) m = Outcome.ub UB.oobRead := by
  have hzkb : sk.params ∈ zkbParams := by
    simp only [urParams, zkbParams, List.mem_cons, List.not_mem_nil, or_false] at hp ⊢
    omega
  obtain ⟨P', hP', h3⟩ := getParamSet_zkb hzkb
  rw [hP] at hP'
  obtain rfl : P = P' := by simpa using hP'
  have hnP := blockBits_of hP
  rw [hn] at hnP
  obtain rfl : n = P.stateSizeBits := by simpa using hnP
  have hWF := paramsWF_of hP
  have hZ := zkbWF_of hP h3
  have hb := hWF.bytes
  have hnb := numBytes_eq (2 * P.numMPCRounds)
  have hU := (transform_ur hP).2 hp
  obtain ⟨views, ch, hv, hR, hx, hchl, hch3, hslen, hsig, hlen⟩ := picnicSign_zkb_zero hE hP h3 hsk hm hm32 hbuf rfl hs
  generalize hslab : seedSlab E P sk.data sk.pk.ciphertext sk.pk.plaintext (msg.take mlen) = slab at hv hx hsig
  obtain ⟨hsl1, hsl2⟩ := slab_lengths hZ hslab.symm
  have hq : ∀ k < P.numMPCRounds, QWF P (chal ch k) (honestProof E P (slabSeed P slab k) (views k) (chal ch k)) :=
    fun k hk => honestProof_wf (hv k hk) (hsl2 k hk) (hch3 k hk)
  have hel := encSig_length hchl hsl1 hq
  obtain ⟨hd1, hd2, hd3, hd4, hd5, hd6⟩ := dec_of_encSig hchl hsl1 hq hsig
  have hs3 : ∀ i < P.numMPCRounds, chal sig i < 3 := fun i hi => by rw [hd3 i hi]; exact hch3 i hi
  have hdec := decLen_ur hZ hU hs3
  have hcount : z = (List.range P.numMPCRounds).countP (fun i => chal sig i = 0) := by
    rw [hz]
    apply List.countP_congr
    intro i _
    rw [← chal_eq_value]
  rw [← hcount, hd5, ← hlen] at hdec
  have hdm : decLen P sig ≤ m := by
    rw [bytesFor, ← hb, Nat.mul_comm] at hm2
    omega
  have hmin : numBytes (2 * P.numMPCRounds) + P.saltSizeBytes ≤ decLen P sig := by
    unfold decLen; simp only []; split_ifs; omega
  have hsl : len ≤ sig.length := by rw [hsig, List.length_append, hel, hlen]; omega
  have hml : (sig.take m).length = m := by simp; omega
  have hpre : sig.take m = (sig.take m).take m := by rw [List.take_take, Nat.min_self]
  have hcc : ∀ i < P.numMPCRounds, chal sig i = chal (sig.take m) i := chal_pre (take_mono hpre (by omega))
  have hoff : ∀ i ≤ P.numMPCRounds, offOf P sig i = offOf P (sig.take m) i := fun i hi => offOf_congr hcc hi
  simp only [picnicVerify, deref, pure_eq_ok, ok_bind, hpp, hP, h3, Bool.not_false, if_true]
  refine bind_of_ub ?_
  have := deserializeSignature_oob (P := P) (sig0 := allocateSignature E P) (b := sig.take m) hWF hZ (allocateSignature_wf hZ)
    (by omega) (by rw [hml, ← decLen_congr hcc]; exact hdm) (fun i hi => by rw [← hcc i hi]; exact hs3 i hi) ?_ ?_
  · rw [hml] at this; exact this
  · intro i hi hle h0
    rw [← hoff _ (by omega), hml, offOf_succ] at hle
    rw [← hcc i hi, ← hoff i (by omega), ← decProof_pre hpre hle, ← decProofs, hd6 i hi]
    rw [← hcc i hi, hd3 i hi] at h0
    simp only [honestProof, if_neg h0]
    rw [(hv i hi).inp 2 (by omega), ← zpad_share2 hWF (zeroPad_iff.1 hpad)]
    intro p hp _
    rw [bitsOf_zpad, trunc, if_neg (by omega)]
  · rw [hml, encSigLen, ← hoff _ le_rfl, ← encSigLen, hd5, ← hlen]; exact hm1

end Picnic
