import Verif.Proofs.Conf1
import Verif.Props.ZkbDecode
import Verif.Props.ZkbSecurity

/-
C37: with the ZKB++ parameter sets the library computes exactly the signatures of the Picnic specification and accepts
exactly the valid ones (Verif/Spec/Picnic1.lean).
-/

namespace Picnic

open Spec Spec.Challenge Finset

/-- C37, signing: whatever `picnic_sign` returns as a signature is the signature of the specification, byte for byte, written
to the start of the buffer; the rest of the buffer is unchanged. -/
theorem C37_sign (E : Env) (hE : EnvWF E) (sk : PrivateKey) (hsk : sk.Arrays) (hp : sk.params ∈ zkbParams) (P : Params)
    (hP : getParamSet sk.params = some P) (I : Picnic1.Inst) (hI : I.Is sk.params) (hf : I.f = E.perm)
    (hX : I.X = lowmcOf P (E.lowmc P)) (msg : Buf) (mlen : ℕ) (hm : mlen ≤ msg.length) (hm32 : mlen + 200 ≤ 2 ^ 32)
    (buf : Buf) (slen : ℕ) (hbuf : slen ≤ buf.length) (sig : Buf) (len : ℕ)
    (hs : picnicSign E (some sk) msg mlen buf slen = Outcome.ok (0, sig, len)) :
    ∃ s, I.IsSignature (sk.data.take I.blk) (sk.pk.ciphertext.take I.blk) (sk.pk.plaintext.take I.blk) (msg.take mlen) s ∧
      sig = s ++ buf.drop s.length ∧ len = s.length := by
  have h3 : isPicnic3 sk.params = false := (getParamSet_zkb hp).choose_spec.2
  have hWF := paramsWF_of hP
  have hZ := zkbWF_of hP h3
  have M := match1_of hP hI hf hX
  obtain ⟨views, ch, hv, hR, hx, hchl, hch3, hslen, hsig, hlen⟩ := picnicSign_zkb_zero hE hP h3 hsk hm hm32 hbuf rfl hs
  generalize hslab : seedSlab E P sk.data sk.pk.ciphertext sk.pk.plaintext (msg.take mlen) = slab at hv hx hsig
  obtain ⟨hsl1, hsl2⟩ := slab_lengths hZ hslab.symm
  have hq : ∀ k < P.numMPCRounds, QWF P (chal ch k) (honestProof E P (slabSeed P slab k) (views k) (chal ch k)) :=
    fun k hk => honestProof_wf (hv k hk) (hsl2 k hk) (hch3 k hk)
  have hel := encSig_length hchl hsl1 hq
  obtain ⟨e, he1, he2, he3, he4, he5⟩ := M.challenge_of hx
  have hsec : I.secrets (sk.data.take I.blk) (sk.pk.ciphertext.take I.blk) (sk.pk.plaintext.take I.blk) (msg.take mlen) =
      slab := by rw [M.blk, M.secrets hZ, hslab]
  refine ⟨encSig P ch (slabSalt P slab) (fun i => honestProof E P (slabSeed P slab i) (views i) (chal ch i)),
    ⟨fun t j => (views t j).conf (slabSeed P slab t j), e, ?_, ?_, ?_⟩, ?_, ?_⟩
  · intro t ht
    rw [hsec, M.saltOf hZ, M.blk]
    exact M.honest_run hWF (hv t (M.T ▸ ht))
  · rw [hsec, M.saltOf hZ, M.blk, M.challengeDigest hZ]
    · simp only [M.commit, M.G]
      exact he1
    · intro t ht j hj
      exact ((hv t ht).wf j hj).out
    · intro t ht j hj
      rw [M.commit]; simp [commitOf]
    · intro _ t ht j hj
      rw [M.G]; simp
  · rw [hsec, M.saltOf hZ, M.encode, ← he4]
    refine encSig_congr fun i hi => ?_
    rw [he5 i hi]
    exact (M.openViews (chal ch i) (fun j => (views i j).conf (slabSeed P slab i j)) (sd := slabSeed P slab i) (hch3 i hi)
      (fun j _ => rfl)).symm
  · rw [hel]; exact hsig
  · rw [hel]; exact hlen

/-- C37, signing, converse: for a valid key pair and a large enough buffer `picnic_sign` returns the signature of the
specification, provided that the sampling of the challenge may hash often enough (`n` times). -/
theorem C37_sign_complete (E : Env) (hE : EnvWF E) (sk : PrivateKey) (hsk : sk.Arrays) (hp : sk.params ∈ zkbParams)
    (P : Params) (hP : getParamSet sk.params = some P) (hR : Relation P (E.lowmc P) sk.data sk.pk.plaintext sk.pk.ciphertext)
    (I : Picnic1.Inst) (hI : I.Is sk.params) (hf : I.f = E.perm)
    (hX : I.X = lowmcOf P (E.lowmc P)) (msg : Buf) (mlen : ℕ) (hm : mlen ≤ msg.length) (hm32 : mlen + 200 ≤ 2 ^ 32)
    (s : Buf)
    (hs : I.IsSignature (sk.data.take I.blk) (sk.pk.ciphertext.take I.blk) (sk.pk.plaintext.take I.blk) (msg.take mlen) s) :
    ∃ n, ∀ fuel ≥ n, ∀ (junk : ℕ → ℕ → ℕ → Byte) (buf : Buf) (slen : ℕ), slen ≤ buf.length →
      picnicSignatureSize sk.params ≤ slen →
      picnicSign { E with junk := junk, fuel := fuel } (some sk) msg mlen buf slen =
        Outcome.ok (0, s ++ buf.drop s.length, s.length) := by
  classical
  have h3 : isPicnic3 sk.params = false := (getParamSet_zkb hp).choose_spec.2
  have hWF := paramsWF_of hP
  have hZ := zkbWF_of hP h3
  have M := match1_of hP hI hf hX
  obtain ⟨v, e, hrun, hch, hsig⟩ := hs
  generalize hslab : seedSlab E P sk.data sk.pk.ciphertext sk.pk.plaintext (msg.take mlen) = slab
  have hsec : I.secrets (sk.data.take I.blk) (sk.pk.ciphertext.take I.blk) (sk.pk.plaintext.take I.blk) (msg.take mlen) =
      slab := by rw [M.blk, M.secrets hZ, hslab]
  rw [hsec, M.saltOf hZ] at hrun hch hsig
  rw [M.blk] at hrun hch
  obtain ⟨hsl1, hsl2⟩ := slab_lengths hZ hslab.symm
  have hH : ∀ t < P.numMPCRounds, HonestViews E P sk.data sk.pk.plaintext (slabSalt P slab) (slabSeed P slab t) t
      (fun j => modelView (v t j)) := fun t ht => M.run_honest hWF (hrun t (M.T.symm ▸ ht))
  have hsd : ∀ t < P.numMPCRounds, ∀ j < 3, (v t j).seed = slabSeed P slab t j := fun t ht j hj => by
    rw [(hrun t (M.T.symm ▸ ht)).seed j hj, M.seedOf]
  rw [M.challengeDigest hZ _ _ _ _ (outs := fun t j => (v t j).out) (fun t ht j hj => ((hH t ht).wf j hj).out)
    (fun t ht j hj => by rw [M.commit]; simp [commitOf]) (fun _ t ht j hj => by rw [M.G]; simp)] at hch
  obtain ⟨c1, c2, c3, n, c4⟩ := M.challenge_to hch
  refine ⟨n, fun fuel hfuel junk buf slen hbuf hsize => ?_⟩
  obtain ⟨views, hv, hx⟩ := picnicSign_zkb (E := { E with junk := junk, fuel := fuel }) (sk := sk) (msg := msg) (buf := buf)
    (mlen := mlen) (slen := slen) ⟨hE.perm, hE.lowmc⟩ hP h3 hsk hm hm32 hbuf (slab := slab) hslab.symm
  have hvw : ∀ t < P.numMPCRounds, ∀ j < 3, views t j = modelView (v t j) := fun t ht =>
    honest_unique hWF (honest_env (hv t ht)) (hH t ht)
  have hin : signInput { E with junk := junk, fuel := fuel } P sk.pk.ciphertext sk.pk.plaintext (slabSalt P slab)
      (msg.take mlen) (slabSeed P slab) views =
      h3Input P sk.pk.ciphertext sk.pk.plaintext (fun t j => (v t j).out) (fun t j => I.commit (v t j))
        (fun t j => I.G j (v t j)) (slabSalt P slab) (msg.take mlen) := by
    unfold signInput
    refine h3Input_congr ?_ ?_ ?_
    · intro t ht j hj
      rw [hvw t ht j hj]; rfl
    · intro t ht j hj
      rw [hvw t ht j hj, M.commit, hsd t ht j hj]; rfl
    · intro _ t ht j hj
      rw [hvw t ht j hj, M.G, hsd t ht j hj]; rfl
  rw [hx, if_pos (show Relation P ((({ E with junk := junk, fuel := fuel } : Env)).lowmc P) _ _ _ from hR), hin]
  have h4 := c4 fuel hfuel junk
  rw [show h3Digest { E with junk := junk, fuel := fuel } P = h3Digest E P from rfl, h4, ok_bind]
  have hser : serLen P ≤ slen := by rw [serLen_eq hP h3]; exact hsize
  rw [if_neg (by omega)]
  have hch3 : ∀ i < P.numMPCRounds, chal (I.encodeChallenge e) i < 3 := fun i hi => by
    rw [← c3 i hi, List.getD_eq_getElem _ _ (by omega)]
    exact c2 _ (List.getElem_mem _)
  have henc : encSig P (I.encodeChallenge e) (slabSalt P slab) (fun i => honestProof { E with junk := junk, fuel := fuel } P
      (slabSeed P slab i) (views i) (chal (I.encodeChallenge e) i)) = s := by
    rw [hsig, M.encode]
    refine encSig_congr fun i hi => ?_
    rw [c3 i hi, M.openViews _ _ (sd := slabSeed P slab i) (hch3 i hi) (hsd i hi)]
    exact honestProof_congr (E := E) (hch3 i hi) fun j hj => hvw i hi j hj
  have hchl : (I.encodeChallenge e).length = numBytes (2 * P.numMPCRounds) := by rw [M.encodeChallenge]; simp
  have hel := encSig_length (P := P) hchl hsl1 (q := fun i => honestProof { E with junk := junk, fuel := fuel } P
      (slabSeed P slab i) (views i) (chal (I.encodeChallenge e) i)) fun k hk => honestProof_wf (hv k hk) (hsl2 k hk) (hch3 k hk)
  rw [henc] at hel
  rw [henc, hel]

/-! ### verification -/

theorem all_congr {I : Picnic1.Inst} {x y : ℕ → ℕ → Buf} (h : ∀ t < I.T, x t = y t) : I.all x = I.all y := by
  unfold Picnic1.Inst.all
  rw [List.flatMap_def, List.flatMap_def]
  congr 1
  refine List.map_congr_left fun t ht => ?_
  rw [h t (List.mem_range.1 ht)]

theorem challengeDigest_congr {I : Picnic1.Inst} {o o' c c' g g' : ℕ → ℕ → Buf} {ct pt salt msg : Buf}
    (h1 : ∀ t < I.T, o t = o' t) (h2 : ∀ t < I.T, c t = c' t) (h3 : ∀ t < I.T, g t = g' t) :
    I.challengeDigest o c g ct pt salt msg = I.challengeDigest o' c' g' ct pt salt msg := by
  rw [Picnic1.Inst.challengeDigest, Picnic1.Inst.challengeDigest, all_congr h1, all_congr h2, all_congr h3]

theorem Match1.verDigest {E : Env} {P : Params} {I : Picnic1.Inst} (M : Match1 E P I) (hWF : ParamsWF P) (hZ : ZkbWF P)
    {ct pt salt msg : Buf} {c c' : ℕ → ℕ} {q : ℕ → QProof} {v1 v2 : ℕ → View} (hc : ∀ k < P.numMPCRounds, c k < 3)
    (hcc : ∀ k < P.numMPCRounds, c' k = c k)
    (hq : ∀ k < P.numMPCRounds, QWF P (c k) (q k)) (h1 : ∀ k < P.numMPCRounds, ViewWF P (v1 k))
    (h2 : ∀ k < P.numMPCRounds, ViewWF P (v2 k)) :
    I.challengeDigest
      (fun t => Picnic1.arrange (c' t) ((v1 t).conf (q t).seed1).out ((v2 t).conf (q t).seed2).out
        (Picnic1.ofBits P.stateSizeBytes (Picnic1.toBits ((v1 t).conf (q t).seed1).out + Picnic1.toBits ((v2 t).conf (q t).seed2).out +
          Picnic1.toBits (ct.take P.stateSizeBytes))))
      (fun t => Picnic1.arrange (c' t) (I.commit ((v1 t).conf (q t).seed1)) (I.commit ((v2 t).conf (q t).seed2)) (q t).conf.com)
      (fun t => Picnic1.arrange (c' t) (I.G (c' t) ((v1 t).conf (q t).seed1)) (I.G ((c' t + 1) % 3) ((v2 t).conf (q t).seed2))
        (q t).conf.g)
      (ct.take P.stateSizeBytes) (pt.take P.stateSizeBytes) salt msg =
    h3Digest E P (verInput E P ct pt salt msg c q v1 v2) := by
  have hb := hWF.bytes
  rw [M.challengeDigest hZ]
  · congr 1
    unfold verInput
    refine h3Input_congr ?_ ?_ ?_
    · intro t ht j hj
      rw [hcc t ht]
      change pick _ _ _ _ _ = pick _ _ _ _ _
      rw [ofBits_eq, toBits_eq, toBits_eq, toBits_eq]
      have : ofBits (bitsOf ((v1 t).conf (q t).seed1).out + bitsOf ((v2 t).conf (q t).seed2).out +
          bitsOf (ct.take P.stateSizeBytes)) P.stateSizeBytes =
          ofBits (bitsOf (v1 t).outputShare + bitsOf (v2 t).outputShare + bitsOf ct) P.stateSizeBytes :=
        ofBits_congr fun i hi => by
          simp only [Pi.add_apply]
          rw [bitsOf_take hi]; rfl
      rw [this]; rfl
    · intro t ht j hj
      rw [hcc t ht]
      simp only [M.commit]; rfl
    · intro _ t ht j hj
      rw [hcc t ht]
      simp only [M.G]; rfl
  · intro t ht j hj
    rw [hcc t ht]
    change List.length (pick _ _ _ _ _) = _
    rcases pick_cases ((v1 t).conf (q t).seed1).out ((v2 t).conf (q t).seed2).out
      (Picnic1.ofBits P.stateSizeBytes (Picnic1.toBits ((v1 t).conf (q t).seed1).out + Picnic1.toBits ((v2 t).conf (q t).seed2).out +
          Picnic1.toBits (ct.take P.stateSizeBytes))) (hc t ht) hj with ⟨-, e⟩ | ⟨-, e⟩ | ⟨-, e⟩ <;> rw [e]
    · exact (h1 t ht).out
    · exact (h2 t ht).out
    · rw [ofBits_eq]; simp
  · intro t ht j hj
    rw [hcc t ht]
    change List.length (pick _ _ _ _ _) = _
    rcases pick_cases (I.commit ((v1 t).conf (q t).seed1)) (I.commit ((v2 t).conf (q t).seed2)) (q t).conf.com (hc t ht) hj
      with ⟨-, e⟩ | ⟨-, e⟩ | ⟨-, e⟩ <;> rw [e]
    · rw [M.commit]; simp [commitOf]
    · rw [M.commit]; simp [commitOf]
    · exact (hq t ht).com3
  · intro hU t ht j hj
    rw [hcc t ht]
    change List.length (pick _ _ _ _ _) = _
    rcases pick_cases (I.G (c t) ((v1 t).conf (q t).seed1)) (I.G ((c t + 1) % 3) ((v2 t).conf (q t).seed2)) (q t).conf.g
      (hc t ht) hj with ⟨hj', e⟩ | ⟨hj', e⟩ | ⟨hj', e⟩ <;> rw [e, hj']
    · rw [M.G]; simp
    · rw [M.G]; simp
    · refine (hq t ht).g3.trans ?_
      rw [encG, if_pos hU]

/-- C37, verification: what `picnic_verify` accepts starts with a valid signature of the specification. -/
theorem C37_verify_sound (E : Env) (hE : EnvWF E) (pk : PublicKey) (hpk : pk.Arrays) (hp : pk.params ∈ zkbParams) (P : Params)
    (hP : getParamSet pk.params = some P) (I : Picnic1.Inst) (hI : I.Is pk.params) (hf : I.f = E.perm)
    (hX : I.X = lowmcOf P (E.lowmc P)) (msg : Buf) (mlen : ℕ) (hm : mlen ≤ msg.length) (hm32 : mlen + 200 ≤ 2 ^ 32)
    (b : Buf) (hv : picnicVerify E (some pk) msg mlen b b.length = Outcome.ok 0) :
    ∃ n ≤ b.length, I.IsValid (pk.ciphertext.take I.blk) (pk.plaintext.take I.blk) (msg.take mlen) (b.take n) := by
  classical
  have h3 : isPicnic3 pk.params = false := (getParamSet_zkb hp).choose_spec.2
  have hWF := paramsWF_of hP
  have hZ := zkbWF_of hP h3
  have hnb := numBytes_eq (2 * P.numMPCRounds)
  have M := match1_of hP hI hf hX
  have hfull := full_of_zero hP h3 le_rfl hv
  obtain ⟨v1, v2, hO, hx⟩ := picnicVerify_zkb hE hP h3 hpk hm hm32 le_rfl hfull
  rw [hx] at hv
  split_ifs at hv with hD
  · have hO := hO hD
    obtain ⟨ch, he, hk⟩ := bind_ok_inv hv
    have hch : b.take (numBytes (2 * P.numMPCRounds)) = ch := by
      by_contra hne
      rw [if_neg hne] at hk
      change Outcome.ok (-1 : ℤ) = Outcome.ok 0 at hk
      exact absurd hk (by decide)
    have hlen : encSigLen P b ≤ b.length := hfull hD.len hD.valid
    have hq : ∀ k < P.numMPCRounds, QWF P (chal b k) (decProofs P b k) := fun k hk => decProofs_qwf hlen hk
    have hw := fun k (hk : k < P.numMPCRounds) => opened_wf (hD.valid k hk) (hq k hk) (hO k hk)
    obtain ⟨e, he1, he2, he3, he4, he5⟩ := M.challenge_of he
    have hcb : ∀ t < P.numMPCRounds, e.getD t 0 = chal b t := fun t ht => by
      rw [he5 t ht, ← hch]; exact chal_take (by omega)
    have hbt : b.take (encSigLen P b) = encSig P ch (decSalt P b) (decProofs P b) := by
      have hcc : ∀ i < P.numMPCRounds, chal b i = chal ch i := fun i hi => by
        rw [← hch]; exact (chal_take (by omega)).symm
      have := enc_decSig (P := P) (b := b) (q := decProofs P b) (salt := decSalt P b) (i := P.numMPCRounds) hch.symm rfl
        fun k hk => by
          rw [decProofs, hcc k hk, offOf_congr hcc (show k ≤ P.numMPCRounds by omega)]
      rw [encSig, this, encSigLen, offOf_congr hcc le_rfl]
    refine ⟨encSigLen P b, hlen, e, decSalt P b, fun t => (decProofs P b t).conf, fun t => (v1 t).conf (decProofs P b t).seed1,
      fun t => (v2 t).conf (decProofs P b t).seed2, ?_, ?_, ?_, ?_⟩
    · rw [hbt, M.encode, ← he4]; rfl
    · have h0 : numBytes (2 * P.numMPCRounds) + P.saltSizeBytes ≤ encSigLen P b := by rw [encSigLen, offOf]; omega
      rw [decSalt, sl_length (by omega), hZ.salt]
    · intro t ht
      have ht := M.T ▸ ht
      rw [hcb t ht, M.blk]
      refine ⟨M.fits.2 (hq t ht), fun h0 => ?_, M.opened_conf hWF (hD.valid t ht) (hq t ht) (hD.pad t ht) (hO t ht)⟩
      rw [M.X]
      exact zeroPad_iff.2 (hD.pad t ht h0)
    · have := M.verDigest (ct := pk.ciphertext) (pt := pk.plaintext) (salt := decSalt P b) (msg := msg.take mlen) hWF hZ
        hD.valid hcb hq (fun k hk => (hw k hk).1) (fun k hk => (hw k hk).2)
      rw [← this] at he1
      rw [M.blk]
      exact he1
  · exact absurd hv (by decide)

theorem verInput_congr {E : Env} {P : Params} {ct pt salt msg : Buf} {c c' : ℕ → ℕ} {q q' : ℕ → QProof} {v1 v2 w1 w2 : ℕ → View}
    (hc : ∀ t < P.numMPCRounds, c t = c' t) (hq : ∀ t < P.numMPCRounds, q t = q' t)
    (h1 : ∀ t < P.numMPCRounds, v1 t = w1 t) (h2 : ∀ t < P.numMPCRounds, v2 t = w2 t) :
    verInput E P ct pt salt msg c q v1 v2 = verInput E P ct pt salt msg c' q' w1 w2 := by
  unfold verInput
  refine h3Input_congr ?_ ?_ ?_
  · intro t ht j hj; rw [hc t ht, h1 t ht, h2 t ht]
  · intro t ht j hj; rw [hc t ht, h1 t ht, h2 t ht, hq t ht]
  · intro _ t ht j hj; rw [hc t ht, h1 t ht, h2 t ht, hq t ht]

/-- C37, verification, converse: `picnic_verify` accepts every byte string that starts with a valid signature of the
specification, provided that the sampling of the challenge may hash often enough (`n0` times). -/
theorem C37_verify_complete (E : Env) (hE : EnvWF E) (pk : PublicKey) (hpk : pk.Arrays) (hp : pk.params ∈ zkbParams)
    (P : Params) (hP : getParamSet pk.params = some P) (I : Picnic1.Inst) (hI : I.Is pk.params) (hf : I.f = E.perm)
    (hX : I.X = lowmcOf P (E.lowmc P)) (msg : Buf) (mlen : ℕ) (hm : mlen ≤ msg.length) (hm32 : mlen + 200 ≤ 2 ^ 32)
    (b : Buf) (n : ℕ) (hn : n ≤ b.length)
    (hs : I.IsValid (pk.ciphertext.take I.blk) (pk.plaintext.take I.blk) (msg.take mlen) (b.take n)) :
    ∃ n0, ∀ fuel ≥ n0, ∀ junk : ℕ → ℕ → ℕ → Byte,
      picnicVerify { E with junk := junk, fuel := fuel } (some pk) msg mlen b b.length = Outcome.ok 0 := by
  classical
  have h3 : isPicnic3 pk.params = false := (getParamSet_zkb hp).choose_spec.2
  have hWF := paramsWF_of hP
  have hZ := zkbWF_of hP h3
  have hnb := numBytes_eq (2 * P.numMPCRounds)
  have M := match1_of hP hI hf hX
  obtain ⟨e, salt, o, a, d, henc, hsalt, hop, hchal⟩ := hs
  obtain ⟨c1, c2, c3, n0, c4⟩ := M.challenge_to hchal
  rw [M.blk] at hop hchal c4
  generalize hch : I.encodeChallenge e = ch at *
  have hch3 : ∀ i < P.numMPCRounds, chal ch i < 3 := fun i hi => by
    rw [← c3 i hi, List.getD_eq_getElem _ _ (by omega)]
    exact c2 _ (List.getElem_mem _)
  have hchl : ch.length = numBytes (2 * P.numMPCRounds) := by rw [← hch, M.encodeChallenge]; simp
  have hq : ∀ k < P.numMPCRounds, QWF P (chal ch k) (modelQ (o k)) := fun k hk => by
    have := (hop k (M.T.symm ▸ hk)).1
    rw [c3 k hk] at this
    exact M.fits.1 this
  rw [M.encode, hch] at henc
  have hb : b = encSig P ch salt (fun t => modelQ (o t)) ++ b.drop n := by rw [← henc, List.take_append_drop]
  have hel := encSig_length (P := P) hchl (hsalt.trans hZ.salt.symm) hq
  obtain ⟨d1, d2, d3, d4, d5, d6⟩ := dec_of_encSig hchl (hsalt.trans hZ.salt.symm) hq hb
  have hpad : ∀ k < P.numMPCRounds, chal ch k ≠ 0 → PadZero (modelQ (o k)).inp P.stateSizeBits := fun k hk h0 => by
    have := (hop k (M.T.symm ▸ hk)).2.1
    rw [c3 k hk, M.X] at this
    exact zeroPad_iff.1 (this h0)
  have hlen : encSigLen P b ≤ b.length := by
    rw [d5, ← hel, hb, List.length_append]; omega
  have hval : ∀ i < P.numMPCRounds, chal b i < 3 := fun i hi => by rw [d3 i hi]; exact hch3 i hi
  have hD : Decodes P b b.length := by
    refine ⟨?_, (decLen_le hZ hval).trans hlen, hval, fun i hi h0 => ?_⟩
    · have : numBytes (2 * P.numMPCRounds) + P.saltSizeBytes ≤ encSigLen P b := by rw [encSigLen, offOf]; omega
      omega
    · have := d6 i hi
      rw [decProofs] at this
      rw [this]
      exact hpad i hi (by rw [← d3 i hi]; exact h0)
  have hO : ∀ k < P.numMPCRounds, OpenedViews E P (modelQ (o k)).toProof salt pk.plaintext k (chal ch k) (modelView (a k))
      (modelView (d k)) := fun k hk => by
    obtain ⟨g1, g2, g3⟩ := hop k (M.T.symm ▸ hk)
    rw [c3 k hk] at g1 g2 g3
    exact M.opened_model hWF (hch3 k hk) g1 g2 g3
  have hw := fun k (hk : k < P.numMPCRounds) => opened_wf (hch3 k hk) (hq k hk) (hO k hk)
  have hdig := M.verDigest (ct := pk.ciphertext) (pt := pk.plaintext) (salt := salt) (msg := msg.take mlen) hWF hZ
        hch3 c3 hq (fun k hk => (hw k hk).1) (fun k hk => (hw k hk).2)
  refine ⟨n0, fun fuel hfuel junk => ?_⟩
  obtain ⟨v1, v2, hO', hx⟩ := picnicVerify_zkb (E := { E with junk := junk, fuel := fuel }) (pk := pk) (msg := msg) (mlen := mlen)
    ⟨hE.perm, hE.lowmc⟩ hP h3 hpk hm hm32 le_rfl (fun _ _ => hlen)
  rw [hx, if_pos hD]
  have hvw : ∀ t < P.numMPCRounds, v1 t = modelView (a t) ∧ v2 t = modelView (d t) := fun t ht => by
    have := hO' hD t ht
    rw [d2, d3 t ht, d6 t ht] at this
    exact opened_unique hWF (fun _ _ => rfl) (opened_env this) (hO t ht)
  have hin : verInput { E with junk := junk, fuel := fuel } P pk.ciphertext pk.plaintext (decSalt P b) (msg.take mlen)
      (chal b) (decProofs P b) v1 v2 = verInput { E with junk := junk, fuel := fuel } P pk.ciphertext pk.plaintext salt (msg.take mlen) (chal ch) (fun t => modelQ (o t))
        (fun t => modelView (a t)) (fun t => modelView (d t)) := by
    rw [d2]
    exact verInput_congr d3 d6 (fun t ht => (hvw t ht).1) (fun t ht => (hvw t ht).2)
  rw [hin]
  have h4 := c4 fuel hfuel junk
  have hseed : ∀ t < I.T, a t = (modelView (a t)).conf (modelQ (o t)).seed1 ∧ d t = (modelView (d t)).conf (modelQ (o t)).seed2 :=
    fun t ht => by
      obtain ⟨-, -, g⟩ := hop t ht
      exact ⟨congrArg (fun z => Picnic1.View.mk z _ _ _) g.seed0, congrArg (fun z => Picnic1.View.mk z _ _ _) g.seed1⟩
  have hd2 := challengeDigest_congr (I := I) (ct := pk.ciphertext.take P.stateSizeBytes)
    (pt := pk.plaintext.take P.stateSizeBytes) (salt := salt) (msg := msg.take mlen)
    (o := fun t => Picnic1.arrange (e.getD t 0) (a t).out (d t).out
        (Picnic1.ofBits P.stateSizeBytes (Picnic1.toBits (a t).out + Picnic1.toBits (d t).out +
          Picnic1.toBits (pk.ciphertext.take P.stateSizeBytes))))
    (c := fun t => Picnic1.arrange (e.getD t 0) (I.commit (a t)) (I.commit (d t)) (o t).com)
    (g := fun t => Picnic1.arrange (e.getD t 0) (I.G (e.getD t 0) (a t)) (I.G ((e.getD t 0 + 1) % 3) (d t)) (o t).g)
    (fun t _ => rfl)
    (c' := fun t => Picnic1.arrange (e.getD t 0) (I.commit ((modelView (a t)).conf (modelQ (o t)).seed1))
      (I.commit ((modelView (d t)).conf (modelQ (o t)).seed2)) (modelQ (o t)).conf.com)
    (fun t ht => by rw [← (hseed t ht).1, ← (hseed t ht).2]; rfl)
    (g' := fun t => Picnic1.arrange (e.getD t 0) (I.G (e.getD t 0) ((modelView (a t)).conf (modelQ (o t)).seed1))
      (I.G ((e.getD t 0 + 1) % 3) ((modelView (d t)).conf (modelQ (o t)).seed2)) (modelQ (o t)).conf.g)
    (fun t ht => by rw [← (hseed t ht).1, ← (hseed t ht).2]; rfl)
  rw [hd2] at h4
  have h5 : expandTrits { E with junk := junk, fuel := fuel } P (h3Digest E P (verInput E P pk.ciphertext pk.plaintext salt
      (msg.take mlen) (chal ch) (fun t => modelQ (o t)) (fun t => modelView (a t)) (fun t => modelView (d t)))) = Outcome.ok ch := by
    rw [← hdig]
    exact h4
  refine bind_of (h5 : expandTrits { E with junk := junk, fuel := fuel } P (h3Digest { E with junk := junk, fuel := fuel } P _) = _) ?_
  rw [if_pos d1]

/-- C37, verification: what `picnic_verify` rejects does not start with a valid signature of the specification. -/
theorem C37_verify_reject (E : Env) (hE : EnvWF E) (pk : PublicKey) (hpk : pk.Arrays) (hp : pk.params ∈ zkbParams) (P : Params)
    (hP : getParamSet pk.params = some P) (I : Picnic1.Inst) (hI : I.Is pk.params) (hf : I.f = E.perm)
    (hX : I.X = lowmcOf P (E.lowmc P)) (msg : Buf) (mlen : ℕ) (hm : mlen ≤ msg.length) (hm32 : mlen + 200 ≤ 2 ^ 32)
    (b : Buf) (hv : picnicVerify E (some pk) msg mlen b b.length = Outcome.ok (-1)) (n : ℕ) (hn : n ≤ b.length) :
    ¬ I.IsValid (pk.ciphertext.take I.blk) (pk.plaintext.take I.blk) (msg.take mlen) (b.take n) := by
  classical
  intro hs
  have h3 : isPicnic3 pk.params = false := (getParamSet_zkb hp).choose_spec.2
  obtain ⟨n0, h0⟩ := C37_verify_complete E hE pk hpk hp P hP I hI hf hX msg mlen hm hm32 b n hn hs
  have hacc := h0 (max n0 E.fuel) (le_max_left _ _) E.junk
  have hfull : Full P b b.length := full_of_zero hP h3 le_rfl hacc
  have := picnicVerify_congr (junk' := E.junk) (fuel' := max n0 E.fuel) hE (le_max_right _ _) hP h3 hpk hpk rfl rfl rfl hm hm32
    hm hm32 rfl le_rfl le_rfl hfull hfull Iff.rfl (fun _ => rfl) (by rw [hv]; simp)
  rw [hv, hacc] at this
  exact absurd this (by decide)

/-! ### concrete case -/

/-- The instance of the specification for a parameter set of the library. -/
def instOf (E : Env) (P : Params) : Picnic1.Inst where
  X := lowmcOf P (E.lowmc P)
  T := P.numMPCRounds
  seed := P.seedSizeBytes
  digest := P.digestSizeBytes
  rate := rateOf P
  unruh := decide (P.transform = .UR)
  f := E.perm

theorem instOf_is (E : Env) {p : ℕ} (hp : p ∈ zkbParams) {P : Params} (hP : getParamSet p = some P) : (instOf E P).Is p := by
  obtain ⟨h1, h2⟩ := getParamSet_bounds hP
  interval_cases p <;> first
    | (injection hP with hP; subst hP; rfl)
    | exact absurd hp (by decide)

/-- Concrete case for C37: for every parameter set there are a key pair, a message and a signature of the specification that
the library computes and accepts. -/
theorem zkb_conform_example (p : ℕ) (hp : p ∈ zkbParams) (msg : Buf) (hm : msg.length + 200 ≤ 2 ^ 32) :
    ∃ (I : Picnic1.Inst) (sk : PrivateKey) (s : Buf) (n : ℕ), I.Is p ∧ I.f = zeroEnv.perm ∧ sk.params = p ∧
      I.IsSignature (sk.data.take I.blk) (sk.pk.ciphertext.take I.blk) (sk.pk.plaintext.take I.blk) msg s ∧ n ≤ s.length ∧
      I.IsValid (sk.pk.ciphertext.take I.blk) (sk.pk.plaintext.take I.blk) msg (s.take n) := by
  obtain ⟨sk, P, n, buf, sig, len, hE, hsk, rfl, hP, hn, hpad, hR, -, hbl, hs⟩ := zkb_example p hp msg hm
  have hI : (instOf zeroEnv P).Is sk.params := instOf_is zeroEnv hp hP
  obtain ⟨s, h1, h2, h3⟩ := C37_sign zeroEnv hE sk hsk hp P hP (instOf zeroEnv P) hI rfl rfl msg msg.length le_rfl hm buf buf.length
    le_rfl sig len hs
  rw [List.take_length] at h1
  have hst : sig.take len = s := by rw [h2, h3]; simp
  have hacc : picnicVerify zeroEnv (some { sk.pk with params := sk.params }) msg msg.length s s.length = Outcome.ok 0 := by
    have := C01_sign_verify zeroEnv hE zeroEnv.junk zeroEnv.fuel le_rfl sk hsk hp n hn hpad msg msg.length le_rfl hm buf buf.length
      le_rfl sig len hs { sk.pk with params := sk.params } ⟨hsk.pk.pt, hsk.pk.ct⟩ rfl rfl rfl s
      (by rw [hst, h3, List.take_length]) (by omega)
    rw [h3] at this
    exact this
  obtain ⟨m, hm1, hm2⟩ := C37_verify_sound zeroEnv hE { sk.pk with params := sk.params } ⟨hsk.pk.pt, hsk.pk.ct⟩ hp P hP
    (instOf zeroEnv P) hI rfl rfl msg msg.length le_rfl hm s hacc
  rw [List.take_length] at hm2
  exact ⟨instOf zeroEnv P, sk, s, m, hI, rfl, rfl, h1, hm1, hm2⟩

end Picnic
