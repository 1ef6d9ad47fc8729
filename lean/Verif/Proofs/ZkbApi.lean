import Verif.Props.KeyGen
import Verif.Proofs.ZkbVerify

/-
Closed forms of `picnic_sign` and `picnic_verify` for the ZKB++ parameter sets.
-/

namespace Picnic

open Spec Spec.Challenge Finset

theorem getParamSet_zkb {p : ℕ} (h : p ∈ zkbParams) : ∃ P, getParamSet p = some P ∧ isPicnic3 p = false := by
  simp only [zkbParams, List.mem_cons, List.not_mem_nil, or_false] at h
  rcases h with rfl | rfl | rfl | rfl | rfl | rfl | rfl | rfl | rfl <;> exact ⟨_, rfl, rfl⟩

theorem serLen_eq {p : ℕ} {P : Params} (h : getParamSet p = some P) (h3 : isPicnic3 p = false) :
    serLen P = picnicSignatureSize p := by
  obtain ⟨h1, h2⟩ := getParamSet_bounds h
  interval_cases p <;> first
    | (exfalso; revert h3; decide)
    | (injection h with h; subst h; decide)

theorem transform_ur {p : ℕ} {P : Params} (h : getParamSet p = some P) : P.transform = .UR ↔ p ∈ urParams := by
  obtain ⟨h1, h2⟩ := getParamSet_bounds h
  interval_cases p <;> (injection h with h; subst h; decide)

/-- The views depend only on the first bytes of the secret and the first bits of the plaintext. -/
theorem honest_congr {E : Env} {P : Params} {sk sk' pt pt' salt : Buf} {sd : ℕ → Buf} {k : ℕ} {views : ℕ → View}
    (hP : ParamsWF P) (hs : ∀ i < 8 * P.stateSizeBytes, bitsOf sk i = bitsOf sk' i)
    (hp : ∀ i < P.stateSizeBits, bitsOf pt i = bitsOf pt' i) (h : HonestViews E P sk pt salt sd k views) :
    HonestViews E P sk' pt' salt sd k views := by
  refine ⟨fun j hj => (h.inp j hj).trans ?_, h.wf, fun j hj => (h.out j hj).trans ?_, h.pad, fun j hj => ?_⟩
  · unfold shareKeys
    split_ifs
    · exact ofBits_congr fun i hi => by simp only [Pi.add_apply, hs i hi]
    · rfl
  · rw [output_congr (C := E.lowmc P) hP hp ⟨fun _ _ => rfl, fun _ _ => rfl, fun _ _ => rfl⟩]
  · exact consistent_congr (X := lowmcOf P (E.lowmc P)) hP.sboxes hp ⟨fun _ _ => rfl, fun _ _ => rfl, fun _ _ => rfl⟩
      ⟨fun _ _ => rfl, fun _ _ => rfl, fun _ _ => rfl⟩ (h.cons j hj)

theorem honestProof_wf {E : Env} {P : Params} {sk pt salt : Buf} {sd : ℕ → Buf} {k c : ℕ} {views : ℕ → View}
    (h : HonestViews E P sk pt salt sd k views) (hsd : ∀ j < 3, (sd j).length = P.seedSizeBytes) (hc : c < 3) :
    QWF P c (honestProof E P sd views c) := by
  have c1 : (c + 1) % 3 < 3 := Nat.mod_lt _ (by omega)
  refine ⟨hsd c hc, hsd _ c1, ?_, (h.wf _ c1).comm, by simp [honestProof, commitOf], ?_⟩
  · simp only [honestProof, encInp]
    split_ifs
    · rfl
    · exact (h.wf 2 (by omega)).inp
  · simp only [honestProof, encG]
    split_ifs <;> simp

theorem honestProof_congr {E : Env} {P : Params} {sd : ℕ → Buf} {c : ℕ} {views views' : ℕ → View} (hc : c < 3)
    (h : ∀ j < 3, views j = views' j) : honestProof E P sd views c = honestProof E P sd views' c := by
  have c1 : (c + 1) % 3 < 3 := Nat.mod_lt _ (by omega)
  have c2 : (c + 2) % 3 < 3 := Nat.mod_lt _ (by omega)
  simp only [honestProof, h 2 (by omega), h _ c1, h _ c2]

theorem encSig_congr {P : Params} {ch salt : Buf} {q q' : ℕ → QProof} (h : ∀ i < P.numMPCRounds, q i = q' i) :
    encSig P ch salt q = encSig P ch salt q' := by
  unfold encSig encPrefix
  congr 1
  rw [List.flatMap_def, List.flatMap_def]
  congr 1
  exact List.map_congr_left fun i hi => by rw [h i (List.mem_range.1 hi)]

/-- More fuel does not change a challenge. -/
theorem expandTrits_fuel {E : Env} {P : Params} {d ch : Buf} {junk : ℕ → ℕ → ℕ → Byte} {fuel : ℕ} (hf : E.fuel ≤ fuel)
    (h : expandTrits E P d = Outcome.ok ch) : expandTrits { E with junk := junk, fuel := fuel } P d = Outcome.ok ch := by
  unfold expandTrits at h ⊢
  by_cases hd : P.numMPCRounds ≤ (stream (nextDigest E P) d E.fuel).length
  · rw [if_pos hd] at h
    obtain ⟨l, e⟩ := stream_prefix (nextDigest E P) d E.fuel (fuel - E.fuel)
    rw [show E.fuel + (fuel - E.fuel) = fuel by omega] at e
    have e' : stream (nextDigest { E with junk := junk, fuel := fuel } P) d fuel = stream (nextDigest E P) d E.fuel ++ l := e
    simp only [e']
    rw [if_pos (by rw [List.length_append]; omega), List.take_append_of_le_length hd]
    exact h
  · rw [if_neg hd] at h; cases h

open scoped Classical in
/-- Signing with a ZKB++ parameter set. -/
theorem picnicSign_zkb {E : Env} {P : Params} {sk : PrivateKey} {msg buf slab : Buf} {mlen slen : ℕ} (hE : EnvWF E)
    (hP : getParamSet sk.params = some P) (h3 : isPicnic3 sk.params = false) (hsk : sk.Arrays) (hm : mlen ≤ msg.length)
    (hm32 : mlen + 200 ≤ 2 ^ 32) (hbuf : slen ≤ buf.length)
    (hslab : slab = seedSlab E P sk.data sk.pk.ciphertext sk.pk.plaintext (msg.take mlen)) :
    ∃ views : ℕ → ℕ → View,
      (∀ k < P.numMPCRounds, HonestViews E P sk.data sk.pk.plaintext (slabSalt P slab) (slabSeed P slab k) k (views k)) ∧
      picnicSign E (some sk) msg mlen buf slen =
        if Relation P (E.lowmc P) sk.data sk.pk.plaintext sk.pk.ciphertext then
          expandTrits E P (h3Digest E P (signInput E P sk.pk.ciphertext sk.pk.plaintext (slabSalt P slab) (msg.take mlen)
            (slabSeed P slab) views)) >>= fun ch => Outcome.ok (if slen < serLen P then (-1, buf, slen) else
              (0, encSig P ch (slabSalt P slab) (fun i => honestProof E P (slabSeed P slab i) (views i) (chal ch i)) ++
                buf.drop (encSigLen P ch), encSigLen P ch))
        else Outcome.ok (-1, buf, slen) := by
  have hWF := paramsWF_of hP
  have hZ := zkbWF_of hP h3
  have hb := hWF.bytes
  have hw := hWF.words
  have hn := hWF.nMax
  have h1 := hsk.data
  have h2 := hsk.pk.pt
  have h4 := hsk.pk.ct
  obtain ⟨views, hv, hcase⟩ := signPicnic1_ok (E := E) (P := P) (sk := sk.data) (ct := sk.pk.ciphertext) (pt := sk.pk.plaintext)
    (msg := msg) (mlen := mlen) (sig0 := allocateSignature E P) hE.perm hWF (hE.lowmc _ _ hP) hZ (allocateSignature_wf hZ)
    (by omega) (by omega) (by omega) hm hm32 hslab
  refine ⟨views, hv, ?_⟩
  have key : ofBits ((lowmcOf P (E.lowmc P)).enc (bitsOf sk.data) (bitsOf sk.pk.plaintext)) P.stateSizeBytes =
      sk.pk.ciphertext.take P.stateSizeBytes ↔ Relation P (E.lowmc P) sk.data sk.pk.plaintext sk.pk.ciphertext := by
    have e : ofBits ((lowmcOf P (E.lowmc P)).enc (bitsOf sk.data) (bitsOf sk.pk.plaintext)) P.stateSizeBytes =
        (ofBits ((lowmcOf P (E.lowmc P)).enc (bitsOf sk.data) (bitsOf sk.pk.plaintext)) P.stateSizeBytes).take
          P.stateSizeBytes := by rw [List.take_of_length_le (by simp)]
    rw [e, take_eq_iff (by simp) (by omega), Relation, bytesFor, ← hb]
    refine forall_congr' fun i => forall_congr' fun hi => ?_
    rw [bitsOf_ofBits _ (by omega), eq_comm]
    by_cases hin : i < P.stateSizeBits
    · rw [if_pos hin]
    · rw [if_neg hin, enc_ge hWF.rounds (by omega)]
  simp only [picnicSign, deref, pure_eq_ok, ok_bind, hP, h3, Bool.not_false, if_true]
  rcases hcase with ⟨hne, e⟩ | ⟨heq, hd, e⟩ | ⟨heq, sig, hd, e, hs, hsalt, hch, hq⟩
  · rw [e, if_neg (fun h => hne (key.2 h))]; rfl
  · rw [e, if_pos (key.1 heq), hd]; rfl
  · rw [e, if_pos (key.1 heq), hd, ok_bind, ok_bind]
    simp only
    rw [serializeSignature_ok hZ hs hch hbuf, ok_bind]
    have hsig : encSig P sig.challengeBits sig.salt (sigProofs P sig) = encSig P sig.challengeBits (slabSalt P slab)
        (fun i => honestProof E P (slabSeed P slab i) (views i) (chal sig.challengeBits i)) := by
      rw [hsalt]
      exact encSig_congr hq
    by_cases hl : slen < serLen P
    · rw [if_pos hl, if_pos hl]
    · rw [if_neg hl, if_neg hl, hsig]

/-- The byte string passes the checks of the ZKB++ decoder for the announced length `n`. -/
structure Decodes (P : Params) (b : Buf) (n : ℕ) : Prop where
  chlen : numBytes (2 * P.numMPCRounds) ≤ n
  len : decLen P b ≤ n
  valid : ∀ i < P.numMPCRounds, chal b i < 3
  pad : ∀ i < P.numMPCRounds, chal b i ≠ 0 → PadZero (decProof P b (offOf P b i) (chal b i)).inp P.stateSizeBits

/-- The transmitted proofs. -/
def decProofs (P : Params) (b : Buf) (i : ℕ) : QProof := decProof P b (offOf P b i) (chal b i)

/-- The salt of an encoded signature. -/
def decSalt (P : Params) (b : Buf) : Buf := sl b (numBytes (2 * P.numMPCRounds)) P.saltSizeBytes

open scoped Classical in
/-- Verification with a ZKB++ parameter set. -/
theorem picnicVerify_zkb {E : Env} {P : Params} {pk : PublicKey} {msg b : Buf} {mlen n : ℕ} (hE : EnvWF E)
    (hP : getParamSet pk.params = some P) (h3 : isPicnic3 pk.params = false) (hpk : pk.Arrays) (hm : mlen ≤ msg.length)
    (hm32 : mlen + 200 ≤ 2 ^ 32) (hn : n ≤ b.length)
    (hfull : decLen P b ≤ n → (∀ i < P.numMPCRounds, chal b i < 3) → encSigLen P b ≤ b.length) :
    ∃ v1 v2 : ℕ → View,
      (Decodes P b n → ∀ k < P.numMPCRounds,
        OpenedViews E P (decProofs P b k).toProof (decSalt P b) pk.plaintext k (chal b k) (v1 k) (v2 k)) ∧
      picnicVerify E (some pk) msg mlen b n = if Decodes P b n then
          expandTrits E P (h3Digest E P (verInput E P pk.ciphertext pk.plaintext (decSalt P b) (msg.take mlen) (chal b)
            (decProofs P b) v1 v2)) >>= fun ch =>
              Outcome.ok (if b.take (numBytes (2 * P.numMPCRounds)) = ch then 0 else -1)
        else Outcome.ok (-1) := by
  have hWF := paramsWF_of hP
  have hZ := zkbWF_of hP h3
  have hb := hWF.bytes
  have hw := hWF.words
  have hnM := hWF.nMax
  have h1 := hpk.pt
  have h2 := hpk.ct
  have hnb := numBytes_eq (2 * P.numMPCRounds)
  obtain ⟨sig, e, hsig⟩ := deserializeSignature_ok (P := P) (sig0 := allocateSignature E P) hWF hZ (allocateSignature_wf hZ) hn hfull
  simp only [picnicVerify, deref, pure_eq_ok, ok_bind, hP, h3, Bool.not_false, if_true]
  by_cases hD : Decodes P b n
  · obtain ⟨hs, hc, hsalt, hq⟩ := hsig ⟨hD.chlen, hD.len, hD.valid⟩
    have hcc : ∀ i < P.numMPCRounds, chal sig.challengeBits i = chal b i := fun i hi => by
      rw [hc]; exact chal_take (by omega)
    obtain ⟨v1, v2, hv, e2⟩ := verify_ok (E := E) (P := P) (ct := pk.ciphertext) (pt := pk.plaintext) (msg := msg) (mlen := mlen)
      (sig := sig) hE.perm hWF (hE.lowmc _ _ hP) hZ hs (fun i hi => by rw [hcc i hi]; exact hD.valid i hi) (by omega) (by omega) hm hm32
    refine ⟨v1, v2, fun _ k hk => ?_, ?_⟩
    · have := hv k hk
      rw [hq k hk, hcc k hk, hsalt] at this
      exact this
    · rw [e, if_pos ⟨hD.chlen, hD.len, hD.valid, hD.pad⟩, ok_bind, if_pos hD]
      simp only
      have hin : verInput E P pk.ciphertext pk.plaintext sig.salt (msg.take mlen) (chal sig.challengeBits) (sigProofs P sig) v1 v2 =
          verInput E P pk.ciphertext pk.plaintext (decSalt P b) (msg.take mlen) (chal b) (decProofs P b) v1 v2 := by
        rw [hsalt]
        unfold verInput
        refine h3Input_congr ?_ ?_ ?_
        · intro i hi j hj; simp only [hcc i hi]
        · intro i hi j hj; simp only [hcc i hi, hq i hi, decProofs]
        · intro _ i hi j hj; simp only [hcc i hi, hq i hi, decProofs]
      rw [e2, hin, hc]
      generalize expandTrits _ _ _ = x
      cases x with
      | ok ch =>
        simp only [ok_bind, decide_eq_true_eq]
      | ub u => rfl
      | abort => rfl
      | diverge => rfl
  · refine ⟨fun _ => allocateView P, fun _ => allocateView P, fun h => absurd h hD, ?_⟩
    rw [e, if_neg (fun h => hD ⟨h.1, h.2.1, h.2.2.1, h.2.2.2⟩), ok_bind, if_neg hD]

/-- The views do not depend on the contents of uninitialised memory. -/
theorem opened_env {E : Env} {P : Params} {proof : Proof} {salt pt : Buf} {k c : ℕ} {v1 v2 : View} {junk : ℕ → ℕ → ℕ → Byte}
    {fuel : ℕ} (h : OpenedViews { E with junk := junk, fuel := fuel } P proof salt pt k c v1 v2) :
    OpenedViews E P proof salt pt k c v1 v2 :=
  ⟨h.inp1, h.inp2, h.comm2, h.len1, h.pad1, h.out1, h.out2, h.cons⟩

theorem honest_env {E : Env} {P : Params} {sk pt salt : Buf} {sd : ℕ → Buf} {k : ℕ} {views : ℕ → View}
    {junk : ℕ → ℕ → ℕ → Byte} {fuel : ℕ} (h : HonestViews { E with junk := junk, fuel := fuel } P sk pt salt sd k views) :
    HonestViews E P sk pt salt sd k views := ⟨h.inp, h.wf, h.out, h.pad, h.cons⟩

/-- The part of the challenge input in front of the public key. -/
def h3Front (P : Params) (outs coms gs : ℕ → ℕ → Buf) : Buf :=
  tripleBytes P.numMPCRounds outs (fun _ => P.stateSizeBytes) ++
  tripleBytes P.numMPCRounds coms (fun _ => P.digestSizeBytes) ++
  (if P.transform = .UR then tripleBytes P.numMPCRounds gs (gHashLen P) else [])

theorem h3Input_front (P : Params) (ct pt : Buf) (outs coms gs : ℕ → ℕ → Buf) (salt msg : Buf) :
    h3Input P ct pt outs coms gs salt msg =
      h3Front P outs coms gs ++ ct.take P.stateSizeBytes ++ pt.take P.stateSizeBytes ++ salt ++ msg := rfl

/-! ### success -/

/-- What a successful call of `picnic_sign` has produced. -/
theorem picnicSign_zkb_zero {E : Env} {P : Params} {sk : PrivateKey} {msg buf slab sig : Buf} {mlen slen len : ℕ} (hE : EnvWF E)
    (hP : getParamSet sk.params = some P) (h3 : isPicnic3 sk.params = false) (hsk : sk.Arrays) (hm : mlen ≤ msg.length)
    (hm32 : mlen + 200 ≤ 2 ^ 32) (hbuf : slen ≤ buf.length)
    (hslab : slab = seedSlab E P sk.data sk.pk.ciphertext sk.pk.plaintext (msg.take mlen))
    (hs : picnicSign E (some sk) msg mlen buf slen = Outcome.ok (0, sig, len)) :
    ∃ (views : ℕ → ℕ → View) (ch : Buf),
      (∀ k < P.numMPCRounds, HonestViews E P sk.data sk.pk.plaintext (slabSalt P slab) (slabSeed P slab k) k (views k)) ∧
      Relation P (E.lowmc P) sk.data sk.pk.plaintext sk.pk.ciphertext ∧
      expandTrits E P (h3Digest E P (signInput E P sk.pk.ciphertext sk.pk.plaintext (slabSalt P slab) (msg.take mlen)
            (slabSeed P slab) views)) = Outcome.ok ch ∧ ch.length = numBytes (2 * P.numMPCRounds) ∧
      (∀ i < P.numMPCRounds, chal ch i < 3) ∧ serLen P ≤ slen ∧
      sig = encSig P ch (slabSalt P slab) (fun i => honestProof E P (slabSeed P slab i) (views i) (chal ch i)) ++
                buf.drop (encSigLen P ch) ∧ len = encSigLen P ch := by
  classical
  obtain ⟨views, hv, e⟩ := picnicSign_zkb hE hP h3 hsk hm hm32 hbuf hslab
  rw [e] at hs
  by_cases hR : Relation P (E.lowmc P) sk.data sk.pk.plaintext sk.pk.ciphertext
  · rw [if_pos hR] at hs
    rcases expandTrits_cases E P (h3Digest E P (signInput E P sk.pk.ciphertext sk.pk.plaintext (slabSalt P slab)
      (msg.take mlen) (slabSeed P slab) views)) with h | ⟨ch, h, h4, h5⟩
    · rw [h] at hs; cases hs
    · rw [h, ok_bind] at hs
      by_cases hl : slen < serLen P
      · rw [if_pos hl] at hs
        simp at hs
      · rw [if_neg hl] at hs
        simp only [Outcome.ok.injEq, Prod.mk.injEq, true_and] at hs
        exact ⟨views, ch, hv, hR, h, h4, h5, by omega, hs.1.symm, hs.2.symm⟩
  · rw [if_neg hR] at hs
    simp at hs

/-- Lengths of seeds and salt. -/
theorem slab_lengths {E : Env} {P : Params} {sk ct pt msg slab : Buf} (hZ : ZkbWF P) (hslab : slab = seedSlab E P sk ct pt msg) :
    (slabSalt P slab).length = P.saltSizeBytes ∧
      ∀ k < P.numMPCRounds, ∀ j < 3, (slabSeed P slab k j).length = P.seedSizeBytes := by
  obtain ⟨hz1, hz2⟩ := seedSlab_size hZ
  have hsl : slab.length = P.numMPCRounds * P.numMPCParties * P.seedSizeBytes + P.saltSizeBytes := by
    rw [hslab]; simp [seedSlab]; omega
  exact ⟨by simp [slabSalt]; omega, fun k hk j hj => slabSeed_length hZ (by omega) hk hj⟩

theorem encSig_length {P : Params} {ch salt : Buf} {q : ℕ → QProof} (h1 : ch.length = numBytes (2 * P.numMPCRounds))
    (h2 : salt.length = P.saltSizeBytes) (h3 : ∀ k < P.numMPCRounds, QWF P (chal ch k) (q k)) :
    (encSig P ch salt q).length = encSigLen P ch := encPrefix_length h1 h2 _ fun _ hk => h3 _ hk

/-- Reading back an encoded signature, at the start of a longer buffer. -/
theorem dec_of_encSig {P : Params} {ch salt b r : Buf} {q : ℕ → QProof} (h1 : ch.length = numBytes (2 * P.numMPCRounds))
    (h2 : salt.length = P.saltSizeBytes) (h3 : ∀ k < P.numMPCRounds, QWF P (chal ch k) (q k))
    (hb : b = encSig P ch salt q ++ r) :
    b.take (numBytes (2 * P.numMPCRounds)) = ch ∧ decSalt P b = salt ∧ (∀ i < P.numMPCRounds, chal b i = chal ch i) ∧
      (∀ i ≤ P.numMPCRounds, offOf P b i = offOf P ch i) ∧ encSigLen P b = encSigLen P ch ∧
      ∀ i < P.numMPCRounds, decProofs P b i = q i := by
  have hnb := numBytes_eq (2 * P.numMPCRounds)
  obtain ⟨r', e⟩ := encPrefix_split ch salt q (Nat.zero_le P.numMPCRounds)
  have hb' : b = ch ++ (salt ++ (r' ++ r)) := by
    rw [hb, encSig, e]; simp [encPrefix]
  have hc : ∀ i < P.numMPCRounds, chal b i = chal ch i := fun i hi => by
    rw [hb']
    exact chal_congr (bitsOf_append_left (by omega)) (bitsOf_append_left (by omega))
  have ho : ∀ i ≤ P.numMPCRounds, offOf P b i = offOf P ch i := fun i hi => by
    unfold offOf
    rw [Finset.sum_congr rfl fun k hk => by rw [hc k (by have := Finset.mem_range.1 hk; omega)]]
  refine ⟨?_, ?_, hc, ho, ho _ le_rfl, ?_⟩
  · rw [hb', List.take_left' h1]
  · rw [hb', decSalt]; exact sl_at h1 h2
  · intro i hi
    rw [decProofs, hc i hi, ho i (by omega), hb]
    exact dec_encSig h1 h2 h3 hi

theorem decLen_le {P : Params} (hZ : ZkbWF P) {ch : Buf} (hc : ∀ i < P.numMPCRounds, chal ch i < 3) :
    decLen P ch ≤ encSigLen P ch := by
  by_cases hU : P.transform = .UR
  · have := decLen_ur hZ hU hc; omega
  · exact (decLen_fs hU hc).le

end Picnic
