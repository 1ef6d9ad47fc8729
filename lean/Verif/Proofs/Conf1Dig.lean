import Verif.Props.Conform1

/-
The digest that a verifier computes, in model and specification.
-/

namespace Picnic

open Spec Spec.Challenge

variable {E : Env} {P : Params} {I : Picnic1.Inst}

theorem Match1.validWith_of (M : Match1 E P I) (hWF : ParamsWF P) (hZ : ZkbWF P) {b ct pt msg ch : Buf} {v1 v2 : ℕ → View}
    (hlen : encSigLen P b = b.length) (hD : Decodes P b b.length)
    (hO : ∀ k < P.numMPCRounds, OpenedViews E P (decProofs P b k).toProof (decSalt P b) pt k (chal b k) (v1 k) (v2 k))
    (he : expandTrits E P (h3Digest E P (verInput E P ct pt (decSalt P b) msg (chal b) (decProofs P b) v1 v2)) = Outcome.ok ch)
    (hch : b.take (numBytes (2 * P.numMPCRounds)) = ch) :
    I.ValidWith (ct.take I.blk) (pt.take I.blk) msg b
      (h3Digest E P (verInput E P ct pt (decSalt P b) msg (chal b) (decProofs P b) v1 v2)) := by
  have hnb := numBytes_eq (2 * P.numMPCRounds)
  have hq : ∀ k < P.numMPCRounds, QWF P (chal b k) (decProofs P b k) := fun k hk => decProofs_qwf hlen.le hk
  have hw := fun k (hk : k < P.numMPCRounds) => opened_wf (hD.valid k hk) (hq k hk) (hO k hk)
  obtain ⟨e, he1, he2, he3, he4, he5⟩ := M.challenge_of he
  have hcb : ∀ t < P.numMPCRounds, e.getD t 0 = chal b t := fun t ht => by
    rw [he5 t ht, ← hch]; exact chal_take (by omega)
  have hbt : b = encSig P ch (decSalt P b) (decProofs P b) := by
    have hcc : ∀ i < P.numMPCRounds, chal b i = chal ch i := fun i hi => by
      rw [← hch]; exact (chal_take (by omega)).symm
    have := enc_decSig (P := P) (b := b) (q := decProofs P b) (salt := decSalt P b) (i := P.numMPCRounds) hch.symm rfl
      fun k hk => by
        rw [decProofs, hcc k hk, offOf_congr hcc (show k ≤ P.numMPCRounds by omega)]
    rw [encSig, this, ← offOf_congr hcc le_rfl]
    rw [encSigLen] at hlen
    rw [hlen, List.take_length]
  refine ⟨e, decSalt P b, fun t => (decProofs P b t).conf, fun t => (v1 t).conf (decProofs P b t).seed1,
    fun t => (v2 t).conf (decProofs P b t).seed2, ?_, ?_, ?_, ?_, he1⟩
  · rw [M.encode, ← he4]; exact hbt
  · have h0 : numBytes (2 * P.numMPCRounds) + P.saltSizeBytes ≤ encSigLen P b := by rw [encSigLen, offOf]; omega
    rw [decSalt, sl_length (by omega), hZ.salt]
  · intro t ht
    have ht := M.T ▸ ht
    rw [hcb t ht, M.blk]
    refine ⟨M.fits.2 (hq t ht), fun h0 => ?_, M.opened_conf hWF (hD.valid t ht) (hq t ht) (hD.pad t ht) (hO t ht)⟩
    rw [M.X]
    exact zeroPad_iff.2 (hD.pad t ht h0)
  · rw [M.blk]
    exact (M.verDigest (ct := ct) (pt := pt) (salt := decSalt P b) (msg := msg) hWF hZ
      hD.valid hcb hq (fun k hk => (hw k hk).1) (fun k hk => (hw k hk).2)).symm

theorem Match1.validWith_digest (M : Match1 E P I) (hWF : ParamsWF P) (hZ : ZkbWF P) {b ct pt msg dg : Buf}
    (hs : I.ValidWith (ct.take I.blk) (pt.take I.blk) msg b dg) :
    ∃ v1 v2 : ℕ → View, (∀ k < P.numMPCRounds,
        OpenedViews E P (decProofs P b k).toProof (decSalt P b) pt k (chal b k) (v1 k) (v2 k)) ∧
      dg = h3Digest E P (verInput E P ct pt (decSalt P b) msg (chal b) (decProofs P b) v1 v2) := by
  have hnb := numBytes_eq (2 * P.numMPCRounds)
  obtain ⟨e, salt, o, a, d, henc, hsalt, hop, hdg, hchal⟩ := hs
  obtain ⟨c1, c2, c3, -⟩ := M.challenge_to hchal
  rw [M.blk] at hop hdg
  generalize hch : I.encodeChallenge e = ch at *
  have hch3 : ∀ i < P.numMPCRounds, chal ch i < 3 := fun i hi => by
    rw [← c3 i hi, List.getD_eq_getElem _ _ (by omega)]
    exact c2 _ (List.getElem_mem _)
  have hchl : ch.length = numBytes (2 * P.numMPCRounds) := by rw [← hch, M.encodeChallenge]; simp
  have hq : ∀ k < P.numMPCRounds, QWF P (chal ch k) (modelQ (o k)) := fun k hk => by
    have := (hop k (M.T.symm ▸ hk)).1
    rw [c3 k hk] at this
    exact M.fits.1 this
  rw [M.encode, hch] at henc
  have hb : b = encSig P ch salt (fun t => modelQ (o t)) ++ [] := by rw [List.append_nil]; exact henc
  obtain ⟨d1, d2, d3, d4, d5, d6⟩ := dec_of_encSig hchl (hsalt.trans hZ.salt.symm) hq hb
  have hO : ∀ k < P.numMPCRounds, OpenedViews E P (modelQ (o k)).toProof salt pt k (chal ch k) (modelView (a k))
      (modelView (d k)) := fun k hk => by
    obtain ⟨g1, g2, g3⟩ := hop k (M.T.symm ▸ hk)
    rw [c3 k hk] at g1 g2 g3
    exact M.opened_model hWF (hch3 k hk) g1 g2 g3
  have hw := fun k (hk : k < P.numMPCRounds) => opened_wf (hch3 k hk) (hq k hk) (hO k hk)
  have hdig := M.verDigest (ct := ct) (pt := pt) (salt := salt) (msg := msg) hWF hZ
        hch3 c3 hq (fun k hk => (hw k hk).1) (fun k hk => (hw k hk).2)
  refine ⟨fun t => modelView (a t), fun t => modelView (d t), fun k hk => by rw [d2, d3 k hk, d6 k hk]; exact hO k hk, ?_⟩
  have hin : verInput E P ct pt (decSalt P b) msg (chal b) (decProofs P b) (fun t => modelView (a t)) (fun t => modelView (d t)) =
      verInput E P ct pt salt msg (chal ch) (fun t => modelQ (o t)) (fun t => modelView (a t)) (fun t => modelView (d t)) := by
    rw [d2]
    exact verInput_congr d3 d6 (fun t ht => rfl) (fun t ht => rfl)
  rw [hin, ← hdig, hdg]
  have hseed : ∀ t < I.T, a t = (modelView (a t)).conf (modelQ (o t)).seed1 ∧ d t = (modelView (d t)).conf (modelQ (o t)).seed2 :=
    fun t ht => by
      obtain ⟨-, -, g⟩ := hop t ht
      exact ⟨congrArg (fun z => Picnic1.View.mk z _ _ _) g.seed0, congrArg (fun z => Picnic1.View.mk z _ _ _) g.seed1⟩
  exact challengeDigest_congr (I := I) (fun t _ => rfl) (fun t ht => by rw [← (hseed t ht).1, ← (hseed t ht).2]; rfl)
    (fun t ht => by rw [← (hseed t ht).1, ← (hseed t ht).2]; rfl)

/-- All verifiers compute the same digest. -/
theorem Match1.validWith_unique (M : Match1 E P I) (hWF : ParamsWF P) (hZ : ZkbWF P) {b ct pt msg d d' : Buf}
    (h : I.ValidWith (ct.take I.blk) (pt.take I.blk) msg b d) (h' : I.ValidWith (ct.take I.blk) (pt.take I.blk) msg b d') : d = d' := by
  obtain ⟨v1, v2, hO, rfl⟩ := M.validWith_digest hWF hZ h
  obtain ⟨w1, w2, hO', rfl⟩ := M.validWith_digest hWF hZ h'
  have hu : ∀ t < P.numMPCRounds, v1 t = w1 t ∧ v2 t = w2 t := fun t ht => opened_unique hWF (fun _ _ => rfl) (hO t ht) (hO' t ht)
  rw [verInput_congr (fun _ _ => rfl) (fun _ _ => rfl) (fun t ht => (hu t ht).1) (fun t ht => (hu t ht).2)]

end Picnic
