import Verif.Proofs.ZkbSer

/-
The ZKB++ verification function, and why it accepts what the signing function produces.
-/

namespace Picnic

open Spec Spec.Challenge

/-! ### closed form of `verify` -/

/-- A proof object with the given transmitted parts. -/
def QProof.toProof (q : QProof) : Proof :=
  { seed1 := q.seed1, seed2 := q.seed2, inputShare := q.inp, communicatedBits := q.comm, view3Commitment := q.com3
    view3UnruhG := some q.g3 }

theorem openKey_qproof {E : Env} {P : Params} {proof : Proof} {salt : Buf} {k c p : ℕ} (hc : c < 3) (hp : p < 2) :
    openKey E P (qproof P c proof).toProof salt k c p = openKey E P proof salt k c p := by
  unfold openKey
  by_cases h : (c + p) % 3 = 2
  · rw [if_pos h, if_pos h]
    simp only [QProof.toProof, qproof]
    rw [if_neg (by omega)]
  · rw [if_neg h, if_neg h]; rfl

theorem openedViews_qproof {E : Env} {P : Params} {proof : Proof} {salt pt : Buf} {k c : ℕ} {v1 v2 : View} (hc : c < 3)
    (h : OpenedViews E P proof salt pt k c v1 v2) : OpenedViews E P (qproof P c proof).toProof salt pt k c v1 v2 :=
  ⟨by rw [openKey_qproof hc (by omega)]; exact h.inp1, by rw [openKey_qproof hc (by omega)]; exact h.inp2, h.comm2, h.len1,
    h.pad1, h.out1, h.out2, h.cons⟩

/-- The three output shares recomputed by the verifier. -/
def verOuts (P : Params) (ct : Buf) (c : ℕ) (v1 v2 : View) : ℕ → Buf :=
  pick c v1.outputShare v2.outputShare (ofBits (bitsOf v1.outputShare + bitsOf v2.outputShare + bitsOf ct) P.stateSizeBytes)

/-- The three commitments recomputed by the verifier. -/
def verComs (E : Env) (P : Params) (q : QProof) (c : ℕ) (v1 v2 : View) : ℕ → Buf :=
  pick c (commitOf E P q.seed1 v1) (commitOf E P q.seed2 v2) q.com3

/-- The three G values recomputed by the verifier. -/
def verGs (E : Env) (P : Params) (q : QProof) (c : ℕ) (v1 v2 : View) : ℕ → Buf :=
  pick c (gOf E P c q.seed1 v1) (gOf E P ((c + 1) % 3) q.seed2 v2) q.g3

/-- The message that is hashed to get the challenge. -/
def verInput (E : Env) (P : Params) (ct pt salt msg : Buf) (c : ℕ → ℕ) (q : ℕ → QProof) (v1 v2 : ℕ → View) : Buf :=
  h3Input P ct pt (fun k => verOuts P ct (c k) (v1 k) (v2 k)) (fun k => verComs E P (q k) (c k) (v1 k) (v2 k))
    (fun k => verGs E P (q k) (c k) (v1 k) (v2 k)) salt msg

theorem expandTrits_cases (E : Env) (P : Params) (d : Buf) :
    (expandTrits E P d = Outcome.diverge) ∨ ∃ ch, expandTrits E P d = Outcome.ok ch ∧ ch.length = numBytes (2 * P.numMPCRounds) ∧
      ∀ i < P.numMPCRounds, chal ch i < 3 := by
  unfold expandTrits
  by_cases hd : P.numMPCRounds ≤ (stream (nextDigest E P) d E.fuel).length
  · rw [if_pos hd]
    refine Or.inr ⟨_, rfl, by simp, ?_⟩
    intro i hi
    have hl3 : ∀ x ∈ (stream (nextDigest E P) d E.fuel).take P.numMPCRounds, x < 3 := fun x hx =>
      stream_lt (List.mem_of_mem_take hx)
    rw [chal_encTrits hl3 hi, List.getD_eq_getElem _ _ (by rw [List.length_take]; omega)]
    exact hl3 _ (List.getElem_mem _)
  · rw [if_neg hd]; exact Or.inl rfl

theorem pick_cases {α : Type} {c : ℕ} (a b d : α) (hc : c < 3) {j : ℕ} (hj : j < 3) :
    (j = c ∧ pick c a b d j = a) ∨ (j = (c + 1) % 3 ∧ pick c a b d j = b) ∨ (j = (c + 2) % 3 ∧ pick c a b d j = d) := by
  unfold pick
  by_cases h1 : j = c
  · exact Or.inl ⟨h1, if_pos h1⟩
  · by_cases h2 : j = (c + 1) % 3
    · exact Or.inr (Or.inl ⟨h2, by rw [if_neg h1, if_pos h2]⟩)
    · exact Or.inr (Or.inr ⟨by omega, by rw [if_neg h1, if_neg h2]⟩)

theorem verify_ok {E : Env} {P : Params} {ct pt msg : Buf} {mlen : ℕ} {sig : Signature} (hE : PermWF E)
    (hP : ParamsWF P) (hC : ConstsWF P (E.lowmc P)) (hZ : ZkbWF P) (hsig : SigWF P sig)
    (hch : ∀ i < P.numMPCRounds, chal sig.challengeBits i < 3)
    (hct : P.stateSizeBytes ≤ ct.length) (hpt : 4 * P.stateSizeWords ≤ pt.length)
    (hm : mlen ≤ msg.length) (hm32 : mlen + 200 ≤ 2 ^ 32) :
    ∃ v1 v2 : ℕ → View,
      (∀ k < P.numMPCRounds, OpenedViews E P (sigProofs P sig k).toProof sig.salt pt k (chal sig.challengeBits k) (v1 k) (v2 k)) ∧
      verify E P sig ct pt msg mlen =
        (expandTrits E P (h3Digest E P (verInput E P ct pt sig.salt (msg.take mlen) (chal sig.challengeBits) (sigProofs P sig)
          v1 v2)) >>= fun ch => Outcome.ok (decide (sig.challengeBits = ch))) := by
  have hb := hP.bytes
  have hw := hP.words
  have hn := numBytes_eq (2 * P.numMPCRounds)
  have hchl := hsig.ch
  have hrounds : ∀ k : ℕ, ∃ (proof : Proof) (v1 v2 : View) (g3 : Buf) (junk : ℕ → Buf), k < P.numMPCRounds →
      sigProofs P sig k = qproof P (chal sig.challengeBits k) proof ∧ ProofWF P proof ∧
      OpenedViews E P proof sig.salt pt k (chal sig.challengeBits k) v1 v2 ∧
      (P.transform = .UR → proof.view3UnruhG = some g3) ∧
      verifyRound E P sig ct pt k = Outcome.ok
        { hashes := arrN 3 (pick (chal sig.challengeBits k) (commitOf E P proof.seed1 v1) (commitOf E P proof.seed2 v2)
            proof.view3Commitment)
          gs := if P.transform = .UR then some (arrN 3 fun j =>
              (pick (chal sig.challengeBits k) (gOf E P (chal sig.challengeBits k) proof.seed1 v1)
                (gOf E P ((chal sig.challengeBits k + 1) % 3) proof.seed2 v2)
                (g3.take (gLen P ((chal sig.challengeBits k + 2) % 3)))) j ++ junk j) else none
          outputs := arrN 3 (pick (chal sig.challengeBits k) v1.outputShare v2.outputShare
            (ofBits (bitsOf v1.outputShare + bitsOf v2.outputShare + bitsOf ct) P.stateSizeBytes)) } := by
    intro k
    by_cases hk : k < P.numMPCRounds
    · obtain ⟨p, e1, e2, hp⟩ := hsig.rd hk
      have hg := getChallenge_eq (b := sig.challengeBits) (i := k) (by omega)
      have hc := hch k hk
      obtain ⟨v1, v2, g3, junk, h1, h2, h3⟩ := verifyRound_ok (E := E) (P := P) (sig := sig) (proof := p) (pubKey := ct)
        (pt := pt) (k := k) hE hP hC hZ e1 hg hp hsig.salt (by rw [ofNat_chal (by omega)]; exact hc) hpt hct
      rw [ofNat_chal (by omega)] at h1 h3
      refine ⟨p, v1, v2, g3, junk, fun _ => ⟨?_, hp, h1, h2, h3⟩⟩
      rw [sigProofs, List.getD_eq_getElem?_getD, e2]; rfl
    · exact ⟨default, default, default, default, fun _ => [], fun h => absurd h hk⟩
  choose pf v1 v2 g3 junk hr using hrounds
  refine ⟨v1, v2, fun k hk => ?_, ?_⟩
  · rw [(hr k hk).1]
    exact openedViews_qproof (hch k hk) (hr k hk).2.2.1
  unfold verify
  rw [collect_arrN fun k hk => (hr k hk).2.2.2.2, ok_bind]
  simp only [arrN_map]
  have hwf1 : ∀ k < P.numMPCRounds, ViewWF P (v1 k) := fun k hk => (hr k hk).2.2.1.wf1 (hr k hk).2.1
  have hwf2 : ∀ k < P.numMPCRounds, ViewWF P (v2 k) := fun k hk => (hr k hk).2.2.1.wf2 (hr k hk).2.1
  rw [H3_ok (outs := fun k => pick (chal sig.challengeBits k) (v1 k).outputShare (v2 k).outputShare
        (ofBits (bitsOf (v1 k).outputShare + bitsOf (v2 k).outputShare + bitsOf ct) P.stateSizeBytes))
      (coms := fun k => pick (chal sig.challengeBits k) (commitOf E P (pf k).seed1 (v1 k)) (commitOf E P (pf k).seed2 (v2 k))
            (pf k).view3Commitment)
      (gs := fun k j => (pick (chal sig.challengeBits k) (gOf E P (chal sig.challengeBits k) (pf k).seed1 (v1 k))
                (gOf E P ((chal sig.challengeBits k + 1) % 3) (pf k).seed2 (v2 k))
                ((g3 k).take (gLen P ((chal sig.challengeBits k + 2) % 3)))) j ++ junk k j) hE hZ hct (by omega) (by simp)
      hsig.salt hm hm32 rfl rfl (fun hU => by simp [gsArray, hU, arrN_map]) ?_ ?_ ?_]
  · have hin : h3Input P ct pt (fun k => pick (chal sig.challengeBits k) (v1 k).outputShare (v2 k).outputShare
        (ofBits (bitsOf (v1 k).outputShare + bitsOf (v2 k).outputShare + bitsOf ct) P.stateSizeBytes))
      (fun k => pick (chal sig.challengeBits k) (commitOf E P (pf k).seed1 (v1 k)) (commitOf E P (pf k).seed2 (v2 k))
            (pf k).view3Commitment)
      (fun k j => (pick (chal sig.challengeBits k) (gOf E P (chal sig.challengeBits k) (pf k).seed1 (v1 k))
                (gOf E P ((chal sig.challengeBits k + 1) % 3) (pf k).seed2 (v2 k))
                ((g3 k).take (gLen P ((chal sig.challengeBits k + 2) % 3)))) j ++ junk k j) sig.salt (msg.take mlen) =
        verInput E P ct pt sig.salt (msg.take mlen) (chal sig.challengeBits) (sigProofs P sig) v1 v2 := by
      refine h3Input_congr (fun k hk j hj => rfl) (fun k hk j hj => ?_) (fun hU k hk j hj => ?_)
      · rw [(hr k hk).1]; rfl
      · rw [gHashLen_eq hZ hU, (hr k hk).1]
        obtain ⟨g, eg, hg⟩ := (hr k hk).2.1.g3 hU
        have e3 := (hr k hk).2.2.2.1 hU
        have hgl := gLen_le P ((chal sig.challengeBits k + 2) % 3)
        have hgg : g = g3 k := by rw [eg] at e3; exact Option.some.inj e3
        have hl3 : ((g3 k).take (gLen P ((chal sig.challengeBits k + 2) % 3))).length =
            gLen P ((chal sig.challengeBits k + 2) % 3) := by rw [List.length_take, ← hgg]; omega
        have hq : (qproof P (chal sig.challengeBits k) (pf k)).g3 =
            (g3 k).take (gLen P ((chal sig.challengeBits k + 2) % 3)) := by
          simp only [qproof, if_pos hU, e3, Option.getD_some]
        have hlen : (pick (chal sig.challengeBits k) (gOf E P (chal sig.challengeBits k) (pf k).seed1 (v1 k))
                (gOf E P ((chal sig.challengeBits k + 1) % 3) (pf k).seed2 (v2 k))
                ((g3 k).take (gLen P ((chal sig.challengeBits k + 2) % 3))) j).length = gLen P j := by
          rcases pick_cases (gOf E P (chal sig.challengeBits k) (pf k).seed1 (v1 k))
            (gOf E P ((chal sig.challengeBits k + 1) % 3) (pf k).seed2 (v2 k))
            ((g3 k).take (gLen P ((chal sig.challengeBits k + 2) % 3))) (hch k hk) hj with ⟨h, e⟩ | ⟨h, e⟩ | ⟨h, e⟩ <;>
            rw [e]
          · rw [gOf_length, h]
          · rw [gOf_length, h]
          · rw [hl3, h]
        rw [List.take_append_of_le_length hlen.ge]
        unfold verGs
        rw [hq]
        rfl
    rw [hin]
    rcases expandTrits_cases E P (h3Digest E P (verInput E P ct pt sig.salt (msg.take mlen) (chal sig.challengeBits)
      (sigProofs P sig) v1 v2)) with h | ⟨ch, h, hl, -⟩
    · rw [h]; rfl
    · rw [h, ok_bind, ok_bind, memeq_ok hchl.ge hl.ge, List.take_of_length_le hchl.le, List.take_of_length_le hl.le,
        beq_eq_decide]
  · intro k hk j hj
    rcases pick_cases (v1 k).outputShare (v2 k).outputShare
        (ofBits (bitsOf (v1 k).outputShare + bitsOf (v2 k).outputShare + bitsOf ct) P.stateSizeBytes) (hch k hk) hj with
      ⟨h, e⟩ | ⟨h, e⟩ | ⟨h, e⟩ <;> rw [e]
    · exact (hwf1 k hk).out.ge
    · exact (hwf2 k hk).out.ge
    · simp
  · intro k hk j hj
    rcases pick_cases (commitOf E P (pf k).seed1 (v1 k)) (commitOf E P (pf k).seed2 (v2 k))
            (pf k).view3Commitment (hch k hk) hj with
      ⟨h, e⟩ | ⟨h, e⟩ | ⟨h, e⟩ <;> rw [e]
    · simp [commitOf]
    · simp [commitOf]
    · exact (hr k hk).2.1.com3.ge
  · intro hU k hk j hj
    rw [gHashLen_eq hZ hU]
    obtain ⟨g, eg, hg⟩ := (hr k hk).2.1.g3 hU
    have e3 := (hr k hk).2.2.2.1 hU
    have hgl := gLen_le P ((chal sig.challengeBits k + 2) % 3)
    have hgg : g = g3 k := by rw [eg] at e3; exact Option.some.inj e3
    have hl3 : ((g3 k).take (gLen P ((chal sig.challengeBits k + 2) % 3))).length =
        gLen P ((chal sig.challengeBits k + 2) % 3) := by rw [List.length_take, ← hgg]; omega
    rcases pick_cases (gOf E P (chal sig.challengeBits k) (pf k).seed1 (v1 k))
            (gOf E P ((chal sig.challengeBits k + 1) % 3) (pf k).seed2 (v2 k))
            ((g3 k).take (gLen P ((chal sig.challengeBits k + 2) % 3))) (hch k hk) hj with ⟨h, e⟩ | ⟨h, e⟩ | ⟨h, e⟩ <;>
      rw [e, List.length_append]
    · rw [gOf_length, h]; omega
    · rw [gOf_length, h]; omega
    · rw [hl3, h]; omega

/-! ### uniqueness of views -/

theorem share_ge {P : Params} {C : LowMCConsts} {first : Bool} {key w pt : Bits} {i : ℕ} (hr : 0 < P.numRounds)
    (h : P.stateSizeBits ≤ i) : Zkb.share (lowmcOf P C) first key w pt P.numRounds i = 0 := by
  obtain ⟨t, ht⟩ : ∃ t, P.numRounds = t + 1 := ⟨P.numRounds - 1, by omega⟩
  rw [ht, Zkb.share]
  simp only [Pi.add_apply, lowmcOf]
  rw [mulVec_ge h, mulVec_ge h]
  cases first <;> simp [trunc, h]

theorem output_congr {P : Params} {C : LowMCConsts} (hP : ParamsWF P) {pt pt' : Bits} {j : ℕ} {v v' : Zkb.View}
    (hp : ∀ i < P.stateSizeBits, pt i = pt' i) (h : ViewEq (lowmcOf P C) v v') :
    Zkb.output (lowmcOf P C) pt j v = Zkb.output (lowmcOf P C) pt' j v' := by
  funext i
  unfold Zkb.output
  by_cases hi : i < P.stateSizeBits
  · exact share_congr (X := lowmcOf P C) hP.sboxes h.key hp _ h.gates i hi
  · rw [show (lowmcOf P C).r = P.numRounds from rfl, share_ge hP.rounds (by omega), share_ge hP.rounds (by omega)]

theorem zpad_share2 {E : Env} {P : Params} {sk salt : Buf} {sd : ℕ → Buf} {k : ℕ} (hP : ParamsWF P)
    (hsk : PadZero sk P.stateSizeBits) :
    zpad P.stateSizeBits (shareKeys E P sk salt sd k 2) = shareKeys E P sk salt sd k 2 := by
  have hb := hP.bytes
  refine zpad_eq_self ?_ ?_
  · simp [shareKeys, hb]
  · intro i h1 h2
    simp only [shareKeys, if_true]
    rw [bitsOf_ofBits _ (by omega)]
    simp only [Pi.add_apply]
    rw [hsk i h1 h2, vkey, vkey, bitsOf_zpad, bitsOf_zpad, trunc, trunc, if_neg (by omega), if_neg (by omega)]
    simp

theorem spec_viewEq {P : Params} {C : LowMCConsts} {v v' : View} {t t' : Buf} (h1 : v.inputShare = v'.inputShare)
    (h2 : v.communicatedBits = v'.communicatedBits) (h3 : t = t') : ViewEq (lowmcOf P C) (v.spec t) (v'.spec t') := by
  subst h3
  refine ⟨fun i _ => ?_, fun p _ => ?_, fun _ _ => rfl⟩
  · simp [View.spec, specView, h1]
  · simp [View.spec, specView, h2]

theorem comm_ext {P : Params} {a b : Buf} (h1 : a.length = b.length)
    (h2 : ∀ p < 3 * P.numSboxes * P.numRounds, bitsOf a p = bitsOf b p)
    (h3 : ∀ p, 3 * P.numSboxes * P.numRounds ≤ p → bitsOf a p = 0) (h4 : ∀ p, 3 * P.numSboxes * P.numRounds ≤ p → bitsOf b p = 0) :
    a = b := by
  refine buf_ext h1 fun p _ => ?_
  by_cases h : p < 3 * P.numSboxes * P.numRounds
  · exact h2 p h
  · rw [h3 p (by omega), h4 p (by omega)]

theorem view_ext {v w : View} (h1 : v.inputShare = w.inputShare) (h2 : v.communicatedBits = w.communicatedBits)
    (h3 : v.outputShare = w.outputShare) : v = w := by
  cases v; cases w; simp_all

/-- The two views are determined by the transmitted data. -/
theorem opened_unique {E : Env} {P : Params} {proof : Proof} {salt pt pt' : Buf} {k c : ℕ} {v1 v2 w1 w2 : View} (hP : ParamsWF P)
    (hp : ∀ i < P.stateSizeBits, bitsOf pt i = bitsOf pt' i) (h : OpenedViews E P proof salt pt k c v1 v2)
    (h' : OpenedViews E P proof salt pt' k c w1 w2) : v1 = w1 ∧ v2 = w2 := by
  have e1 : v1.inputShare = w1.inputShare := h.inp1.trans h'.inp1.symm
  have e2 : v2.inputShare = w2.inputShare := h.inp2.trans h'.inp2.symm
  have e3 : v2.communicatedBits = w2.communicatedBits := h.comm2.trans h'.comm2.symm
  have hc' := consistent_congr (X := lowmcOf P (E.lowmc P)) hP.sboxes (fun i hi => (hp i hi).symm)
    ⟨fun _ _ => rfl, fun _ _ => rfl, fun _ _ => rfl⟩ ⟨fun _ _ => rfl, fun _ _ => rfl, fun _ _ => rfl⟩ h'.cons
  have hg := consistent_unique (X := lowmcOf P (E.lowmc P)) (v := v1.spec (openTape E P proof salt k c 0))
    (u := w1.spec (openTape E P proof salt k c 0)) hP.sboxes (fun i _ => by simp [View.spec, specView, e1])
    (fun _ _ => rfl) (spec_viewEq e2 e3 rfl) h.cons hc'
  have e4 : v1.communicatedBits = w1.communicatedBits := comm_ext (h.len1.trans h'.len1.symm) hg h.pad1 h'.pad1
  refine ⟨view_ext e1 e4 ?_, view_ext e2 e3 ?_⟩
  · rw [h.out1, h'.out1, output_congr hP hp (spec_viewEq e1 e4 rfl)]
  · rw [h.out2, h'.out2, output_congr hP hp (spec_viewEq e2 e3 rfl)]

/-- For an honest proof the opened views are the views of the prover. -/
theorem honest_opened {E : Env} {P : Params} {sk salt pt pt' : Buf} {sd : ℕ → Buf} {k c : ℕ} {views : ℕ → View} {v1 v2 : View}
    (hP : ParamsWF P) (hp : ∀ i < P.stateSizeBits, bitsOf pt i = bitsOf pt' i) (hsk : PadZero sk P.stateSizeBits)
    (hc : c < 3) (hh : HonestViews E P sk pt salt sd k views)
    (h' : OpenedViews E P (honestProof E P sd views c).toProof salt pt' k c v1 v2) :
    v1 = views c ∧ v2 = views ((c + 1) % 3) := by
  have c1 : (c + 1) % 3 < 3 := Nat.mod_lt _ (by omega)
  have hseed : ∀ p < 2, (honestProof E P sd views c).toProof.seed p = sd ((c + p) % 3) := by
    intro p hp
    have : p = 0 ∨ p = 1 := by omega
    rcases this with rfl | rfl
    · simp [Proof.seed, honestProof, QProof.toProof, Nat.mod_eq_of_lt hc]
    · simp [Proof.seed, honestProof, QProof.toProof]
  have hkey : ∀ p < 2, openKey E P (honestProof E P sd views c).toProof salt k c p = (views ((c + p) % 3)).inputShare := by
    intro p hp2
    have cp : (c + p) % 3 < 3 := Nat.mod_lt _ (by omega)
    rw [hh.inp _ cp, openKey, hseed p hp2]
    by_cases h2 : (c + p) % 3 = 2
    · rw [if_pos h2, h2]
      simp only [honestProof, QProof.toProof]
      rw [if_neg (by omega), hh.inp 2 (by omega)]
      exact zpad_share2 hP hsk
    · rw [if_neg h2, shareKeys, if_neg h2]
  have htape : ∀ p < 2, openTape E P (honestProof E P sd views c).toProof salt k c p =
      vtape E P (sd ((c + p) % 3)) salt k ((c + p) % 3) := by
    intro p hp2
    rw [openTape, hseed p hp2]
  have hO : OpenedViews E P (honestProof E P sd views c).toProof salt pt k c (views c) (views ((c + 1) % 3)) := by
    have k0 := hkey 0 (by omega)
    have k1 := hkey 1 (by omega)
    have t0 := htape 0 (by omega)
    have t1 := htape 1 (by omega)
    rw [Nat.add_zero, Nat.mod_eq_of_lt hc] at k0 t0
    refine ⟨k0.symm, k1.symm, rfl, (hh.wf c hc).comm, hh.pad c hc, ?_, ?_, ?_⟩
    · rw [t0]; exact hh.out c hc
    · rw [t1]; exact hh.out _ c1
    · rw [t0, t1]; exact hh.cons c hc
  obtain ⟨e1, e2⟩ := opened_unique hP hp hO h'
  exact ⟨e1.symm, e2.symm⟩

/-- For an honest proof the verifier recomputes what the prover hashed. -/
theorem honest_verOuts {E : Env} {P : Params} {sk salt pt ct : Buf} {sd : ℕ → Buf} {k c : ℕ} {views : ℕ → View}
    (hh : HonestViews E P sk pt salt sd k views) (hct : P.stateSizeBytes ≤ ct.length)
    (hsum : ofBits (bitsOf (views 0).outputShare + bitsOf (views 1).outputShare + bitsOf (views 2).outputShare)
      P.stateSizeBytes = ct.take P.stateSizeBytes) (hc : c < 3) {j : ℕ} (hj : j < 3) :
    verOuts P ct c (views c) (views ((c + 1) % 3)) j = (views j).outputShare := by
  have c2 : (c + 2) % 3 < 3 := Nat.mod_lt _ (by omega)
  rcases pick_cases (views c).outputShare (views ((c + 1) % 3)).outputShare
    (ofBits (bitsOf (views c).outputShare + bitsOf (views ((c + 1) % 3)).outputShare + bitsOf ct) P.stateSizeBytes) hc hj with
    ⟨h, e⟩ | ⟨h, e⟩ | ⟨h, e⟩ <;> unfold verOuts <;> rw [e, h]
  refine buf_ext (by rw [(hh.wf _ c2).out]; simp) fun i hi => ?_
  rw [ofBits_length] at hi
  rw [bitsOf_ofBits _ hi]
  have hb : bitsOf ct i = bitsOf (views 0).outputShare i + bitsOf (views 1).outputShare i + bitsOf (views 2).outputShare i := by
    rw [← bitsOf_take (b := ct) hi, ← hsum, bitsOf_ofBits _ hi]; rfl
  simp only [Pi.add_apply]
  rw [hb]
  have hh2 : ∀ a : ZMod 2, a + a = 0 := zmod2_add_self
  have hc' : c = 0 ∨ c = 1 ∨ c = 2 := by omega
  rcases hc' with rfl | rfl | rfl
  · show bitsOf (views 0).outputShare i + bitsOf (views 1).outputShare i + _ = bitsOf (views 2).outputShare i
    linear_combination hh2 (bitsOf (views 0).outputShare i) + hh2 (bitsOf (views 1).outputShare i)
  · show bitsOf (views 1).outputShare i + bitsOf (views 2).outputShare i + _ = bitsOf (views 0).outputShare i
    linear_combination hh2 (bitsOf (views 1).outputShare i) + hh2 (bitsOf (views 2).outputShare i)
  · show bitsOf (views 2).outputShare i + bitsOf (views 0).outputShare i + _ = bitsOf (views 1).outputShare i
    linear_combination hh2 (bitsOf (views 2).outputShare i) + hh2 (bitsOf (views 0).outputShare i)

theorem honest_verComs {E : Env} {P : Params} {sd : ℕ → Buf} {c : ℕ} {views : ℕ → View} (hc : c < 3) {j : ℕ} (hj : j < 3) :
    verComs E P (honestProof E P sd views c) c (views c) (views ((c + 1) % 3)) j = commitOf E P (sd j) (views j) := by
  rcases pick_cases (commitOf E P (honestProof E P sd views c).seed1 (views c))
    (commitOf E P (honestProof E P sd views c).seed2 (views ((c + 1) % 3))) (honestProof E P sd views c).com3 hc hj with
    ⟨h, e⟩ | ⟨h, e⟩ | ⟨h, e⟩ <;> unfold verComs <;> rw [e, h] <;> rfl

theorem honest_verGs {E : Env} {P : Params} {sd : ℕ → Buf} {c : ℕ} {views : ℕ → View} (hU : P.transform = .UR) (hc : c < 3)
    {j : ℕ} (hj : j < 3) :
    verGs E P (honestProof E P sd views c) c (views c) (views ((c + 1) % 3)) j = gOf E P j (sd j) (views j) := by
  rcases pick_cases (gOf E P c (honestProof E P sd views c).seed1 (views c))
    (gOf E P ((c + 1) % 3) (honestProof E P sd views c).seed2 (views ((c + 1) % 3))) (honestProof E P sd views c).g3 hc hj with
    ⟨h, e⟩ | ⟨h, e⟩ | ⟨h, e⟩ <;> unfold verGs <;> rw [e, h]
  · rfl
  · rfl
  · simp only [honestProof, if_pos hU]

/-- The three honest views are determined by their inputs. -/
theorem consistent_unique3 {X : Spec.LowMC} (hm : 3 * X.m ≤ X.n) {pt : Bits} {v u : ℕ → Zkb.View}
    (hk : ∀ j < 3, ∀ i < X.n, (v j).key i = (u j).key i) (ht : ∀ j < 3, ∀ p < 3 * X.m * X.r, (v j).tape p = (u j).tape p)
    (hv : ∀ j < 3, Zkb.Consistent X pt j (v j) (v ((j + 1) % 3))) (hu : ∀ j < 3, Zkb.Consistent X pt j (u j) (u ((j + 1) % 3))) :
    ∀ j < 3, ∀ p < 3 * X.m * X.r, (v j).gates p = (u j).gates p := by
  have key : ∀ t ≤ X.r, ∀ j < 3, ∀ p < 3 * X.m * t, (v j).gates p = (u j).gates p := by
    intro t
    induction t with
    | zero => intro _ j _ p hp; simp at hp
    | succ t ih =>
      intro ht1 j hj p hp
      obtain ⟨t', k, g, h1, h2, h3, rfl⟩ := gate_index hp
      have hlt : 3 * X.m * t' + 3 * k + g < 3 * X.m * X.r :=
        lt_of_lt_of_le hp (mul_le_of_le ht1)
      have j1 : (j + 1) % 3 < 3 := Nat.mod_lt _ (by omega)
      have a1 := hv j hj t' (by omega) k h2 g h3
      have a2 := hu j hj t' (by omega) k h2 g h3
      simp only [] at a1 a2
      rw [a1, a2]
      have hs : ∀ j < 3, ∀ first, ∀ i < X.n, Zkb.share X first (v j).key (v j).gates pt t' i =
          Zkb.share X first (u j).key (u j).gates pt t' i := fun j hj first =>
        share_congr hm (hk j hj) (fun _ _ => rfl) t' fun p hp =>
          ih (by omega) j hj p (lt_of_lt_of_le hp (mul_le_of_le (by omega)))
      rw [gateL_congr hm (hs j hj _) h2, gateR_congr hm (hs j hj _) h2, gateL_congr hm (hs _ j1 _) h2,
        gateR_congr hm (hs _ j1 _) h2, ht j hj _ hlt, ht _ j1 _ hlt]
  exact key X.r (le_refl _)

theorem honest_unique {E : Env} {P : Params} {sk pt salt : Buf} {sd : ℕ → Buf} {k : ℕ} {views views' : ℕ → View} (hP : ParamsWF P)
    (h : HonestViews E P sk pt salt sd k views) (h' : HonestViews E P sk pt salt sd k views') :
    ∀ j < 3, views j = views' j := by
  have e1 : ∀ j < 3, (views j).inputShare = (views' j).inputShare := fun j hj => (h.inp j hj).trans (h'.inp j hj).symm
  have hg := consistent_unique3 (X := lowmcOf P (E.lowmc P)) hP.sboxes (pt := bitsOf pt)
    (v := fun j => (views j).spec (vtape E P (sd j) salt k j)) (u := fun j => (views' j).spec (vtape E P (sd j) salt k j))
    (fun j hj i _ => by simp [View.spec, specView, e1 j hj]) (fun _ _ _ _ => rfl) h.cons h'.cons
  intro j hj
  have e2 : (views j).communicatedBits = (views' j).communicatedBits :=
    comm_ext ((h.wf j hj).comm.trans (h'.wf j hj).comm.symm) (hg j hj) (h.pad j hj) (h'.pad j hj)
  refine view_ext (e1 j hj) e2 ?_
  rw [h.out j hj, h'.out j hj, output_congr hP (fun _ _ => rfl) (spec_viewEq (e1 j hj) e2 rfl)]

end Picnic
