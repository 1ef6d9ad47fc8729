import Verif.Proofs.P3Complete
import Verif.Proofs.ZkbSer
import Verif.Proofs.Keys

/-
Encoding and decoding of Picnic3 signatures (/repo/picnic3_impl.c:895-1059).
-/

namespace Picnic

open Spec Spec.Tree Finset

/-! ### the encoding -/

/-- The encoded proof of one opened round. -/
def pfBytes (k : ℕ) (p : Proof2) : Buf := p.seedInfo ++ ((if k ≠ 15 then p.aux else []) ++ (p.input ++ (p.msgs ++ p.C)))

/-- Encoded length of the auxiliary bits. -/
def axLen (P : Params) (k : ℕ) : ℕ := if k ≠ 15 then P.andSizeBytes else 0

/-- Encoded length of the proof of one opened round. -/
def pfLen (P : Params) (k : ℕ) : ℕ := 4 * P.seedSizeBytes + axLen P k + P.stateSizeBytes + P.andSizeBytes + P.digestSizeBytes

/-- Encoded length of the proof of round `t`. -/
def rLen (P : Params) (C Q : List ℕ) (t : ℕ) : ℕ := if t ∈ C then pfLen P (hidOf C Q t) else 0

/-- The encoded proof of round `t`. -/
def rBytes (s : Signature2) (t : ℕ) : Buf := if t ∈ s.challengeC then pfBytes (hidOf s.challengeC s.challengeP t) (pfOf s t) else []

/-- Length of the opened seeds. -/
noncomputable def sdLen (P : Params) (C : List ℕ) : ℕ := (revN (ceilLog2 P.numMPCRounds) P.numMPCRounds C).length * P.seedSizeBytes

/-- Length of the opened Merkle nodes. -/
noncomputable def cvLen (P : Params) (C : List ℕ) : ℕ :=
  (mrevN (ceilLog2 P.numMPCRounds) P.numMPCRounds (missing P.numMPCRounds C)).length * P.digestSizeBytes

/-- Offset of the proof of round `t`. -/
noncomputable def off2 (P : Params) (C Q : List ℕ) (t : ℕ) : ℕ :=
  P.digestSizeBytes + P.saltSizeBytes + sdLen P C + cvLen P C + ∑ k ∈ range t, rLen P C Q k

/-- Encoded length. -/
noncomputable def sig2Len (P : Params) (C Q : List ℕ) : ℕ := off2 P C Q P.numMPCRounds

/-- The encoded signature up to round `t`. -/
def pre2 (s : Signature2) (t : ℕ) : Buf := s.challengeHash ++ s.salt ++ s.iSeedInfo ++ s.cvInfo ++ (List.range t).flatMap (rBytes s)

/-- The encoded signature. -/
def sig2Bytes (P : Params) (s : Signature2) : Buf := pre2 s P.numMPCRounds

theorem off2_succ (P : Params) (C Q : List ℕ) (t : ℕ) : off2 P C Q (t + 1) = off2 P C Q t + rLen P C Q t := by
  unfold off2; rw [sum_range_succ]; omega

theorem off2_mono {P : Params} {C Q : List ℕ} {i j : ℕ} (h : i ≤ j) : off2 P C Q i ≤ off2 P C Q j := by
  unfold off2
  have := sum_le_sum_of_subset (f := fun k => rLen P C Q k) (range_mono h)
  omega

theorem pre2_succ (s : Signature2) (t : ℕ) : pre2 s (t + 1) = pre2 s t ++ rBytes s t := by simp [pre2, List.range_succ]

theorem pfBytes_length {P : Params} {k : ℕ} {p : Proof2} (h : Pf2WF P p) : (pfBytes k p).length = pfLen P k := by
  unfold pfBytes pfLen axLen
  split_ifs <;> simp [h.seedLen, h.aux, h.input, h.msgs, h.C] <;> omega

theorem rBytes_length {P : Params} {s : Signature2} (hs : Sig2WF P s) (t : ℕ) : (rBytes s t).length = rLen P s.challengeC s.challengeP t := by
  unfold rBytes rLen
  by_cases h : t ∈ s.challengeC
  · rw [if_pos h, if_pos h, pfBytes_length (hs.proof t h).2]
  · rw [if_neg h, if_neg h]; rfl

theorem pre2_length {P : Params} {s : Signature2} (hs : Sig2WF P s) (t : ℕ) : (pre2 s t).length = off2 P s.challengeC s.challengeP t := by
  induction t with
  | zero =>
    have h1 := hs.salt
    have h2 := hs.hash
    have h3 := hs.iSeedInfo
    have h4 := hs.cvInfo
    simp only [pre2, off2, sdLen, cvLen, List.range_zero, List.flatMap_nil, List.length_append, List.length_nil, sum_range_zero]
    omega
  | succ t ih => rw [pre2_succ, off2_succ, List.length_append, ih, rBytes_length hs]

theorem proofsSize_ok {P : Params} {C Q : List ℕ} {f : ℕ → M ℕ} {start : ℕ} (h3 : P3WF P) (hc : ChalWF P C Q)
    (hf : ∀ t ∈ C, f t = Outcome.ok (4 * P.seedSizeBytes)) :
    proofsSize P C Q f start = Outcome.ok (start + ∑ t ∈ range P.numMPCRounds, rLen P C Q t) := by
  unfold proofsSize
  refine loop_seq (fun t => start + ∑ k ∈ range t, rLen P C Q k) (by simp) fun t ht => ?_
  rw [contains_ok hc, ok_bind, sum_range_succ]
  unfold rLen
  by_cases h : t ∈ C
  · rw [decide_eq_true h, if_pos rfl, if_pos h, index_ok hc h, ok_bind, rd_hid h3 hc h, ok_bind, hf t h, ok_bind, h3.parties, pure_eq_ok]
    congr 1
    unfold pfLen axLen
    by_cases h15 : hidOf C Q t ≠ 15
    · rw [if_pos h15, if_pos (by simpa using h15)]; omega
    · rw [if_neg h15, if_neg (by simpa using h15)]; omega
  · rw [decide_eq_false h, if_neg (by simp), if_neg h]; rfl

theorem serializeSignature2_ok {P : Params} {s : Signature2} {buf : Buf} {n : ℕ} (h3 : P3WF P) (hs : Sig2WF P s) (hbuf : n ≤ buf.length) :
    serializeSignature2 P s buf n = Outcome.ok (if n < sig2Len P s.challengeC s.challengeP then none else
      some (sig2Bytes P s ++ buf.drop (sig2Len P s.challengeC s.challengeP), sig2Len P s.challengeC s.challengeP)) := by
  have hc := hs.chal
  unfold serializeSignature2
  dsimp only
  rw [proofsSize_ok h3 hc (fun t ht => by
    rw [rd_proof hs ht, ok_bind]; dsimp only; rw [pure_eq_ok, (hs.proof t ht).2.seedInfoLen]), ok_bind]
  have hlen : P.digestSizeBytes + P.saltSizeBytes + s.iSeedInfoLen + s.cvInfoLen + ∑ t ∈ range P.numMPCRounds, rLen P s.challengeC s.challengeP t =
      sig2Len P s.challengeC s.challengeP := by
    rw [hs.iSeedInfoLen, hs.cvInfoLen, hs.iSeedInfo, hs.cvInfo]; rfl
  rw [hlen]
  by_cases hn : n < sig2Len P s.challengeC s.challengeP
  · rw [if_pos hn, if_pos hn]; rfl
  rw [if_neg hn, if_neg hn]
  have h0 : off2 P s.challengeC s.challengeP 0 ≤ sig2Len P s.challengeC s.challengeP := off2_mono (Nat.zero_le _)
  have h1 := hs.salt
  have h2 := hs.hash
  have hi := hs.iSeedInfo
  have hv := hs.cvInfo
  have h00 : off2 P s.challengeC s.challengeP 0 = P.digestSizeBytes + P.saltSizeBytes + s.iSeedInfo.length + s.cvInfo.length := by
    rw [hi, hv]; simp [off2, sdLen, cvLen]
  obtain ⟨o1, e1, m1⟩ := emit_full (buf := buf) (e := []) (out := (buf, 0)) rfl h2 (by simp; omega)
  rw [e1, ok_bind]
  obtain ⟨o2, e2, m2⟩ := emit_full m1 h1 (by simp; omega)
  rw [e2, ok_bind, hs.iSeedInfoLen, hs.cvInfoLen]
  obtain ⟨o3, e3, m3⟩ := emit_full m2 (n := s.iSeedInfo.length) (src := s.iSeedInfo) rfl (by simp; omega)
  rw [e3, ok_bind]
  obtain ⟨o4, e4, m4⟩ := emit_full m3 (n := s.cvInfo.length) (src := s.cvInfo) rfl (by simp; omega)
  rw [e4, ok_bind]
  obtain ⟨o5, e5, m5⟩ := loop_inv (fun t out => Emitted buf (pre2 s t) out)
    (f := fun t out => do
      let c ← containsU16 s.challengeC P.numOpenedRounds t
      if c then do
        let proof ← rd s.proofs t
        let proof ← deref proof
        let out ← emit out proof.seedInfo proof.seedInfoLen
        let idx ← indexOfU16 s.challengeC P.numOpenedRounds t
        let P_t ← rd s.challengeP idx
        let out ← if P_t ≠ P.numMPCParties - 1 then emit out proof.aux P.andSizeBytes else pure out
        let out ← emit out proof.input P.stateSizeBytes
        let out ← emit out proof.msgs P.andSizeBytes
        emit out proof.C P.digestSizeBytes
      else pure out) (n := P.numMPCRounds) (s := o4) (by simpa [pre2] using m4) (by
    intro t ht out m
    have hpl := pre2_length hs t
    have hsum : off2 P s.challengeC s.challengeP t + rLen P s.challengeC s.challengeP t ≤ buf.length := by
      rw [← off2_succ]
      exact le_trans (off2_mono (show t + 1 ≤ P.numMPCRounds by omega)) (by unfold sig2Len at hn; omega)
    rw [contains_ok hc, ok_bind, pre2_succ]
    unfold rBytes
    unfold rLen at hsum
    by_cases h : t ∈ s.challengeC
    · rw [decide_eq_true h, if_pos rfl, if_pos h, rd_proof hs h, ok_bind]
      rw [if_pos h] at hsum
      simp only [deref, ok_bind]
      obtain ⟨p1, p2, p3, p4, p5, p6⟩ := (hs.proof t h).2
      generalize pre2 s t = e0 at m hpl ⊢
      generalize pfOf s t = p at *
      unfold pfLen axLen at hsum
      obtain ⟨q1, f1, n1⟩ := emit_full m p1 (by omega)
      rw [p2, f1, ok_bind, index_ok hc h, ok_bind, rd_hid h3 hc h, ok_bind, h3.parties]
      generalize hidOf s.challengeC s.challengeP t = k at *
      unfold pfBytes
      by_cases h15 : k ≠ 15
      · rw [if_pos h15] at hsum
        rw [if_pos h15, if_pos (by exact h15)]
        obtain ⟨q2, f2, n2⟩ := emit_full n1 p3 (by simp only [List.length_append]; omega)
        obtain ⟨q3, f3, n3⟩ := emit_full n2 p5 (by simp only [List.length_append]; omega)
        obtain ⟨q4, f4, n4⟩ := emit_full n3 p6 (by simp only [List.length_append]; omega)
        obtain ⟨q5, f5, n5⟩ := emit_full n4 p4 (by simp only [List.length_append]; omega)
        refine ⟨q5, ?_, ?_⟩
        · rw [f2, ok_bind, f3, ok_bind, f4, ok_bind, f5]
        · simpa only [List.append_assoc] using n5
      · rw [if_neg h15] at hsum
        rw [if_neg h15, if_neg (by exact h15)]
        obtain ⟨q3, f3, n3⟩ := emit_full n1 p5 (by simp only [List.length_append]; omega)
        obtain ⟨q4, f4, n4⟩ := emit_full n3 p6 (by simp only [List.length_append]; omega)
        obtain ⟨q5, f5, n5⟩ := emit_full n4 p4 (by simp only [List.length_append]; omega)
        refine ⟨q5, ?_, ?_⟩
        · rw [pure_eq_ok, ok_bind, f3, ok_bind, f4, ok_bind, f5]
        · simpa only [List.append_assoc, List.nil_append] using n5
    · rw [decide_eq_false h, if_neg (by simp), if_neg h, pure_eq_ok, List.append_nil]
      exact ⟨out, rfl, m⟩)
  rw [e5, ok_bind, pure_eq_ok]
  unfold Emitted at m5
  rw [m5, pre2_length hs]
  rfl

/-! ### decoding -/

/-- The proof at offset `off` with unopened party `k`. -/
def decPf (P : Params) (b : Buf) (off k : ℕ) : Proof2 :=
  { seedInfo := sl b off (4 * P.seedSizeBytes)
    seedInfoLen := 4 * P.seedSizeBytes
    aux := if k ≠ 15 then sl b (off + 4 * P.seedSizeBytes) P.andSizeBytes else zeros P.andSizeBytes
    input := sl b (off + 4 * P.seedSizeBytes + axLen P k) P.stateSizeBytes
    msgs := sl b (off + 4 * P.seedSizeBytes + axLen P k + P.stateSizeBytes) P.andSizeBytes
    C := sl b (off + 4 * P.seedSizeBytes + axLen P k + P.stateSizeBytes + P.andSizeBytes) P.digestSizeBytes }

/-- The decoded signature. -/
noncomputable def decSig2 (P : Params) (b : Buf) (C Q : List ℕ) : Signature2 :=
  { salt := sl b P.digestSizeBytes P.saltSizeBytes
    iSeedInfo := sl b (P.digestSizeBytes + P.saltSizeBytes) (sdLen P C)
    iSeedInfoLen := sdLen P C
    cvInfo := sl b (P.digestSizeBytes + P.saltSizeBytes + sdLen P C) (cvLen P C)
    cvInfoLen := cvLen P C
    challengeHash := b.take P.digestSizeBytes
    challengeC := C
    challengeP := Q
    proofs := arrN P.numMPCRounds fun t => if t ∈ C then some (decPf P b (off2 P C Q t) (hidOf C Q t)) else none }

/-- Padding bits of the proof of one round. -/
def Pad2 (P : Params) (p : Proof2) : Prop := PadZero p.aux (3 * P.numRounds * P.numSboxes) ∧ PadZero p.msgs (3 * P.numRounds * P.numSboxes)

theorem padZero_zeros (n m : ℕ) : PadZero (zeros n) m := fun i _ _ => by rw [bitsOf_zeros]

theorem decPf_wf {P : Params} {b : Buf} {off k : ℕ} (h : off + pfLen P k ≤ b.length) : Pf2WF P (decPf P b off k) := by
  unfold pfLen axLen at h
  constructor
  · exact sl_length (by omega)
  · rfl
  · change (if k ≠ 15 then _ else _ : Buf).length = _
    split
    · rename_i hk; rw [if_pos hk] at h; exact sl_length (by omega)
    · simp
  · change (sl _ _ _).length = _
    unfold axLen; exact sl_length (by omega)
  · change (sl _ _ _).length = _
    unfold axLen; exact sl_length (by omega)
  · change (sl _ _ _).length = _
    unfold axLen; exact sl_length (by omega)

theorem pfBytes_dec (P : Params) (b : Buf) (off k : ℕ) : pfBytes k (decPf P b off k) = sl b off (pfLen P k) := by
  unfold pfBytes decPf pfLen axLen
  by_cases h : k ≠ 15
  · simp only [if_pos h, sl_append, Nat.add_assoc, List.append_assoc]
  · simp only [if_neg h, sl_append, Nat.add_assoc, List.append_assoc, Nat.add_zero, Nat.zero_add, List.nil_append]

theorem deserializeProof2_ok {E : Env} {P : Params} {C Q : List ℕ} {b : Buf} {t off : ℕ} (h3 : P3WF P) (hP : ParamsWF P) (hc : ChalWF P C Q)
    (hlen : off + rLen P C Q t ≤ b.length) [Decidable (t ∈ C → Pad2 P (decPf P b off (hidOf C Q t)))] :
    deserializeProof2 E P C Q (4 * P.seedSizeBytes) b t off = Outcome.ok (if (t ∈ C → Pad2 P (decPf P b off (hidOf C Q t))) then
      some (if t ∈ C then some (decPf P b off (hidOf C Q t)) else none, off + rLen P C Q t) else none) := by
  unfold deserializeProof2
  rw [contains_ok hc, ok_bind]
  unfold rLen at hlen ⊢
  by_cases h : t ∈ C
  · rw [if_pos h] at hlen
    rw [decide_eq_true h, if_pos rfl, if_pos h, if_pos h]
    dsimp only
    have hlen' := hlen
    unfold pfLen axLen at hlen'
    rw [rdN_ok (by omega), ok_bind, index_ok hc h, ok_bind, rd_hid h3 hc h, ok_bind, h3.parties]
    have hWF := decPf_wf hlen
    generalize hk : hidOf C Q t = k at *
    have hab := hP.andBytes
    have e31 : 3 * P.numRounds * P.numSboxes = 3 * P.numSboxes * P.numRounds := by ring
    have hpl : (3 * P.numRounds * P.numSboxes + 7) / 8 ≤ P.andSizeBytes := by rw [e31, hab]
    have htail : ∀ aux o, o = off + 4 * P.seedSizeBytes + axLen P k → aux = (decPf P b off k).aux → PadZero aux (3 * P.numRounds * P.numSboxes) → (do
        let x ← takeInto (allocateProof2 E P t).input b o P.stateSizeBytes
        let y ← takeInto (allocateProof2 E P t).msgs b x.2 P.andSizeBytes
        let ok ← arePaddingBitsZero y.1 (3 * P.numRounds * P.numSboxes)
        if !ok then pure none
        else do
          let z ← takeInto (allocateProof2 E P t).C b y.2 P.digestSizeBytes
          pure (some (some (Proof2.mk ((b.drop off).take (4 * P.seedSizeBytes)) (4 * P.seedSizeBytes) aux z.1 x.1 y.1), z.2)) : M (Option (Option Proof2 × ℕ))) =
        Outcome.ok (if (t ∈ C → Pad2 P (decPf P b off k)) then some (some (decPf P b off k), off + pfLen P k) else none) := by
      intro aux o ho haux hpad
      subst ho
      have hax : axLen P k = if k ≠ 15 then P.andSizeBytes else 0 := rfl
      rw [← hax] at hlen'
      rw [takeInto_full (by simp [allocateProof2]) (by omega), ok_bind]
      dsimp only
      rw [takeInto_full (by simp [allocateProof2]) (by omega), ok_bind]
      dsimp only
      rw [arePaddingBitsZero_ok (by rw [sl_length (by omega)]; exact hpl), ok_bind]
      by_cases hp : PadZero (sl b (off + 4 * P.seedSizeBytes + axLen P k + P.stateSizeBytes) P.andSizeBytes) (3 * P.numRounds * P.numSboxes)
      · rw [decide_eq_true hp, if_neg (by simp), takeInto_full (by simp [allocateProof2]) (by omega), ok_bind, pure_eq_ok,
          if_pos (fun _ => ⟨haux ▸ hpad, hp⟩), haux]
        dsimp only
        refine congrArg Outcome.ok (congrArg some (Prod.ext rfl ?_))
        simp only [pfLen]
        omega
      · rw [decide_eq_false hp, if_pos (by rfl), if_neg (fun hx => hp (hx h).2)]; rfl
    by_cases h15 : k ≠ 15
    · rw [if_pos (by exact h15)]
      rw [if_pos h15] at hlen'
      rw [takeInto_full (by simp [allocateProof2]) (by omega), ok_bind]
      dsimp only
      rw [arePaddingBitsZero_ok (by rw [sl_length (by omega)]; exact hpl), ok_bind]
      have haux : (decPf P b off k).aux = sl b (off + 4 * P.seedSizeBytes) P.andSizeBytes := if_pos h15
      by_cases hp : PadZero (sl b (off + 4 * P.seedSizeBytes) P.andSizeBytes) (3 * P.numRounds * P.numSboxes)
      · rw [decide_eq_true hp, if_pos rfl, pure_eq_ok, ok_bind]
        dsimp only
        exact htail _ _ (by unfold axLen; rw [if_pos h15]) haux.symm hp
      · rw [decide_eq_false hp, if_neg (by simp), pure_eq_ok, ok_bind, if_neg (fun hx => hp (haux ▸ (hx h).1))]; rfl
    · rw [if_neg (by exact h15), pure_eq_ok, ok_bind]
      dsimp only
      exact htail _ _ (by unfold axLen; rw [if_neg h15]; rfl) (by rw [show (decPf P b off k).aux = zeros P.andSizeBytes from if_neg h15]; rfl) (padZero_zeros _ _)
  · rw [decide_eq_false h, if_neg (by simp), if_neg h, if_neg h, if_pos (fun hx => absurd hx h)]; rfl

/-- All padding bits are zero. -/
def AllPad2 (P : Params) (b : Buf) (C Q : List ℕ) (n : ℕ) : Prop := ∀ t < n, t ∈ C → Pad2 P (decPf P b (off2 P C Q t) (hidOf C Q t))

open Classical in
/-- The result of decoding. -/
noncomputable def dec2R (E : Env) (P : Params) (b : Buf) (n : ℕ) : M (Option Signature2) :=
  if n < P.digestSizeBytes + P.saltSizeBytes then .ok none
  else match expandR E P E.fuel (b.take P.digestSizeBytes) with
    | none => .diverge
    | some (C, Q) => .ok (if n = sig2Len P C Q ∧ AllPad2 P b C Q P.numMPCRounds then some (decSig2 P b C Q) else none)

theorem deserializeSignature2_ok {E : Env} {P : Params} {b : Buf} {n : ℕ} (hE : PermWF E) (hP : ParamsWF P) (h3 : P3WF P) (hn : n ≤ b.length) :
    deserializeSignature2 E P (allocateSignature2 E P) b n = dec2R E P b n := by
  classical
  have hT1 := h3.Tpos
  have hT2 := h3.T
  have hlg := ceilLog2_le (by omega : 1 ≤ P.numMPCRounds) (by omega)
  have hD := clog_pos (by omega : 2 ≤ P.numMPCRounds) (by omega)
  unfold deserializeSignature2 dec2R
  dsimp only
  by_cases h0 : n < P.digestSizeBytes + P.saltSizeBytes
  · rw [if_pos h0, if_pos h0]; rfl
  rw [if_neg h0, if_neg h0, takeInto_full (by simp [allocateSignature2]) (by omega), ok_bind]
  dsimp only
  rw [takeInto_full (by simp [allocateSignature2]) (by omega), ok_bind, show sl b 0 P.digestSizeBytes = b.take P.digestSizeBytes by simp [sl]]
  dsimp only
  rw [expandChallengeHash_ok hE h3 (by simp; omega)]
  cases hx : expandR E P E.fuel (b.take P.digestSizeBytes) with
  | none => rfl
  | some r =>
    obtain ⟨C, Q⟩ := r
    have hc := expandR_wf h3 hx
    have hml := missing_length hc.nodup hc.ltC
    rw [hc.lenC] at hml
    obtain ⟨m1, m2, m3, m4, m5, m6, m7⟩ := mrev_facts h3 hc.lenC hc.ltC
    obtain ⟨n1, n2, n3⟩ := revN_spec hD (by omega) hlg hc.ltC
    have hrs := revealSeedsSize_ok (P := P) (by omega : 1 ≤ P.numMPCRounds) (by omega) n1
    have hos := openMerkleTreeSize_ok (P := P) (by omega : 1 ≤ P.numMPCRounds) (by omega) m1
    have hss := revealSeedsSize_ok (P := P) (n := 16) (l := [0]) (rv := revN 4 16 [0]) (by omega) (by omega) (by
      rw [log16]; exact (revN_spec (by decide) (by decide) (by decide) (by simp)).1)
    rw [revN_16 (by omega)] at hss
    rw [hc.lenC] at hrs
    rw [show (missing P.numMPCRounds C).length = P.numMPCRounds - P.numOpenedRounds by omega] at hos
    dsimp only
    rw [ok_bind]
    dsimp only
    rw [hrs, ok_bind, getMissingLeavesList_ok hc.lenC hc.nodup hc.ltC, ok_bind, hos, ok_bind, h3.parties]
    refine bind_of hss ?_
    rw [proofsSize_ok (f := fun _ => pure (4 * P.seedSizeBytes)) h3 hc (fun t _ => rfl), ok_bind]
    rw [show P.digestSizeBytes + P.saltSizeBytes + (revN (ceilLog2 P.numMPCRounds) P.numMPCRounds C).length * P.seedSizeBytes +
      (mrevN (ceilLog2 P.numMPCRounds) P.numMPCRounds (missing P.numMPCRounds C)).length * P.digestSizeBytes +
      ∑ t ∈ range P.numMPCRounds, rLen P C Q t = sig2Len P C Q from rfl]
    by_cases hlen : n = sig2Len P C Q
    · rw [if_neg (by simpa using hlen)]
      have hoff0 : off2 P C Q 0 ≤ sig2Len P C Q := off2_mono (Nat.zero_le _)
      have hoff0' : off2 P C Q 0 = P.digestSizeBytes + P.saltSizeBytes + sdLen P C + cvLen P C := by simp [off2]
      rw [show (revN (ceilLog2 P.numMPCRounds) P.numMPCRounds C).length * P.seedSizeBytes = sdLen P C from rfl,
        show (mrevN (ceilLog2 P.numMPCRounds) P.numMPCRounds (missing P.numMPCRounds C)).length * P.digestSizeBytes = cvLen P C from rfl]
      rw [rdN_ok (by omega), ok_bind, rdN_ok (by omega), ok_bind]
      rw [loop_seq (fun t => if AllPad2 P b C Q t then
        some (arrN t (fun t => if t ∈ C then some (decPf P b (off2 P C Q t) (hidOf C Q t)) else none), off2 P C Q t) else none)
        (by rw [if_pos (show AllPad2 P b C Q 0 from fun t ht => absurd ht (by omega)), hoff0', Nat.zero_add]; rfl) fun t ht => ?_]
      · rw [ok_bind]
        by_cases hp : AllPad2 P b C Q P.numMPCRounds
        · rw [if_pos hp, if_pos ⟨hlen, hp⟩]
          simp only [pure_eq_ok, Nat.zero_add]
          rfl
        · rw [if_neg hp, if_neg (fun hx => hp hx.2)]; rfl
      · by_cases hp : AllPad2 P b C Q t
        · rw [if_pos hp]
          dsimp only
          have hl : off2 P C Q t + rLen P C Q t ≤ b.length := by
            rw [← off2_succ]
            have := off2_mono (P := P) (C := C) (Q := Q) (show t + 1 ≤ P.numMPCRounds by omega)
            unfold sig2Len at hlen; omega
          rw [deserializeProof2_ok h3 hP hc hl, ok_bind]
          by_cases hpt : t ∈ C → Pad2 P (decPf P b (off2 P C Q t) (hidOf C Q t))
          · rw [if_pos hpt, if_pos (show AllPad2 P b C Q (t + 1) from fun i hi hiC => by
              rcases Nat.lt_succ_iff_lt_or_eq.1 hi with h | h
              · exact hp i h hiC
              · subst h; exact hpt hiC)]
            dsimp only
            rw [pure_eq_ok, off2_succ]
            congr 3
            simp [arrN, List.range_succ]
          · rw [if_neg hpt, if_neg (fun hx => hpt (hx t (by omega)))]; rfl
        · rw [if_neg hp, if_neg (fun hx => hp fun i hi => hx i (by omega))]; rfl
    · rw [if_pos (by simpa using hlen), if_neg (fun hx => hlen hx.1)]; rfl

theorem decSig2_proof {P : Params} {b : Buf} {C Q : List ℕ} {t : ℕ} (hc : ChalWF P C Q) (ht : t ∈ C) :
    (decSig2 P b C Q).proofs.getD t none = some (decPf P b (off2 P C Q t) (hidOf C Q t)) ∧
      pfOf (decSig2 P b C Q) t = decPf P b (off2 P C Q t) (hidOf C Q t) := by
  have h : (decSig2 P b C Q).proofs.getD t none = some (decPf P b (off2 P C Q t) (hidOf C Q t)) := by
    change (arrN _ _).getD t none = _
    rw [getD_arrN (hc.ltC t ht), if_pos ht]
  refine ⟨h, ?_⟩
  unfold pfOf
  rw [h]; rfl

theorem decSig2_wf {P : Params} {b : Buf} {C Q : List ℕ} (hc : ChalWF P C Q) (hl : sig2Len P C Q ≤ b.length) : Sig2WF P (decSig2 P b C Q) := by
  have hoff0 : off2 P C Q 0 ≤ sig2Len P C Q := off2_mono (Nat.zero_le _)
  have hoff0' : off2 P C Q 0 = P.digestSizeBytes + P.saltSizeBytes + sdLen P C + cvLen P C := by simp [off2]
  have hi : (decSig2 P b C Q).iSeedInfo.length = sdLen P C := sl_length (by omega)
  have hv : (decSig2 P b C Q).cvInfo.length = cvLen P C := sl_length (by omega)
  constructor
  · exact hc
  · exact sl_length (by omega)
  · change (b.take _).length = _; simp; omega
  · exact hi
  · exact hi.symm
  · exact hv
  · exact hv.symm
  · change (arrN _ _).length = _; simp [arrN]
  · intro t ht
    obtain ⟨a, b'⟩ := decSig2_proof (b := b) hc ht
    refine ⟨by rw [a, b'], ?_⟩
    rw [b']
    refine decPf_wf ?_
    have h1 := off2_mono (P := P) (C := C) (Q := Q) (show t + 1 ≤ P.numMPCRounds from hc.ltC t ht)
    rw [off2_succ, rLen, if_pos (by exact ht)] at h1
    unfold sig2Len at hl; omega

/-- Encoding a decoded signature gives the bytes it was decoded from. -/
theorem enc_dec2 {P : Params} {b : Buf} {C Q : List ℕ} (hc : ChalWF P C Q) (t : ℕ) : pre2 (decSig2 P b C Q) t = b.take (off2 P C Q t) := by
  induction t with
  | zero =>
    simp only [pre2, List.range_zero, List.flatMap_nil, List.append_nil, off2, sum_range_zero, Nat.add_zero]
    rw [take_sl, take_sl, take_sl]; rfl
  | succ t ih =>
    rw [pre2_succ, ih, off2_succ, take_sl]
    congr 1
    unfold rBytes rLen
    by_cases h : t ∈ C
    · rw [if_pos (by exact h), if_pos h, (decSig2_proof hc h).2]; exact pfBytes_dec ..
    · rw [if_neg (by exact h), if_neg h]; simp [sl]

theorem dec_pfBytes {P : Params} {k off : ℕ} {p : Proof2} {a r : Buf} (h : Pf2WF P p) (h15 : k = 15 → p.aux = zeros P.andSizeBytes) (ha : a.length = off) :
    decPf P (a ++ pfBytes k p ++ r) off k = p := by
  obtain ⟨si, sil, ax, c, inp, ms⟩ := p
  obtain ⟨p1, p2, p3, p4, p5, p6⟩ := h
  simp only [] at p1 p2 p3 p4 p5 p6 h15
  unfold decPf pfBytes axLen
  simp only [Proof2.mk.injEq]
  by_cases hk : k ≠ 15
  · simp only [if_pos hk]
    refine ⟨?_, p2.symm, ?_, ?_, ?_, ?_⟩
    · rw [show a ++ (si ++ (ax ++ (inp ++ (ms ++ c)))) ++ r = a ++ (si ++ (ax ++ inp ++ ms ++ c ++ r)) by simp]
      exact sl_at ha p1
    · rw [show a ++ (si ++ (ax ++ (inp ++ (ms ++ c)))) ++ r = (a ++ si) ++ (ax ++ (inp ++ ms ++ c ++ r)) by simp]
      exact sl_at (by simp; omega) p3
    · rw [show a ++ (si ++ (ax ++ (inp ++ (ms ++ c)))) ++ r = (a ++ si ++ ax ++ inp ++ ms) ++ (c ++ r) by simp]
      exact sl_at (by simp; omega) p4
    · rw [show a ++ (si ++ (ax ++ (inp ++ (ms ++ c)))) ++ r = (a ++ si ++ ax) ++ (inp ++ (ms ++ c ++ r)) by simp]
      exact sl_at (by simp; omega) p5
    · rw [show a ++ (si ++ (ax ++ (inp ++ (ms ++ c)))) ++ r = (a ++ si ++ ax ++ inp) ++ (ms ++ (c ++ r)) by simp]
      exact sl_at (by simp; omega) p6
  · simp only [if_neg hk]
    refine ⟨?_, p2.symm, (h15 (by omega)).symm, ?_, ?_, ?_⟩
    · rw [show a ++ (si ++ ([] ++ (inp ++ (ms ++ c)))) ++ r = a ++ (si ++ (inp ++ ms ++ c ++ r)) by simp]
      exact sl_at ha p1
    · rw [show a ++ (si ++ ([] ++ (inp ++ (ms ++ c)))) ++ r = (a ++ si ++ inp ++ ms) ++ (c ++ r) by simp]
      exact sl_at (by simp; omega) p4
    · rw [show a ++ (si ++ ([] ++ (inp ++ (ms ++ c)))) ++ r = (a ++ si) ++ (inp ++ (ms ++ c ++ r)) by simp]
      exact sl_at (by simp; omega) p5
    · rw [show a ++ (si ++ ([] ++ (inp ++ (ms ++ c)))) ++ r = (a ++ si ++ inp) ++ (ms ++ (c ++ r)) by simp]
      exact sl_at (by simp; omega) p6

theorem pre2_split (s : Signature2) {i n : ℕ} (h : i ≤ n) : ∃ r, pre2 s n = pre2 s i ++ r := by
  induction n with
  | zero => exact ⟨[], by simp [show i = 0 by omega]⟩
  | succ n ih =>
    by_cases h' : i = n + 1
    · exact ⟨[], by simp [h']⟩
    · obtain ⟨r, e⟩ := ih (by omega)
      exact ⟨r ++ rBytes s n, by rw [pre2_succ, e, List.append_assoc]⟩

/-- Decoding an encoded signature. -/
theorem dec_enc2 {P : Params} {s : Signature2} {r : Buf} (hs : Sig2WF P s) (hno : ∀ t < P.numMPCRounds, t ∉ s.challengeC → s.proofs.getD t none = none)
    (h15 : ∀ t ∈ s.challengeC, hidOf s.challengeC s.challengeP t = 15 → (pfOf s t).aux = zeros P.andSizeBytes) :
    decSig2 P (sig2Bytes P s ++ r) s.challengeC s.challengeP = s := by
  have h1 := hs.salt
  have h2 := hs.hash
  have h4 := hs.iSeedInfo
  have h5 := hs.cvInfo
  obtain ⟨r0, e0⟩ := pre2_split s (Nat.zero_le P.numMPCRounds)
  have e1 : sig2Bytes P s ++ r = s.challengeHash ++ s.salt ++ s.iSeedInfo ++ s.cvInfo ++ (r0 ++ r) := by
    unfold sig2Bytes; rw [e0]; simp [pre2]
  have hpf : ∀ t ∈ s.challengeC, decPf P (sig2Bytes P s ++ r) (off2 P s.challengeC s.challengeP t) (hidOf s.challengeC s.challengeP t) = pfOf s t := by
    intro t ht
    obtain ⟨r', e⟩ := pre2_split s (show t + 1 ≤ P.numMPCRounds from hs.chal.ltC t ht)
    unfold sig2Bytes
    rw [e, pre2_succ, rBytes, if_pos ht, List.append_assoc]
    exact dec_pfBytes (hs.proof t ht).2 (h15 t ht) (pre2_length hs t)
  have hpr : (decSig2 P (sig2Bytes P s ++ r) s.challengeC s.challengeP).proofs = s.proofs := by
    change arrN _ _ = _
    apply List.ext_getElem
    · simp [arrN, hs.proofs]
    · intro t ht ht'
      rw [← List.getD_eq_getElem _ none ht, ← List.getD_eq_getElem _ none ht', getD_arrN (by rw [← hs.proofs]; exact ht')]
      by_cases h : t ∈ s.challengeC
      · rw [if_pos h, hpf t h, (hs.proof t h).1]
      · rw [if_neg h, hno t (by rw [← hs.proofs]; exact ht') h]
  have a1 : (decSig2 P (sig2Bytes P s ++ r) s.challengeC s.challengeP).challengeHash = s.challengeHash := by
    change List.take _ (sig2Bytes P s ++ r) = _
    rw [e1, ← h2]; simp
  have a2 : (decSig2 P (sig2Bytes P s ++ r) s.challengeC s.challengeP).salt = s.salt := by
    change sl (sig2Bytes P s ++ r) _ _ = _
    rw [e1, show s.challengeHash ++ s.salt ++ s.iSeedInfo ++ s.cvInfo ++ (r0 ++ r) = s.challengeHash ++ (s.salt ++ (s.iSeedInfo ++ s.cvInfo ++ r0 ++ r)) by simp]
    exact sl_at h2 h1
  have a3 : (decSig2 P (sig2Bytes P s ++ r) s.challengeC s.challengeP).iSeedInfo = s.iSeedInfo := by
    change sl (sig2Bytes P s ++ r) _ _ = _
    rw [e1, show s.challengeHash ++ s.salt ++ s.iSeedInfo ++ s.cvInfo ++ (r0 ++ r) = (s.challengeHash ++ s.salt) ++ (s.iSeedInfo ++ (s.cvInfo ++ r0 ++ r)) by simp]
    exact sl_at (by simp; omega) h4
  have a4 : (decSig2 P (sig2Bytes P s ++ r) s.challengeC s.challengeP).cvInfo = s.cvInfo := by
    change sl (sig2Bytes P s ++ r) _ _ = _
    rw [e1, show s.challengeHash ++ s.salt ++ s.iSeedInfo ++ s.cvInfo ++ (r0 ++ r) = (s.challengeHash ++ s.salt ++ s.iSeedInfo) ++ (s.cvInfo ++ (r0 ++ r)) by simp]
    exact sl_at (by simp [sdLen]; omega) h5
  have a5 : (decSig2 P (sig2Bytes P s ++ r) s.challengeC s.challengeP).iSeedInfoLen = s.iSeedInfoLen := by rw [hs.iSeedInfoLen, h4]; rfl
  have a6 : (decSig2 P (sig2Bytes P s ++ r) s.challengeC s.challengeP).cvInfoLen = s.cvInfoLen := by rw [hs.cvInfoLen, h5]; rfl
  generalize hd : decSig2 P (sig2Bytes P s ++ r) s.challengeC s.challengeP = d at *
  have a7 : d.challengeC = s.challengeC := by rw [← hd]; rfl
  have a8 : d.challengeP = s.challengeP := by rw [← hd]; rfl
  cases d; cases s
  simp only [] at *
  subst a1 a2 a3 a4 a5 a6 a7 a8 hpr
  rfl

end Picnic
