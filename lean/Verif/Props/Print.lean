import Verif.Model.Print
import Verif.Props.ZkbDecode
import Verif.Props.P3Example

/-
C33 and the part of C13 about `print_signature`.

For the ZKB++ parameter sets printing an accepted signature is memory safe and shows the bytes of the signature, in order.
For the Picnic3 parameter sets printing an accepted signature always reads past the end of a heap buffer.
-/

namespace Picnic

open Spec Spec.Challenge Finset

/-- The bytes shown in hexadecimal. -/
def Printed.bytes : Printed → Buf
  | .hex _ b => b
  | _ => []

/-- All bytes shown in hexadecimal, in the order of printing. -/
def hexBytes (l : List Printed) : Buf := l.flatMap Printed.bytes

theorem hexBytes_append (l l' : List Printed) : hexBytes (l ++ l') = hexBytes l ++ hexBytes l' := by simp [hexBytes]

theorem printHex_ok {s : String} {d : Buf} {n : ℕ} (h : n ≤ d.length) : printHex s d n = Outcome.ok (.hex s (d.take n)) := by
  unfold printHex
  rw [rdN_ok (by omega), ok_bind]
  rfl

theorem printHex_sl {s : String} {b : Buf} {off n : ℕ} (h : off + n ≤ b.length) :
    printHex s (sl b off n) n = Outcome.ok (.hex s (sl b off n)) := by
  rw [printHex_ok (sl_length h).ge, List.take_of_length_le (sl_length h).le]

/-- One repetition: everything in bounds, and the bytes of the repetition are shown. -/
theorem printRound_ok {P : Params} {proofs : List Proof} {ch b : Buf} {i off c : ℕ} {proof : Proof} (hZ : ZkbWF P)
    (hrd : rd proofs i = Outcome.ok proof) (hpr : ProofWF P proof) (hch : getChallenge ch i = Outcome.ok (BitVec.ofNat 8 c))
    (hc : c < 3) (hlen : off + encLen P c ≤ b.length) :
    ∃ out, printRound P proofs ch b i off = Outcome.ok (out, off + encLen P c) ∧ hexBytes out = sl b off (encLen P c) := by
  have hlen' := hlen
  unfold encLen at hlen'
  unfold printRound
  rw [hch, ok_bind, hrd, ok_bind, takeInto_full hpr.com3 (by omega), ok_bind]
  dsimp only
  rw [printHex_sl (by omega), ok_bind]
  have hsum : encLen P c = P.digestSizeBytes + (encG P c + (P.andSizeBytes + (P.seedSizeBytes + (P.seedSizeBytes + encInp P c)))) := by
    unfold encLen; omega
  have tail : ∀ a2 : List Printed, hexBytes a2 = sl b (off + P.digestSizeBytes) (encG P c) → ∃ out, (do
      let x ← takeInto proof.communicatedBits b (off + P.digestSizeBytes + encG P c) P.andSizeBytes
      let a3 ← printHex "transcript" x.1 P.andSizeBytes
      let y ← takeInto proof.seed1 b x.2 P.seedSizeBytes
      let a4 ← printHex "seed1" y.1 P.seedSizeBytes
      let z ← takeInto proof.seed2 b y.2 P.seedSizeBytes
      let a5 ← printHex "seed2" z.1 P.seedSizeBytes
      let out := [.nums "Iteration t" [i], .nums s!"e_{i}" [(BitVec.ofNat 8 c).toNat],
        .hex s!"b_{i}" (sl b off P.digestSizeBytes)] ++ a2 ++ [a3, a4, a5]
      if BitVec.ofNat 8 c = 1 ∨ BitVec.ofNat 8 c = 2 then do
        let w ← takeInto proof.inputShare b z.2 P.stateSizeBytes
        let a6 ← printHex "inputShare" w.1 P.stateSizeBytes
        pure (out ++ [a6], w.2)
      else pure (out, z.2)) = Outcome.ok (out, off + encLen P c) ∧ hexBytes out = sl b off (encLen P c) := by
    intro a2 ha2
    rw [takeInto_full hpr.comm (by omega), ok_bind]
    dsimp only
    rw [printHex_sl (by omega), ok_bind, takeInto_full hpr.seed1 (by omega), ok_bind]
    dsimp only
    rw [printHex_sl (by omega), ok_bind, takeInto_full hpr.seed2 (by omega), ok_bind]
    dsimp only
    rw [printHex_sl (by omega), ok_bind]
    by_cases h0 : c = 0
    · subst h0
      rw [if_neg (by decide)]
      have hin : encInp P 0 = 0 := if_pos rfl
      refine ⟨_, congrArg Outcome.ok (Prod.ext rfl (by dsimp only; omega)), ?_⟩
      rw [hsum, hin, Nat.add_zero, sl_append, sl_append, sl_append, sl_append, ← ha2]
      simp [hexBytes, Printed.bytes, Nat.add_assoc]
    · have hin : encInp P c = P.stateSizeBytes := if_neg h0
      rw [if_pos (by
        have hc' : c = 1 ∨ c = 2 := by omega
        rcases hc' with rfl | rfl <;> decide)]
      rw [takeInto_full hpr.inp (by omega), ok_bind]
      dsimp only
      rw [printHex_sl (by omega), ok_bind]
      refine ⟨_, congrArg Outcome.ok (Prod.ext rfl (by dsimp only; omega)), ?_⟩
      rw [hsum, hin, sl_append, sl_append, sl_append, sl_append, sl_append, ← ha2]
      simp [hexBytes, Printed.bytes, Nat.add_assoc]
  by_cases hU : P.transform = .UR
  · obtain ⟨g, eg, hg⟩ := hpr.g3 hU
    have hgl := gLen_le P ((c + 2) % 3)
    have hgn : encG P c = gLen P ((c + 2) % 3) := if_pos hU
    have hsl : (sl b (off + P.digestSizeBytes) (encG P c)).length = encG P c := sl_length (by omega)
    simp only [if_pos hU]
    rw [gIn_chal hZ hU hc, eg]
    simp only [deref, ok_bind, ← hgn]
    rw [takeInto_ok (by omega) (by omega), ok_bind, printHex_ok (by rw [List.length_append, hsl]; omega), ok_bind, pure_eq_ok, ok_bind]
    refine tail _ ?_
    simp only [hexBytes, Printed.bytes, List.flatMap_cons, List.flatMap_nil, List.append_nil]
    rw [List.take_append_of_le_length hsl.ge, List.take_of_length_le hsl.le]
  · have hg0 : encG P c = 0 := if_neg hU
    have := tail [] (by rw [hg0]; rfl)
    rw [hg0] at this
    simp only [if_neg hU, pure_eq_ok, ok_bind]
    exact this

/-- Printing what decodes. -/
theorem printSignature_zkb {E : Env} {p : ℕ} {P : Params} {b : Buf} {n : ℕ} {S : Signature} (hP : getParamSet p = some P)
    (h3 : isPicnic3 p = false) (hn : n ≤ b.length)
    (hd : deserializeSignature P (allocateSignature E P) b n = Outcome.ok (some S)) :
    encSigLen P b ≤ b.length ∧ ∃ items, printSignature E b n p = Outcome.ok items ∧ hexBytes items = b.take (encSigLen P b) := by
  have hZ := zkbWF_of hP h3
  have hnb := numBytes_eq (2 * P.numMPCRounds)
  have hf : Full P b n := full_of_dec hP h3 hn hd
  obtain ⟨S', e, hS⟩ := deserializeSignature_ok (sig0 := allocateSignature E P) (paramsWF_of hP) hZ (allocateSignature_wf hZ) hn hf
  have hd' := hd
  rw [e] at hd'
  split_ifs at hd' with hc
  swap
  · cases hd'
  obtain rfl : S' = S := by simpa using hd'
  obtain ⟨hw, hch, hsalt, hq⟩ := hS ⟨hc.1, hc.2.1, hc.2.2.1⟩
  have hlen := hf hc.2.1 hc.2.2.1
  have hcv := hc.2.2.1
  refine ⟨hlen, ?_⟩
  have h0 : numBytes (2 * P.numMPCRounds) + P.saltSizeBytes ≤ encSigLen P b := by rw [encSigLen, offOf]; omega
  unfold printSignature
  rw [h3, if_neg (by simp)]
  simp only [hP]
  rw [hd, ok_bind]
  dsimp only
  rw [takeInto_full hw.ch (by omega), ok_bind]
  dsimp only
  rw [printHex_sl (by omega), ok_bind, rdN_ok (by omega), ok_bind, Nat.zero_add]
  have hch0 : sl b 0 (numBytes (2 * P.numMPCRounds)) = b.take (numBytes (2 * P.numMPCRounds)) := by simp [sl]
  have hchl : (b.take (numBytes (2 * P.numMPCRounds))).length = numBytes (2 * P.numMPCRounds) := by simp; omega
  rw [hch0]
  obtain ⟨s', el, hl1, hl2⟩ := loop_inv (n := P.numMPCRounds)
    (f := fun i (st : List Printed × ℕ) => do
        let x ← printRound P S'.proofs (b.take (numBytes (2 * P.numMPCRounds))) b i st.2
        pure (st.1 ++ x.1, x.2))
    (s := ([Printed.hex "challenge" (b.take (numBytes (2 * P.numMPCRounds))),
      .hex "salt" ((b.drop (numBytes (2 * P.numMPCRounds))).take P.saltSizeBytes)], numBytes (2 * P.numMPCRounds) + P.saltSizeBytes))
    (fun i st => st.2 = offOf P b i ∧ hexBytes st.1 = b.take (offOf P b i))
    (by
      refine ⟨by simp [offOf], ?_⟩
      simp only [hexBytes, Printed.bytes, List.flatMap_cons, List.flatMap_nil, List.append_nil, offOf, range_zero, sum_empty,
        Nat.add_zero]
      rw [List.take_add])
    (by
      rintro i hi ⟨out, off⟩ ⟨h1, h2⟩
      dsimp only at h1 h2
      subst h1
      obtain ⟨p', e1, -, hp'⟩ := hw.rd hi
      have hcc : chal (b.take (numBytes (2 * P.numMPCRounds))) i = chal b i := chal_take (by omega)
      obtain ⟨r, e2, hr⟩ := printRound_ok (proofs := S'.proofs) (ch := b.take (numBytes (2 * P.numMPCRounds))) (b := b) (i := i)
        (off := offOf P b i) (c := chal b i) hZ e1 hp'
        (by rw [getChallenge_eq (by rw [hchl]; omega), hcc]) (hcv i hi) ((off_le hi).trans hlen)
      refine ⟨(out ++ r, offOf P b i + encLen P (chal b i)), ?_, ?_, ?_⟩
      · dsimp only; rw [e2, ok_bind]; rfl
      · dsimp only; rw [offOf_succ]
      · dsimp only
        rw [hexBytes_append, h2, hr, offOf_succ, take_sl])
  refine ⟨s'.1, ?_, hl2⟩
  refine bind_of el ?_
  rfl

/-- C33 for ZKB++ (holds): `print_signature` on a signature that `picnic_verify` accepts has no undefined behaviour, and the
byte strings it shows are, in this order, the first `len` bytes of the signature, which are all there. -/
theorem C33_zkb (E : Env) (pk : PublicKey) (hp : pk.params ∈ zkbParams) (msg : Buf) (mlen : ℕ) (b : Buf)
    (h : picnicVerify E (some pk) msg mlen b b.length = Outcome.ok 0) :
    ∃ items len, printSignature E b b.length pk.params = Outcome.ok items ∧ len ≤ b.length ∧ hexBytes items = b.take len := by
  obtain ⟨P, hP, h3⟩ := getParamSet_zkb hp
  unfold picnicVerify at h
  simp only [deref, ok_bind, hP, h3] at h
  obtain ⟨r, hx, hk⟩ := bind_ok_inv h
  obtain _ | S := r
  · change Outcome.ok (-1 : ℤ) = Outcome.ok 0 at hk
    exact absurd hk (by decide)
  · obtain ⟨hlen, items, e, hi⟩ := printSignature_zkb hP h3 le_rfl hx
    exact ⟨items, _, e, hlen, hi⟩

/-- C13 for printing with the FS and full ZKB++ parameter sets, and for UR strings of at least `picnic_signature_size` bytes:
for every byte string `print_signature` returns and has no undefined behaviour. -/
theorem C13_print_partial (E : Env) (p : ℕ) (hp : p ∈ zkbParams) (b : Buf)
    (hU : p ∈ urParams → picnicSignatureSize p ≤ b.length) : ∃ items, printSignature E b b.length p = Outcome.ok items := by
  obtain ⟨P, hP, h3⟩ := getParamSet_zkb hp
  have hZ := zkbWF_of hP h3
  obtain ⟨S, e, -⟩ := deserializeSignature_ok (sig0 := allocateSignature E P) (paramsWF_of hP) hZ (allocateSignature_wf hZ) le_rfl
    (full_of hP h3 le_rfl hU)
  split_ifs at e with hc
  · obtain ⟨-, items, h, -⟩ := printSignature_zkb hP h3 le_rfl e
    exact ⟨items, h⟩
  · refine ⟨[.text "Invalid signature; deserialization fails"], ?_⟩
    unfold printSignature
    rw [h3, if_neg (by simp)]
    simp only [hP]
    rw [e, ok_bind]
    rfl

theorem printRound2_oob {P : Params} {s : Signature2} (h3 : P3WF P) (hP : ParamsWF P) (hs : Sig2WF P s) :
    printRound2 P s 0 = Outcome.ub UB.oobRead := by
  have hu := h3.upos
  have hb := hP.bytes
  have hn := hP.nPos
  have hC := hs.chal.lenC
  have hQ := hs.chal.lenQ
  unfold printRound2
  rw [rd_ok (by omega), ok_bind, rd_ok (by omega), ok_bind]
  have hmem : s.challengeC[0] ∈ s.challengeC := List.getElem_mem _
  have hlt : s.challengeC[0] < s.proofs.length := by rw [hs.proofs]; exact hs.chal.ltC _ hmem
  obtain ⟨e, hpf⟩ := hs.proof _ hmem
  rw [List.getD_eq_getElem _ _ hlt] at e
  rw [rd_ok hlt, ok_bind, e]
  simp only [deref, ok_bind]
  rw [printHex_ok (by rw [hpf.seedLen, hpf.seedInfoLen]), ok_bind, printHex_ok hpf.aux.ge, ok_bind, printHex_ok hpf.C.ge, ok_bind,
    printHex_ok hpf.input.ge, ok_bind]
  unfold printHex rdN
  rw [if_neg (by rw [hpf.msgs]; omega)]
  rfl

/-- Printing with a Picnic3 parameter set: the possible outcomes. -/
theorem printSignature_p3 {E : Env} {p : ℕ} {P : Params} {b : Buf} {n : ℕ} (hE : PermWF E) (hP : getParamSet p = some P)
    (h3 : isPicnic3 p = true) (hn : n ≤ b.length) :
    (deserializeSignature2 E P (allocateSignature2 E P) b n = Outcome.diverge ∧ printSignature E b n p = Outcome.diverge) ∨
    (deserializeSignature2 E P (allocateSignature2 E P) b n = Outcome.ok none ∧
      printSignature E b n p = Outcome.ok [.text "Invalid signature; deserialization fails"]) ∨
    ∃ S, deserializeSignature2 E P (allocateSignature2 E P) b n = Outcome.ok (some S) ∧
      printSignature E b n p = Outcome.ub UB.oobRead := by
  have hW := p3WF_of hP h3
  have hWF := paramsWF_of hP
  have hu := hW.upos
  unfold printSignature printSignature2
  simp only [h3, hP, if_true]
  have e := deserializeSignature2_ok (n := n) hE hWF hW hn
  cases hx : deserializeSignature2 E P (allocateSignature2 E P) b n with
  | diverge => exact Or.inl ⟨rfl, rfl⟩
  | ub u =>
    rw [hx, dec2R] at e
    split_ifs at e
    split at e <;> cases e
  | abort =>
    rw [hx, dec2R] at e
    split_ifs at e
    split at e <;> cases e
  | ok r =>
    obtain _ | S := r
    · exact Or.inr (Or.inl ⟨rfl, rfl⟩)
    · refine Or.inr (Or.inr ⟨S, rfl, ?_⟩)
      obtain ⟨C, Q, hex, hl, -, rfl⟩ := deserialize2_some hE hWF hW hn hx
      have hc := expandR_wf hW hex
      have hs := decSig2_wf (b := b) hc (by omega)
      generalize decSig2 P b C Q = s at hs
      have hcl := hs.chal.lenC
      have hql := hs.chal.lenQ
      have e1 := collect_ok (f := fun i => rd s.challengeC i) (n := P.numOpenedRounds) (g := fun i => s.challengeC.getD i 0) fun i hi => by
        rw [rd_ok (by omega), List.getD_eq_getElem]
      have e2 := collect_ok (f := fun i => rd s.challengeP i) (n := P.numOpenedRounds) (g := fun i => s.challengeP.getD i 0) fun i hi => by
        rw [rd_ok (by omega), List.getD_eq_getElem]
      rw [ok_bind]
      dsimp only
      refine (bind_of e1 rfl).trans ?_
      refine (bind_of e2 rfl).trans ?_
      rw [printHex_ok hs.salt.ge, ok_bind, printHex_ok hs.iSeedInfoLen.le, ok_bind, printHex_ok hs.cvInfoLen.le, ok_bind]
      refine loop_ub_at (m := 1) ?_ (by omega)
      rw [loop, loop, ok_bind, printRound2_oob hW hWF hs]
      rfl

/-- C33 is false for Picnic3: for EVERY signature that `picnic_verify` accepts, `print_signature` reads past the end of the
buffer `msgs` of the first opened round (/repo/picnic.c:686 prints `stateSizeBytes + andSizeBytes` bytes of a buffer that
/repo/picnic_types.c:83 allocates with `andSizeBytes`). -/
theorem C33_p3_violated (E : Env) (hE : EnvWF E) (pk : PublicKey) (hp : pk.params ∈ picnic3Params) (msg : Buf) (mlen : ℕ) (b : Buf)
    (h : picnicVerify E (some pk) msg mlen b b.length = Outcome.ok 0) :
    printSignature E b b.length pk.params = Outcome.ub UB.oobRead := by
  obtain ⟨P, hP, h3⟩ := getParamSet_p3 hp
  unfold picnicVerify at h
  simp only [deref, ok_bind, hP, h3] at h
  obtain ⟨r, hx, hk⟩ := bind_ok_inv h
  obtain _ | S := r
  · change Outcome.ok (-1 : ℤ) = Outcome.ok 0 at hk
    exact absurd hk (by decide)
  · rcases printSignature_p3 (n := b.length) hE.perm hP h3 le_rfl with ⟨e, -⟩ | ⟨e, -⟩ | ⟨-, -, e⟩
    · rw [hx] at e; cases e
    · rw [hx] at e; cases e
    · exact e

/-- C33 for Picnic3 (what holds): strings that do not decode, in particular all strings of a length other than the one the
challenge in the string leads to, are printed without undefined behaviour. -/
theorem C33_p3_partial (E : Env) (hE : EnvWF E) (p : ℕ) (hp : p ∈ picnic3Params) (P : Params) (hP : getParamSet p = some P) (b : Buf)
    (h : ∀ S, deserializeSignature2 E P (allocateSignature2 E P) b b.length ≠ Outcome.ok (some S)) (u : UB) :
    printSignature E b b.length p ≠ Outcome.ub u := by
  obtain ⟨P', hP', h3⟩ := getParamSet_p3 hp
  rw [hP] at hP'
  obtain rfl : P = P' := by simpa using hP'
  rcases printSignature_p3 (n := b.length) hE.perm hP h3 le_rfl with ⟨-, e⟩ | ⟨-, e⟩ | ⟨S, e, -⟩
  · rw [e]; simp
  · rw [e]; simp
  · exact absurd e (h S)

/-- Other values of the parameter: a message is printed. -/
theorem C33_invalid (E : Env) (b : Buf) (n p : ℕ) (hp : p ∉ zkbParams) (hp' : p ∉ picnic3Params) :
    printSignature E b n p = Outcome.ok [.text "Invalid parameters"] := by
  have hr : ¬ (1 ≤ p ∧ p ≤ 12) := by
    rintro ⟨h1, h2⟩
    interval_cases p <;> first | exact hp (by decide) | exact hp' (by decide)
  have hP : getParamSet p = none := by
    rw [← Option.not_isSome_iff_eq_none, getParamSet_isSome]; exact hr
  have h3 : isPicnic3 p = false := by
    rw [Bool.eq_false_iff]
    intro h
    simp only [isPicnic3, pidPicnic3L1, pidPicnic3L3, pidPicnic3L5, Bool.or_eq_true, beq_iff_eq] at h
    omega
  unfold printSignature
  rw [h3, if_neg (by simp)]
  simp only [hP]
  rfl

/-- Concrete case for C33: for every parameter set there is an accepted signature; it is printed for ZKB++, and leads to the
over-read for Picnic3. -/
theorem print_example (msg : Buf) (hm : msg.length + 200 ≤ 2 ^ 32) :
    (∀ p ∈ zkbParams, ∃ E pk b items, pk.params = p ∧ picnicVerify E (some pk) msg msg.length b b.length = Outcome.ok 0 ∧
      printSignature E b b.length p = Outcome.ok items) ∧
    ∀ p ∈ picnic3Params, ∃ E pk b, EnvWF E ∧ pk.params = p ∧ picnicVerify E (some pk) msg msg.length b b.length = Outcome.ok 0 ∧
      printSignature E b b.length p = Outcome.ub UB.oobRead := by
  refine ⟨fun p hp => ?_, fun p hp => ?_⟩
  · obtain ⟨pk, b, -, rfl, -, h, -⟩ := zkb_verify_example p hp msg hm
    obtain ⟨items, len, e, -⟩ := C33_zkb zeroEnv pk hp msg msg.length b h
    exact ⟨zeroEnv, pk, b, items, rfl, h, e⟩
  · obtain ⟨E, sk, P, buf, sig, len, S, hE, -, -, -, -, -, -, -, -, -, -, h, -⟩ := p3_example p hp msg hm
    exact ⟨E, { sk.pk with params := p }, sig.take len, hE, rfl, h, C33_p3_violated E hE { sk.pk with params := p } hp msg msg.length _ h⟩

end Picnic
