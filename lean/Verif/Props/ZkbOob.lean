import Verif.Proofs.ZkbOob2
import Verif.Props.ZkbDecode
import Verif.Props.Conform1
import Verif.Props.Print

/-
C13 and C14 for ZKB++, exactly: which byte strings make verification read past the end.
-/

namespace Picnic

open Spec Spec.Challenge Finset

section

variable {E : Env} {P : Params} {I : Picnic1.Inst}

theorem Match1.start (M : Match1 E P I) (hZ : ZkbWF P) (b : Buf) (t : ℕ) : I.start b t = offOf P b t := by
  have hs : P.saltSizeBytes = 32 := hZ.salt
  rw [Picnic1.Inst.start, offOf, M.T, hs, numBytes_eq, bytesFor]
  congr 1
  exact sum_congr rfl fun i _ => by rw [M.entry, chal_eq_value]

theorem Match1.zeros (M : Match1 E P I) (b : Buf) : I.zeros b = (List.range P.numMPCRounds).countP fun i => chal b i = 0 := by
  rw [Picnic1.Inst.zeros, M.T]
  exact List.countP_congr fun i _ => by rw [chal_eq_value]

theorem Match1.share (M : Match1 E P I) (hZ : ZkbWF P) {b : Buf} {t : ℕ} (h0 : chal b t ≠ 0) :
    I.share b t = (decProof P b (offOf P b t) (chal b t)).inp := by
  rw [Picnic1.Inst.share, M.start hZ, M.blk, offOf_succ]
  simp only [decProof, sl, encLen, encInp, if_neg h0]
  congr 2
  omega

/-- In terms of the decoder. -/
theorem overrun_iff (M : Match1 E P I) (hP : ParamsWF P) (hZ : ZkbWF P) {b : Buf} : I.Overrun b ↔
    numBytes (2 * P.numMPCRounds) ≤ b.length ∧ decLen P b ≤ b.length ∧ (∀ i < P.numMPCRounds, chal b i < 3) ∧
    (∀ i < P.numMPCRounds, offOf P b (i + 1) ≤ b.length → chal b i ≠ 0 → PadZero (decProof P b (offOf P b i) (chal b i)).inp P.stateSizeBits) ∧
    b.length < encSigLen P b := by
  have hXn : I.X.n = P.stateSizeBits := by rw [M.X]; rfl
  have hmin : numBytes (2 * P.numMPCRounds) + P.saltSizeBytes ≤ decLen P b := by
    unfold decLen; simp only []; split_ifs <;> omega
  have hshares : (∀ t < I.T, I.start b (t + 1) ≤ b.length → value b t ≠ 0 → ZeroPad I.X.n (I.share b t)) ↔
      ∀ i < P.numMPCRounds, offOf P b (i + 1) ≤ b.length → chal b i ≠ 0 → PadZero (decProof P b (offOf P b i) (chal b i)).inp P.stateSizeBits := by
    rw [M.T]
    refine forall₂_congr fun i _ => ?_
    rw [M.start hZ, ← chal_eq_value, hXn]
    refine imp_congr_right fun _ => forall_congr' fun h0 => ?_
    rw [M.share hZ h0, zeroPad_iff]
  constructor
  · rintro ⟨hu, hc, hs, hq, hsh⟩
    have hc' : ∀ i < P.numMPCRounds, chal b i < 3 := fun i hi => by rw [chal_eq_value]; exact hc i (by rw [M.T]; exact hi)
    have hdec := decLen_ur hZ (M.ur.1 hu) hc'
    rw [M.start hZ, M.T] at hs hq
    rw [M.zeros, M.blk, Nat.mul_comm, ← encSigLen] at hq
    exact ⟨by omega, by omega, hc', hshares.1 hsh, hs⟩
  · rintro ⟨-, hd, hc, hp, hs⟩
    have hU : P.transform = .UR := by
      by_contra hU
      rw [decLen_fs hU hc] at hd
      omega
    have hdec := decLen_ur hZ hU hc
    refine ⟨M.ur.2 hU, fun t ht => ?_, ?_, ?_, hshares.2 hp⟩
    · rw [← chal_eq_value]; exact hc t (by rw [← M.T]; exact ht)
    · rw [M.start hZ, M.T]; exact hs
    · rw [M.start hZ, M.T, M.zeros, M.blk, Nat.mul_comm, ← encSigLen]; omega

end

/-- C13 and C14 for ZKB++, exactly: verification of a byte string reads past its end if and only if the byte string is as described by
`Overrun`; in all other cases it accepts, rejects, or does not find the challenge within `E.fuel` digests.  It depends on the byte
string and the parameter set only. -/
theorem C13_zkb_exact (E : Env) (hE : EnvWF E) (pk : PublicKey) (hpk : pk.Arrays) (hp : pk.params ∈ zkbParams) (P : Params)
    (hP : getParamSet pk.params = some P) (I : Picnic1.Inst) (hI : I.Is pk.params) (hf : I.f = E.perm)
    (hX : I.X = lowmcOf P (E.lowmc P)) (msg : Buf) (mlen : ℕ) (hm : mlen ≤ msg.length) (hm32 : mlen + 200 ≤ 2 ^ 32) (b : Buf) :
    (I.Overrun b → picnicVerify E (some pk) msg mlen b b.length = Outcome.ub UB.oobRead) ∧
    (¬ I.Overrun b → picnicVerify E (some pk) msg mlen b b.length = Outcome.ok 0 ∨ picnicVerify E (some pk) msg mlen b b.length = Outcome.ok (-1) ∨
      picnicVerify E (some pk) msg mlen b b.length = Outcome.diverge) := by
  have h3 : isPicnic3 pk.params = false := (getParamSet_zkb hp).choose_spec.2
  have hWF := paramsWF_of hP
  have hZ := zkbWF_of hP h3
  have M := match1_of hP hI hf hX
  constructor
  · intro h
    obtain ⟨h1, h2, h4, h5, h6⟩ := (overrun_iff M hWF hZ).1 h
    simp only [picnicVerify, deref, pure_eq_ok, ok_bind, hP, h3, Bool.not_false, if_true]
    exact bind_of_ub (deserializeSignature_oob hWF hZ (allocateSignature_wf hZ) h1 h2 h4 h5 h6)
  · intro hno
    by_cases hfull : Full P b b.length
    · exact (verify_outcomes hE hP h3 hpk hm hm32 le_rfl hfull).1
    unfold Full at hfull
    push_neg at hfull
    obtain ⟨hd, hc, hs⟩ := hfull
    have hmin : numBytes (2 * P.numMPCRounds) + P.saltSizeBytes ≤ decLen P b := by
      unfold decLen; simp only []; split_ifs <;> omega
    refine Or.inr (Or.inl ?_)
    simp only [picnicVerify, deref, pure_eq_ok, ok_bind, hP, h3, Bool.not_false, if_true]
    exact bind_of_ok (deserializeSignature_pad hWF hZ (allocateSignature_wf hZ) (by omega) hd hc fun hp =>
      hno ((overrun_iff M hWF hZ).2 ⟨by omega, hd, hc, hp, hs⟩))

/-- C13 for printing with the ZKB++ parameter sets, exactly: `print_signature` reads past the end of the same byte strings as
`picnic_verify`, and returns for all others. -/
theorem C13_print_exact (E : Env) (p : ℕ) (hp : p ∈ zkbParams) (P : Params) (hP : getParamSet p = some P) (I : Picnic1.Inst) (hI : I.Is p)
    (hf : I.f = E.perm) (hX : I.X = lowmcOf P (E.lowmc P)) (b : Buf) :
    (I.Overrun b → printSignature E b b.length p = Outcome.ub UB.oobRead) ∧
    (¬ I.Overrun b → ∃ items, printSignature E b b.length p = Outcome.ok items) := by
  have h3 : isPicnic3 p = false := (getParamSet_zkb hp).choose_spec.2
  have hZ := zkbWF_of hP h3
  have hWF := paramsWF_of hP
  have M := match1_of hP hI hf hX
  have fail : deserializeSignature P (allocateSignature E P) b b.length = Outcome.ok none →
      ∃ items, printSignature E b b.length p = Outcome.ok items := fun e => by
    refine ⟨[.text "Invalid signature; deserialization fails"], ?_⟩
    unfold printSignature
    rw [h3, if_neg (by simp)]
    simp only [hP]
    rw [e, ok_bind]
    rfl
  constructor
  · intro h
    have e : deserializeSignature P (allocateSignature E P) b b.length = Outcome.ub UB.oobRead := by
      obtain ⟨h1, h2, h4, h5, h6⟩ := (overrun_iff M hWF hZ).1 h
      exact deserializeSignature_oob hWF hZ (allocateSignature_wf hZ) h1 h2 h4 h5 h6
    unfold printSignature
    rw [h3, if_neg (by simp)]
    simp only [hP]
    exact bind_of_ub e
  · intro h
    by_cases hfull : Full P b b.length
    · obtain ⟨S, e, -⟩ := deserializeSignature_ok (sig0 := allocateSignature E P) hWF hZ (allocateSignature_wf hZ) le_rfl hfull
      split_ifs at e with hc
      · obtain ⟨-, items, h, -⟩ := printSignature_zkb hP h3 le_rfl e
        exact ⟨items, h⟩
      · exact fail e
    · unfold Full at hfull
      push_neg at hfull
      obtain ⟨hd, hc, hs⟩ := hfull
      have hmin : numBytes (2 * P.numMPCRounds) + P.saltSizeBytes ≤ decLen P b := by
        unfold decLen; simp only []; split_ifs <;> omega
      refine fail (deserializeSignature_pad hWF hZ (allocateSignature_wf hZ) (by omega) hd hc fun hp => ?_)
      exact h ((overrun_iff M hWF hZ).2 ⟨by omega, hd, hc, hp, hs⟩)

/-- A concrete case for C13_zkb_exact: with every UR parameter set there is an accepted signature which, without its last byte, is overrun. -/
theorem C13_zkb_exact_example (p : ℕ) (hp : p ∈ urParams) (msg : Buf) (hm : msg.length + 200 ≤ 2 ^ 32) :
    ∃ (pk : PublicKey) (P : Params) (I : Picnic1.Inst) (b : Buf), EnvWF zeroEnv ∧ pk.Arrays ∧ pk.params = p ∧ getParamSet p = some P ∧ I.Is p ∧
      I.f = zeroEnv.perm ∧ I.X = lowmcOf P (zeroEnv.lowmc P) ∧
      picnicVerify zeroEnv (some pk) msg msg.length b b.length = Outcome.ok 0 ∧ ¬ I.Overrun b ∧ I.Overrun (b.take (b.length - 1)) := by
  have hz : p ∈ zkbParams := by
    simp only [urParams, zkbParams, List.mem_cons, List.not_mem_nil, or_false] at hp ⊢
    omega
  obtain ⟨pk, b, hpk, rfl, -, h1, -, h2⟩ := zkb_verify_example p hz msg hm
  obtain ⟨P, hP, -⟩ := getParamSet_zkb hz
  have hI := instOf_is zeroEnv hz hP
  have ex := fun b => C13_zkb_exact zeroEnv zeroEnv_wf pk hpk hz P hP (instOf zeroEnv P) hI rfl rfl msg msg.length le_rfl hm b
  refine ⟨pk, P, instOf zeroEnv P, b, zeroEnv_wf, hpk, rfl, hP, hI, rfl, rfl, h1, fun h => ?_, ?_⟩
  · have := (ex b).1 h
    rw [h1] at this
    cases this
  · by_contra hno
    have := (ex _).2 hno
    rw [show (b.take (b.length - 1)).length = b.length - 1 by rw [List.length_take]; omega, h2 hp] at this
    rcases this with h | h | h <;> cases h

end Picnic
