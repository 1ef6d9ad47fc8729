import Verif.Proofs.ZkbApi

/-
The ZKB++ decoder on UR signatures that are too short: the length check passes, and a read past the end follows.
-/

namespace Picnic

open Spec Finset

theorem bind_of_ub {α β : Type} {u : UB} {x : M α} {k : α → M β} (h : x = Outcome.ub u) : (x >>= k) = Outcome.ub u := by
  rw [h]; rfl

theorem bind_ok_inv {α β : Type} {x : M α} {k : α → M β} {y : β} (h : (x >>= k) = Outcome.ok y) :
    ∃ a, x = Outcome.ok a ∧ k a = Outcome.ok y := by
  cases x with
  | ok a => exact ⟨a, rfl, h⟩
  | ub u => cases h
  | diverge => cases h
  | abort => cases h

theorem memcpy_oob {dst src : Buf} {d s n : ℕ} (h : src.length < s + n) : memcpy dst d src s n = Outcome.ub UB.oobRead := by
  unfold memcpy rdN
  rw [if_neg (by omega)]
  rfl

theorem takeInto_oob {dst b : Buf} {off n : ℕ} (h : b.length < off + n) : takeInto dst b off n = Outcome.ub UB.oobRead := by
  unfold takeInto
  rw [memcpy_oob h]
  rfl

theorem deserializeProof_oob {P : Params} {b ch : Buf} {i : ℕ} {proof : Proof} {off c : ℕ} (hZ : ZkbWF P)
    (hpr : ProofWF P proof) (hch : getChallenge ch i = Outcome.ok (BitVec.ofNat 8 c)) (hc : c < 3)
    (hlen : b.length < off + encLen P c) :
    deserializeProof P b ch i proof off = Outcome.ub UB.oobRead := by
  obtain ⟨s1, s2, inp, cm, c3, g3⟩ := proof
  obtain ⟨h1, h2, h3, h4, h5, h6⟩ := hpr
  simp only [] at h1 h2 h3 h4 h5 h6
  have hlen' := hlen
  unfold encLen at hlen'
  unfold deserializeProof
  rw [hch, ok_bind]
  simp only []
  by_cases t1 : b.length < off + P.digestSizeBytes
  · rw [takeInto_oob t1]; rfl
  rw [takeInto_full h5 (by omega), ok_bind]
  simp only []
  have tail : ∀ g3' : Option Buf, (do
      let x ← takeInto cm b (off + P.digestSizeBytes + encG P c) P.andSizeBytes
      let y ← takeInto s1 b x.2 P.seedSizeBytes
      let z ← takeInto s2 b y.2 P.seedSizeBytes
      let proof : Proof := ⟨y.1, z.1, inp, x.1, sl b off P.digestSizeBytes, g3'⟩
      if BitVec.ofNat 8 c = 1 ∨ BitVec.ofNat 8 c = 2 then do
        let w ← takeInto proof.inputShare b z.2 P.stateSizeBytes
        let okPad ← arePaddingBitsZero w.1 P.stateSizeBits
        if okPad then pure (some (({ proof with inputShare := w.1 } : Proof), w.2)) else pure none
      else pure (some (proof, z.2))) = Outcome.ub UB.oobRead := by
    intro g3'
    by_cases t2 : b.length < off + P.digestSizeBytes + encG P c + P.andSizeBytes
    · rw [takeInto_oob t2]; rfl
    rw [takeInto_full h4 (by omega), ok_bind]
    simp only []
    by_cases t3 : b.length < off + P.digestSizeBytes + encG P c + P.andSizeBytes + P.seedSizeBytes
    · rw [takeInto_oob t3]; rfl
    rw [takeInto_full h1 (by omega), ok_bind]
    simp only []
    by_cases t4 : b.length < off + P.digestSizeBytes + encG P c + P.andSizeBytes + P.seedSizeBytes + P.seedSizeBytes
    · rw [takeInto_oob t4]; rfl
    rw [takeInto_full h2 (by omega), ok_bind]
    simp only []
    have h0 : c ≠ 0 := by
      rintro rfl
      rw [encInp, if_pos rfl] at hlen'
      omega
    rw [encInp, if_neg h0] at hlen'
    rw [if_pos (by
        have hc' : c = 1 ∨ c = 2 := by omega
        rcases hc' with rfl | rfl <;> decide)]
    rw [takeInto_oob (by omega)]
    rfl
  by_cases hU : P.transform = .UR
  · obtain ⟨g, rfl, hg⟩ := h6 hU
    have hgl := gLen_le P ((c + 2) % 3)
    have hgn : encG P c = gLen P ((c + 2) % 3) := if_pos hU
    simp only [if_pos hU]
    rw [gIn_chal hZ hU hc]
    simp only [deref, ok_bind, ← hgn]
    by_cases t2 : b.length < off + P.digestSizeBytes + encG P c
    · rw [takeInto_oob t2]; rfl
    rw [takeInto_ok (by omega) (by omega), ok_bind, pure_eq_ok, ok_bind]
    exact tail _
  · have hg0 : encG P c = 0 := if_neg hU
    simp only [if_neg hU, pure_eq_ok, ok_bind]
    have := tail g3
    rw [hg0] at this
    exact this

theorem loop_ub_at {σ : Type} {f : ℕ → σ → M σ} {s : σ} {m n : ℕ} {u : UB} (h : loop f m s = Outcome.ub u) (hmn : m ≤ n) :
    loop f n s = Outcome.ub u := by
  induction n with
  | zero => obtain rfl : m = 0 := by omega
            exact h
  | succ n ih =>
    by_cases hm : m = n + 1
    · subst hm; exact h
    · rw [loop, ih (by omega)]; rfl

theorem deserializeSignature_oob {P : Params} {sig0 : Signature} {b : Buf} (hP : ParamsWF P) (hZ : ZkbWF P)
    (hs : SigWF P sig0) (h1 : numBytes (2 * P.numMPCRounds) ≤ b.length) (h2 : decLen P b ≤ b.length)
    (h3 : ∀ i < P.numMPCRounds, chal b i < 3)
    (hpad : ∀ i < P.numMPCRounds, offOf P b (i + 1) ≤ b.length → chal b i ≠ 0 →
      PadZero (decProof P b (offOf P b i) (chal b i)).inp P.stateSizeBits)
    (hshort : b.length < encSigLen P b) :
    deserializeSignature P sig0 b b.length = Outcome.ub UB.oobRead := by
  have hnb := numBytes_eq (2 * P.numMPCRounds)
  unfold deserializeSignature
  rw [if_neg (by omega), computeInputShareSize_ok (by omega), ok_bind]
  have hdl : (if P.transform = .UR then numBytes (2 * P.numMPCRounds) + P.saltSizeBytes +
      P.numMPCRounds * (2 * P.seedSizeBytes + P.andSizeBytes + P.digestSizeBytes) + inpTotal P b +
      P.unruhGWithoutInputBytes * P.numMPCRounds else numBytes (2 * P.numMPCRounds) + P.saltSizeBytes +
      P.numMPCRounds * (2 * P.seedSizeBytes + P.andSizeBytes + P.digestSizeBytes) + inpTotal P b) = decLen P b := rfl
  simp only [hdl]
  rw [if_neg (by omega)]
  have hmin : numBytes (2 * P.numMPCRounds) + P.saltSizeBytes ≤ decLen P b := by
    unfold decLen; simp only []; split_ifs <;> omega
  rw [takeInto_full hs.ch (by omega), ok_bind]
  simp only []
  have hch0 : sl b 0 (numBytes (2 * P.numMPCRounds)) = b.take (numBytes (2 * P.numMPCRounds)) := by simp [sl]
  have hchl : (b.take (numBytes (2 * P.numMPCRounds))).length = numBytes (2 * P.numMPCRounds) := by simp; omega
  have hcc : ∀ i < P.numMPCRounds, chal (b.take (numBytes (2 * P.numMPCRounds))) i = chal b i := fun i hi =>
    chal_take (by omega)
  rw [hch0, isChallengeValid_ok (by rw [hchl]), ok_bind]
  have hiff : (∀ i < P.numMPCRounds, chal (b.take (numBytes (2 * P.numMPCRounds))) i < 3) ↔
      ∀ i < P.numMPCRounds, chal b i < 3 :=
    ⟨fun h i hi => by rw [← hcc i hi]; exact h i hi, fun h i hi => by rw [hcc i hi]; exact h i hi⟩
  rw [decide_eq_true (hiff.2 h3), if_neg (by simp), takeInto_full hs.salt (by omega), ok_bind]
  simp only []
  have hex : ∃ m, b.length < offOf P b (m + 1) := by
    have h0 : offOf P b 0 ≤ b.length := by simp only [offOf, range_zero, sum_empty]; omega
    obtain ⟨t, ht⟩ : ∃ t, P.numMPCRounds = t + 1 := by
      refine ⟨P.numMPCRounds - 1, ?_⟩
      by_contra hne
      have : P.numMPCRounds = 0 := by omega
      unfold encSigLen at hshort
      rw [this] at hshort
      omega
    exact ⟨t, by rw [← ht]; exact hshort⟩
  classical
  obtain ⟨m, hm1, hm2⟩ : ∃ m, b.length < offOf P b (m + 1) ∧ ∀ j < m, offOf P b (j + 1) ≤ b.length :=
    ⟨Nat.find hex, Nat.find_spec hex, fun j hj => not_lt.1 (Nat.find_min hex hj)⟩
  have hmT : m < P.numMPCRounds := by
    by_contra h
    have hh := not_lt.1 h
    rcases Nat.eq_zero_or_pos P.numMPCRounds with h0 | hpos
    · have h00 : offOf P b 0 ≤ b.length := by simp only [offOf, range_zero, sum_empty]; omega
      unfold encSigLen at hshort
      rw [h0] at hshort
      omega
    · have := hm2 (P.numMPCRounds - 1) (by omega)
      rw [show P.numMPCRounds - 1 + 1 = P.numMPCRounds by omega] at this
      unfold encSigLen at hshort
      omega
  have hpf : ∀ i : ℕ, ∃ proof proof', i < m → rd sig0.proofs i = Outcome.ok proof ∧
      deserializeProof P b (b.take (numBytes (2 * P.numMPCRounds))) i proof (offOf P b i) = Outcome.ok
        (some (proof', offOf P b i + encLen P (chal b i))) := by
    intro i
    by_cases hi : i < m
    · obtain ⟨p, e1, -, hp⟩ := hs.rd (show i < P.numMPCRounds by omega)
      have hb := hm2 i hi
      obtain ⟨p', h, -⟩ := deserializeProof_ok (b := b) (ch := b.take (numBytes (2 * P.numMPCRounds))) (i := i) (off := offOf P b i) hP hZ hp
        (by rw [getChallenge_eq (by rw [hchl]; omega), hcc i (by omega)]) (h3 i (by omega)) (by rw [← offOf_succ]; exact hb)
      rw [if_neg (fun hh => hh.2 (hpad i (by omega) hb hh.1))] at h
      exact ⟨p, p', fun _ => ⟨e1, h⟩⟩
    · exact ⟨default, default, fun h => absurd h hi⟩
  choose pf0 pf hpf using hpf
  have hloop : ∀ f : ℕ → Option (List Proof × ℕ) → M (Option (List Proof × ℕ)), f = (fun i (st : Option (List Proof × Nat)) =>
          match st with
          | none => pure none
          | some (proofs, off) => do
            let proof ← rd sig0.proofs i
            let r ← deserializeProof P b (b.take (numBytes (2 * P.numMPCRounds))) i proof off
            match r with
            | none => pure none
            | some (proof, off) => pure (some (proofs ++ [proof], off))) → loop f P.numMPCRounds
          (some (([] : List Proof), 0 + numBytes (2 * P.numMPCRounds) + P.saltSizeBytes)) = Outcome.ub UB.oobRead := by
    intro f hf
    have hfirst : loop f m (some (([] : List Proof), 0 + numBytes (2 * P.numMPCRounds) + P.saltSizeBytes)) =
        Outcome.ok (some (arrN m pf, offOf P b m)) := by
      refine loop_seq (fun k => some (arrN k pf, offOf P b k)) ?_ ?_
      · simp [arrN, offOf]
      · intro i hi
        obtain ⟨e1, e2⟩ := hpf i hi
        subst hf
        simp only []
        rw [e1, ok_bind, e2, ok_bind]
        simp only [pure_eq_ok, arrN, List.range_succ, List.map_append, List.map_cons, List.map_nil, offOf_succ]
    refine loop_ub_at (m := m + 1) ?_ (by omega)
    rw [loop, hfirst, ok_bind]
    subst hf
    simp only []
    obtain ⟨p, e1, -, hp⟩ := hs.rd hmT
    rw [e1, ok_bind, deserializeProof_oob hZ hp (by rw [getChallenge_eq (by rw [hchl]; omega), hcc m hmT]) (h3 m hmT)
      (by rw [← offOf_succ]; exact hm1)]
    rfl
  exact bind_of_ub (hloop _ rfl)

/-- A successful decode has read only bytes that are there. -/
theorem deserializeSignature_full {P : Params} {sig0 S : Signature} {b : Buf} {n : ℕ} (hP : ParamsWF P) (hZ : ZkbWF P)
    (hs : SigWF P sig0) (hn : n ≤ b.length) (h : deserializeSignature P sig0 b n = Outcome.ok (some S)) :
    encSigLen P b ≤ b.length := by
  have hnb := numBytes_eq (2 * P.numMPCRounds)
  unfold deserializeSignature at h
  by_cases h1 : n < numBytes (2 * P.numMPCRounds)
  · rw [if_pos h1] at h; cases h
  rw [if_neg h1, computeInputShareSize_ok (by omega), ok_bind] at h
  have hdl : (if P.transform = .UR then numBytes (2 * P.numMPCRounds) + P.saltSizeBytes +
      P.numMPCRounds * (2 * P.seedSizeBytes + P.andSizeBytes + P.digestSizeBytes) + inpTotal P b +
      P.unruhGWithoutInputBytes * P.numMPCRounds else numBytes (2 * P.numMPCRounds) + P.saltSizeBytes +
      P.numMPCRounds * (2 * P.seedSizeBytes + P.andSizeBytes + P.digestSizeBytes) + inpTotal P b) = decLen P b := rfl
  simp only [hdl] at h
  by_cases h2 : n < decLen P b
  · rw [if_pos h2] at h; cases h
  rw [if_neg h2] at h
  have hmin : numBytes (2 * P.numMPCRounds) + P.saltSizeBytes ≤ decLen P b := by
    unfold decLen; simp only []; split_ifs <;> omega
  rw [takeInto_full hs.ch (by omega), ok_bind] at h
  simp only [] at h
  have hch0 : sl b 0 (numBytes (2 * P.numMPCRounds)) = b.take (numBytes (2 * P.numMPCRounds)) := by simp [sl]
  have hchl : (b.take (numBytes (2 * P.numMPCRounds))).length = numBytes (2 * P.numMPCRounds) := by simp; omega
  have hcc : ∀ i < P.numMPCRounds, chal (b.take (numBytes (2 * P.numMPCRounds))) i = chal b i := fun i hi =>
    chal_take (by omega)
  rw [hch0, isChallengeValid_ok (by rw [hchl]), ok_bind] at h
  by_cases h3 : ∀ i < P.numMPCRounds, chal (b.take (numBytes (2 * P.numMPCRounds))) i < 3
  swap
  · rw [decide_eq_false h3] at h
    rw [if_pos (by simp)] at h; cases h
  rw [decide_eq_true h3, if_neg (by simp), takeInto_full hs.salt (by omega), ok_bind] at h
  simp only [] at h
  have h0 : offOf P b 0 ≤ b.length := by simp only [offOf, range_zero, sum_empty]; omega
  have hloop : ∀ f : ℕ → Option (List Proof × ℕ) → M (Option (List Proof × ℕ)), f = (fun i (st : Option (List Proof × Nat)) =>
          match st with
          | none => pure none
          | some (proofs, off) => do
            let proof ← rd sig0.proofs i
            let r ← deserializeProof P b (b.take (numBytes (2 * P.numMPCRounds))) i proof off
            match r with
            | none => pure none
            | some (proof, off) => pure (some (proofs ++ [proof], off))) → ∀ m ≤ P.numMPCRounds, ∀ r, loop f m
          (some (([] : List Proof), 0 + numBytes (2 * P.numMPCRounds) + P.saltSizeBytes)) = Outcome.ok (some r) →
          r.2 = offOf P b m ∧ offOf P b m ≤ b.length := by
    intro f hf m
    induction m with
    | zero =>
      intro _ r hr
      cases hr
      exact ⟨by simp [offOf], h0⟩
    | succ m ih =>
      intro hm r hr
      rw [loop] at hr
      rcases hx : loop f m (some (([] : List Proof), 0 + numBytes (2 * P.numMPCRounds) + P.saltSizeBytes)) with st | u | _
      · rw [hx, ok_bind] at hr
        obtain _ | ⟨l, off⟩ := st
        · subst hf; cases hr
        · obtain ⟨rfl, hle⟩ := ih (by omega) _ hx
          subst hf
          simp only [] at hr
          obtain ⟨p, e1, -, hp⟩ := hs.rd (show m < P.numMPCRounds by omega)
          have hg := getChallenge_eq (b := b.take (numBytes (2 * P.numMPCRounds))) (i := m) (by rw [hchl]; omega)
          have h3m := h3 m (by omega)
          rw [hcc m (by omega)] at hg h3m
          rw [e1, ok_bind] at hr
          by_cases hb : b.length < offOf P b m + encLen P (chal b m)
          · rw [deserializeProof_oob hZ hp hg h3m hb] at hr
            cases hr
          · obtain ⟨p', e, -⟩ := deserializeProof_ok hP hZ hp hg h3m (not_lt.1 hb)
            rw [e, ok_bind] at hr
            rw [offOf_succ]
            split_ifs at hr
            · cases hr
            · cases hr
              exact ⟨rfl, not_lt.1 hb⟩
      all_goals (rw [hx] at hr; cases hr)
  obtain ⟨r, hx, hk⟩ := bind_ok_inv h
  obtain _ | r := r
  · cases hk
  · exact (hloop _ rfl _ le_rfl r hx).2

end Picnic
