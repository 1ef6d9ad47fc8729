import Verif.Proofs.ZkbOob
import Verif.Proofs.Conf1
import Verif.Spec.Layout

/-
The ZKB++ decoder on byte strings of any length.
-/

namespace Picnic

open Spec Finset

theorem loop_fix {σ : Type} {f : ℕ → σ → M σ} {s a : σ} {m n : ℕ} (h : loop f m s = Outcome.ok a) (ha : ∀ i, f i a = Outcome.ok a) (hmn : m ≤ n) :
    loop f n s = Outcome.ok a := by
  induction n with
  | zero => obtain rfl : m = 0 := by omega
            exact h
  | succ n ih =>
    by_cases hm : m = n + 1
    · subst hm; exact h
    · rw [loop, ih (by omega), ok_bind, ha]

theorem bind_of_ok {α β : Type} {x : M α} {k : α → M β} {a : α} (h : x = Outcome.ok a) : (x >>= k) = k a := by
  rw [h]; rfl

/-- A key share with bits after its end that lies within the byte string is rejected, even if the byte string ends too early. -/
theorem deserializeSignature_pad {P : Params} {sig0 : Signature} {b : Buf} (hP : ParamsWF P) (hZ : ZkbWF P)
    (hs : SigWF P sig0) (h1 : numBytes (2 * P.numMPCRounds) ≤ b.length) (h2 : decLen P b ≤ b.length)
    (h3 : ∀ i < P.numMPCRounds, chal b i < 3)
    (hpad : ¬ ∀ i < P.numMPCRounds, offOf P b (i + 1) ≤ b.length → chal b i ≠ 0 →
      PadZero (decProof P b (offOf P b i) (chal b i)).inp P.stateSizeBits) :
    deserializeSignature P sig0 b b.length = Outcome.ok none := by
  have hnb := numBytes_eq (2 * P.numMPCRounds)
  unfold deserializeSignature
  rw [if_neg (by omega), computeInputShareSize_ok (by omega), ok_bind]
  have hdl : (if P.transform = .UR then numBytes (2 * P.numMPCRounds) + P.saltSizeBytes +
      P.numMPCRounds * (2 * P.seedSizeBytes + P.andSizeBytes + P.digestSizeBytes) + inpTotal P b +
      P.unruhGWithoutInputBytes * P.numMPCRounds else numBytes (2 * P.numMPCRounds) + P.saltSizeBytes +
      P.numMPCRounds * (2 * P.seedSizeBytes + P.andSizeBytes + P.digestSizeBytes) + inpTotal P b) = decLen P b := rfl
  simp only [hdl]
  rw [if_neg (by omega)]
  have hmin : numBytes (2 * P.numMPCRounds) + P.saltSizeBytes ≤ decLen P b := by
    unfold decLen; simp only []; split_ifs <;> omega
  rw [takeInto_full hs.ch (by omega), ok_bind]
  simp only []
  have hch0 : sl b 0 (numBytes (2 * P.numMPCRounds)) = b.take (numBytes (2 * P.numMPCRounds)) := by simp [sl]
  have hchl : (b.take (numBytes (2 * P.numMPCRounds))).length = numBytes (2 * P.numMPCRounds) := by simp; omega
  have hcc : ∀ i < P.numMPCRounds, chal (b.take (numBytes (2 * P.numMPCRounds))) i = chal b i := fun i hi =>
    chal_take (by omega)
  rw [hch0, isChallengeValid_ok (by rw [hchl]), ok_bind]
  have hiff : (∀ i < P.numMPCRounds, chal (b.take (numBytes (2 * P.numMPCRounds))) i < 3) ↔
      ∀ i < P.numMPCRounds, chal b i < 3 :=
    ⟨fun h i hi => by rw [← hcc i hi]; exact h i hi, fun h i hi => by rw [hcc i hi]; exact h i hi⟩
  rw [decide_eq_true (hiff.2 h3), if_neg (by simp), takeInto_full hs.salt (by omega), ok_bind]
  simp only []
  classical
  obtain ⟨m, ⟨hmT, hml, hm0, hmp⟩, hmin'⟩ : ∃ m, (m < P.numMPCRounds ∧ offOf P b (m + 1) ≤ b.length ∧ chal b m ≠ 0 ∧
      ¬ PadZero (decProof P b (offOf P b m) (chal b m)).inp P.stateSizeBits) ∧ ∀ j < m, ¬ (j < P.numMPCRounds ∧ offOf P b (j + 1) ≤ b.length ∧ chal b j ≠ 0 ∧
      ¬ PadZero (decProof P b (offOf P b j) (chal b j)).inp P.stateSizeBits) := by
    have hex : ∃ m, m < P.numMPCRounds ∧ offOf P b (m + 1) ≤ b.length ∧ chal b m ≠ 0 ∧
      ¬ PadZero (decProof P b (offOf P b m) (chal b m)).inp P.stateSizeBits := by
      by_contra hno
      exact hpad fun i hi hl h0 => by
        by_contra hp
        exact hno ⟨i, hi, hl, h0, hp⟩
    exact ⟨Nat.find hex, Nat.find_spec hex, fun j hj => Nat.find_min hex hj⟩
  have hb : ∀ i ≤ m, offOf P b (i + 1) ≤ b.length := fun i hi => (offOf_mono (by omega : i + 1 ≤ m + 1)).trans hml
  have hpf : ∀ i : ℕ, ∃ proof proof', i ≤ m → rd sig0.proofs i = Outcome.ok proof ∧
      deserializeProof P b (b.take (numBytes (2 * P.numMPCRounds))) i proof (offOf P b i) = Outcome.ok
        (if i = m then none else some (proof', offOf P b i + encLen P (chal b i))) := by
    intro i
    by_cases hi : i ≤ m
    · obtain ⟨p, e1, -, hp⟩ := hs.rd (show i < P.numMPCRounds by omega)
      obtain ⟨p', h, -⟩ := deserializeProof_ok (b := b) (ch := b.take (numBytes (2 * P.numMPCRounds))) (i := i) (off := offOf P b i) hP hZ hp
        (by rw [getChallenge_eq (by rw [hchl]; omega), hcc i (by omega)]) (h3 i (by omega)) (by rw [← offOf_succ]; exact hb i hi)
      refine ⟨p, p', fun _ => ⟨e1, h.trans ?_⟩⟩
      by_cases him : i = m
      · subst him
        rw [if_pos ⟨hm0, hmp⟩, if_pos rfl]
      · rw [if_neg him, if_neg fun hh => hmin' i (by omega) ⟨by omega, hb i hi, hh⟩]
    · exact ⟨default, default, fun h => absurd h hi⟩
  choose pf0 pf hpf using hpf
  have hloop : ∀ f : ℕ → Option (List Proof × ℕ) → M (Option (List Proof × ℕ)), f = (fun i (st : Option (List Proof × Nat)) =>
          match st with
          | none => pure none
          | some (proofs, off) => do
            let proof ← rd sig0.proofs i
            let r ← deserializeProof P b (b.take (numBytes (2 * P.numMPCRounds))) i proof off
            match r with
            | none => pure none
            | some (proof, off) => pure (some (proofs ++ [proof], off))) → loop f P.numMPCRounds
          (some (([] : List Proof), 0 + numBytes (2 * P.numMPCRounds) + P.saltSizeBytes)) = Outcome.ok none := by
    intro f hf
    have hfirst : loop f m (some (([] : List Proof), 0 + numBytes (2 * P.numMPCRounds) + P.saltSizeBytes)) =
        Outcome.ok (some (arrN m pf, offOf P b m)) := by
      refine loop_seq (fun k => some (arrN k pf, offOf P b k)) ?_ ?_
      · simp [arrN, offOf]
      · intro i hi
        obtain ⟨e1, e2⟩ := hpf i hi.le
        rw [if_neg (by omega)] at e2
        subst hf
        simp only []
        rw [e1, ok_bind, e2, ok_bind]
        simp only [pure_eq_ok, arrN, List.range_succ, List.map_append, List.map_cons, List.map_nil, offOf_succ]
    refine loop_fix (m := m + 1) ?_ (fun i => by subst hf; rfl) (by omega)
    obtain ⟨e1, e2⟩ := hpf m le_rfl
    rw [if_pos rfl] at e2
    rw [loop, hfirst, ok_bind]
    subst hf
    simp only []
    rw [e1, ok_bind, e2, ok_bind]
    rfl
  exact bind_of_ok (hloop _ rfl)

/-- A byte string that passes the length check but is too short is overrun or rejected, whatever the memory holds. -/
theorem deserialize_short {P : Params} {b : Buf} (hP : ParamsWF P) (hZ : ZkbWF P)
    (hf : ¬ (decLen P b ≤ b.length → (∀ i < P.numMPCRounds, chal b i < 3) → encSigLen P b ≤ b.length)) :
    (∀ sig0, SigWF P sig0 → deserializeSignature P sig0 b b.length = Outcome.ub UB.oobRead) ∨
    ∀ sig0, SigWF P sig0 → deserializeSignature P sig0 b b.length = Outcome.ok none := by
  push_neg at hf
  obtain ⟨hd, hc, hs⟩ := hf
  have hmin : numBytes (2 * P.numMPCRounds) + P.saltSizeBytes ≤ decLen P b := by
    unfold decLen; simp only []; split_ifs <;> omega
  by_cases hpad : ∀ i < P.numMPCRounds, offOf P b (i + 1) ≤ b.length → chal b i ≠ 0 →
      PadZero (decProof P b (offOf P b i) (chal b i)).inp P.stateSizeBits
  · exact Or.inl fun sig0 h => deserializeSignature_oob hP hZ h (by omega) hd hc hpad hs
  · exact Or.inr fun sig0 h => deserializeSignature_pad hP hZ h (by omega) hd hc hpad

/-! ### the layout of the specification -/

variable {E : Env} {P : Params} {I : Picnic1.Inst}

theorem Match1.entry (M : Match1 E P I) (c : ℕ) : I.entry c = encLen P c := by
  rw [Picnic1.Inst.entry, encLen, encG, encInp, M.digest, M.gate, M.seed, M.blk, M.gLen]
  by_cases hU : P.transform = .UR
  · rw [if_pos (M.ur.2 hU), if_pos hU]; omega
  · rw [if_neg fun h => hU (M.ur.1 h), if_neg hU]; omega

end Picnic
