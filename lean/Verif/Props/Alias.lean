import Verif.Proofs.Alias

/-
Property C75: no value is accessed through a pointer to a different type.
-/

namespace Picnic

open Align

open AliasProof

/-- **C75**, if the caller's keys are in allocated storage: key generation, signing and verification access every object through its own type.  It fails if the keys are
variables (`C75_keys_violated`), and always for `picnic_validate_keypair` (`C75_validate_violated`). -/
theorem C75_partial {p : ℕ} {P : Params} (h : getParamSet p = some P) {L : Layout} (hS : Separate L P) (c : ℕ → ℕ) (opened : ℕ → Bool) :
    TypeSafe (Declared L P false) (keygen L P) ∧ TypeSafe (Declared L P false) (picnicSign L P) ∧ TypeSafe (Declared L P false) (picnicVerify L c opened P) := by
  have D := dims_of h
  refine ⟨typeSafe hS (lowMCEnc_ok D (ctW.mono D.max) (dataW.mono D.max)), typeSafe hS ?_, typeSafe hS ?_⟩
  · unfold picnicSign
    by_cases h3 : P.numMPCParties = 3
    · rw [if_pos h3]; exact signPicnic1_ok D h3
    · rw [if_neg h3]; exact signPicnic3_ok D
  · unfold picnicVerify
    by_cases h3 : P.numMPCParties = 3
    · rw [if_pos h3]; exact verify_ok D h3 c
    · rw [if_neg h3]; exact verifyPicnic3_ok D opened

/-- **C75 is violated** by key generation, signing and verification if the caller's keys are variables, for all parameter sets, wherever the objects are: arrays declared
as `uint8_t` are accessed as `uint32_t`. -/
theorem C75_keys_violated {p : ℕ} {P : Params} (h : getParamSet p = some P) (L : Layout) (c : ℕ → ℕ) (opened : ℕ → Bool)
    (hc : P.numMPCParties = 3 ∨ ∃ t < P.numMPCRounds, opened t = true) :
    ¬ TypeSafe (Declared L P true) (keygen L P) ∧ ¬ TypeSafe (Declared L P true) (picnicSign L P) ∧ ¬ TypeSafe (Declared L P true) (picnicVerify L c opened P) := by
  have D := dims_of h
  have hpos := D.pos
  have hT : 0 < P.numMPCRounds ∧ 0 < P.stateSizeBytes / 4 := by
    have hp : 1 ≤ p ∧ p ≤ 12 := by
      by_contra hc
      have : p = 0 ∨ 13 ≤ p := by omega
      rcases this with h0 | h0
      · subst h0; cases h
      · obtain ⟨k, rfl⟩ := Nat.exists_eq_add_of_le h0
        rw [Nat.add_comm] at h
        exact absurd h (by simp [getParamSet, paramTable])
    obtain ⟨h1, h2⟩ := hp
    clear D hc
    interval_cases p <;> (cases h; decide)
  have hct : Declared L P true (pkCiphertext L.pk) .byte := Or.inr ⟨rfl, Or.inr (Or.inl ⟨le_rfl, by simp [PICNIC_MAX_LOWMC_BLOCK_SIZE]⟩)⟩
  have hpt : Declared L P true (pkPlaintext L.pk) .byte := Or.inr ⟨rfl, Or.inl ⟨le_rfl, by simp [PICNIC_MAX_LOWMC_BLOCK_SIZE]⟩⟩
  have hdt : Declared L P true (skData L.sk) .byte := Or.inr ⟨rfl, Or.inr (Or.inr (Or.inl ⟨le_rfl, by simp [PICNIC_MAX_LOWMC_BLOCK_SIZE]⟩))⟩
  refine ⟨not_typeSafe (q := pkCiphertext L.pk) ?_ hct, not_typeSafe (q := skData L.sk) ?_ hdt, ?_⟩
  · exact List.mem_append_left _ (List.mem_append_right _ (List.mem_flatMap.2 ⟨0, List.mem_range.2 hpos, by simp⟩))
  · unfold picnicSign
    split_ifs
    · exact List.mem_append_right _ (List.mem_flatMap.2 ⟨0, List.mem_range.2 hT.1, List.mem_append_left _ (List.mem_append_left _
        (List.mem_flatMap.2 ⟨0, List.mem_range.2 hT.2, by simp⟩))⟩)
    · exact List.mem_append_right _ (List.mem_flatMap.2 ⟨0, List.mem_range.2 hT.1, List.mem_append_left _ (List.mem_append_right _
        (List.mem_flatMap.2 ⟨0, List.mem_range.2 hpos, by simp⟩))⟩)
  · unfold picnicVerify
    split_ifs with h3
    · refine not_typeSafe (q := pkCiphertext L.pk) ?_ hct
      exact List.mem_append_right _ (List.mem_flatMap.2 ⟨0, List.mem_range.2 hT.1, List.mem_flatMap.2 ⟨0, List.mem_range.2 hT.2, by simp⟩⟩)
    · obtain ⟨t, ht, ho⟩ := hc.resolve_left h3
      refine not_typeSafe (q := pkPlaintext L.pk) ?_ hpt
      refine List.mem_append_right _ (List.mem_flatMap.2 ⟨t, List.mem_range.2 ht, ?_⟩)
      rw [if_pos ho]
      exact List.mem_append_left _ (List.mem_append_right _ (List.mem_flatMap.2 ⟨0, List.mem_range.2 hpos, by simp⟩))

/-- **C75 is violated** by `picnic_validate_keypair`, for all parameter sets, wherever the objects are and whatever kind of storage holds the keys. -/
theorem C75_validate_violated {p : ℕ} {P : Params} (h : getParamSet p = some P) (L : Layout) (vars : Bool) : ¬ TypeSafe (Declared L P vars) (validateKeypair L P) :=
  not_typeSafe (q := L.bytes) (List.mem_append_left _ (List.mem_append_right _ (List.mem_flatMap.2 ⟨0, List.mem_range.2 (dims_of h).pos, by simp⟩)))
    (Or.inl ⟨le_rfl, by simp [Obj.base, Obj.bytes', PICNIC_MAX_LOWMC_BLOCK_SIZE]⟩)

/-- Instances: the hypotheses hold for all parameter sets, and there are accesses of both types. -/
theorem C75_example {p : ℕ} {P : Params} (h : getParamSet p = some P) :
    Separate apartLayout P ∧ (∃ a ∈ picnicSign apartLayout P, a.ty = .word) ∧ (∃ a ∈ picnicSign apartLayout P, a.ty = .ptr) ∧
    (P.numMPCParties = 3 ∨ ∃ t < P.numMPCRounds, (fun t => decide (t = 0)) t = true) := by
  refine ⟨apart_separate h, ?_⟩
  have D := dims_of h
  have hpos := D.pos
  have hT : 0 < P.numMPCRounds ∧ 0 < P.stateSizeBytes / 4 ∧ 0 < P.numMPCParties := by
    have hp : 1 ≤ p ∧ p ≤ 12 := by
      by_contra hc
      have : p = 0 ∨ 13 ≤ p := by omega
      rcases this with h0 | h0
      · subst h0; cases h
      · obtain ⟨k, rfl⟩ := Nat.exists_eq_add_of_le h0
        rw [Nat.add_comm] at h
        exact absurd h (by simp [getParamSet, paramTable])
    obtain ⟨h1, h2⟩ := hp
    clear D hpos
    interval_cases p <;> (cases h; decide)
  refine ⟨⟨word (skData apartLayout.sk) 0, ?_, rfl⟩, ⟨ptr (apartLayout.heap .commitments []) 0, ?_, rfl⟩, Or.inr ⟨0, hT.1, by simp⟩⟩
  · unfold picnicSign
    split_ifs
    · exact List.mem_append_right _ (List.mem_flatMap.2 ⟨0, List.mem_range.2 hT.1, List.mem_append_left _ (List.mem_append_left _
        (List.mem_flatMap.2 ⟨0, List.mem_range.2 hT.2.1, by simp⟩))⟩)
    · exact List.mem_append_right _ (List.mem_flatMap.2 ⟨0, List.mem_range.2 hT.1, List.mem_append_left _ (List.mem_append_right _
        (List.mem_flatMap.2 ⟨0, List.mem_range.2 hpos, by simp⟩))⟩)
  · have hm : ptr (apartLayout.heap .commitments []) 0 ∈ commitmentTables (apartLayout.heap .commitments []) P.numMPCRounds P.numMPCParties P.digestSizeBytes :=
      List.mem_flatMap.2 ⟨0, List.mem_range.2 hT.1, List.mem_map.2 ⟨0, List.mem_range.2 hT.2.2, by simp⟩⟩
    unfold picnicSign
    split_ifs
    · exact List.mem_append_left _ (List.mem_append_left _ hm)
    · exact List.mem_append_left _ (List.mem_append_left _ (List.mem_append_left _ (List.mem_append_left _ (List.mem_append_right _ hm))))

end Picnic
