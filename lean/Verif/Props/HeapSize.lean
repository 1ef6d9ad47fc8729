import Verif.Proofs.HeapSize
import Verif.Props.Heap
import Verif.Props.Merkle
import Verif.Props.Work
import Verif.Spec.Memory

/-
C71: the memory that a call of sign, verify or print holds is bounded by a number that depends on the parameter set only.
-/

namespace Picnic

open Heap Spec

theorem within {α : Type} {m : HM α} {n k : ℕ} {Q : α → Prop} (h : Req m n Q) (hk : n ≤ k) : MemoryWithin m k := by
  intro g hg r g' e
  obtain ⟨-, -, h3, -⟩ := h g hg.1 r g' e
  have := hg.2
  omega

/-- the entries of the tables -/
theorem bytes_table {p : ℕ} {P : Params} (hP : getParamSet p = some P) :
    (isPicnic3 p = false → (req_picnicSign1 P).1 ≤ signBytes p ∧ (req_picnicVerify1 P).1 ≤ verifyBytes p ∧ (req_printSignature1 P).1 ≤ printBytes p) ∧
    (isPicnic3 p = true → (req_picnicSign3 P).1 ≤ signBytes p ∧ (req_picnicVerify3 P).1 ≤ verifyBytes p ∧ (req_printSignature2 P).1 ≤ printBytes p) := by
  have key : ∀ p ∈ [1, 2, 3, 4, 5, 6, 7, 8, 9, 10, 11, 12], (getParamSet p).all fun P => decide (
    (isPicnic3 p = false → (req_picnicSign1 P).1 ≤ signBytes p ∧ (req_picnicVerify1 P).1 ≤ verifyBytes p ∧ (req_printSignature1 P).1 ≤ printBytes p) ∧
    (isPicnic3 p = true → (req_picnicSign3 P).1 ≤ signBytes p ∧ (req_picnicVerify3 P).1 ≤ verifyBytes p ∧ (req_printSignature2 P).1 ≤ printBytes p)) := by
    decide +kernel
  have hp : p ∈ [1, 2, 3, 4, 5, 6, 7, 8, 9, 10, 11, 12] := by
    have := params_cases hP
    simp only [List.mem_cons, List.not_mem_nil, or_false]
    exact this
  have := key p hp
  rw [hP] at this
  simpa only [Option.all_some, decide_eq_true_eq] using this

theorem Opening.le {p : ℕ} {P : Params} {l ml : List ℕ} {opened : ℕ → Bool} {len : Lens} (hP : getParamSet p = some P) (h3 : isPicnic3 p = true)
    (h : Opening P l ml opened len) : (List.range P.numMPCRounds).countP opened ≤ P.numOpenedRounds ∧ len.Le P opened := by
  have h7 : 7 ≤ p ∧ p ≤ 9 := by
    have := params_cases hP
    rcases this with h | h | h | h | h | h | h | h | h | h | h | h <;> subst h <;> first | decide | (exact absurd h3 (by decide))
  obtain ⟨⟨a, ha, ha'⟩, ⟨b, hb, hb'⟩, hc⟩ := C29_opening_sizes hP h7 h.range h.distinct h.number h.others h.range'
  have hk : P.numOpenedRounds * Nat.clog 2 ((P.numMPCRounds + P.numOpenedRounds - 1) / P.numOpenedRounds) ≤ P.numMPCRounds ∧ 4 ≤ P.numMPCParties := by
    obtain ⟨h7, h9⟩ := h7
    interval_cases p <;> cases hP <;> decide +kernel
  refine ⟨?_, ?_, ?_, ?_⟩
  · rw [← h.number, List.countP_eq_length_filter]
    refine List.Subperm.length_le (List.subperm_of_subset ((List.nodup_range).filter _) fun t ht => ?_)
    have := (List.mem_filter.1 ht).2
    rw [h.opened] at this
    simpa using this
  · rw [h.iSeedInfo] at ha
    rw [Outcome.ok.inj ha]
    exact Nat.mul_le_mul_right _ (ha'.trans hk.1)
  · rw [h.cvInfo] at hb
    rw [Outcome.ok.inj hb]
    exact Nat.mul_le_mul_right _ (hb'.trans hk.1)
  · intro t ht
    rw [h.opened] at ht
    obtain ⟨j, hj, e⟩ := h.seedInfo t (by simpa using ht)
    rw [hc j hj] at e
    rw [← Outcome.ok.inj e]
    exact Nat.mul_le_mul_right _ hk.2

/-- C71, ZKB++ parameter sets: whether or not the key pair is consistent, the string is a signature, it is valid, and allocations fail, no
more memory is held at any time than the tables say. -/
theorem C71_zkb {p : ℕ} {P : Params} (hP : getParamSet p = some P) (h3 : isPicnic3 p = false) :
    (∀ simOk serOk, MemoryWithin (picnicSign1 P simOk serOk) (signBytes p)) ∧
    (∀ decOk ok, MemoryWithin (picnicVerify1 P decOk ok) (verifyBytes p)) ∧
    ∀ decOk, MemoryWithin (printSignature1 P decOk) (printBytes p) := by
  obtain ⟨h1, h2, h4⟩ := (bytes_table hP).1 h3
  exact ⟨fun _ _ => within ((req_picnicSign1 P).2 _ _) h1, fun _ _ => within ((req_picnicVerify1 P).2 _ _) h2,
    fun _ => within ((req_printSignature1 P).2 _) h4⟩

/-- C71, Picnic3 parameter sets: the same, whatever repetitions the challenge opens. -/
theorem C71_p3 {p : ℕ} {P : Params} (hP : getParamSet p = some P) (h3 : isPicnic3 p = true) :
    (∀ l ml opened len, Opening P l ml opened len → ∀ simOk serOk, MemoryWithin (picnicSign3 P simOk opened len serOk) (signBytes p)) ∧
    (∀ l ml d, Opening P l ml d.opened d.len → ∀ v, MemoryWithin (picnicVerify3 P d v) (verifyBytes p)) ∧
    ∀ l ml d, Opening P l ml d.opened d.len → MemoryWithin (printSignature2 P d) (printBytes p) := by
  obtain ⟨h1, h2, h4⟩ := (bytes_table hP).2 h3
  refine ⟨fun l ml opened len ho _ _ => ?_, fun l ml d ho _ => ?_, fun l ml d ho => ?_⟩ <;> obtain ⟨a, b⟩ := Opening.le hP h3 ho
  · exact within ((req_picnicSign3 P).2 _ _ _ _ a b) h1
  · exact within ((req_picnicVerify3 P).2 _ _ a b) h2
  · exact within ((req_printSignature2 P).2 _ a b) h4

/-- A challenge for which the conditions of `C71_p3` hold: the first 36 of the 250 repetitions of picnic3-L1 are opened. -/
theorem C71_example : ∃ P l ml opened len, getParamSet 7 = some P ∧ Opening P l ml opened len := by
  obtain ⟨P, l, ml, hP, h1, h2, h3, h4, h5⟩ := C29_example
  obtain ⟨⟨a, ha, -⟩, ⟨b, hb, -⟩, hc⟩ := C29_opening_sizes hP (by decide) h1 h2 h3 h4 h5
  have hN : 0 < P.numMPCParties := by cases hP; decide
  exact ⟨P, l, ml, fun t => decide (t ∈ l), ⟨_, _, fun _ => _⟩, hP, h1, h2, h3, h4, h5, fun _ => rfl, ha, hb, fun t _ => ⟨0, hN, hc 0 hN⟩⟩

/-- the empty heap, no allocation fails -/
def emptyHeap : Heap := ⟨0, 0, fun _ => false, fun _ => 0, 0⟩

theorem emptyHeap_atCall : AtCall emptyHeap := ⟨fun i hi => absurd hi (Multiset.notMem_zero i), rfl⟩

/-- The largest number of bytes allocated during a call with the empty heap, 0 if the call does not end. -/
def peakOf {α : Type} (m : HM α) : ℕ :=
  match m emptyHeap with
  | .ok (_, h) => h.peak
  | _ => 0

/-- What is measured, with parameter sets like picnic-L1-FS and picnic3-L1 but two repetitions, one of them opened: the largest number of
bytes during a call that succeeds, and the bound.  (The bound counts short-lived blocks as if they lived until the end.) -/
theorem C71_measured :
    (peakOf (picnicSign1 { (getParamSet 1).get! with numMPCRounds := 2 } (fun _ => true) true) = 2547 ∧
      (req_picnicSign1 { (getParamSet 1).get! with numMPCRounds := 2 }).1 = 2595) ∧
    (peakOf (picnicVerify1 { (getParamSet 1).get! with numMPCRounds := 2 } true true) = 1966 ∧
      (req_picnicVerify1 { (getParamSet 1).get! with numMPCRounds := 2 }).1 = 2014) ∧
    (peakOf (picnicSign3 { (getParamSet 7).get! with numMPCRounds := 2, numOpenedRounds := 1 } (fun _ => true) (fun t => t == 0)
        ⟨16, 32, fun _ => 64⟩ true) = 11343 ∧
      (req_picnicSign3 { (getParamSet 7).get! with numMPCRounds := 2, numOpenedRounds := 1 }).1 = 12566) ∧
    (peakOf (picnicVerify3 { (getParamSet 7).get! with numMPCRounds := 2, numOpenedRounds := 1 }
        ⟨true, true, fun t => t == 0, fun _ => true, ⟨16, 32, fun _ => 64⟩⟩
        ⟨fun t => t == 0, true, fun _ => true, fun _ => true, true, true, true⟩) = 11177 ∧
      (req_picnicVerify3 { (getParamSet 7).get! with numMPCRounds := 2, numOpenedRounds := 1 }).1 = 13597) := by
  refine ⟨⟨?_, ?_⟩, ⟨?_, ?_⟩, ⟨?_, ?_⟩, ⟨?_, ?_⟩⟩ <;> decide +kernel

end Picnic
