import Verif.Proofs.Heap5
import Verif.Proofs.Heap6

/-
C42: memory obtained by sign, verify and print is used only while it is allocated and released exactly once.
C43: a failing allocation is reported.

The functions of Model/Heap get the outcomes of all data-dependent branches as arguments; the theorems hold for all of them and for
every heap at the time of the call.
-/

namespace Picnic

open Heap

/-- Started on any heap, and if no allocation fails, the computation ends without undefined behaviour (access to or release of a block
that is not allocated, or through a NULL or uninitialised pointer) with the given result, and afterwards exactly the blocks are allocated that
were allocated before. -/
def Balanced {α : Type} (m : HM α) (result : α) : Prop :=
  ∀ h : Heap, (∀ n, h.fail n = false) → ∃ h', m h = Outcome.ok (result, h') ∧ h'.live = h.live

/-- C42, signing with a Picnic3 parameter set: balanced, whether or not the simulations succeed, whatever is opened, and whether or not
the signature fits into the buffer. -/
theorem C42_sign_p3 (P : Params) (simOk opened : ℕ → Bool) (len : Lens) (serOk : Bool) :
    Balanced (picnicSign3 P simOk opened len serOk) (if (∀ t < P.numMPCRounds, simOk t = true) ∧ serOk = true then 0 else -1) := by
  intro h hf
  obtain ⟨r, h', e, -, rfl, hl⟩ := tr_picnicSign3 (simOk := simOk) (opened := opened) (len := len) (serOk := serOk) h hf rfl
  refine ⟨h', ?_, hl⟩
  rw [e]
  simp only [Bool.and_eq_true, List.all_eq_true, List.mem_range]

/-- C42, verification with a ZKB++ parameter set -/
theorem C42_verify_zkb (P : Params) (decOk ok : Bool) :
    Balanced (picnicVerify1 P decOk ok) (if decOk = true ∧ ok = true then 0 else -1) := by
  intro h hf
  obtain ⟨r, h', e, -, rfl, hl⟩ := tr_picnicVerify1 (P := P) (decOk := decOk) (ok := ok) h hf rfl
  exact ⟨h', by rw [e]; simp only [Bool.and_eq_true], hl⟩

/-- C42, verification with a Picnic3 parameter set.  The two conditions say that the seeds can be reconstructed from the decoded
signature: the decoder has computed the lengths with the same functions (Model/Picnic3 contains the other branches as undefined behaviour; C14
shows that they are never taken). -/
theorem C42_verify_p3 (P : Params) (d : Decode2) (v : Verify3) (hi : v.iSeedsOk = true) (hs : ∀ t, d.opened t = true → v.seedsOk t = true) :
    Balanced (picnicVerify3 P d v) (if d.Ok P = true ∧ Verify3.Ok P { v with opened := d.opened } = true then 0 else -1) := by
  intro h hf
  obtain ⟨r, h', e, -, rfl, hl⟩ := tr_picnicVerify3 (P := P) hi hs h hf rfl
  exact ⟨h', by rw [e]; simp only [Bool.and_eq_true], hl⟩

/-- C42, why the conditions are needed: if the reconstruction of seeds failed, verification would release tapes that have not been set up. -/
theorem C42_verify_exit_violated (P : Params) (hP : 0 < P.numMPCRounds) (d : Decode2) (v : Verify3) (hd : d.Ok P = true)
    (hi : v.iSeedsOk = false ∨ ∃ t, t < P.numMPCRounds ∧ d.opened t = true ∧ v.seedsOk t = false) (h : Heap) (hf : ∀ n, h.fail n = false) :
    ∃ u, picnicVerify3 P d v h = Outcome.ub u :=
  ub_picnicVerify3 hP hd hi h hf rfl

/-- C42, signing with a ZKB++ parameter set: balanced if all simulations succeed (that is, if the secret key belongs to the public key,
`C22_mpc`).

What is missing: see `C42_sign_leak_violated`. -/
theorem C42_sign_zkb_partial (P : Params) (simOk : ℕ → Bool) (serOk : Bool) (hs : ∀ t < P.numMPCRounds, simOk t = true) :
    Balanced (picnicSign1 P simOk serOk) (if serOk = true then 0 else -1) := by
  intro h hf
  obtain ⟨r, h', e, -, rfl, hl⟩ := tr_picnicSign1 (P := P) (simOk := simOk) (serOk := serOk) h hf rfl
  have : (List.range P.numMPCRounds).all simOk = true := by simpa using hs
  rw [this] at e hl
  exact ⟨h', by rw [e, Bool.true_and], hl⟩

/-- C42, the violation: signing with a ZKB++ parameter set and a key pair that is not consistent returns -1 and leaves
10 T + 10 blocks allocated (10 T + 12 with Unruh's transform; T is the number of repetitions), among them the views, seeds and random tapes. -/
theorem C42_sign_leak_violated (P : Params) (simOk : ℕ → Bool) (serOk : Bool) (t : ℕ) (ht : t < P.numMPCRounds) (hs : simOk t = false)
    (h : Heap) (hf : ∀ n, h.fail n = false) :
    ∃ h' leaked, picnicSign1 P simOk serOk h = Outcome.ok (-1, h') ∧ h'.live = leaked + h.live ∧
      leaked.card = 10 * P.numMPCRounds + 10 + if P.transform = .UR then 2 else 0 := by
  obtain ⟨r, h', e, -, rfl, hl⟩ := tr_picnicSign1 (P := P) (simOk := simOk) (serOk := serOk) h hf rfl
  have : (List.range P.numMPCRounds).all simOk = false := by
    rw [List.all_eq_false]
    exact ⟨t, by simpa using ht, by simp [hs]⟩
  rw [this] at e hl
  obtain ⟨l, hl, hh⟩ := hl
  exact ⟨h', l.own, e, hh, hl.card⟩

/-- C42, printing a signature: balanced if the signature can be decoded.

What is missing: see `C42_print_leak_violated`. -/
theorem C42_print_partial (P : Params) : Balanced (printSignature1 P true) () ∧ ∀ d : Decode2, d.Ok P = true → Balanced (printSignature2 P d) () := by
  refine ⟨fun h hf => ?_, fun d hd h hf => ?_⟩
  · obtain ⟨r, h', e, -, hl⟩ := tr_printSignature1 (P := P) (decOk := true) h hf rfl
    exact ⟨h', e, hl⟩
  · obtain ⟨r, h', e, -, hl⟩ := tr_printSignature2 (P := P) (d := d) h hf rfl
    rw [hd] at hl
    exact ⟨h', e, hl⟩

/-- C42, the violation: printing a string that is not a signature leaves blocks allocated. -/
theorem C42_print_leak_violated (P : Params) (h : Heap) (hf : ∀ n, h.fail n = false) :
    (∃ h' leaked, printSignature1 P false h = Outcome.ok ((), h') ∧ h'.live = leaked + h.live ∧ 3 ≤ leaked.card) ∧
    ∀ d : Decode2, d.Ok P = false → ∃ h' leaked, printSignature2 P d h = Outcome.ok ((), h') ∧ h'.live = leaked + h.live ∧ 5 ≤ leaked.card := by
  refine ⟨?_, fun d hd => ?_⟩
  · obtain ⟨r, h', e, -, s, hs, hl⟩ := tr_printSignature1 (P := P) (decOk := false) h hf rfl
    exact ⟨h', s.own, e, hl, hs.card⟩
  · obtain ⟨r, h', e, -, hl⟩ := tr_printSignature2 (P := P) (d := d) h hf rfl
    rw [hd] at hl
    obtain ⟨s, hs, hl⟩ := hl
    exact ⟨h', s.own, e, hl, hs.card⟩

/-- A concrete run: a signature with the parameter set picnic-L1-FS on an empty heap. -/
example : ∃ h', picnicSign1 (getParamSet pidL1FS).get! (fun _ => true) true ⟨0, 0, fun _ => false, fun _ => 0, 0⟩ = Outcome.ok (0, h') ∧ h'.live = 0 :=
  C42_sign_zkb_partial _ _ true (fun _ _ => rfl) _ fun _ => rfl

/-- The same with a key pair that is not consistent: 2200 blocks are lost. -/
example : ∃ h', picnicSign1 (getParamSet pidL1FS).get! (fun _ => false) true ⟨0, 0, fun _ => false, fun _ => 0, 0⟩ = Outcome.ok (-1, h') ∧ h'.live.card = 2200 := by
  obtain ⟨h', l, e, hl, hc⟩ := C42_sign_leak_violated (getParamSet pidL1FS).get! (fun _ => false) true 0 (by decide) rfl ⟨0, 0, fun _ => false, fun _ => 0, 0⟩ fun _ => rfl
  exact ⟨h', e, by rw [hl, Multiset.card_add, hc]; rfl⟩

/-- The conditions of `C42_verify_p3` and `C42_verify_exit_violated` can be met. -/
example : ∃ d v, Decode2.Ok (getParamSet pidPicnic3L1).get! d = true ∧ (v : Verify3).iSeedsOk = true ∧ ∀ t, d.opened t = true → v.seedsOk t = true :=
  ⟨⟨true, true, fun t => t < 36, fun _ => true, ⟨608, 1184, fun _ => 64⟩⟩, ⟨fun t => t < 36, true, fun _ => true, fun _ => true, true, true, true⟩, by decide +kernel, rfl, fun _ _ => rfl⟩

/-! ### C43 -/

/-- C43, the violation: if the very first allocation fails, sign and verify access the object through the NULL pointer; the test
`sig == NULL` comes too late. -/
theorem C43_alloc_violated (P : Params) (h : Heap) (hf : h.fail h.next = true) :
    (∀ simOk serOk, picnicSign1 P simOk serOk h = Outcome.ub .nullDeref) ∧
    (∀ simOk opened len serOk, picnicSign3 P simOk opened len serOk h = Outcome.ub .nullDeref) ∧
    (∀ decOk ok, picnicVerify1 P decOk ok h = Outcome.ub .nullDeref) ∧
    ∀ d v, picnicVerify3 P d v h = Outcome.ub .nullDeref := by
  have e : ∀ n, malloc n h = Outcome.ok (.null, { h with next := h.next + 1 }) := fun n => by unfold malloc; rw [if_pos hf]
  have k : ∀ {α β : Type} (m : HM α) (f : α → HM β) (x : α) (g g' : Heap) (u : UB), m g = Outcome.ok (x, g') → f x g' = Outcome.ub u →
      (m >>= f) g = Outcome.ub u := fun m f x g g' u h1 h2 => by
    show Outcome.bind (m g) _ = _
    rw [h1]
    exact h2
  have k' : ∀ {α β : Type} (m : HM α) (f : α → HM β) (g : Heap) (u : UB), m g = Outcome.ub u → (m >>= f) g = Outcome.ub u := fun m f g u h1 => by
    show Outcome.bind (m g) _ = _
    rw [h1]
    rfl
  have t : ∀ {β : Type} (f : Unit → HM β) g, (touchC (some .null) >>= f) g = Outcome.ub .nullDeref := fun f g => k' _ _ _ _ rfl
  have m : ∀ {β : Type} (n : ℕ) (f : Ptr → HM β) g, (∀ p g, f p g = Outcome.ub .nullDeref) → (malloc n >>= f) g = Outcome.ub .nullDeref := fun n f g hfx => by
    by_cases hg : g.fail g.next
    · exact k _ _ _ _ _ _ (show malloc n g = _ by unfold malloc; rw [if_pos hg]) (hfx _ _)
    · exact k _ _ _ _ _ _ (show malloc n g = _ by unfold malloc; rw [if_neg hg]) (hfx _ _)
  have a1 : ∀ g, allocateSignature P (some .null) g = Outcome.ub .nullDeref := fun g => m _ _ g fun p g => t _ g
  have a2 : ∀ g, allocateSignature2 P (some .null) g = Outcome.ub .nullDeref := fun g => m _ _ g fun p g => t _ g
  exact ⟨fun _ _ => k _ _ _ _ _ _ (e _) (k' _ _ _ _ (a1 _)), fun _ _ _ _ => k _ _ _ _ _ _ (e _) (k' _ _ _ _ (a2 _)), fun _ _ => k _ _ _ _ _ _ (e _) (k' _ _ _ _ (a1 _)),
    fun _ _ => k _ _ _ _ _ _ (e _) (k' _ _ _ _ (a2 _))⟩

/-- A heap on which every allocation fails. -/
example : picnicVerify1 (getParamSet pidL1FS).get! true true ⟨0, 0, fun _ => true, fun _ => 0, 0⟩ = Outcome.ub .nullDeref :=
  (C43_alloc_violated _ ⟨0, 0, fun _ => true, fun _ => 0, 0⟩ rfl).2.2.1 _ _

/-- C43, the violation for all other allocations: whatever subset of the allocations fails, signing with a consistent key pair and a
sufficient buffer and verifying a valid signature never return the error code.  A failing allocation is therefore never reported: either
the NULL pointer is used, or the call "succeeds". -/
theorem C43_never_reported_violated (P : Params) (h : Heap) :
    (∀ simOk r h', (∀ t < P.numMPCRounds, simOk t = true) → picnicSign1 P simOk true h = Outcome.ok (r, h') → r = 0) ∧
    (∀ simOk opened len r h', (∀ t < P.numMPCRounds, simOk t = true) → picnicSign3 P simOk opened len true h = Outcome.ok (r, h') → r = 0) ∧
    (∀ r h', picnicVerify1 P true true h = Outcome.ok (r, h') → r = 0) ∧
    ∀ d v r h', d.Ok P = true → v.iSeedsOk = true → (∀ t < P.numMPCRounds, d.opened t = true → v.seedsOk t = true) →
      Verify3.Ok P { v with opened := d.opened } = true → picnicVerify3 P d v h = Outcome.ok (r, h') → r = 0 :=
  ⟨fun _ r h' hs e => res_picnicSign1 hs h r h' e, fun _ _ _ r h' hs e => res_picnicSign3 hs h r h' e, fun r h' e => res_picnicVerify1 h r h' e,
    fun _ _ r h' hd hi hs hv e => res_picnicVerify3 hd hi hs hv h r h' e⟩

/-- A concrete failure after the first allocation: the second one, of the array of proofs. -/
example : picnicVerify1 (getParamSet pidL1FS).get! true true ⟨0, 0, fun n => n == 1, fun _ => 0, 0⟩ = Outcome.ub .nullDeref := by
  set_option maxRecDepth 100000 in rfl

end Picnic
