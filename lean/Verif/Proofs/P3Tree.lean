import Verif.Proofs.P3Challenge
import Verif.Proofs.Merkle4

/-
The seed trees and the Merkle tree as Picnic3 uses them.
-/

namespace Picnic

open Spec.Tree

/-- The revealed nodes of a seed tree. -/
noncomputable def revN (D n : ℕ) (l : List ℕ) : List ℕ :=
  match getRevealedNodes (mkTree D n 0 (fun _ => false) fun _ => []) l l.length with
  | .ok rv => rv
  | _ => []

/-- The nodes of a Merkle opening. -/
noncomputable def mrevN (D n : ℕ) (l : List ℕ) : List ℕ :=
  match getRevealedMerkleNodes (mkTree D n 0 (fun _ => false) fun _ => []) l l.length with
  | .ok rv => rv
  | _ => []

theorem revN_spec {D n : ℕ} {l : List ℕ} (h1 : 1 ≤ D) (hn1 : 1 ≤ n) (hn : n ≤ 2 ^ D) (hl : ∀ h ∈ l, h < n) :
    (∀ ds hv vl, getRevealedNodes (mkTree D n ds hv vl) l l.length = Outcome.ok (revN D n l)) ∧ (revN D n l).Nodup ∧
      ∀ r, r ∈ revN D n l ↔ Rev D n (Picked D l) (r + 1) := by
  obtain ⟨rv, a, b, c⟩ := getRevealedNodes_ok h1 hn1 hn hl
  have e : revN D n l = rv := by unfold revN; rw [a]
  rw [e]
  exact ⟨a, b, c⟩

theorem mrevN_spec {D n : ℕ} {l : List ℕ} (h2 : 2 ≤ n) (hn : n ≤ 2 ^ D) (hl : ∀ h ∈ l, h < n) (hne : ∃ y, Present D n l y) :
    (∀ ds hv vl, getRevealedMerkleNodes (mkTree D n ds hv vl) l l.length = Outcome.ok (mrevN D n l)) ∧ (mrevN D n l).Nodup ∧
      ∀ r, r ∈ mrevN D n l ↔ Top D n (Present D n l) (r + 1) := by
  obtain ⟨rv, a, b, c⟩ := getRevealedMerkleNodes_ok h2 hn hl hne
  have e : mrevN D n l = rv := by unfold mrevN; rw [a]
  rw [e]
  exact ⟨a, b, c⟩

theorem clog_pos {n : ℕ} (h2 : 2 ≤ n) (h3 : n < 2 ^ 32) : 1 ≤ ceilLog2 n := by
  have hn := ceilLog2_le (by omega : 1 ≤ n) h3
  by_contra h
  rw [show ceilLog2 n = 0 by omega] at hn
  omega

/-! ### seed trees -/

/-- The node values after `reconstructSeeds`. -/
noncomputable def recS (E : Env) (P : Params) (salt : Buf) (rep D n : ℕ) (l : List ℕ) (input : Buf) (i : ℕ) : Buf :=
  vlX E P salt rep (exb D n) (fun i => decide (i ∈ revN D n l)) (inVl P.seedSizeBytes (revN D n l) input) i

theorem recS_length {E : Env} {P : Params} {salt input : Buf} {rep D n : ℕ} {l : List ℕ} (h : (revN D n l).length * P.seedSizeBytes ≤ input.length) (i : ℕ) :
    (recS E P salt rep D n l input i).length = P.seedSizeBytes := vlX_length (fun i => inVl_length h i) i

theorem reconstruct_ok {E : Env} {P : Params} {D n rep : ℕ} {l : List ℕ} {input salt : Buf} (hE : PermWF E) (hP : SeedWF P)
    (hD : 1 ≤ D) (hn2 : 2 ≤ n) (hn : n ≤ 2 ^ D) (hsalt : salt.length = P.saltSizeBytes) (hl : ∀ h ∈ l, h < n)
    (hs : input.length = (revN D n l).length * P.seedSizeBytes) (hs3 : input.length ≤ INT_MAX) :
    reconstructSeeds E P (mkTree D n P.seedSizeBytes (fun _ => false) fun _ => zeros P.seedSizeBytes) l l.length input input.length salt rep =
      Outcome.ok (true, mkTree D n P.seedSizeBytes (hvX (exb D n) fun i => decide (i ∈ revN D n l)) (recS E P salt rep D n l input)) := by
  obtain ⟨hrun, hnd, hrv⟩ := revN_spec hD (by omega) hn hl
  have hpk : AtDepth D (Picked D l) := picked_atDepth hn hl
  exact reconstructSeeds_ok hE hP hn2 hn hsalt (hrun ..) hnd (fun r hr => exb_iff.2 (rev_node (by omega) hn hpk ((hrv r).1 hr)).1) (by omega) le_rfl hs3

/-- Leaves that are not hidden are recovered. -/
theorem recS_leaf {E : Env} {P : Params} {D n rep j : ℕ} {l : List ℕ} {salt root : Buf} (hD : 1 ≤ D) (hn2 : 2 ≤ n) (hn : n ≤ 2 ^ D)
    (hr : root.length = P.seedSizeBytes) (hl : ∀ h ∈ l, h < n) (hne : l ≠ []) (hj : j < n) (hjl : j ∉ l) :
    recS E P salt rep D n l ((revN D n l).flatMap (seedVl E P salt rep root D n)) (2 ^ D - 1 + j) = seedVl E P salt rep root D n (2 ^ D - 1 + j) := by
  have hp : 1 ≤ 2 ^ D := Nat.one_le_two_pow
  obtain ⟨hrun, hnd, hrv⟩ := revN_spec hD (by omega) hn hl
  have hpk : AtDepth D (Picked D l) := picked_atDepth hn hl
  have hex : ∀ r ∈ revN D n l, exb D n r = true := fun r hr => exb_iff.2 (rev_node (by omega) hn hpk ((hrv r).1 hr)).1
  have h0 : 0 ∉ revN D n l := fun h => by have := (rev_node (by omega) hn hpk ((hrv 0).1 h)).2.1; omega
  have hleaf : Leaf D n (2 ^ D - 1 + j + 1) := ⟨by omega, by omega⟩
  have hexl : exb D n (2 ^ D - 1 + j) = true := exb_iff.2 (up_self hleaf)
  obtain ⟨k, hk, hkr⟩ := rev_cover (by omega) hn hpk (by
    obtain ⟨a, l', rfl⟩ := List.exists_cons_of_ne_nil hne
    exact ⟨_, a, by simp, rfl⟩) hleaf (fun ⟨h, hh, e⟩ => hjl (by rwa [show j = h by omega]))
  have h2 := (rev_node (by omega) hn hpk hkr).2.1
  have hb := hvX_below (rv := revN D n l) hn k (2 ^ D - 1 + j) hexl (by omega) ((hrv _).2 (by rw [Nat.sub_add_cancel (by omega)]; exact hkr))
  have hbl : ∀ r ∈ revN D n l, (seedVl E P salt rep root D n r).length = P.seedSizeBytes := fun r _ => seedVl_length hr D n r
  unfold recS
  rw [vlX_orig (root := root) h0 (fun r hr' => ?_) _ hb, seedVl, if_pos hexl]
  unfold inVl
  rw [if_pos hr']
  have := flatMap_block hbl hr' []
  rw [List.append_nil] at this
  rw [this, seedVl, if_pos (hex r hr')]

/-- One hidden leaf of 16. -/
theorem revN_16 {h : ℕ} (hh : h < 16) : (revN 4 16 [h]).length = 4 := by
  have key : ∀ h < 16, (match (createTree 16 0 >>= fun t => getRevealedNodes t [h] 1) with
      | Outcome.ok rv => rv.length
      | _ => 0) = 4 := by decide +kernel
  have := key h hh
  rw [createTree_ok (by decide) (by decide), ok_bind] at this
  have h4 : getRevealedNodes (mkTree (ceilLog2 16) 16 0 (fun _ => false) fun _ => zeros 0) [h] 1 = Outcome.ok (revN 4 16 [h]) :=
    (revN_spec (D := 4) (n := 16) (l := [h]) (by decide) (by decide) (by decide) (by simpa using hh)).1 0 _ _
  rwa [h4] at this

theorem log16 : ceilLog2 16 = 4 := by decide +kernel

/-- Sizes of openings. -/
structure P3Sz (P : Params) : Prop where
  sum : 1 + ∑ ℓ ∈ Finset.range (ceilLog2 P.numMPCRounds), min (2 ^ ℓ) P.numOpenedRounds ≤ P.numMPCRounds + P.numOpenedRounds

theorem p3Sz_of {p : ℕ} {P : Params} (h : getParamSet p = some P) (h3 : isPicnic3 p = true) : P3Sz P := by
  obtain ⟨h1, h2⟩ := getParamSet_bounds h
  interval_cases p <;> first | (exact absurd h3 (by decide)) | (injection h with h; subst h; exact ⟨by decide⟩)

theorem rev_le {P : Params} {C : List ℕ} (h3 : P3WF P) (hS : P3Sz P) (hl : C.length = P.numOpenedRounds) (hn : C.Nodup) (hlt : ∀ c ∈ C, c < P.numMPCRounds) :
    (revN (ceilLog2 P.numMPCRounds) P.numMPCRounds C).length ≤ P.numMPCRounds ∧
    (mrevN (ceilLog2 P.numMPCRounds) P.numMPCRounds (missing P.numMPCRounds C)).length ≤ P.numMPCRounds := by
  have hT := h3.Tpos
  have hT2 := h3.T
  have hu := h3.upos
  have hlg := ceilLog2_le (by omega : 1 ≤ P.numMPCRounds) (by omega)
  have hD := clog_pos (by omega : 2 ≤ P.numMPCRounds) (by omega)
  have hne : C ≠ [] := by intro h; rw [h] at hl; simp at hl; omega
  have hml : ∀ j < P.numMPCRounds, j ∈ missing P.numMPCRounds C ↔ j ∉ C := fun j hj => by rw [mem_missing]; simp [hj]
  have hpp := present_picked (D := ceilLog2 P.numMPCRounds) hlt hml
  have hpre : ∃ y, Present (ceilLog2 P.numMPCRounds) P.numMPCRounds (missing P.numMPCRounds C) y := by
    obtain ⟨a, l', e⟩ := List.exists_cons_of_ne_nil hne
    rw [hpp]
    exact ⟨_, a, by simp [e], rfl⟩
  obtain ⟨-, b1, c1⟩ := revN_spec hD (by omega) hlg hlt
  obtain ⟨-, b2, c2⟩ := mrevN_spec (by omega) hlg (fun h hh => (mem_missing.1 hh).1) hpre
  rw [hpp] at c2
  have r1 := rev_bound (by omega) hlg hlt hn hne b1 c1
  have r2 := top_bound hlg hlt hn hne b2 c2
  have := hS.sum
  rw [hl] at r1 r2
  constructor <;> omega

/-! ### Merkle tree -/

/-- Facts about the Merkle tree of the verifier. -/
theorem mrev_facts {P : Params} {C : List ℕ} (h3 : P3WF P) (hl : C.length = P.numOpenedRounds) (hlt : ∀ c ∈ C, c < P.numMPCRounds) :
    (∀ ds hv vl, getRevealedMerkleNodes (mkTree (ceilLog2 P.numMPCRounds) P.numMPCRounds ds hv vl) (missing P.numMPCRounds C)
      (missing P.numMPCRounds C).length = Outcome.ok (mrevN (ceilLog2 P.numMPCRounds) P.numMPCRounds (missing P.numMPCRounds C))) ∧
    (mrevN (ceilLog2 P.numMPCRounds) P.numMPCRounds (missing P.numMPCRounds C)).Nodup ∧
    (∀ r ∈ mrevN (ceilLog2 P.numMPCRounds) P.numMPCRounds (missing P.numMPCRounds C), exb (ceilLog2 P.numMPCRounds) P.numMPCRounds r = true) ∧
    0 ∉ mrevN (ceilLog2 P.numMPCRounds) P.numMPCRounds (missing P.numMPCRounds C) ∧
    (∀ r, r ∈ mrevN (ceilLog2 P.numMPCRounds) P.numMPCRounds (missing P.numMPCRounds C) ↔
      Top (ceilLog2 P.numMPCRounds) P.numMPCRounds (Present (ceilLog2 P.numMPCRounds) P.numMPCRounds (missing P.numMPCRounds C)) (r + 1)) ∧
    (∃ y, Present (ceilLog2 P.numMPCRounds) P.numMPCRounds (missing P.numMPCRounds C) y) ∧
    (∀ t ∈ C, 2 ^ ceilLog2 P.numMPCRounds - 1 + t ∉ mrevN (ceilLog2 P.numMPCRounds) P.numMPCRounds (missing P.numMPCRounds C)) := by
  have hT := h3.Tpos
  have hT2 := h3.T
  have hu := h3.upos
  have hlg := ceilLog2_le (by omega : 1 ≤ P.numMPCRounds) (by omega)
  have hp : 1 ≤ 2 ^ ceilLog2 P.numMPCRounds := Nat.one_le_two_pow
  have hne : C ≠ [] := by intro h; rw [h] at hl; simp at hl; omega
  have hml : ∀ j < P.numMPCRounds, j ∈ missing P.numMPCRounds C ↔ j ∉ C := fun j hj => by rw [mem_missing]; simp [hj]
  have hpp := present_picked (D := ceilLog2 P.numMPCRounds) hlt hml
  have hpre : ∃ y, Present (ceilLog2 P.numMPCRounds) P.numMPCRounds (missing P.numMPCRounds C) y := by
    obtain ⟨a, l', e⟩ := List.exists_cons_of_ne_nil hne
    rw [hpp]
    exact ⟨_, a, by simp [e], rfl⟩
  obtain ⟨a, b, c⟩ := mrevN_spec (by omega) hlg (fun h hh => (mem_missing.1 hh).1) hpre
  refine ⟨a, b, fun r hr => exb_iff.2 ((c r).1 hr).1, fun h => by have := ((c 0).1 h).2.1; omega, c, hpre, fun t ht hr => ?_⟩
  have := hlt t ht
  refine ((c _).1 hr).2.2.1 (up_self ⟨⟨by omega, by omega⟩, ?_⟩)
  rintro ⟨h, hh, e⟩
  have : t = h := by omega
  subst this
  exact (mem_missing.1 hh).2 ht

end Picnic
