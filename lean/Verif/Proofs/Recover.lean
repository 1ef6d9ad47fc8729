import Verif.Spec.Recover
import Verif.Proofs.Cross
import Verif.Proofs.P3Congr
import Verif.Proofs.Distribution2
import Verif.Proofs.Soundness

/-
Lemmas for C58.
-/

namespace Picnic

open Spec Spec.Challenge Finset

theorem zip_hid {C Q : List ℕ} {t k : ℕ} (hn : C.Nodup) (h : (t, k) ∈ C.zip Q) : t ∈ C ∧ hidOf C Q t = k := by
  obtain ⟨i, hi, e⟩ := List.getElem_of_mem h
  rw [List.getElem_zip] at e
  injection e with e1 e2
  rw [List.length_zip] at hi
  refine ⟨(List.of_mem_zip h).1, ?_⟩
  unfold hidOf
  rw [← e1, hn.idxOf_getElem i (by omega), List.getD_eq_getElem?_getD, List.getElem?_eq_getElem (by omega), e2]
  rfl

theorem dig_le {p : ℕ} {P : Params} (h : getParamSet p = some P) (h3 : isPicnic3 p = true) :
    P.digestSizeBytes ≤ 2 * P.andSizeBytes ∧ P.stateSizeBits ≤ 8 * P.digestSizeBytes := by
  obtain ⟨h1, h2⟩ := getParamSet_bounds h
  interval_cases p <;> first
    | (exfalso; revert h3; decide)
    | (injection h with h; subst h; constructor <;> decide)

/-- The commitment to the seed of a party other than the last one consists of the first bytes of its tape: both are outputs of the same function for the
same input. -/
theorem com_eq_tape {E : Env} {P : Params} (h : P.digestSizeBytes ≤ 2 * P.andSizeBytes) (salt : Buf) (t j : ℕ) (seed : Buf) :
    p3Com E P salt t j seed [] = (p3Tape E P salt t j seed).take P.digestSizeBytes := by
  unfold p3Com p3Tape H
  rw [List.append_nil]
  exact shake_prefix h

theorem sum_arrN {f : ℕ → Buf} (g : Buf → ZMod 2) : ((arrN 16 f).map g).sum = ∑ j ∈ range 16, g (f j) := by
  simp [arrN, List.range_succ, Finset.sum_range_succ, add_assoc]

theorem set_arrN {α : Type} {N k : ℕ} {f : ℕ → α} {x : α} : (arrN N f).set k x = arrN N fun j => if j = k then x else f j := by
  refine List.ext_getElem (by simp [arrN]) fun i h1 h2 => ?_
  rw [List.getElem_set]
  simp only [arrN, List.getElem_map, List.getElem_range]
  simp only [eq_comm]


/-! ### how often all unopened parties are the last one -/

/-- A set of challenges has its share of the answers. -/
theorem fair_card {A B : Type} [Fintype A] [Fintype B] {R : A → B → Prop} (hR : Fair R) (S : B → Prop) (e0 : B) [DecidablePred S]
    [DecidablePred fun a => ∃ e, R a e ∧ S e] [DecidablePred fun a => R a e0] :
    (univ.filter fun a => ∃ e, R a e ∧ S e).card = (univ.filter S).card * (univ.filter fun a => R a e0).card := by
  classical
  have h : (univ.filter fun a => ∃ e, R a e ∧ S e) = (univ.filter S).biUnion fun e => univ.filter fun a => R a e := by
    ext a
    simp only [mem_filter, mem_univ, true_and, mem_biUnion]
    exact ⟨fun ⟨e, h1, h2⟩ => ⟨e, h2, h1⟩, fun ⟨e, h1, h2⟩ => ⟨e, h2, h1⟩⟩
  rw [h, card_biUnion, sum_congr rfl fun e _ => (show (univ.filter fun a => R a e).card = (univ.filter fun a => R a e0).card from by
    convert hR.uniform e e0), sum_const, smul_eq_mul]
  intro e _ e' _ hne
  rw [Function.onFun, disjoint_left]
  intro a ha ha'
  exact hne (hR.unique a e e' (mem_filter.1 ha).2 (mem_filter.1 ha').2)

/-- What is read is a challenge. -/
theorem reads3_vector {T u : ℕ} {L : List Bytes} {C Q : List ℕ} (h : Reads3 T 16 u L C Q) :
    ∃ e : Fin T → Option (Fin 16), Picnic3.IsVector u e ∧ Picnic3.Asks C Q e := by
  obtain ⟨h1, h2, h3, h4, h5⟩ := reads3_wf h
  let e : Fin T → Option (Fin 16) := fun t => if t.1 ∈ C then some ⟨Picnic3.hid C Q t % 16, Nat.mod_lt _ (by decide)⟩ else none
  have hs : ∀ t : Fin T, t.1 ∈ C ↔ (e t).isSome := fun t => by
    by_cases ht : t.1 ∈ C <;> simp [e, ht]
  refine ⟨e, ?_, fun t => ⟨hs t, fun q hq => ?_⟩⟩
  · unfold Picnic3.IsVector
    rw [← h1, ← List.toFinset_card_of_nodup h2]
    refine Finset.card_bij (fun t _ => t.1) (fun t ht => ?_) (fun _ _ _ _ h => Fin.ext h) fun x hx => ?_
    · rw [List.mem_toFinset, hs]; exact (Finset.mem_filter.1 ht).2
    · rw [List.mem_toFinset] at hx
      exact ⟨⟨x, h3 x hx⟩, by rw [Finset.mem_filter, ← hs]; exact ⟨Finset.mem_univ _, hx⟩, rfl⟩
  · by_cases ht : t.1 ∈ C
    · simp only [e, if_pos ht, Option.some.injEq] at hq
      rw [← hq]
      simp only
      have : Picnic3.hid C Q t < 16 := getD_below (by decide) h5 _
      omega
    · simp [e, ht] at hq

/-- The unopened parties of the challenge. -/
theorem asks_all {T u : ℕ} {L : List Bytes} {C Q : List ℕ} (h : Reads3 T 16 u L C Q) {e : Fin T → Option (Fin 16)} (ha : Picnic3.Asks C Q e) :
    (∀ k ∈ Q, k = 15) ↔ ∀ t k, e t = some k → k = 15 := by
  obtain ⟨h1, h2, h3, h4, h5⟩ := reads3_wf h
  constructor
  · intro hq t k hk
    have ht := ((ha t).1).2 (by rw [hk]; rfl)
    have := (ha t).2 k hk
    apply Fin.ext
    rw [← this]
    refine hq _ ?_
    unfold Picnic3.hid
    have hi := List.idxOf_lt_length_of_mem ht
    rw [List.getD_eq_getElem?_getD, List.getElem?_eq_getElem (by omega)]
    exact List.getElem_mem _
  · intro he k hk
    obtain ⟨i, hi, rfl⟩ := List.getElem_of_mem hk
    have hiC : i < C.length := by omega
    have hm : C[i] ∈ C := List.getElem_mem _
    obtain ⟨q, hq⟩ := Option.isSome_iff_exists.1 (((ha ⟨C[i], h3 _ hm⟩).1).1 hm)
    have := (ha ⟨C[i], h3 _ hm⟩).2 q hq
    unfold Picnic3.hid at this
    rw [h2.idxOf_getElem i hiC, List.getD_eq_getElem?_getD, List.getElem?_eq_getElem hi] at this
    have h15 := he _ _ hq
    rw [Option.getD_some] at this
    rw [this, h15]
    rfl

/-- The challenges in which all unopened parties are the last one. -/
theorem card_last {T u : ℕ} [DecidablePred fun e : {e : Fin T → Option (Fin 16) // Picnic3.IsVector u e} => ∀ t k, e.1 t = some k → k = 15] :
    (univ.filter fun e : {e : Fin T → Option (Fin 16) // Picnic3.IsVector u e} => ∀ t k, e.1 t = some k → k = 15).card = T.choose u := by
  classical
  rw [show T.choose u = (powersetCard u (univ : Finset (Fin T))).card by rw [card_powersetCard, card_univ, Fintype.card_fin]]
  refine card_bij (fun e _ => univ.filter fun t => (e.1 t).isSome) (fun e he => ?_) (fun e he e' he' h => ?_) fun S hS => ?_
  · rw [mem_powersetCard]
    exact ⟨subset_univ _, e.2⟩
  · rw [mem_filter] at he he'
    refine Subtype.ext (funext fun t => ?_)
    have ht : (e.1 t).isSome ↔ (e'.1 t).isSome := by
      have := congrArg (fun S => t ∈ S) h
      simpa using this
    cases h1 : e.1 t with
    | none =>
      rw [h1] at ht
      cases h2 : e'.1 t with
      | none => rfl
      | some k => rw [h2] at ht; simp at ht
    | some k =>
      rw [h1] at ht
      cases h2 : e'.1 t with
      | none => rw [h2] at ht; simp at ht
      | some k' => rw [he.2 t k h1, he'.2 t k' h2]
  · rw [mem_powersetCard] at hS
    have hf : (univ.filter fun t => ((fun t => if t ∈ S then some (15 : Fin 16) else none) t).isSome) = S := by
      ext t
      by_cases ht : t ∈ S <;> simp [ht]
    refine ⟨⟨fun t => if t ∈ S then some 15 else none, ?_⟩, ?_, hf⟩
    · unfold Picnic3.IsVector
      rw [← hS.2]
      exact congrArg card hf
    · rw [mem_filter]
      refine ⟨mem_univ _, fun t k h => ?_⟩
      by_cases ht : t ∈ S <;> simp [ht] at h
      exact h.symm

end Picnic
