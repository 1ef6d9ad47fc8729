import Verif.Proofs.Termination
import Verif.Props.Distribution

/-
C53: uniformly random digests determine a challenge, except with negligible probability.
-/

namespace Picnic

open Spec Spec.Challenge

open Classical in
/-- C53, ZKB++: at most one in `2 ^ (8 k M) / T` sequences of `T M` digests of `k` bytes does not determine a challenge. -/
theorem C53_zkb (T k M : ℕ) : (Finset.univ.filter fun D : Fin (T * M) → Digest k => ¬ ∃ l, Reads T (texts D) l).card * 2 ^ (8 * k * M) ≤
    T * Fintype.card (Fin (T * M) → Digest k) := zkb_stuck T k M

open Classical in
/-- C53, Picnic3: at most one in `2 ^ (54 M) / (u + 1)` sequences of `(u + 1) M` digests does not determine a challenge. -/
theorem C53_p3 (I : Picnic3.Inst) (p : ℕ) (hI : I.Is p) (M : ℕ) (hM : 0 < M) :
    (Finset.univ.filter fun D : Fin ((I.u + 1) * M) → Digest I.digest => ¬ ∃ C Q, Reads3 I.T 16 I.u (texts D) C Q).card * 2 ^ (54 * M) ≤
      (I.u + 1) * Fintype.card (Fin ((I.u + 1) * M) → Digest I.digest) := by
  have hlog : ∀ b n, 2 ^ b < n → n ≤ 2 ^ (b + 1) → ∀ j, b + 1 ≤ j ↔ n ≤ 2 ^ j := fun b n h1 h2 j => by
    constructor
    · intro h; exact h2.trans (Nat.pow_le_pow_right (by decide) h)
    · intro h
      by_contra hj
      have := Nat.pow_le_pow_right (n := 2) (by decide) (show j ≤ b by omega)
      omega
  rw [pow_mul]
  unfold Picnic3.Inst.Is Picnic3.table at hI
  split at hI <;> simp only [Option.some.injEq, Prod.mk.injEq, reduceCtorEq] at hI <;> obtain ⟨-, -, -, hT, hu, -, hd, -⟩ := hI <;> rw [← hT, ← hu, ← hd]
  · exact p3_stuck (hlog 7 250 (by decide) (by decide)) (by decide) (by decide) hM (by decide +kernel)
  · exact p3_stuck (hlog 8 419 (by decide) (by decide)) (by decide) (by decide) hM (by decide +kernel)
  · exact p3_stuck (hlog 9 601 (by decide) (by decide)) (by decide) (by decide) hM (by decide +kernel)

open Classical in
/-- The challenges and the sequences that do not determine one exhaust all sequences: with C52, every challenge has the
same probability, which is `3 ^ -T` up to the bound of C53. -/
theorem C53_share_zkb (T k N : ℕ) (e : Fin T → Fin 3) :
    3 ^ T * (Finset.univ.filter fun D : Fin N → Digest k => Reads T (texts D) (List.ofFn fun t => (e t).1)).card +
      (Finset.univ.filter fun D : Fin N → Digest k => ¬ ∃ l, Reads T (texts D) l).card = Fintype.card (Fin N → Digest k) := by
  have := fair_total (C52_zkb T k N) e
  rw [Fintype.card_fun, Fintype.card_fin, Fintype.card_fin] at this
  rw [← this]
  congr 2
  ext D
  simp only [Finset.mem_filter, Finset.mem_univ, true_and]
  refine not_congr ⟨fun ⟨l, h⟩ => ?_, fun ⟨e, h⟩ => ⟨_, h⟩⟩
  have hl : l.length = T := by rw [h.2, List.length_take, min_eq_left h.1]
  have h3 : ∀ x ∈ l, x < 3 := fun x hx => by
    rw [h.2] at hx
    have := List.mem_of_mem_take hx
    rw [List.mem_flatMap] at this
    obtain ⟨d, _, hd⟩ := this
    simpa [trits] using (List.mem_filter.1 hd).2
  refine ⟨fun t => ⟨l[t.1]'(by rw [hl]; exact t.2), h3 _ (List.getElem_mem _)⟩, ?_⟩
  rwa [show (List.ofFn fun t : Fin T => l[t.1]'(by rw [hl]; exact t.2)) = l from by
    subst hl
    exact List.ofFn_getElem]

open Classical in
theorem C53_share_p3 (I : Picnic3.Inst) (p : ℕ) (hI : I.Is p) (k N : ℕ) (e : I.Vector) :
    Fintype.card I.Vector * (Finset.univ.filter fun D : Fin N → Digest k => ∃ C Q, Reads3 I.T 16 I.u (texts D) C Q ∧ Picnic3.Asks C Q e.1).card +
      (Finset.univ.filter fun D : Fin N → Digest k => ¬ ∃ C Q, Reads3 I.T 16 I.u (texts D) C Q).card = Fintype.card (Fin N → Digest k) := by
  rw [← fair_total (C52_p3 I p hI k N) e]
  congr 2
  ext D
  simp only [Finset.mem_filter, Finset.mem_univ, true_and]
  refine not_congr ⟨fun ⟨C, Q, h⟩ => ?_, fun ⟨e, C, Q, h, _⟩ => ⟨C, Q, h⟩⟩
  obtain ⟨h1, h2, h3, h4, h5⟩ := reads3_wf h
  let e : Fin I.T → Option (Fin 16) := fun t => if t.1 ∈ C then some ⟨Picnic3.hid C Q t % 16, Nat.mod_lt _ (by decide)⟩ else none
  have hs : ∀ t : Fin I.T, t.1 ∈ C ↔ (e t).isSome := fun t => by
    by_cases ht : t.1 ∈ C <;> simp [e, ht]
  refine ⟨⟨e, ?_⟩, C, Q, h, fun t => ⟨hs t, fun q hq => ?_⟩⟩
  · unfold Picnic3.IsVector
    rw [← h1, ← List.toFinset_card_of_nodup h2]
    refine Finset.card_bij (fun t _ => t.1) (fun t ht => ?_) (fun _ _ _ _ h => Fin.ext h) fun x hx => ?_
    · rw [List.mem_toFinset, hs]; exact (Finset.mem_filter.1 ht).2
    · rw [List.mem_toFinset] at hx
      exact ⟨⟨x, h3 x hx⟩, by rw [Finset.mem_filter, ← hs]; exact ⟨Finset.mem_univ _, hx⟩, rfl⟩
  · by_cases ht : t.1 ∈ C
    · simp only [e, if_pos ht, Option.some.injEq] at hq
      rw [← hq]
      simp only
      have : Picnic3.hid C Q t < 16 := getD_below (by decide) h5 _
      omega
    · simp [e, ht] at hq

/-- Every challenge is read off some sequence of digests. -/
theorem C53_zkb_example (T k : ℕ) (hk : 0 < k) (e : Fin T → Fin 3) : ∃ (N : ℕ) (D : Fin N → Digest k), Reads T (texts D) (List.ofFn fun t => (e t).1) := by
  classical
  refine ⟨T * T, ?_⟩
  by_contra hne
  push Not at hne
  have h1 := C53_share_zkb T k (T * T) e
  rw [Finset.filter_false_of_mem fun D _ => hne D, Finset.card_empty, mul_zero, zero_add] at h1
  have h2 := C53_zkb T k T
  rw [h1] at h2
  have h3 := Nat.le_of_mul_le_mul_left (h2.trans (le_of_eq (mul_comm _ _))) Fintype.card_pos
  have h4 : T < 2 ^ T := Nat.lt_two_pow_self
  have h5 := Nat.pow_le_pow_right (n := 2) (by decide) (show T ≤ 8 * k * T from Nat.le_mul_of_pos_left _ (by omega))
  omega

theorem C53_p3_example (I : Picnic3.Inst) (p : ℕ) (hI : I.Is p) (e : I.Vector) :
    ∃ (N : ℕ) (D : Fin N → Digest I.digest) (C Q : List ℕ), Reads3 I.T 16 I.u (texts D) C Q ∧ Picnic3.Asks C Q e.1 := by
  classical
  refine ⟨(I.u + 1) * 1, ?_⟩
  by_contra hne
  have h1 := C53_share_p3 I p hI I.digest ((I.u + 1) * 1) e
  rw [Finset.filter_false_of_mem fun D _ h => hne ⟨D, h⟩, Finset.card_empty, mul_zero, zero_add] at h1
  have h2 := C53_p3 I p hI 1 (by decide)
  rw [h1] at h2
  have h3 := Nat.le_of_mul_le_mul_left (h2.trans (le_of_eq (mul_comm _ _))) Fintype.card_pos
  unfold Picnic3.Inst.Is Picnic3.table at hI
  split at hI <;> simp only [Option.some.injEq, Prod.mk.injEq, reduceCtorEq] at hI <;> omega

/-- There are sequences of any length that do not determine a challenge (the bounds cannot be replaced by zero). -/
theorem C53_example (T k N : ℕ) (hT : 0 < T) : ¬ ∃ l, Reads T (texts (fun (_ : Fin N) (_ : Fin k) => (⟨255, by decide⟩ : Fin (2 ^ 8)))) l := by
  rintro ⟨l, h, -⟩
  have : (texts (fun (_ : Fin N) (_ : Fin k) => (⟨255, by decide⟩ : Fin (2 ^ 8)))).flatMap trits = [] := by
    rw [List.flatMap_eq_nil_iff]
    intro x hx
    obtain ⟨i, rfl⟩ := (List.mem_ofFn' _ _).1 hx
    rw [trits, List.filter_eq_nil_iff]
    intro y hy
    obtain ⟨c, hc, hy⟩ := List.mem_flatMap.1 hy
    obtain ⟨j, rfl⟩ := (List.mem_ofFn' _ _).1 hc
    simp only [pairs, BitVec.toNat_ofFin, List.mem_cons, List.not_mem_nil, or_false] at hy
    rcases hy with rfl | rfl | rfl | rfl <;> decide
  rw [this] at h
  simp at h
  omega

end Picnic
