import Verif.Proofs.ForgeChain
import Verif.Proofs.RomMany

/-
C63: the challenge that is read off the hash value of a new string is in a given set with small probability.
-/

namespace Picnic.Rom

open Spec Spec.Rom Spec.Picnic1 Spec.Challenge

theorem prob_exists_sum {Ω : Type} [Fintype Ω] {ι : Type} [Fintype ι] (Q : ι → Ω → Prop) : prob (fun ω => ∃ i, Q i ω) ≤ ∑ i, prob (Q i) := by
  classical
  unfold prob
  rw [← Finset.sum_div]
  gcongr
  refine le_trans (Nat.cast_le.2 (Finset.card_le_card (t := Finset.univ.biUnion fun i => Finset.univ.filter (Q i)) fun ω h => by simpa using h)) ?_
  exact_mod_cast Finset.card_biUnion_le

/-- Few random digests yield a challenge in a small set. -/
theorem prob_reads (T k n : ℕ) (S : Set (Fin T → Fin 3)) (c : ℕ) (hS : ∀ s : Finset (Fin T → Fin 3), (∀ e ∈ s, e ∈ S) → s.card ≤ c) :
    prob (fun D : Fin n → Digest k => ∃ e ∈ S, Reads T (texts D) (List.ofFn fun t => (e t).1)) ≤ c / 3 ^ T := by
  classical
  obtain ⟨hu, hc⟩ := C52_zkb T k n
  let r : (Fin T → Fin 3) → ℕ := fun e => (Finset.univ.filter fun D : Fin n → Digest k => Reads T (texts D) (List.ofFn fun t => (e t).1)).card
  have hr : ∀ e, r e = r 0 := fun e => by
    refine Eq.trans ?_ ((hc e 0).trans ?_) <;> exact congrArg Finset.card (Finset.filter_congr_decidable ..)
  have h3 : 3 ^ T * r 0 ≤ Fintype.card (Fin n → Digest k) := by
    have h1 : ∑ e, r e = 3 ^ T * r 0 := by
      rw [Finset.sum_congr rfl fun e _ => hr e, Finset.sum_const, Finset.card_univ, Fintype.card_fun, Fintype.card_fin, Fintype.card_fin, smul_eq_mul]
    rw [← h1, ← Finset.card_biUnion]
    · exact Finset.card_le_univ _
    · intro e _ e' _ hne
      rw [Function.onFun, Finset.disjoint_left]
      intro D h h'
      exact hne (hu D e e' (Finset.mem_filter.1 h).2 (Finset.mem_filter.1 h').2)
  have h4 : (Finset.univ.filter fun D : Fin n → Digest k => ∃ e ∈ S, Reads T (texts D) (List.ofFn fun t => (e t).1)).card ≤ c * r 0 := by
    have h5 : (Finset.univ.filter fun D : Fin n → Digest k => ∃ e ∈ S, Reads T (texts D) (List.ofFn fun t => (e t).1)) ⊆
        (Finset.univ.filter fun e => e ∈ S).biUnion fun e => Finset.univ.filter fun D : Fin n → Digest k => Reads T (texts D) (List.ofFn fun t => (e t).1) := by
      intro D hD
      obtain ⟨e, he, hR⟩ := (Finset.mem_filter.1 hD).2
      exact Finset.mem_biUnion.2 ⟨e, Finset.mem_filter.2 ⟨Finset.mem_univ _, he⟩, Finset.mem_filter.2 ⟨Finset.mem_univ _, hR⟩⟩
    refine (Finset.card_le_card h5).trans (Finset.card_biUnion_le.trans ?_)
    rw [Finset.sum_congr rfl fun e _ => hr e, Finset.sum_const, smul_eq_mul]
    exact Nat.mul_le_mul_right _ (hS _ fun e he => (Finset.mem_filter.1 he).2)
  unfold prob
  have hpos : (0 : ℝ) < Fintype.card (Fin n → Digest k) := by exact_mod_cast Fintype.card_pos
  rw [div_le_div_iff₀ hpos (by positivity)]
  have h6 := Nat.mul_le_mul_right (3 ^ T) h4
  have h7 := Nat.mul_le_mul_left c h3
  have h8 : c * r 0 * 3 ^ T = c * (3 ^ T * r 0) := by ring
  have h9 := h6.trans (h8.le.trans h7)
  have h10 : ((Finset.univ.filter fun D : Fin n → Digest k => ∃ e ∈ S, Reads T (texts D) (List.ofFn fun t => (e t).1)).card : ℝ) * 3 ^ T ≤
      c * Fintype.card (Fin n → Digest k) := by exact_mod_cast h9
  refine le_trans (le_of_eq ?_) h10
  congr!

variable {N M : ℕ} {I : Inst} {R : ℕ} {F : Fresh N M I R}

/-- The first digests of the chain, if they are different, suffice for the challenge. -/
theorem clean_reads {O : Oracle N M} (h : F.Clean O (I.T + 1)) {l : List ℕ}
    (hl : IsChallenge I.T (fun d => hashUse I O (.next d) I.digest) (Rom.hash O (F.c O) I.digest) l) :
    Reads I.T ((List.range (I.T + 1)).map (dgs I O (F.c O))) l := by
  have hL : (List.range (I.T + 1)).map (dgs I O (F.c O)) = chain (fun d => hashUse I O (.next d) I.digest) (Rom.hash O (F.c O) I.digest) (I.T + 1) := rfl
  have hn : ((List.range (I.T + 1)).map (dgs I O (F.c O))).Nodup := by
    refine List.Nodup.map_on ?_ List.nodup_range
    intro x hx y hy e
    rw [List.mem_range] at hx hy
    rcases Nat.lt_trichotomy x y with hlt | rfl | hlt
    · exact absurd e.symm (h.1 y hy x hlt)
    · rfl
    · exact absurd e (h.1 x hx y hlt)
  have h1 := trits_nodup (n := I.digest) (fun d hd => by
    obtain ⟨j, -, rfl⟩ := List.mem_map.1 hd
    exact dgs_len _ _ _) hn
  rw [List.length_map, List.length_range] at h1
  obtain ⟨m, hm, rfl⟩ := hl
  refine ⟨by omega, ?_⟩
  rw [hL, ← stream_chain] at h1 ⊢
  obtain ⟨r1, e1⟩ := stream_prefix (fun d => hashUse I O (.next d) I.digest) (Rom.hash O (F.c O) I.digest) m (I.T + 1)
  obtain ⟨r2, e2⟩ := stream_prefix (fun d => hashUse I O (.next d) I.digest) (Rom.hash O (F.c O) I.digest) (I.T + 1) m
  rw [Nat.add_comm (I.T + 1) m, e1] at e2
  have := congrArg (List.take I.T) e2
  rwa [List.take_append_of_le_length hm, List.take_append_of_le_length (Nat.le_of_succ_le_succ h1)] at this

/-- Strings of `k` bytes as digests. -/
def digestOfBytes (k : ℕ) (d : Bytes) : Digest k := fun i => (d.getD i 0).toFin

theorem bytes_digestOfBytes {k : ℕ} {d : Bytes} (h : d.length = k) : Spec.Challenge.bytes (digestOfBytes k d) = d := by
  subst h
  unfold Spec.Challenge.bytes digestOfBytes
  refine List.ext_getElem (by simp) fun i h1 h2 => ?_
  simp [List.getElem?_eq_getElem h2]

theorem digestBytes_len {k : ℕ} (d : Digest k) : (Spec.Challenge.bytes d).length = k := by
  unfold Spec.Challenge.bytes
  simp

/-- Clean digests that yield a challenge in the set. -/
theorem prob_clean (hM : I.digest ≤ M) (hN : I.digest + 1 ≤ N) :
    prob (fun O => F.V O ∧ F.Clean O (I.T + 1) ∧ ∃ e ∈ F.S O,
      IsChallenge I.T (fun d => hashUse I O (.next d) I.digest) (Rom.hash O (F.c O) I.digest) (List.ofFn fun t => (e t).1)) ≤ (2 / 3) ^ I.T := by
  classical
  let B := Fin (I.T + 1) → Digest I.digest
  let P : Oracle N M → B → Prop := fun O D => F.V O ∧ ∃ e ∈ F.S O, Reads I.T (texts D) (List.ofFn fun t => (e t).1)
  have hB : (Fintype.card B : ℝ) = 2 ^ (8 * I.digest * (I.T + 1)) := by
    rw [Fintype.card_fun, Fintype.card_fun, Fintype.card_fin, Fintype.card_fin, Fintype.card_fin]
    rw [← pow_mul, ← pow_mul, mul_assoc]
    push_cast
    rfl
  have h1 : ∀ D : B, prob (fun O => F.V O ∧ F.Clean O (I.T + 1) ∧ (∀ j : Fin (I.T + 1), dgs I O (F.c O) j = Spec.Challenge.bytes (D j)) ∧
      ∃ e ∈ F.S O, Reads I.T (texts D) (List.ofFn fun t => (e t).1)) ≤ prob (fun O => P O D) / 2 ^ (8 * I.digest * (I.T + 1)) := fun D => by
    refine prob_points hM (fun O j => if h : (j : ℕ) = 0 then F.c O else Use.text (T := I.T) I (.next (Spec.Challenge.bytes (D ⟨j - 1, by omega⟩))))
      (fun O j => Spec.Challenge.bytes (D j)) ?_ ?_ ?_ ?_
    · rintro O ⟨hV, -⟩ j
      beta_reduce
      split_ifs
      · exact F.hlen O hV
      · rw [next_len, digestBytes_len]
        exact hN
    · rintro O ⟨hV, hc, hD, -⟩ i j hij
      beta_reduce at hij
      split_ifs at hij with h1 h2 h2
      · exact Fin.ext (h1.trans h2.symm)
      · exact absurd hij (F.hne O hV _ (digestBytes_len _))
      · exact absurd hij.symm (F.hne O hV _ (digestBytes_len _))
      · have := next_inj hij
        rw [← hD, ← hD] at this
        dsimp only at this
        rcases Nat.lt_trichotomy i j with hlt | he | hlt
        · exact absurd this.symm (hc.1 _ (by omega) _ (by omega))
        · exact Fin.ext he
        · exact absurd this (hc.1 _ (by omega) _ (by omega))
    · rintro O ⟨hV, hc, hD, -⟩ j
      beta_reduce
      split_ifs with h0
      · rw [← hD j, h0]
        exact hash_ptAt O (F.c O) 0
      · rw [← hD j, ← hD]
        obtain ⟨j, hj⟩ := j
        obtain ⟨j, rfl⟩ : ∃ k, j = k + 1 := ⟨j - 1, by simp only at h0; omega⟩
        exact hash_ptAt O (F.c O) (j + 1)
    · rintro O O' ⟨hV, hc, hD, he⟩ hO
      obtain ⟨h1, h2, h3, h4⟩ := F.inv O O' hV fun x hx hn => hO x fun j => by
        beta_reduce
        split_ifs with h0
        · exact hx
        · refine hn _ (digestBytes_len _) ?_
          rw [← hD]
          exact hc.2 _ (by dsimp only; omega)
      refine ⟨⟨h1, ?_⟩, ?_, rfl⟩
      · rw [h4]
        exact he
      · funext j
        beta_reduce
        rw [h2]
  have h2 : prob (fun O => F.V O ∧ F.Clean O (I.T + 1) ∧ ∃ e ∈ F.S O,
      IsChallenge I.T (fun d => hashUse I O (.next d) I.digest) (Rom.hash O (F.c O) I.digest) (List.ofFn fun t => (e t).1)) ≤
      ∑ D : B, prob (fun O => F.V O ∧ F.Clean O (I.T + 1) ∧ (∀ j : Fin (I.T + 1), dgs I O (F.c O) j = Spec.Challenge.bytes (D j)) ∧
        ∃ e ∈ F.S O, Reads I.T (texts D) (List.ofFn fun t => (e t).1)) := by
    refine le_trans (prob_mono fun O h => ?_) (prob_exists_sum _)
    obtain ⟨hV, hc, e, he, hch⟩ := h
    have hr := clean_reads hc hch
    refine ⟨fun j => digestOfBytes I.digest (dgs I O (F.c O) j), hV, hc, fun j => (bytes_digestOfBytes (dgs_len _ _ _)).symm, e, he, ?_⟩
    have ht : texts (fun j : Fin (I.T + 1) => digestOfBytes I.digest (dgs I O (F.c O) j)) = (List.range (I.T + 1)).map (dgs I O (F.c O)) := by
      unfold texts
      refine List.ext_getElem (by simp) fun i h1 h2 => ?_
      simp only [List.getElem_ofFn, List.getElem_map, List.getElem_range]
      exact bytes_digestOfBytes (dgs_len _ _ _)
    rw [ht]
    exact hr
  refine h2.trans ((Finset.sum_le_sum fun D _ => h1 D).trans ?_)
  rw [← Finset.sum_div, ← hB, ← prob_sum P, ← prob_equiv (Equiv.prodComm B (Oracle N M))]
  have h3 := prob_sum (Ω := B) (B := Oracle N M) fun D O => P O D
  refine le_trans (le_of_eq h3) ?_
  have hpos : (0 : ℝ) < Fintype.card (Oracle N M) := by exact_mod_cast Fintype.card_pos
  rw [div_le_iff₀ hpos]
  refine (Finset.sum_le_sum (g := fun _ => ((2 / 3) ^ I.T : ℝ)) fun O _ => ?_).trans ?_
  · by_cases hV : F.V O
    · have := prob_reads I.T I.digest (I.T + 1) (F.S O) (2 ^ I.T) (F.hS O hV)
      refine le_trans (prob_mono fun D h => h.2) (this.trans (le_of_eq ?_))
      push_cast
      rw [div_pow]
    · refine le_trans (prob_mono (Q' := fun _ => False) fun D h => hV h.1) ?_
      have : prob (fun _ : B => False) = 0 := by
        unfold prob
        simp
      rw [this]
      positivity
  · rw [Finset.sum_const, Finset.card_univ, nsmul_eq_mul, mul_comm]

/-- The challenge for a new string is in the set with small probability. -/
theorem prob_lucky (hM : I.digest ≤ M) (hN : I.digest + 1 ≤ N) :
    prob (fun O => F.V O ∧ ∃ e ∈ F.S O,
      IsChallenge I.T (fun d => hashUse I O (.next d) I.digest) (Rom.hash O (F.c O) I.digest) (List.ofFn fun t => (e t).1)) ≤
      (2 / 3) ^ I.T + ((I.T + 1) ^ 2 + (I.T + 1) * R) / 2 ^ (8 * I.digest) := by
  have h1 := prob_clean (F := F) hM hN
  have h2 := prob_unclean (F := F) hM hN (I.T + 1)
  push_cast at h2
  refine le_trans (prob_mono (Q' := fun O => _ ∨ _) fun O h => ?_) (le_trans (prob_or _ _) (add_le_add h1 h2))
  by_cases hc : F.Clean O (I.T + 1)
  · exact Or.inl ⟨h.1, hc, h.2⟩
  · exact Or.inr ⟨h.1, hc⟩

end Picnic.Rom
