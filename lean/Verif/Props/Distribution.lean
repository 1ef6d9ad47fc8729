import Verif.Proofs.Distribution2
import Verif.Props.Forger
import Verif.Props.P3Example

/-
C52: uniformly random digests yield uniformly random challenges.
-/

namespace Picnic

open Spec Spec.Challenge

/-- C52, ZKB++: let `N` digests be uniformly random and independent.  They determine at most one challenge, and all challenges are
equally likely. -/
theorem C52_zkb (T k N : ℕ) : Fair fun (D : Fin N → Digest k) (e : Fin T → Fin 3) => Reads T (texts D) (List.ofFn fun t => (e t).1) := by
  refine ⟨fun D e e' h h' => ?_, fun e e' => ?_⟩
  · have := List.ofFn_injective (h.2.trans h'.2.symm)
    exact funext fun t => Fin.ext (congrFun this t)
  · have hl : ∀ e : Fin T → Fin 3, ∀ x ∈ List.ofFn fun t => (e t).1, x < 3 := fun e x hx => by
      obtain ⟨t, rfl⟩ := (List.mem_ofFn' _ _).1 hx
      exact (e t).2
    exact le_antisymm (reads_le (by simp) (by simp) (hl e) (hl e')) (reads_le (by simp) (by simp) (hl e') (hl e))

/-- C52, Picnic3. -/
theorem C52_p3 (I : Picnic3.Inst) (p : ℕ) (hI : I.Is p) (k N : ℕ) : Fair fun (D : Fin N → Digest k) (e : I.Vector) =>
    ∃ C Q, Reads3 I.T 16 I.u (texts D) C Q ∧ Picnic3.Asks C Q e.1 := by
  obtain ⟨bC, hC, hT⟩ : ∃ bC, (∀ j, bC ≤ j ↔ I.T ≤ 2 ^ j) ∧ 2 ≤ I.T := by
    have hlog : ∀ b n, 2 ^ b < n → n ≤ 2 ^ (b + 1) → ∀ j, b + 1 ≤ j ↔ n ≤ 2 ^ j := fun b n h1 h2 j => by
      constructor
      · intro h; exact h2.trans (Nat.pow_le_pow_right (by decide) h)
      · intro h
        by_contra hj
        have := Nat.pow_le_pow_right (n := 2) (by decide) (show j ≤ b by omega)
        omega
    unfold Picnic3.Inst.Is Picnic3.table at hI
    split at hI <;> simp only [Option.some.injEq, Prod.mk.injEq, reduceCtorEq] at hI <;> obtain ⟨-, -, -, hT, -⟩ := hI <;> rw [← hT]
    · exact ⟨8, hlog 7 _ (by decide) (by decide), by decide⟩
    · exact ⟨9, hlog 8 _ (by decide) (by decide), by decide⟩
    · exact ⟨10, hlog 9 _ (by decide) (by decide), by decide⟩
  refine ⟨?_, fun e e' => le_antisymm (reads3_le hC hT e.2 e'.2) (reads3_le hC hT e'.2 e.2)⟩
  rintro D e e' ⟨C, Q, h, ha⟩ ⟨C', Q', h', ha'⟩
  obtain ⟨rfl, rfl⟩ := reads3_unique h h'
  refine Subtype.ext (funext fun t => ?_)
  cases h1 : e.1 t with
  | none =>
    cases h2 : e'.1 t with
    | none => rfl
    | some q =>
      have := (ha t).1.1 ((ha' t).1.2 (by rw [h2]; rfl))
      rw [h1] at this
      exact absurd this (by decide)
  | some q =>
    have := (ha' t).1.1 ((ha t).1.2 (by rw [h1]; rfl))
    obtain ⟨q', h2⟩ := Option.isSome_iff_exists.1 this
    rw [h2]
    exact congrArg some (Fin.ext (((ha t).2 q h1).symm.trans ((ha' t).2 q' h2)))

/-- The challenge of the Picnic specification (and of the code: C17, C37, C38) is read off the chain of digests. -/
theorem C52_chain_zkb (T : ℕ) (next : Buf → Buf) (d : Buf) (l : List ℕ) : IsChallenge T next d l ↔ ∃ n, Reads T (chain next d n) l := by
  unfold IsChallenge Reads
  simp only [stream_chain]

theorem C52_chain_p3 (T N u : ℕ) (next : Buf → Buf) (d : Buf) (C Q : List ℕ) :
    IsChallenge3 T N u next d C Q ↔ ∃ n, Reads3 T N u (chain next d n) C Q := by
  constructor
  · rintro ⟨bC, bP, k, m, e1, e2, e3, e4, e5, e6, e7⟩
    refine ⟨k + m, bC, bP, k, e1, e2, ?_⟩
    rw [chain_take (by omega), chain_drop, Nat.add_sub_cancel_left, ← stream3_chain, ← stream3_chain]
    refine ⟨e3, fun k' hk' => ?_, e5, e6, e7⟩
    rw [chain_take (by omega), ← stream3_chain]
    exact e4 k' hk'
  · rintro ⟨n, bC, bP, k, e1, e2, e3, e4, e5, e6, e7⟩
    have hk : k ≤ n := by
      by_contra h
      have := e4 n (by omega)
      rw [List.take_of_length_le (by rw [chain_length])] at this
      rw [List.take_of_length_le (by rw [chain_length]; omega)] at e3
      omega
    rw [chain_take hk, ← stream3_chain] at e3 e5
    rw [chain_drop, ← stream3_chain] at e6 e7
    refine ⟨bC, bP, k, n - k, e1, e2, e3, fun k' hk' => ?_, e5, e6, e7⟩
    have := e4 k' hk'
    rwa [chain_take (by omega), ← stream3_chain] at this

open Classical in
/-- C51 with C52: the bound for forgers that get uniformly random digests (and not just challenges) as answers. -/
theorem C52_forge_zkb (I : Picnic1.Inst) (p : ℕ) (hI : I.Is p) (κ : ℕ) (hκ : level p = some κ) (ct pt : Buf) (q N : ℕ)
    (F : Forger q (Fin N → Digest I.digest) Picnic1.First) :
    (Finset.univ.filter fun ω : Fin q → Fin N → Digest I.digest =>
      I.Forges (fun D e => Reads I.T (texts D) (List.ofFn fun t => (e t).1)) F ct pt ω ∧ ¬ I.Collides F ω ∧ ¬ I.Inverts F ω ∧ ¬ I.Knows F ct pt ω).card * 2 ^ κ ≤
      q * Fintype.card (Fin q → Fin N → Digest I.digest) :=
  C51_zkb I p hI κ hκ ct pt q _ _ (C52_zkb I.T I.digest N) F

open Classical in
theorem C52_forge_p3 (I : Picnic3.Inst) (p : ℕ) (hI : I.Is p) (κ : ℕ) (hκ : level p = some κ) (ct pt : Buf) (q N : ℕ)
    (F : Forger q (Fin N → Digest I.digest) Picnic3.First) :
    (Finset.univ.filter fun ω : Fin q → Fin N → Digest I.digest =>
      I.Forges (fun D e => ∃ C Q, Reads3 I.T 16 I.u (texts D) C Q ∧ Picnic3.Asks C Q e.1) F ct pt ω ∧ ¬ I.Collides F ω ∧ ¬ I.Inverts F ω ∧
        ¬ I.Knows F ct pt ω).card * 2 ^ κ ≤
      q * Fintype.card (Fin q → Fin N → Digest I.digest) :=
  C51_p3 I p hI κ hκ ct pt q _ _ (C52_p3 I p hI I.digest N) F

end Picnic
