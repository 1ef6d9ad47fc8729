import Verif.Proofs.Sizes

/-
The average and the bounds of the lengths of Picnic3 signatures.
-/

namespace Picnic

open Finset Spec Spec.Tree Spec.Sizes

/-- The sum of all lengths, times 16 u!, without the factor 16 ^ u. -/
def sizeTotal (D T u seed digest blk gate : ℕ) : ℕ :=
  (16 * (digest + 32 + u * (4 * seed + blk + gate + digest)) + 15 * u * gate) * T.descFactorial u + 16 * (seed + digest) * topsSum D T u

theorem sum_size (I : Picnic3.Inst) (hT : I.T ≤ 2 ^ I.depth) :
    16 * I.u.factorial * ∑ e, size I e = 16 ^ I.u * sizeTotal I.depth I.T I.u I.seed I.digest I.blk I.gate := by
  have h1 : ∑ e : I.Vector, size I e + I.gate * ∑ e : I.Vector, lasts e.1 =
      Fintype.card I.Vector * (I.digest + 32 + I.u * (4 * I.seed + I.blk + I.gate + I.digest) + I.u * I.gate) +
        (I.seed + I.digest) * ∑ e : I.Vector, cut I.depth e.1 := by
    have : ∀ e : I.Vector, size I e + I.gate * lasts e.1 =
        (I.digest + 32 + I.u * (4 * I.seed + I.blk + I.gate + I.digest) + I.u * I.gate) + (I.seed + I.digest) * cut I.depth e.1 := by
      intro e
      have hl := lasts_le e
      unfold size
      have : (I.u - lasts e.1) * I.gate + I.gate * lasts e.1 = I.u * I.gate := by
        rw [Nat.mul_comm I.gate, ← Nat.add_mul, Nat.sub_add_cancel hl]
      rw [Nat.add_assoc _ ((I.u - lasts e.1) * I.gate), this]
      ring
    rw [mul_sum, ← sum_add_distrib, sum_congr rfl fun e _ => this e, sum_add_distrib, sum_const, mul_sum, smul_eq_mul, card_univ]
  have h2 : 16 * ∑ e : I.Vector, lasts e.1 = I.u * Fintype.card I.Vector := sum_lasts
  have h3 : ∑ e : I.Vector, cut I.depth e.1 = _ := sum_cut hT
  have h4 : Fintype.card I.Vector = I.T.choose I.u * 16 ^ I.u := card_vec
  have h5 := tops_fact (D := I.depth) (T := I.T) (u := I.u)
  rw [h3] at h1
  unfold sizeTotal
  rw [← h5, Nat.descFactorial_eq_factorial_mul_choose]
  rw [h4] at h1 h2
  generalize ∑ e : I.Vector, size I e = s at *
  generalize ∑ e : I.Vector, lasts e.1 = l at *
  generalize ∑ x ∈ Ico 2 (2 ^ I.depth + I.T), topsAt I.depth I.T I.u x = K at *
  generalize I.u.factorial = F
  generalize I.T.choose I.u = c at *
  generalize 16 ^ I.u = p at *
  have h6 : 16 * s + I.gate * (I.u * (c * p)) = 16 * (c * p * (I.digest + 32 + I.u * (4 * I.seed + I.blk + I.gate + I.digest) + I.u * I.gate) + (I.seed + I.digest) * (K * p)) := by
    rw [← h2, ← h1]; ring
  have h7 : 16 * s = c * p * (16 * (I.digest + 32 + I.u * (4 * I.seed + I.blk + I.gate + I.digest)) + 15 * I.u * I.gate) + 16 * (I.seed + I.digest) * (K * p) := by
    have : 16 * s + I.gate * (I.u * (c * p)) = c * p * (16 * (I.digest + 32 + I.u * (4 * I.seed + I.blk + I.gate + I.digest)) + 15 * I.u * I.gate) + 16 * (I.seed + I.digest) * (K * p) + I.gate * (I.u * (c * p)) := by
      rw [h6]; ring
    exact Nat.add_right_cancel this
  calc 16 * F * s = F * (16 * s) := by ring
    _ = _ := by rw [h7]; ring

/-- Criterion for averages. -/
theorem average_of (I : Picnic3.Inst) (hT : I.T ≤ 2 ^ I.depth) (avg : ℕ)
    (h : 16 * avg * I.T.descFactorial I.u ≤ 10 * sizeTotal I.depth I.T I.u I.seed I.digest I.blk I.gate ∧
      10 * sizeTotal I.depth I.T I.u I.seed I.digest I.blk I.gate < 16 * (avg + 1) * I.T.descFactorial I.u) :
    Average (size I) avg := by
  have h1 := sum_size I hT
  have h4 : Fintype.card I.Vector = I.T.choose I.u * 16 ^ I.u := card_vec
  rw [Nat.descFactorial_eq_factorial_mul_choose] at h
  have hF : 0 < 16 * I.u.factorial := by positivity
  have hp : 0 < 16 ^ I.u := by positivity
  constructor
  · refine Nat.le_of_mul_le_mul_left ?_ hF
    rw [h4]
    calc 16 * I.u.factorial * (avg * (I.T.choose I.u * 16 ^ I.u)) = 16 ^ I.u * (16 * avg * (I.u.factorial * I.T.choose I.u)) := by ring
      _ ≤ 16 ^ I.u * (10 * sizeTotal I.depth I.T I.u I.seed I.digest I.blk I.gate) := Nat.mul_le_mul_left _ h.1
      _ = 10 * (16 * I.u.factorial * ∑ e, size I e) := by rw [h1]; ring
      _ = _ := by ring
  · refine Nat.lt_of_mul_lt_mul_left (a := 16 * I.u.factorial) ?_
    rw [h4]
    calc 16 * I.u.factorial * (10 * ∑ e, size I e) = 10 * (16 * I.u.factorial * ∑ e, size I e) := by ring
      _ = 16 ^ I.u * (10 * sizeTotal I.depth I.T I.u I.seed I.digest I.blk I.gate) := by rw [h1]; ring
      _ < 16 ^ I.u * (16 * (avg + 1) * (I.u.factorial * I.T.choose I.u)) := Nat.mul_lt_mul_of_pos_left h.2 hp
      _ = _ := by ring

/-- The numbers of the three parameter sets. -/
theorem inst_numbers {I : Picnic3.Inst} {p : ℕ} (h : I.Is p) :
    (p = 7 ∧ I.T = 250 ∧ I.u = 36 ∧ I.seed = 16 ∧ I.digest = 32 ∧ I.blk = 17 ∧ I.gate = 65 ∧ I.depth = 8) ∨
    (p = 8 ∧ I.T = 419 ∧ I.u = 52 ∧ I.seed = 24 ∧ I.digest = 48 ∧ I.blk = 24 ∧ I.gate = 96 ∧ I.depth = 9) ∨
    (p = 9 ∧ I.T = 601 ∧ I.u = 68 ∧ I.seed = 32 ∧ I.digest = 64 ∧ I.blk = 32 ∧ I.gate = 128 ∧ I.depth = 10) := by
  unfold Picnic3.Inst.Is Picnic3.table at h
  have hd : ∀ n d, 2 ^ (d - 1) < n → n ≤ 2 ^ d → 1 ≤ d → Nat.clog 2 n = d := fun n d h1 h2 h3 => by
    refine le_antisymm ((Nat.clog_le_iff_le_pow (by omega)).2 h2) ?_
    have := (Nat.lt_clog_iff_pow_lt (b := 2) (by omega)).2 h1
    omega
  unfold Picnic3.Inst.blk Picnic3.Inst.gate Picnic3.Inst.depth
  split at h
  · simp only [Option.some.injEq, Prod.mk.injEq] at h
    obtain ⟨h1, h2, h3, h4, h5, h6, h7, -⟩ := h
    refine Or.inl ⟨rfl, h4.symm, h5.symm, h6.symm, h7.symm, by rw [← h1]; rfl, by rw [← h2, ← h3]; rfl, ?_⟩
    rw [← h4]; exact hd _ _ (by norm_num) (by norm_num) (by norm_num)
  · simp only [Option.some.injEq, Prod.mk.injEq] at h
    obtain ⟨h1, h2, h3, h4, h5, h6, h7, -⟩ := h
    refine Or.inr (Or.inl ⟨rfl, h4.symm, h5.symm, h6.symm, h7.symm, by rw [← h1]; rfl, by rw [← h2, ← h3]; rfl, ?_⟩)
    rw [← h4]; exact hd _ _ (by norm_num) (by norm_num) (by norm_num)
  · simp only [Option.some.injEq, Prod.mk.injEq] at h
    obtain ⟨h1, h2, h3, h4, h5, h6, h7, -⟩ := h
    refine Or.inr (Or.inr ⟨rfl, h4.symm, h5.symm, h6.symm, h7.symm, by rw [← h1]; rfl, by rw [← h2, ← h3]; rfl, ?_⟩)
    rw [← h4]; exact hd _ _ (by norm_num) (by norm_num) (by norm_num)
  · cases h

theorem num_7 : 16 * 124651 * (250).descFactorial 36 ≤ 10 * sizeTotal 8 250 36 16 32 17 65 ∧
    10 * sizeTotal 8 250 36 16 32 17 65 < 16 * (124651 + 1) * (250).descFactorial 36 := by decide +kernel

theorem num_8 : 16 * 274125 * (419).descFactorial 52 ≤ 10 * sizeTotal 9 419 52 24 48 24 96 ∧
    10 * sizeTotal 9 419 52 24 48 24 96 < 16 * (274125 + 1) * (419).descFactorial 52 := by decide +kernel

theorem num_9 : 16 * 485009 * (601).descFactorial 68 ≤ 10 * sizeTotal 10 601 68 32 64 32 128 ∧
    10 * sizeTotal 10 601 68 32 64 32 128 < 16 * (485009 + 1) * (601).descFactorial 68 := by decide +kernel

end Picnic
