import Verif.Spec.Zkb
import Verif.Proofs.LowMC
import Mathlib.Tactic.LinearCombination
import Mathlib.Tactic.Abel

/-
Facts about the decomposition of LowMC in Verif/Spec/Zkb.lean.
-/

namespace Picnic

open Finset Spec Spec.Zkb

theorem subShare_succ (k : ℕ) (s w : Bits) :
    subShare (k + 1) s w =
      Function.update (Function.update (Function.update (subShare k s w)
        (3 * k + 2) (s (3 * k + 2) + w (3 * k + 1)))
        (3 * k + 1) (s (3 * k + 2) + s (3 * k + 1) + w (3 * k + 2)))
        (3 * k) (s (3 * k + 2) + s (3 * k + 1) + s (3 * k) + w (3 * k)) := by
  funext i
  simp only [Function.update_apply, subShare]
  by_cases h : i < 3 * k
  · rw [if_pos (show i < 3 * (k + 1) by omega), if_neg (show ¬ i = 3 * k by omega),
      if_neg (show ¬ i = 3 * k + 1 by omega), if_neg (show ¬ i = 3 * k + 2 by omega), if_pos h]
  · by_cases h2 : i < 3 * (k + 1)
    · have hq : i / 3 = k := by omega
      rw [if_pos h2, hq]
      by_cases h0 : i = 3 * k
      · rw [if_neg (by omega), if_neg (by omega), if_pos h0]
      · rw [if_neg h0]
        by_cases h1 : i = 3 * k + 1
        · rw [if_neg (by omega), if_pos (by omega), if_pos h1]
        · rw [if_neg h1, if_pos (by omega), if_pos (by omega)]
    · rw [if_neg h2, if_neg (by omega), if_neg (by omega), if_neg (by omega), if_neg h]

theorem subShare_ge {k i : ℕ} (s w : Bits) (h : 3 * k ≤ i) : subShare k s w i = s i := by
  simp only [subShare]; rw [if_neg (by omega)]

theorem subShare_congr {m n : ℕ} (h : 3 * m ≤ n) {s t w w' : Bits} (hst : ∀ i < n, s i = t i)
    (hw : ∀ i < 3 * m, w i = w' i) : ∀ i < n, subShare m s w i = subShare m t w' i := by
  intro i hi
  simp only [subShare]
  by_cases h3 : i < 3 * m
  · rw [if_pos h3, if_pos h3, hst _ (by omega), hst _ (by omega), hst _ (by omega), hw _ (by omega), hw _ (by omega),
      hw _ (by omega)]
  · rw [if_neg h3, if_neg h3, hst i hi]

/-- A share after t rounds depends on the first n bits of key and plaintext and the gate bits of the rounds before. -/
theorem share_congr {X : Spec.LowMC} (hm : 3 * X.m ≤ X.n) {first : Bool} {key key' w w' pt pt' : Bits}
    (hk : ∀ i < X.n, key i = key' i) (hp : ∀ i < X.n, pt i = pt' i) (t : ℕ) (hw : ∀ i < 3 * X.m * t, w i = w' i) :
    ∀ i < X.n, share X first key w pt t i = share X first key' w' pt' t i := by
  induction t with
  | zero =>
    intro i hi
    cases first <;> simp [share, mulVec_congr hk, hp i hi]
  | succ t ih =>
    have hmul : 3 * X.m * (t + 1) = 3 * X.m * t + 3 * X.m := by ring
    intro i hi
    simp only [share, Pi.add_apply, mulVec_congr hk]
    rw [mulVec_congr (subShare_congr hm (ih fun i hi => hw i (by omega)) fun i hi => hw _ (by omega))]

theorem gateL_congr {m n : ℕ} (hm : 3 * m ≤ n) {s s' : Bits} (h : ∀ i < n, s i = s' i) {k j : ℕ} (hk : k < m) :
    gateL s k j = gateL s' k j := by
  simp only [gateL]
  rw [h _ (by omega), h _ (by omega), h _ (by omega)]

theorem gateR_congr {m n : ℕ} (hm : 3 * m ≤ n) {s s' : Bits} (h : ∀ i < n, s i = s' i) {k j : ℕ} (hk : k < m) :
    gateR s k j = gateR s' k j := by
  simp only [gateR]
  rw [h _ (by omega), h _ (by omega), h _ (by omega)]

/-- Gate numbers. -/
theorem gate_index {m r p : ℕ} (hp : p < 3 * m * r) :
    ∃ t k j, t < r ∧ k < m ∧ j < 3 ∧ p = 3 * m * t + 3 * k + j := by
  have hm : 0 < 3 * m := by
    rcases Nat.eq_zero_or_pos (3 * m) with h | h
    · rw [h] at hp; simp at hp
    · exact h
  refine ⟨p / (3 * m), p % (3 * m) / 3, p % (3 * m) % 3, Nat.div_lt_of_lt_mul hp, ?_, Nat.mod_lt _ (by omega), ?_⟩
  · have := Nat.mod_lt p hm; omega
  · have := Nat.div_add_mod p (3 * m); omega

theorem gate_lt {m r t k j : ℕ} (ht : t < r) (hk : k < m) (hj : j < 3) : 3 * m * t + 3 * k + j < 3 * m * r := by
  calc 3 * m * t + 3 * k + j < 3 * m * t + 3 * m := by omega
    _ = 3 * m * (t + 1) := by ring
    _ ≤ _ := Nat.mul_le_mul_left _ ht

/-- Views that agree on everything that matters. -/
structure ViewEq (X : Spec.LowMC) (v v' : Zkb.View) : Prop where
  key : ∀ i < X.n, v.key i = v'.key i
  gates : ∀ p < 3 * X.m * X.r, v.gates p = v'.gates p
  tape : ∀ p < 3 * X.m * X.r, v.tape p = v'.tape p

theorem mul_le_of_le {m t r : ℕ} (h : t ≤ r) : 3 * m * t ≤ 3 * m * r := Nat.mul_le_mul_left _ h

theorem consistent_congr {X : Spec.LowMC} (hm : 3 * X.m ≤ X.n) {pt pt' : Bits} {i : ℕ} {v v' u u' : Zkb.View}
    (hp : ∀ i < X.n, pt i = pt' i) (h : ViewEq X v u) (h' : ViewEq X v' u') :
    Consistent X pt i v v' → Consistent X pt' i u u' := by
  intro hc t ht k hk j hj
  have hlt := gate_lt ht hk hj
  have hs : ∀ first, ∀ i < X.n, share X first v.key v.gates pt t i = share X first u.key u.gates pt' t i := fun f =>
    share_congr hm h.key hp t fun p hp => h.gates p (lt_of_lt_of_le hp (mul_le_of_le ht.le))
  have hs' : ∀ first, ∀ i < X.n, share X first v'.key v'.gates pt t i = share X first u'.key u'.gates pt' t i := fun f =>
    share_congr hm h'.key hp t fun p hp => h'.gates p (lt_of_lt_of_le hp (mul_le_of_le ht.le))
  have := hc t ht k hk j hj
  simp only at this ⊢
  rw [← h.gates _ hlt, ← h.tape _ hlt, ← h'.tape _ hlt, ← gateL_congr hm (hs _) hk, ← gateR_congr hm (hs _) hk,
    ← gateL_congr hm (hs' _) hk, ← gateR_congr hm (hs' _) hk]
  exact this

/-- Consistency determines the gate bits of the party from its key share and tape and the next party's view. -/
theorem consistent_unique {X : Spec.LowMC} (hm : 3 * X.m ≤ X.n) {pt : Bits} {i : ℕ} {v u v' u' : Zkb.View}
    (hk : ∀ i < X.n, v.key i = u.key i) (ht : ∀ p < 3 * X.m * X.r, v.tape p = u.tape p) (h' : ViewEq X v' u')
    (hv : Consistent X pt i v v') (hu : Consistent X pt i u u') :
    ∀ p < 3 * X.m * X.r, v.gates p = u.gates p := by
  have key : ∀ t ≤ X.r, ∀ p < 3 * X.m * t, v.gates p = u.gates p := by
    intro t
    induction t with
    | zero => intro _ p hp; simp at hp
    | succ t ih =>
      intro htr p hp
      have ih := ih (by omega)
      have hmul : 3 * X.m * (t + 1) = 3 * X.m * t + 3 * X.m := by ring
      by_cases hpt : p < 3 * X.m * t
      · exact ih p hpt
      obtain ⟨k, j, hkm, hj, rfl⟩ : ∃ k j, k < X.m ∧ j < 3 ∧ p = 3 * X.m * t + 3 * k + j :=
        ⟨(p - 3 * X.m * t) / 3, (p - 3 * X.m * t) % 3, by omega, by omega, by omega⟩
      have hlt := gate_lt (show t < X.r by omega) hkm hj
      have e1 := hv t (by omega) k hkm j hj
      have e2 := hu t (by omega) k hkm j hj
      simp only at e1 e2
      rw [e1, e2]
      have hs : ∀ first, ∀ i < X.n, share X first v.key v.gates pt t i = share X first u.key u.gates pt t i := fun f =>
        share_congr hm hk (fun _ _ => rfl) t ih
      have hs' : ∀ first, ∀ i < X.n, share X first v'.key v'.gates pt t i = share X first u'.key u'.gates pt t i :=
        fun f => share_congr hm h'.key (fun _ _ => rfl) t fun p hp =>
          h'.gates p (lt_of_lt_of_le hp (mul_le_of_le (by omega)))
      rw [gateL_congr hm (hs _) hkm, gateR_congr hm (hs _) hkm, gateL_congr hm (hs' _) hkm, gateR_congr hm (hs' _) hkm,
        ht _ hlt, h'.tape _ hlt]
  exact key X.r (le_refl _)

theorem andShare_sum (x0 y0 x1 y1 x2 y2 r0 r1 r2 : ZMod 2) :
    andShare x0 y0 x1 y1 r0 r1 + andShare x1 y1 x2 y2 r1 r2 + andShare x2 y2 x0 y0 r2 r0 =
      (x0 + x1 + x2) * (y0 + y1 + y2) := by
  unfold andShare
  have h : ∀ a : ZMod 2, a + a = 0 := zmod2_add_self
  linear_combination h r0 + h r1 + h r2

theorem gateL_add (s s' : Bits) (k j : ℕ) : gateL (s + s') k j = gateL s k j + gateL s' k j := by
  simp only [gateL, Pi.add_apply]; split_ifs <;> rfl
theorem gateR_add (s s' : Bits) (k j : ℕ) : gateR (s + s') k j = gateR s k j + gateR s' k j := by
  simp only [gateR, Pi.add_apply]; split_ifs <;> rfl

/-- With consistent views the shares add up to the state of LowMC. -/
theorem share_sum {X : Spec.LowMC} {pt : Bits} {v0 v1 v2 : Zkb.View} (h0 : Consistent X pt 0 v0 v1)
    (h1 : Consistent X pt 1 v1 v2) (h2 : Consistent X pt 2 v2 v0) (t : ℕ) (ht : t ≤ X.r) :
    share X true v0.key v0.gates pt t + share X false v1.key v1.gates pt t + share X false v2.key v2.gates pt t =
      X.state (v0.key + v1.key + v2.key) pt t := by
  induction t with
  | zero =>
    simp only [share, LowMC.state, mulVec_add, if_true, Bool.false_eq_true, if_false]
    abel
  | succ t ih =>
    have ih := ih (by omega)
    simp only [share, LowMC.state, mulVec_add]
    have key : subShare X.m (share X true v0.key v0.gates pt t) (fun i => v0.gates (3 * X.m * t + i)) +
        subShare X.m (share X false v1.key v1.gates pt t) (fun i => v1.gates (3 * X.m * t + i)) +
        subShare X.m (share X false v2.key v2.gates pt t) (fun i => v2.gates (3 * X.m * t + i)) =
        sboxLayer X.m (X.state (v0.key + v1.key + v2.key) pt t) := by
      rw [← ih]
      funext i
      simp only [Pi.add_apply, subShare, sboxLayer, sbox]
      by_cases hi : i < 3 * X.m
      · simp only [if_pos hi]
        have hk : i / 3 < X.m := by omega
        have g : ∀ j < 3, v0.gates (3 * X.m * t + (3 * (i / 3) + j)) + v1.gates (3 * X.m * t + (3 * (i / 3) + j)) +
            v2.gates (3 * X.m * t + (3 * (i / 3) + j)) = _ := fun j hj => by
          have e0 := h0 t (by omega) (i / 3) hk j hj
          have e1 := h1 t (by omega) (i / 3) hk j hj
          have e2 := h2 t (by omega) (i / 3) hk j hj
          simp only [show decide (0 = 0) = true from rfl, show decide ((0 + 1) % 3 = 0) = false from rfl,
            show decide (1 = 0) = false from rfl, show decide ((1 + 1) % 3 = 0) = false from rfl,
            show decide (2 = 0) = false from rfl, show decide ((2 + 1) % 3 = 0) = true from rfl] at e0 e1 e2
          rw [← Nat.add_assoc (3 * X.m * t), e0, e1, e2, andShare_sum, decide_true]
        have g0 := g 0 (by omega)
        have g1 := g 1 (by omega)
        have g2 := g 2 (by omega)
        simp only [gateL, gateR, if_true, if_false, OfNat.ofNat_ne_zero, OfNat.ofNat_ne_one, one_ne_zero, Nat.add_zero]
          at g0 g1 g2
        by_cases h2' : i % 3 = 2
        · simp only [if_pos h2']
          linear_combination g1
        · simp only [if_neg h2']
          by_cases h1' : i % 3 = 1
          · simp only [if_pos h1']
            linear_combination g2
          · simp only [if_neg h1']
            linear_combination g0
      · simp only [if_neg hi]
    rw [← key]
    simp only [mulVec_add, if_true, Bool.false_eq_true, if_false]
    abel

/-- The output shares of consistent views add up to the LowMC encryption under the sum of the key shares. -/
theorem output_sum {X : Spec.LowMC} {pt : Bits} {v0 v1 v2 : Zkb.View} (h0 : Consistent X pt 0 v0 v1)
    (h1 : Consistent X pt 1 v1 v2) (h2 : Consistent X pt 2 v2 v0) :
    output X pt 0 v0 + output X pt 1 v1 + output X pt 2 v2 = X.enc (v0.key + v1.key + v2.key) pt :=
  share_sum h0 h1 h2 X.r (le_refl _)

end Picnic
