import Verif.Proofs.Hash
import Verif.Proofs.Keccak
import Verif.Spec.Sponge

/-
The byte oriented specification `Spec.shake` with the Keccak permutation is SHAKE of FIPS 202 on bit strings.
-/

namespace Picnic

open Spec Spec.Keccak

/-! ### keccakP24 depends on the first 1600 bits only -/

theorem keccakP24_congr {S T : ℕ → Bool} (h : ∀ i < 1600, S i = T i) {i : ℕ} (hi : i < 1600) :
    keccakP24 S i = keccakP24 T i := by
  have h0 : StEq (ofString S) (ofString T) := fun x y z hx hy hz => h _ (by omega)
  have h1 := rounds_congr h0 24
  unfold keccakP24 Keccak.toString
  exact h1 (i / 64 % 5) (i / 320) (i % 64) (by omega) (by omega) (by omega)

/-! ### bits of byte strings -/

theorem toBits_length (b : Buf) : (toBits b).length = 8 * b.length := by simp [toBits]

theorem toBits_getD (b : Buf) (i : ℕ) : (toBits b).getD i false = bitOf b i := by
  by_cases h : i < 8 * b.length
  · simp [toBits, List.getD_eq_getElem?_getD, h]
  · have h8 : b.length ≤ i / 8 := by omega
    simp [toBits, bitOf, List.getD_eq_getElem?_getD, h, List.getElem?_eq_none h8]

theorem bitOf_append_left {a b : Buf} {i : ℕ} (h : i < 8 * a.length) : bitOf (a ++ b) i = bitOf a i := by
  have : i / 8 < a.length := by omega
  simp [bitOf, List.getD_eq_getElem?_getD, List.getElem?_append_left this]

theorem bitOf_append_right {a b : Buf} {i : ℕ} (h : 8 * a.length ≤ i) : bitOf (a ++ b) i = bitOf b (i - 8 * a.length) := by
  have : a.length ≤ i / 8 := by omega
  have e1 : i / 8 - a.length = (i - 8 * a.length) / 8 := by omega
  have e2 : i % 8 = (i - 8 * a.length) % 8 := by omega
  unfold bitOf
  rw [List.getD_eq_getElem?_getD, List.getElem?_append_right this, ← List.getD_eq_getElem?_getD, e1, e2]

theorem toBits_append (a b : Buf) : toBits (a ++ b) = toBits a ++ toBits b := by
  apply List.ext_getElem
  · simp [toBits_length]; omega
  · intro i h1 h2
    simp only [toBits_length, List.length_append] at h1
    by_cases hi : i < 8 * a.length
    · rw [List.getElem_append_left (by simpa [toBits_length] using hi)]
      simp [toBits, bitOf_append_left hi]
    · rw [List.getElem_append_right (by simp [toBits_length]; omega)]
      simp [toBits, bitOf_append_right (show 8 * a.length ≤ i by omega)]

theorem toBits_replicate (n : ℕ) : toBits (List.replicate n 0) = List.replicate (8 * n) false := by
  apply List.ext_getElem
  · simp [toBits]
  · intro i h1 h2
    have h1' : i < 8 * n := by simpa [toBits] using h1
    have h8 : i / 8 < n := by omega
    simp [toBits, bitOf, List.getD_eq_getElem?_getD, h8]

/-- The byte padding of `Spec.padShake` is the suffix 1111 followed by pad10*1. -/
theorem toBits_padShake (rate : ℕ) (hr : 0 < rate) (m : Buf) :
    toBits (padShake rate m) = (toBits m ++ [true, true, true, true]) ++
      pad101 (8 * rate) (toBits m ++ [true, true, true, true]).length := by
  have hlt := Nat.mod_lt m.length hr
  have hdm := Nat.div_add_mod m.length rate
  set q := m.length % rate with hq
  set k := m.length / rate with hk
  have hl : (toBits m ++ [true, true, true, true]).length = 8 * m.length + 4 := by simp [toBits_length]
  rw [hl]
  have hj : (8 * rate - (8 * m.length + 4 + 2) % (8 * rate)) % (8 * rate) = 8 * (rate - q) - 6 := by
    have e1 : 8 * m.length + 4 + 2 = (8 * rate) * k + (8 * q + 6) := by
      rw [← hdm]; ring
    rw [e1, Nat.mul_add_mod]
    have hlt2 : 8 * q + 6 < 8 * rate := by omega
    rw [Nat.mod_eq_of_lt hlt2, Nat.mod_eq_of_lt (by omega)]
    omega
  simp only [padShake, ← hq, pad101, hj]
  by_cases h1 : rate - q = 1
  · rw [if_pos h1, toBits_append, h1, List.append_assoc]
    congr 1
  · rw [if_neg h1, toBits_append, toBits_append, toBits_append, toBits_replicate]
    have : 8 * (rate - q) - 6 = 3 + (8 * (rate - q - 2) + 7) := by omega
    rw [this, List.replicate_add, List.replicate_add]
    simp only [List.append_assoc]
    congr 1

/-! ### the sponge -/

theorem bitOf_xorBlock {st blk : Buf} {i : ℕ} (h : i < 8 * st.length) :
    bitOf (xorBlock st blk) i = (bitOf st i ^^ bitOf blk i) := by
  have h8 : i / 8 < st.length := by omega
  simp [bitOf, xorBlock, List.getD_eq_getElem?_getD, h8]

theorem xorBlock_length (st blk : Buf) : (xorBlock st blk).length = st.length := by simp [xorBlock]

theorem bitOf_block {p : Buf} {rate k i : ℕ} :
    bitOf ((p.drop (rate * k)).take rate) i =
      if i < 8 * rate then (toBits p).getD (8 * rate * k + i) false else false := by
  rw [toBits_getD]
  by_cases h : i < 8 * rate
  · rw [if_pos h]
    have h8 : i / 8 < rate := by omega
    have e : 8 * rate * k + i = 8 * (rate * k) + i := by ring
    rw [e]
    unfold bitOf
    rw [show (8 * (rate * k) + i) / 8 = rate * k + i / 8 by omega, show (8 * (rate * k) + i) % 8 = i % 8 by omega]
    simp [List.getD_eq_getElem?_getD, List.getElem?_take_of_lt h8]
  · rw [if_neg h]
    have : rate ≤ i / 8 := by omega
    unfold bitOf
    rw [List.getD_eq_getElem?_getD, List.getElem?_eq_none (by simp; omega)]
    simp

theorem absorb_spec (rate : ℕ) (hr : 0 < rate) (m : Buf) :
    (absorbPadded keccakPerm rate (padShake rate m)).length = 200 ∧
    ∀ i < 1600, bitOf (absorbPadded keccakPerm rate (padShake rate m)) i =
      absorb (8 * rate) (toBits m ++ [true, true, true, true]) i := by
  unfold absorbPadded absorb
  simp only [← toBits_padShake rate hr, toBits_length]
  generalize padShake rate m = p
  rw [Nat.mul_div_mul_left _ _ (by omega)]
  generalize p.length / rate = n
  induction n with
  | zero =>
    refine ⟨List.length_replicate .., fun i hi => ?_⟩
    have h8 : i / 8 < 200 := by omega
    change bitOf (List.replicate 200 0) i = false
    rw [bitOf, List.getD_eq_getElem?_getD, List.getElem?_replicate, if_pos h8]
    simp
  | succ n ih =>
    simp only [List.range_succ, List.foldl_append, List.foldl_cons, List.foldl_nil]
    generalize hst : (List.range n).foldl
      (fun st i => keccakPerm (xorBlock st ((p.drop (rate * i)).take rate))) (List.replicate 200 0) = st at ih
    generalize (List.range n).foldl (fun S k => keccakP24 fun i => S i ^^
      (if i < 8 * rate then (toBits p).getD (8 * rate * k + i) false else false)) (fun _ => false) = S at ih
    obtain ⟨h1, h2⟩ := ih
    obtain ⟨-, g1, g2⟩ := keccakPerm_spec (state := xorBlock st ((p.drop (rate * n)).take rate))
      (by rw [xorBlock_length, h1])
    refine ⟨g1, fun i hi => ?_⟩
    rw [g2 i hi]
    refine keccakP24_congr (fun j hj => ?_) hi
    rw [bitOf_xorBlock (by omega), h2 j hj, bitOf_block]

theorem iter_spec {st : Buf} {S : ℕ → Bool} (h1 : st.length = 200) (h2 : ∀ i < 1600, bitOf st i = S i) (q : ℕ) :
    (iter keccakPerm q st).length = 200 ∧ ∀ i < 1600, bitOf (iter keccakPerm q st) i = squeezeState q S i := by
  induction q with
  | zero => exact ⟨h1, h2⟩
  | succ q ih =>
    rw [iter_succ']
    obtain ⟨g1, g2⟩ := ih
    obtain ⟨-, k1, k2⟩ := keccakPerm_spec g1
    exact ⟨k1, fun i hi => by rw [k2 i hi]; exact keccakP24_congr g2 hi⟩

/-- SHAKE on byte strings is the sponge of FIPS 202 on bit strings. -/
theorem shake_spec (rate : ℕ) (hr : 0 < rate) (hr2 : rate ≤ 200) (m : Buf) (d : ℕ) :
    toBits (shake keccakPerm rate m d) = sponge (8 * rate) (toBits m ++ [true, true, true, true]) (8 * d) := by
  obtain ⟨h1, h2⟩ := absorb_spec rate hr m
  unfold sponge
  apply List.ext_getElem
  · simp [toBits, shake]
  · intro i hi _
    have hi' : i < 8 * d := by simpa [toBits, shake] using hi
    have h8 : i / 8 < d := by omega
    have e0 : (toBits (shake keccakPerm rate m d))[i] = bitOf (shake keccakPerm rate m d) i := by simp [toBits]
    rw [e0]
    simp only [List.getElem_map, List.getElem_range]
    obtain ⟨g1, g2⟩ := iter_spec h1 h2 (i / (8 * rate))
    have hm : i % (8 * rate) < 8 * rate := Nat.mod_lt _ (by omega)
    rw [← g2 _ (by omega)]
    unfold bitOf shake streamByte
    have e1 : i / 8 / rate = i / (8 * rate) := Nat.div_div_eq_div_mul i 8 rate
    have e2 : i / 8 % rate = i % (8 * rate) / 8 := (Nat.mod_mul_right_div_self i 8 rate).symm
    have e3 : i % (8 * rate) % 8 = i % 8 := Nat.mod_mul_right_mod i 8 rate
    simp [List.getD_eq_getElem?_getD, h8, e1, e2, e3]

end Picnic
