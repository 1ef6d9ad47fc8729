import Verif.Proofs.Soundness

/-
A small instance of ZKB++ in which everything is zero, except for the digests of strings that start with 4.
-/

namespace Picnic

open Spec Spec.Picnic1

/-- A function in place of the permutation: all bytes are 1 if the first byte of the argument is 4, otherwise 0. -/
def exF (s : Buf) : Buf := List.replicate 200 (if s.getD 0 0 = 4 then 1 else 0)

theorem rep_getD {n k : ℕ} {x : BitVec 8} (h : k < n) : (List.replicate n x).getD k 0 = x := by
  rw [List.getD_eq_getElem _ _ (by rwa [List.length_replicate]), List.getElem_replicate]

theorem rep_zero_getD (n k : ℕ) : (List.replicate n (0 : BitVec 8)).getD k 0 = 0 := by
  by_cases h : k < n
  · exact rep_getD h
  · rw [List.getD_eq_default _ _ (by rw [List.length_replicate]; omega)]

theorem exF_zero {s : Buf} (h : s.getD 0 0 ≠ 4) : exF s = List.replicate 200 0 := by rw [exF, if_neg h]

theorem iter_exF : ∀ n, iter exF n (List.replicate 200 0) = List.replicate 200 0
  | 0 => rfl
  | n + 1 => by rw [iter, exF_zero (by decide), iter_exF n]

theorem xor_head {st blk : Buf} (h : 0 < st.length) : (xorBlock st blk).getD 0 0 = st.getD 0 0 ^^^ blk.getD 0 0 := by
  rw [xorBlock, List.getD_eq_getElem _ _ (by simpa using h)]
  simp

theorem block_head {p : Buf} {rate i : ℕ} (hr : 0 < rate) : ((p.drop (rate * i)).take rate).getD 0 0 = p.getD (rate * i) 0 := by
  rw [List.getD_eq_getElem?_getD, List.getElem?_take_of_lt hr, List.getElem?_drop, Nat.add_zero, List.getD_eq_getElem?_getD]

theorem absorb_zero {rate : ℕ} (hr : 0 < rate) {p : Buf} (h : ∀ i, p.getD (rate * i) 0 ≠ 4) :
    absorbPadded exF rate p = List.replicate 200 0 := by
  unfold absorbPadded
  induction p.length / rate with
  | zero => rfl
  | succ n ih =>
    rw [List.range_succ, List.foldl_append, ih, List.foldl_cons, List.foldl_nil, exF_zero]
    rw [xor_head (by rw [List.length_replicate]; decide), block_head hr, rep_zero_getD]
    have := h n
    generalize p.getD (rate * n) 0 = x at this
    revert x
    decide

theorem pad_getD {rate : ℕ} {m : Buf} {k : ℕ} (h : m.getD k 0 ≠ 4) : (padShake rate m).getD k 0 ≠ 4 := by
  have key : ∀ l : Buf, (∀ x ∈ l, x ≠ 4) → (m ++ l).getD k 0 ≠ 4 := by
    intro l hl
    by_cases hk : k < m.length
    · rw [List.getD_append _ _ _ _ hk]; exact h
    · rw [List.getD_append_right _ _ _ _ (by omega)]
      by_cases hk2 : k - m.length < l.length
      · rw [List.getD_eq_getElem _ _ hk2]
        exact hl _ (List.getElem_mem _)
      · rw [List.getD_eq_default _ _ (by omega)]
        decide
  unfold padShake
  simp only
  split_ifs
  · exact key _ (by simp)
  · rw [List.append_assoc, List.append_assoc]
    refine key _ fun x hx => ?_
    simp only [List.mem_append, List.mem_singleton, List.mem_replicate] at hx
    rcases hx with rfl | ⟨-, rfl⟩ | rfl <;> decide

theorem hash_zero {rate : ℕ} (hr : 0 < rate) {m : Buf} (h : ∀ i, m.getD (rate * i) 0 ≠ 4) (n : ℕ) : shake exF rate m n = List.replicate n 0 := by
  rw [shake, absorb_zero hr fun i => pad_getD (h i), List.eq_replicate_iff]
  refine ⟨by simp, fun b hb => ?_⟩
  rw [List.mem_map] at hb
  obtain ⟨k, -, rfl⟩ := hb
  rw [streamByte, iter_exF, rep_zero_getD]

theorem hash_short {rate : ℕ} {m : Buf} (hm : m.length < rate) (h : m.getD 0 0 ≠ 4) (n : ℕ) : shake exF rate m n = List.replicate n 0 := by
  refine hash_zero (by omega) (fun i => ?_) n
  rcases Nat.eq_zero_or_pos i with rfl | hi
  · exact h
  · rw [List.getD_eq_default]
    · decide
    · have : rate * 1 ≤ rate * i := Nat.mul_le_mul_left _ hi
      omega

theorem hash_four {rate : ℕ} {m : Buf} (hm : m.length + 1 < rate) (n : ℕ) (hn : n ≤ rate) (h200 : rate ≤ 200) :
    shake exF rate (4 :: m) n = List.replicate n 1 := by
  have hp : absorbPadded exF rate (padShake rate (4 :: m)) = List.replicate 200 1 := by
    have hl : (padShake rate (4 :: m)).length / rate = 1 := by
      have hq : (4 :: m).length % rate = m.length + 1 := by rw [List.length_cons, Nat.mod_eq_of_lt hm]
      unfold padShake
      simp only [hq]
      have : ∀ l : Buf, l.length = rate → l.length / rate = 1 := fun l hl => by rw [hl]; exact Nat.div_self (by omega)
      split_ifs with h1
      · exact this _ (by simp; omega)
      · exact this _ (by simp; omega)
    have hh : (padShake rate (4 :: m)).getD 0 0 = 4 := by
      unfold padShake
      simp only
      split_ifs <;> rfl
    rw [absorbPadded, hl, show List.range 1 = [0] from rfl, List.foldl_cons, List.foldl_nil, exF, if_pos]
    rw [xor_head (by rw [List.length_replicate]; decide), block_head (by omega), Nat.mul_zero, hh, rep_zero_getD]
    rfl
  rw [shake, hp, List.eq_replicate_iff]
  refine ⟨by simp, fun b hb => ?_⟩
  rw [List.mem_map] at hb
  obtain ⟨k, hk, rfl⟩ := hb
  rw [List.mem_range] at hk
  rw [streamByte, Nat.div_eq_of_lt (by omega), Nat.mod_eq_of_lt (by omega), iter, rep_getD (by omega)]

theorem toBits_zero (n : ℕ) : toBits (List.replicate n 0) = 0 := by
  funext i
  rw [toBits, msbBit]
  rw [rep_zero_getD]
  simp

theorem ofBits_zero (n : ℕ) : Picnic1.ofBits n 0 = List.replicate n 0 := by
  rw [Picnic1.ofBits, List.eq_replicate_iff]
  refine ⟨by simp, fun b hb => ?_⟩
  rw [List.mem_map] at hb
  obtain ⟨k, -, rfl⟩ := hb
  simp

/-- LowMC without keys, linear layers and constants. -/
def nullCipher (n m r : ℕ) : LowMC := ⟨n, m, r, fun _ _ _ => 0, fun _ _ _ => 0, fun _ => 0⟩

theorem mulVec_zero' (n : ℕ) (v : Bits) : mulVec n (fun _ _ => 0) v = 0 := by
  funext i
  simp [mulVec]

theorem null_share (n m r : ℕ) (first : Bool) (key w : Bits) (t : ℕ) : Zkb.share (nullCipher n m r) first key w 0 t = 0 := by
  cases t with
  | zero => simp [Zkb.share, nullCipher, mulVec_zero']
  | succ t => simp [Zkb.share, nullCipher, mulVec_zero']

end Picnic
