import Verif.Model.Sha3
import Verif.Spec.Sha3
import Verif.Proofs.Fips

/-
The SHA-3 library in general: padding with an arbitrary suffix, arbitrary rate.
-/

namespace Picnic.Sha3

open Spec Spec.Keccak

/-! ### delimited bits -/

theorem log2_shift {x j s : ℕ} (hx : x < 2 ^ j) (hs : 0 < s) : Nat.log2 (x + 2 ^ j * s) = j + Nat.log2 s := by
  have h1 := Nat.log2_self_le (n := s) (by omega)
  have h2 := Nat.lt_log2_self (n := s)
  have h0 : x + 2 ^ j * s ≠ 0 := by positivity
  rw [Nat.log2_eq_iff h0]
  constructor
  · rw [pow_add]
    have := Nat.mul_le_mul_left (2 ^ j) h1
    omega
  · have h3 : s + 1 ≤ 2 ^ (Nat.log2 s + 1) := h2
    have := Nat.mul_le_mul_left (2 ^ j) h3
    rw [show j + Nat.log2 s + 1 = j + (Nat.log2 s + 1) by omega, pow_add]
    rw [Nat.mul_add] at this
    omega

theorem delimited_shift {x j s : ℕ} (hx : x < 2 ^ j) (hs : 0 < s) :
    delimited (x + 2 ^ j * s) = (List.range j).map x.testBit ++ delimited s := by
  unfold delimited
  rw [log2_shift hx hs, List.range_add, List.map_append, List.map_map]
  have e : x + 2 ^ j * s = 2 ^ j * s + x := by omega
  congr 1
  · refine List.map_congr_left fun i hi => ?_
    rw [List.mem_range] at hi
    rw [e, Nat.testBit_two_pow_mul_add _ hx, if_pos hi]
  · refine List.map_congr_left fun i _ => ?_
    simp only [Function.comp]
    rw [e, Nat.testBit_two_pow_mul_add _ hx, if_neg (by omega), Nat.add_sub_cancel_left]

/-! ### the padding -/

/-- Suffix and pad10*1 for byte strings. -/
def padSuffix (rate : ℕ) (s : Byte) (m : Buf) : Buf :=
  if rate - m.length % rate = 1 then
    if s.toNat ≥ 0x80 then m ++ ([s] ++ (List.replicate (rate - 1) 0 ++ [0x80])) else m ++ [s ^^^ 0x80]
  else m ++ ([s] ++ (List.replicate (rate - m.length % rate - 2) 0 ++ [0x80]))

theorem bits_suffix : ∀ n < 256, 0 < n → toBits [BitVec.ofNat 8 n] = delimited n ++ ([true] ++ List.replicate (7 - Nat.log2 n) false) := by
  decide +kernel

theorem bits_suffix80 : ∀ n < 128, 0 < n →
    toBits [BitVec.ofNat 8 n ^^^ 0x80] = delimited n ++ ([true] ++ (List.replicate (6 - Nat.log2 n) false ++ [true])) := by
  decide +kernel

theorem log2_lt {n : ℕ} (h : n < 256) (hn : 0 < n) : Nat.log2 n ≤ 7 := by
  have := (Nat.log2_lt (n := n) (by omega) (k := 8)).2 h
  omega

theorem toBits_padSuffix (rate : ℕ) (hr : 0 < rate) (s : Byte) (hs : s ≠ 0) (m : Buf) :
    toBits (padSuffix rate s m) = (toBits m ++ delimited s.toNat) ++ pad101 (8 * rate) (toBits m ++ delimited s.toNat).length := by
  have hlt := Nat.mod_lt m.length hr
  have hdm := Nat.div_add_mod m.length rate
  have hs0 : 0 < s.toNat := by
    rcases Nat.eq_zero_or_pos s.toNat with h | h
    · exact absurd (BitVec.eq_of_toNat_eq h) hs
    · exact h
  have hs1 : s.toNat < 256 := s.isLt
  have hl7 := log2_lt hs1 hs0
  have hsb : toBits [s] = delimited s.toNat ++ ([true] ++ List.replicate (7 - Nat.log2 s.toNat) false) := by
    have := bits_suffix s.toNat hs1 hs0
    rwa [BitVec.ofNat_toNat, BitVec.setWidth_eq] at this
  set q := m.length % rate with hq
  set k := m.length / rate with hk
  set l := Nat.log2 s.toNat with hl
  have hdl : (delimited s.toNat).length = l := by simp [delimited, hl]
  have hlen : (toBits m ++ delimited s.toNat).length = 8 * m.length + l := by simp [toBits_length, hdl]
  rw [hlen]
  have e1 : 8 * m.length + l + 2 = (8 * rate) * k + (8 * q + l + 2) := by rw [← hdm]; ring
  have h80 : toBits [(0x80 : Byte)] = List.replicate 7 false ++ [true] := by decide
  unfold padSuffix pad101
  rw [e1, Nat.mul_add_mod, ← hq]
  by_cases h1 : rate - q = 1
  · rw [if_pos h1]
    by_cases h8 : s.toNat ≥ 0x80
    · rw [if_pos h8]
      have hl' : l = 7 := by
        have : 7 ≤ l := (Nat.le_log2 (n := s.toNat) (by omega) (k := 7)).2 h8
        omega
      rw [toBits_append, toBits_append, toBits_append, hsb, toBits_replicate, h80, hl',
        show 8 * q + 7 + 2 = 8 * rate + 1 by omega, Nat.add_mod_left]
      simp only [List.append_assoc]
      congr 2
      by_cases hr1 : rate = 1
      · subst hr1; decide
      · rw [Nat.mod_eq_of_lt (show 1 < 8 * rate by omega), Nat.mod_eq_of_lt (by omega),
          show 8 * rate - 1 = 8 * (rate - 1) + 7 by omega, List.replicate_add]
        simp only [List.append_assoc]
        rfl
    · rw [if_neg h8]
      have hsb2 : toBits [s ^^^ 0x80] = delimited s.toNat ++ ([true] ++ (List.replicate (6 - l) false ++ [true])) := by
        have := bits_suffix80 s.toNat (by omega) hs0
        rwa [BitVec.ofNat_toNat, BitVec.setWidth_eq] at this
      have hl' : l < 7 := (Nat.log2_lt (n := s.toNat) (by omega) (k := 7)).2 (by omega)
      rw [toBits_append, hsb2]
      simp only [List.append_assoc]
      congr 2
      have : (8 * rate - (8 * q + l + 2) % (8 * rate)) % (8 * rate) = 6 - l := by
        rcases Nat.lt_or_ge (8 * q + l + 2) (8 * rate) with h | h
        · rw [Nat.mod_eq_of_lt h, Nat.mod_eq_of_lt (by omega)]; omega
        · rw [show 8 * q + l + 2 = 8 * rate by omega, Nat.mod_self, Nat.sub_zero, Nat.mod_self]; omega
      rw [this]
  · rw [if_neg h1, toBits_append, toBits_append, toBits_append, hsb, toBits_replicate, h80]
    simp only [List.append_assoc]
    congr 2
    rw [Nat.mod_eq_of_lt (show 8 * q + l + 2 < 8 * rate by omega), Nat.mod_eq_of_lt (by omega),
      show 8 * rate - (8 * q + l + 2) = (7 - l) + (8 * (rate - q - 2) + 7) by omega, List.replicate_add, List.replicate_add]
    simp only [List.append_assoc]

theorem padSuffix_length (rate : ℕ) (hr : 0 < rate) (s : Byte) (m : Buf) : rate ∣ (padSuffix rate s m).length := by
  have hlt := Nat.mod_lt m.length hr
  have hdm := Nat.div_add_mod m.length rate
  unfold padSuffix
  split
  · split
    · refine ⟨m.length / rate + 2, ?_⟩
      simp only [List.length_append, List.length_cons, List.length_nil, List.length_replicate, Nat.mul_add]
      omega
    · refine ⟨m.length / rate + 1, ?_⟩
      simp only [List.length_append, List.length_cons, List.length_nil, Nat.mul_add]
      omega
  · refine ⟨m.length / rate + 1, ?_⟩
    simp only [List.length_append, List.length_cons, List.length_nil, List.length_replicate, Nat.mul_add]
    omega

/-! ### the sponge over a permutation of bit strings -/

/-- `p` computes the permutation `f` of bit strings. -/
structure PermBits (p : Buf → Buf) (f : (ℕ → Bool) → ℕ → Bool) : Prop where
  len : ∀ s : Buf, s.length = 200 → (p s).length = 200
  bits : ∀ s : Buf, s.length = 200 → ∀ i < 1600, bitOf (p s) i = f (bitOf s) i
  congr : ∀ S T : ℕ → Bool, (∀ i < 1600, S i = T i) → ∀ i < 1600, f S i = f T i

theorem absorb_bits {p : Buf → Buf} {f : (ℕ → Bool) → ℕ → Bool} (hp : PermBits p f) (rate : ℕ) (N : List Bool) (b : Buf)
    (hb : toBits b = N ++ pad101 (8 * rate) N.length) :
    (absorbPadded p rate b).length = 200 ∧ ∀ i < 1600, bitOf (absorbPadded p rate b) i = absorbOf f (8 * rate) N i := by
  unfold absorbPadded absorbOf
  simp only [← hb, toBits_length]
  rw [Nat.mul_div_mul_left _ _ (by omega)]
  generalize b.length / rate = n
  induction n with
  | zero =>
    refine ⟨List.length_replicate .., fun i hi => ?_⟩
    have h8 : i / 8 < 200 := by omega
    change bitOf (List.replicate 200 0) i = false
    rw [bitOf, List.getD_eq_getElem?_getD, List.getElem?_replicate, if_pos h8]
    simp
  | succ n ih =>
    simp only [List.range_succ, List.foldl_append, List.foldl_cons, List.foldl_nil]
    generalize hst : (List.range n).foldl
      (fun st i => p (xorBlock st ((b.drop (rate * i)).take rate))) (List.replicate 200 0) = st at ih
    generalize (List.range n).foldl (fun S k => f fun i => S i ^^
      (if i < 8 * rate then (toBits b).getD (8 * rate * k + i) false else false)) (fun _ => false) = S at ih
    obtain ⟨h1, h2⟩ := ih
    have hl : (xorBlock st ((b.drop (rate * n)).take rate)).length = 200 := by rw [xorBlock_length, h1]
    refine ⟨hp.len _ hl, fun i hi => ?_⟩
    rw [hp.bits _ hl i hi]
    refine hp.congr _ _ (fun j hj => ?_) i hi
    rw [bitOf_xorBlock (by omega), h2 j hj, bitOf_block]

theorem iter_bits {p : Buf → Buf} {f : (ℕ → Bool) → ℕ → Bool} (hp : PermBits p f) {st : Buf} {S : ℕ → Bool} (h1 : st.length = 200)
    (h2 : ∀ i < 1600, bitOf st i = S i) (q : ℕ) :
    (iter p q st).length = 200 ∧ ∀ i < 1600, bitOf (iter p q st) i = iterOf f q S i := by
  induction q with
  | zero => exact ⟨h1, h2⟩
  | succ q ih =>
    rw [iter_succ']
    obtain ⟨g1, g2⟩ := ih
    exact ⟨hp.len _ g1, fun i hi => by rw [hp.bits _ g1 i hi]; exact hp.congr _ _ g2 i hi⟩

/-- The bytes of the output stream after absorbing the padded string `b` are those of the sponge. -/
theorem stream_bits {p : Buf → Buf} {f : (ℕ → Bool) → ℕ → Bool} (hp : PermBits p f) (rate : ℕ) (hr : 0 < rate) (hr2 : rate ≤ 200)
    (N : List Bool) (b : Buf) (hb : toBits b = N ++ pad101 (8 * rate) N.length) (d : ℕ) :
    toBits ((List.range d).map (streamByte p rate (absorbPadded p rate b))) = spongeOf f (8 * rate) N (8 * d) := by
  obtain ⟨h1, h2⟩ := absorb_bits hp rate N b hb
  unfold spongeOf
  apply List.ext_getElem
  · simp [toBits]
  · intro i hi _
    have hi' : i < 8 * d := by simpa [toBits] using hi
    have h8 : i / 8 < d := by omega
    have e0 : (toBits ((List.range d).map (streamByte p rate (absorbPadded p rate b))))[i] =
      bitOf ((List.range d).map (streamByte p rate (absorbPadded p rate b))) i := by simp [toBits]
    rw [e0]
    simp only [List.getElem_map, List.getElem_range]
    obtain ⟨g1, g2⟩ := iter_bits hp h1 h2 (i / (8 * rate))
    have hm : i % (8 * rate) < 8 * rate := Nat.mod_lt _ (by omega)
    rw [← g2 _ (by omega)]
    unfold bitOf streamByte
    have e1 : i / 8 / rate = i / (8 * rate) := Nat.div_div_eq_div_mul i 8 rate
    have e2 : i / 8 % rate = i % (8 * rate) / 8 := (Nat.mod_mul_right_div_self i 8 rate).symm
    have e3 : i % (8 * rate) % 8 = i % 8 := Nat.mod_mul_right_mod i 8 rate
    simp [List.getD_eq_getElem?_getD, h8, e1, e2, e3]

/-! ### the final state -/

theorem fold_pos (f : Buf → Buf) (rate : ℕ) (hr : 0 < rate) (st : Buf) (m : Buf) :
    (m.foldl (absB f rate) (st, 0)).2 = m.length % rate := by
  induction m using List.reverseRecOn with
  | nil => simp
  | append_singleton l b ih =>
    simp only [List.foldl_append, List.foldl_cons, List.foldl_nil, absB, ih, List.length_append, List.length_cons, List.length_nil]
    have hlt := Nat.mod_lt l.length hr
    rw [Nat.zero_add, ← Nat.mod_add_mod]
    split
    · next h => rw [h, Nat.mod_self]
    · next h => exact (Nat.mod_eq_of_lt (by omega)).symm

theorem fold_len {f : Buf → Buf} {rate : ℕ} (hf : ∀ s : Buf, s.length = 200 → (f s).length = 200) (st : Buf) (hst : st.length = 200) (pos : ℕ)
    (m : Buf) : (m.foldl (absB f rate) (st, pos)).1.length = 200 := by
  induction m using List.reverseRecOn with
  | nil => exact hst
  | append_singleton l b ih =>
    simp only [List.foldl_append, List.foldl_cons, List.foldl_nil, absB]
    split
    · exact hf _ (by simp [ih])
    · simp [ih]

/-- Suffix, padding and final permutation on a state with `pos` bytes of the block absorbed. -/
def finish (f : Buf → Buf) (rate : ℕ) (s : Byte) (S : Buf) (pos : ℕ) : Buf :=
  let st := S.set pos (S.getD pos 0 ^^^ s)
  let st := if s.toNat ≥ 0x80 ∧ pos = rate - 1 then f st else st
  f (st.set (rate - 1) (st.getD (rate - 1) 0 ^^^ 0x80))

theorem xorAt_zeros (st : Buf) (pos n : ℕ) (b : Buf) (h : pos + n ≤ st.length) : xorAt st pos (List.replicate n 0 ++ b) = xorAt st (pos + n) b := by
  induction n generalizing st pos with
  | zero => rfl
  | succ n ih =>
    rw [List.replicate_succ, List.cons_append, xorAt]
    have : st.set pos (st.getD pos 0 ^^^ 0) = st := by
      apply List.ext_getElem (by simp)
      intro i h1 h2
      rw [List.getElem_set]
      split
      · next e => subst e; simp [List.getD_eq_getElem?_getD, List.getElem?_eq_getElem h2]
      · rfl
    rw [this, ih st (pos + 1) (by omega), show pos + 1 + n = pos + (n + 1) by omega]

theorem finish_eq {f : Buf → Buf} {rate : ℕ} (hf : ∀ s : Buf, s.length = 200 → (f s).length = 200) (hr : RateOK rate) (s : Byte) (m : Buf) :
    finish f rate s (m.foldl (absB f rate) (zeros 200, 0)).1 (m.foldl (absB f rate) (zeros 200, 0)).2 = absorbPadded f rate (padSuffix rate s m) := by
  have hr0 := hr.pos
  have hr1 := hr.le
  have hlt := Nat.mod_lt m.length hr0
  have key : (padSuffix rate s m).foldl (absB f rate) (zeros 200, 0) =
      (finish f rate s (m.foldl (absB f rate) (zeros 200, 0)).1 (m.foldl (absB f rate) (zeros 200, 0)).2, 0) := by
    have hp := fold_pos f rate hr0 (zeros 200) m
    have hL : (m.foldl (absB f rate) (zeros 200, 0)).1.length = 200 := fold_len hf _ (by simp) 0 m
    unfold padSuffix
    generalize hS : m.foldl (absB f rate) (zeros 200, 0) = S at hp hL
    obtain ⟨S, pos⟩ := S
    simp only at hp hL
    rw [← hp]
    have hpos : pos < rate := by omega
    unfold finish
    by_cases h1 : rate - pos = 1
    · have hpr : pos = rate - 1 := by omega
      rw [if_pos h1]
      by_cases h8 : s.toNat ≥ 0x80
      · rw [if_pos h8, List.foldl_append, hS, List.foldl_append, List.foldl_cons, List.foldl_nil]
        rw [show absB f rate (S, pos) s = (f (S.set pos (S.getD pos 0 ^^^ s)), 0) by simp only [absB]; rw [if_pos (by omega)]]
        rw [foldl_absB_eq _ _ _ _ _ (by simp; omega) (by simp)]
        have hl2 : (f (S.set pos (S.getD pos 0 ^^^ s))).length = 200 := hf _ (by simpa using hL)
        rw [xorAt_zeros _ _ _ _ (by omega), Nat.zero_add]
        simp only [xorAt, ge_iff_le, h8, hpr, and_self, if_true]
      · rw [if_neg h8, List.foldl_append, hS, List.foldl_cons, List.foldl_nil]
        simp only [absB]
        rw [if_pos (show pos + 1 = rate by omega), if_neg (fun h => h8 h.1), hpr]
        congr 2
        rw [List.set_set]
        congr 1
        simp [List.getD_eq_getElem?_getD, show rate - 1 < S.length by omega, BitVec.xor_assoc]
    · rw [if_neg h1, List.foldl_append, hS, foldl_absB_eq _ _ _ _ _ (by simp; omega) (by simp)]
      simp only [show ¬ (s.toNat ≥ 0x80 ∧ pos = rate - 1) from fun h => h1 (by omega), if_false]
      rw [List.singleton_append, xorAt, xorAt_zeros _ _ _ _ (by simp; omega)]
      simp only [xorAt]
      rw [show pos + 1 + (rate - pos - 2) = rate - 1 by omega]
  obtain ⟨k, hk⟩ := padSuffix_length rate hr0 s m
  obtain ⟨hb1, -⟩ := foldl_blocks hf hr (padSuffix rate s m) k (by omega)
  rw [← hk, List.take_of_length_le (le_refl _), key] at hb1
  have hb2 := congrArg Prod.fst hb1
  simp only at hb2
  rw [hb2, absorbPadded, hk, Nat.mul_div_cancel_left _ hr0]

end Picnic.Sha3
