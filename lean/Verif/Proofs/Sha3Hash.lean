import Verif.Proofs.Sha3
import Mathlib.Tactic.IntervalCases

/-
The hash interface of the SHA-3 library refines the sponge with an arbitrary suffix.
-/

namespace Picnic.Sha3

open Spec Spec.Keccak

/-- The instance has absorbed the bytes `m`; suffix `s`, output length `fol` in bits. -/
structure Abs (E : Env) (rate : ℕ) (m : Buf) (s : Byte) (fol : ℕ) (inst : HashInstance) : Prop where
  rateBits : inst.rate = 8 * rate
  notSq : inst.squeezing = false
  fol : inst.fixedOutputLength = fol
  suf : inst.delimitedSuffix = s
  len : inst.state.length = 200
  pos : inst.byteIOIndex < rate
  st : m.foldl (absB E.perm rate) (zeros 200, 0) = (inst.state, inst.byteIOIndex)

theorem hashInitialize_ok (E : Env) {rate : ℕ} (hr : RateOK rate) (capacity fol : ℕ) (hc : 8 * rate + capacity = 1600) (s : Byte) (hs : s ≠ 0) :
    ∃ inst, hashInitialize (8 * rate) capacity fol s = some inst ∧ Abs E rate [] s fol inst := by
  have h1 := hr.pos
  have h2 := hr.le
  refine ⟨{ state := zeros 200, rate := 8 * rate, byteIOIndex := 0, squeezing := false, fixedOutputLength := fol, delimitedSuffix := s }, ?_, ?_⟩
  · unfold hashInitialize
    rw [if_neg hs, if_neg (by rw [hc]; decide), if_neg (by omega)]
  · exact ⟨rfl, rfl, rfl, rfl, by simp, by simpa using h1, rfl⟩

theorem hashInitialize_none {rate capacity fol : ℕ} {s : Byte} (h : s = 0 ∨ (rate + capacity) % 2 ^ 32 ≠ 1600 ∨ rate = 0 ∨ 1600 < rate ∨ rate % 8 ≠ 0) :
    hashInitialize rate capacity fol s = none := by
  unfold hashInitialize
  split
  · rfl
  · split
    · rfl
    · split
      · rfl
      · next h1 h2 h3 => exfalso; rcases h with h | h | h | h | h <;> first | exact h1 h | exact h2 h | (apply h3; omega)

theorem spongeAbsorb_ok {E : Env} {rate : ℕ} {m data : Buf} {s : Byte} {fol : ℕ} {inst : HashInstance} {len : ℕ} (hE : PermWF E)
    (hr : RateOK rate) (h : Abs E rate m s fol inst) (hlen : len ≤ data.length) (h32 : len + 200 ≤ 2 ^ 32) :
    ∃ inst', spongeAbsorb E inst data len = Outcome.ok (inst', true) ∧ Abs E rate (m ++ data.take len) s fol inst' := by
  unfold spongeAbsorb
  have e3 : inst.rate / 8 = rate := by rw [h.rateBits]; omega
  simp only [h.notSq, e3, Bool.false_eq_true, if_false]
  obtain ⟨st, pos, h1, h2, h3, h4⟩ := absorbLoop_ok (E := E) hr hlen hE h32 (len + 1) 0 inst h.len h.pos (by omega)
    (by omega)
  simp only [h1, ok_bind, pure_eq_ok]
  refine ⟨_, rfl, ⟨h.rateBits, h.notSq, h.fol, h.suf, h2, h3, ?_⟩⟩
  rw [List.foldl_append, h.st]
  simpa using h4

theorem hashUpdate_bytes {E : Env} {rate : ℕ} {m data : Buf} {s : Byte} {fol : ℕ} {inst : HashInstance} {len : ℕ} (hE : PermWF E)
    (hr : RateOK rate) (h : Abs E rate m s fol inst) (hlen : len ≤ data.length) (h32 : len + 200 ≤ 2 ^ 32) :
    ∃ inst', hashUpdate E inst data (8 * len) = Outcome.ok (inst', true) ∧ Abs E rate (m ++ data.take len) s fol inst' := by
  unfold hashUpdate
  rw [if_pos (by omega), show 8 * len / 8 = len by omega]
  exact spongeAbsorb_ok hE hr h hlen h32

/-! ### the last byte -/

theorem w16_hi (w : BitVec 16) : w &&& 0xFF00 = 0 ↔ w.toNat < 256 := by
  have e : w &&& 0xFF00 = BitVec.ofNat 16 (w.toNat / 256 * 256) := by
    apply BitVec.eq_of_getLsbD_eq
    intro i hi
    rw [BitVec.getLsbD_and, BitVec.getLsbD_ofNat, decide_eq_true hi, Bool.true_and, show w.toNat / 256 * 256 = 2 ^ 8 * (w.toNat / 2 ^ 8) by
      rw [Nat.mul_comm]; rfl, Nat.testBit_two_pow_mul, Nat.testBit_div_two_pow]
    interval_cases i <;> first | (simp [BitVec.getLsbD]; done) | (rw [BitVec.getLsbD]; simp)
  have hlt := w.isLt
  rw [e]
  constructor
  · intro h
    have := congrArg BitVec.toNat h
    rw [BitVec.toNat_ofNat, Nat.mod_eq_of_lt (by omega)] at this
    simp at this
    omega
  · intro h
    rw [Nat.div_eq_of_lt h]
    rfl

theorem w16_lo (w : BitVec 16) : ((w &&& 0xFF).setWidth 8).toNat = w.toNat % 256 := by
  rw [BitVec.toNat_setWidth, BitVec.toNat_and, show (0xFF : BitVec 16).toNat = 2 ^ 8 - 1 from rfl, Nat.and_two_pow_sub_one_eq_mod]
  omega

theorem w16_up (w : BitVec 16) : (((w >>> 8) &&& 0xFF).setWidth 8).toNat = w.toNat / 256 := by
  have hlt := w.isLt
  rw [w16_lo, BitVec.toNat_ushiftRight, Nat.shiftRight_eq_div_pow]
  omega

theorem w16_join {x s : Byte} {j : ℕ} (hj : j < 8) (hx : x.toNat < 2 ^ j) :
    (x.setWidth 16 ||| (s.setWidth 16 <<< j) : BitVec 16).toNat = x.toNat + 2 ^ j * s.toNat := by
  have hs := s.isLt
  have h2 : 2 ^ j ≤ 2 ^ 7 := Nat.pow_le_pow_right (by omega) (by omega)
  have h3 : 2 ^ j * s.toNat ≤ 2 ^ 7 * 255 := Nat.mul_le_mul h2 (by omega)
  have e1 : (x.setWidth 16).toNat = x.toNat := by
    rw [BitVec.toNat_setWidth, Nat.mod_eq_of_lt]; have := x.isLt; omega
  have e2 : ((s.setWidth 16) <<< j).toNat = s.toNat <<< j := by
    rw [BitVec.toNat_shiftLeft, BitVec.toNat_setWidth, Nat.mod_eq_of_lt (a := s.toNat) (by omega), Nat.shiftLeft_eq, Nat.mul_comm,
      Nat.mod_eq_of_lt (by omega)]
  rw [BitVec.toNat_or, e1, e2, Nat.or_comm, ← Nat.shiftLeft_add_eq_or_of_lt hx, Nat.shiftLeft_eq, Nat.mul_comm, Nat.add_comm]

theorem toBits_byte (b : Byte) : toBits [b] = (List.range 8).map b.toNat.testBit := by
  unfold toBits bitOf
  refine List.map_congr_left fun i hi => ?_
  have hi8 : i < 8 := by simpa using hi
  rw [show i / 8 = 0 by omega, show i % 8 = i by omega]
  rfl

theorem toBits_take_partial (data : Buf) (n : ℕ) (hn : n / 8 < data.length) :
    (toBits data).take n = toBits (data.take (n / 8)) ++ (List.range (n % 8)).map (data.getD (n / 8) 0).toNat.testBit := by
  have hl : (data.take (n / 8)).length = n / 8 := by simp; omega
  apply List.ext_getElem
  · simp [toBits_length]; omega
  · intro i h1 h2
    have hi : i < n := by simp [toBits_length] at h1; omega
    have e1 : ((toBits data).take n)[i] = bitOf data i := by simp [toBits]
    rw [e1]
    by_cases hlt : i < 8 * (n / 8)
    · rw [List.getElem_append_left (by rw [toBits_length, hl]; exact hlt)]
      have : (toBits (data.take (n / 8)))[i]'(by rw [toBits_length, hl]; exact hlt) = bitOf (data.take (n / 8)) i := by simp [toBits]
      rw [this]
      unfold bitOf
      simp [List.getD_eq_getElem?_getD, List.getElem?_take_of_lt (show i / 8 < n / 8 by omega)]
    · rw [List.getElem_append_right (by rw [toBits_length, hl]; omega)]
      simp only [toBits_length, hl, List.getElem_map, List.getElem_range]
      unfold bitOf
      rw [show i / 8 = n / 8 by omega, show i % 8 = i - 8 * (n / 8) by omega]
      rfl

/-- The last update: any number of bits; the unused bits of the last byte are zero. -/
theorem hashUpdate_bits {E : Env} {rate : ℕ} {m data : Buf} {s : Byte} {fol : ℕ} {inst : HashInstance} {n : ℕ} (hE : PermWF E)
    (hr : RateOK rate) (hs : s ≠ 0) (h : Abs E rate m s fol inst) (hn : n ≤ 8 * data.length) (h32 : n / 8 + 200 ≤ 2 ^ 32)
    (hz : (data.getD (n / 8) 0).toNat < 2 ^ (n % 8) ∨ n % 8 = 0) :
    ∃ inst' m' s', hashUpdate E inst data n = Outcome.ok (inst', true) ∧ Abs E rate m' s' fol inst' ∧ s' ≠ 0 ∧
      toBits m' ++ delimited s'.toNat = toBits m ++ (toBits data).take n ++ delimited s.toNat := by
  have hs0 : 0 < s.toNat := by
    rcases Nat.eq_zero_or_pos s.toNat with h | h
    · exact absurd (BitVec.eq_of_toNat_eq h) hs
    · exact h
  by_cases h8 : n % 8 = 0
  · obtain ⟨inst', e, ha⟩ := hashUpdate_bytes (data := data) (len := n / 8) hE hr h (by omega) h32
    rw [show 8 * (n / 8) = n by omega] at e
    refine ⟨inst', _, s, e, ha, hs, ?_⟩
    rw [toBits_append]
    congr 2
    by_cases hlt : n / 8 < data.length
    · rw [toBits_take_partial data n hlt, h8]; simp
    · have hnl : n = 8 * data.length := by omega
      rw [List.take_of_length_le (by omega), List.take_of_length_le (by rw [toBits_length]; omega)]
  · have hlt : n / 8 < data.length := by omega
    have hz := hz.resolve_right h8
    have hj : n % 8 < 8 := by omega
    obtain ⟨inst1, e1, ha1⟩ := spongeAbsorb_ok (data := data) (len := n / 8) hE hr h (by omega) h32
    unfold hashUpdate
    rw [if_neg h8, e1, ok_bind]
    simp only [if_true]
    have hrd : rd data (n / 8) = Outcome.ok (data.getD (n / 8) 0) := rd_getD hlt
    rw [hrd, ok_bind, ha1.suf]
    rw [toBits_take_partial data n hlt]
    generalize data.getD (n / 8) 0 = x at hz
    have hw := w16_join (s := s) hj hz
    generalize (x.setWidth 16 ||| (s.setWidth 16 <<< (n % 8)) : BitVec 16) = w at hw
    have hd := delimited_shift hz hs0
    rw [← hw] at hd
    by_cases hc : w &&& 0xFF00 = 0
    · rw [if_pos hc]
      have hwl := (w16_hi w).1 hc
      have hlo := w16_lo w
      rw [Nat.mod_eq_of_lt hwl] at hlo
      refine ⟨_, m ++ data.take (n / 8), (w &&& 0xFF).setWidth 8, rfl, ⟨ha1.rateBits, ha1.notSq, ha1.fol, rfl, ha1.len, ha1.pos, ha1.st⟩, ?_, ?_⟩
      · intro h0
        rw [h0, hw] at hlo
        have : 0 < 2 ^ (n % 8) * s.toNat := by positivity
        simp at hlo
        omega
      · rw [hlo, hd, toBits_append]
        simp only [List.append_assoc]
    · rw [if_neg hc]
      have hwl : ¬ w.toNat < 256 := fun h => hc ((w16_hi w).2 h)
      obtain ⟨inst2, e2, ha2⟩ := spongeAbsorb_ok (data := [(w &&& 0xFF).setWidth 8]) (len := 1) hE hr ha1 (by simp) (by omega)
      rw [e2, ok_bind]
      refine ⟨_, _, ((w >>> 8) &&& 0xFF).setWidth 8, rfl, ⟨ha2.rateBits, ha2.notSq, ha2.fol, rfl, ha2.len, ha2.pos, ha2.st⟩, ?_, ?_⟩
      · intro h0
        have := w16_up w
        rw [h0] at this
        simp at this
        omega
      · rw [w16_up]
        have hsplit : w.toNat = w.toNat % 256 + 2 ^ 8 * (w.toNat / 256) := by omega
        have hd2 := delimited_shift (x := w.toNat % 256) (j := 8) (s := w.toNat / 256) (by omega) (by omega)
        rw [← hsplit, hd] at hd2
        rw [toBits_append, toBits_append, show List.take 1 [(w &&& 0xFF).setWidth 8] = [(w &&& 0xFF).setWidth 8] from rfl, toBits_byte, w16_lo]
        simp only [List.append_assoc]
        rw [← hd2]

theorem hashFinal_ok {E : Env} {rate : ℕ} {m : Buf} {s : Byte} {fol : ℕ} {inst : HashInstance} (hE : PermWF E) (hr : RateOK rate) (hs : s ≠ 0)
    (h : Abs E rate m s fol inst) (hf : fol / 8 + 200 ≤ 2 ^ 32) :
    ∃ inst', hashFinal E inst = Outcome.ok (inst', (List.range (fol / 8)).map
        (fun j => streamByte E.perm rate (absorbPadded E.perm rate (padSuffix rate s m)) j), true) ∧
      Squeezed E rate (absorbPadded E.perm rate (padSuffix rate s m)) (fol / 8) inst' ∧
      (absorbPadded E.perm rate (padSuffix rate s m)).length = 200 := by
  have hr0 := hr.pos
  have hr1 := hr.le
  have e3 : inst.rate / 8 = rate := by rw [h.rateBits]; omega
  have hp := h.pos
  have hfin := finish_eq hE hr s m
  rw [h.st] at hfin
  simp only at hfin
  have hlen : (absorbPadded E.perm rate (padSuffix rate s m)).length = 200 := by
    rw [← hfin]
    unfold finish
    apply hE
    simp only [List.length_set]
    split
    · exact hE _ (by simpa using h.len)
    · simpa using h.len
  have hl1 : (if s.toNat ≥ 0x80 ∧ inst.byteIOIndex = rate - 1 then
      E.perm (inst.state.set inst.byteIOIndex (inst.state.getD inst.byteIOIndex 0 ^^^ s)) else
      inst.state.set inst.byteIOIndex (inst.state.getD inst.byteIOIndex 0 ^^^ s)).length = 200 := by
    split
    · exact hE _ (by simpa using h.len)
    · simpa using h.len
  have hab : spongeAbsorbLastFewBits E inst s = Outcome.ok ({ inst with
      state := absorbPadded E.perm rate (padSuffix rate s m), byteIOIndex := 0, squeezing := true }, true) := by
    unfold spongeAbsorbLastFewBits
    simp only [h.notSq, e3, Bool.false_eq_true, if_false]
    rw [if_neg hs, addByte_ok h.len (by omega), ok_bind, addByte_ok hl1 (by omega), ok_bind, ← hfin]
    rfl
  unfold hashFinal
  rw [h.suf, hab, ok_bind]
  simp only [if_true]
  unfold spongeSqueeze
  simp only [h.fol, pure_eq_ok, if_true, ok_bind, e3]
  obtain ⟨inst', g1, g2⟩ := squeezeLoop_ok (E := E) (len := fol / 8) hE hlen hr hf (fol / 8 + 1) 0 0
    { inst with state := absorbPadded E.perm rate (padSuffix rate s m), byteIOIndex := 0, squeezing := true } []
    ⟨h.rateBits, rfl, 0, 0, rfl, rfl, by omega, by simp⟩ (by omega) (by omega)
  refine ⟨inst', ?_, by simpa using g2, hlen⟩
  have ho : ({ inst with state := absorbPadded E.perm rate (padSuffix rate s m), byteIOIndex := 0, squeezing := true } : HashInstance) =
    { inst with state := absorbPadded E.perm rate (padSuffix rate s m), byteIOIndex := 0, squeezing := true, fixedOutputLength := fol } := by
    rw [← h.fol]
  rw [ho] at g1
  rw [← h.fol] at g1 ⊢
  rw [g1]
  simp

theorem hashSqueeze_ok {E : Env} {rate k len : ℕ} {st0 : Buf} {inst : HashInstance} (hE : PermWF E) (hr : RateOK rate)
    (hs0 : st0.length = 200) (h : Squeezed E rate st0 k inst) (h32 : len + 200 ≤ 2 ^ 32) :
    ∃ inst', hashSqueeze E inst (8 * len) = Outcome.ok (inst', (List.range len).map
        (fun j => streamByte E.perm rate st0 (k + j)), true) ∧ Squeezed E rate st0 (k + len) inst' := by
  unfold hashSqueeze spongeSqueeze
  have e2 : 8 * len / 8 = len := by omega
  have e3 : inst.rate / 8 = rate := by rw [h.rateBits]; omega
  rw [if_neg (by omega)]
  simp only [e2, h.sq, pure_eq_ok, if_true, ok_bind, e3]
  obtain ⟨inst', g1, g2⟩ := squeezeLoop_ok (E := E) (len := len) hE hs0 hr h32 (len + 1) 0 k inst [] h (by omega)
    (by omega)
  refine ⟨inst', ?_, by simpa using g2⟩
  rw [g1]
  simp

end Picnic.Sha3
