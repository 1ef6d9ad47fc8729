import Verif.Proofs.P3Word

/-
/repo/picnic3_impl.c: preprocessing (aux tape).
-/

namespace Picnic

open Finset Spec

/-- Sum of the tape bits of the parties 0..14 at a position. -/
def tpar15 (tp : ℕ → Buf) (pos : ℕ) : ZMod 2 := ∑ j ∈ range 15, bitsOf (tp j) pos

theorem tpar_eq (tp : ℕ → Buf) (pos : ℕ) : tpar tp pos = tpar15 tp pos + bitsOf (tp 15) pos := by
  unfold tpar tpar15
  rw [sum_range_succ _ 15]

theorem tpar15_update (tp : ℕ → Buf) (z : Buf) (pos : ℕ) : tpar15 (Function.update tp 15 z) pos = tpar15 tp pos := by
  unfold tpar15
  refine sum_congr rfl fun j hj => ?_
  rw [Function.update_of_ne (by have := mem_range.1 hj; omega)]

theorem tpar_update (tp : ℕ → Buf) (z : Buf) (pos : ℕ) : tpar (Function.update tp 15 z) pos = tpar15 tp pos + bitsOf z pos := by
  rw [tpar_eq, tpar15_update, Function.update_self]

theorem setWidth_xor_b8 (x y : ZMod 2) : ((b8 x).setWidth 16 ^^^ (b8 y).setWidth 16).setWidth 8 = b8 (x + y) := by
  rcases zmod2_cases x with rfl | rfl <;> rcases zmod2_cases y with rfl | rfl <;> decide

theorem auxMpcAND_ok {E : Env} {P : Params} {tp : ℕ → Buf} {pos : ℕ} {a b f : ZMod 2} (h16 : P.numMPCParties = 16)
    (h : ∀ j < 16, pos < 8 * (tp j).length) :
    auxMpcAND E P (b8 a) (b8 b) (b8 f) (tapes16 tp pos) =
      Outcome.ok (tapes16 (Function.update tp 15 (setBitP (tp 15) pos (a * b + f + tpar15 tp pos))) (pos + 1)) := by
  unfold auxMpcAND
  rw [h16, tapesToWord_ok h, ok_bind]
  dsimp only
  rw [rd_arrN (by omega), ok_bind, Nat.add_sub_cancel, getBit_ok (h 15 (by omega)), ok_bind, parity16_eq,
    sum_congr rfl fun j hj => wbit_word16 _ (mem_range.1 hj), setWidth_xor_b8, ← b8_mul, ← b8_add, ← b8_add]
  unfold setTapeBit
  rw [rd_arrN (by omega), ok_bind, setBit_ok (h 15 (by omega)), ok_bind, wr_arrN (by omega), ok_bind, pure_eq_ok]
  congr 5
  have e : ∑ j ∈ range 16, bitsOf (tp j) pos = tpar15 tp pos + bitsOf (tp 15) pos := tpar_eq tp pos
  rw [e]
  linear_combination zmod2_add_self (bitsOf (tp 15) pos)

/-- The S-box input bits that are multiplied at AND gate number `i` of a round. -/
def fstIx (i : ℕ) : ℕ := 3 * (i / 3) + (2 - i % 3)
def sndIx (i : ℕ) : ℕ := 3 * (i / 3) + (4 - i % 3) % 3

/-- The mask of the output of AND gate `i`, given the masks `x` of the S-box inputs and `y` of the outputs. -/
def freshOf (x y : Bits) (i : ℕ) : ZMod 2 :=
  if i % 3 = 0 then y (3 * (i / 3)) + x (3 * (i / 3) + 2) + x (3 * (i / 3) + 1) + x (3 * (i / 3))
  else if i % 3 = 1 then y (3 * (i / 3) + 2) + x (3 * (i / 3) + 2)
  else y (3 * (i / 3) + 1) + x (3 * (i / 3) + 2) + x (3 * (i / 3) + 1)

/-- The sum over all parties of the tape bits for AND gate `i`. -/
def auxBit (x y : Bits) (i : ℕ) : ZMod 2 := x (fstIx i) * x (sndIx i) + freshOf x y i

theorem auxBit_0 (x y : Bits) (k : ℕ) : auxBit x y (3 * k) =
    x (3 * k + 2) * x (3 * k + 1) + (y (3 * k) + x (3 * k + 2) + x (3 * k + 1) + x (3 * k)) := by
  unfold auxBit fstIx sndIx freshOf
  rw [show 3 * k / 3 = k by omega, show 3 * k % 3 = 0 by omega, if_pos rfl]

theorem auxBit_1 (x y : Bits) (k : ℕ) : auxBit x y (3 * k + 1) = x (3 * k + 1) * x (3 * k) + (y (3 * k + 2) + x (3 * k + 2)) := by
  unfold auxBit fstIx sndIx freshOf
  rw [show (3 * k + 1) / 3 = k by omega, show (3 * k + 1) % 3 = 1 by omega, if_neg (by omega), if_pos rfl]
  rfl

theorem auxBit_2 (x y : Bits) (k : ℕ) : auxBit x y (3 * k + 2) =
    x (3 * k) * x (3 * k + 2) + (y (3 * k + 1) + x (3 * k + 2) + x (3 * k + 1)) := by
  unfold auxBit fstIx sndIx freshOf
  rw [show (3 * k + 2) / 3 = k by omega, show (3 * k + 2) % 3 = 2 by omega, if_neg (by omega), if_neg (by omega)]
  rfl

theorem auxMpcSbox_ok {E : Env} {P : Params} {tp : ℕ → Buf} {pos : ℕ} {inp out : Buf} (h16 : P.numMPCParties = 16)
    (h : ∀ j < 16, pos + 3 * P.numSboxes ≤ 8 * (tp j).length) (hi : 3 * P.numSboxes ≤ 8 * inp.length)
    (ho : 3 * P.numSboxes ≤ 8 * out.length) :
    ∃ z : Buf, auxMpcSbox E P inp out (tapes16 tp pos) = Outcome.ok (tapes16 (Function.update tp 15 z) (pos + 3 * P.numSboxes)) ∧
      z.length = (tp 15).length ∧ ∀ p, bitsOf z p = if pos ≤ p ∧ p < pos + 3 * P.numSboxes then
        auxBit (bitsOf inp) (bitsOf out) (p - pos) + tpar15 tp p else bitsOf (tp 15) p := by
  unfold auxMpcSbox
  have key := loop_inv (fun k (t : RandomTape) => ∃ z : Buf, t = tapes16 (Function.update tp 15 z) (pos + 3 * k) ∧
      z.length = (tp 15).length ∧ ∀ p, bitsOf z p = if pos ≤ p ∧ p < pos + 3 * k then
        auxBit (bitsOf inp) (bitsOf out) (p - pos) + tpar15 tp p else bitsOf (tp 15) p)
    (f := fun k tapes => do
      let i := 3 * k
      let a ← getBit inp (i + 2)
      let b ← getBit inp (i + 1)
      let c ← getBit inp i
      let d ← getBit out (i + 2)
      let e ← getBit out (i + 1)
      let f ← getBit out i
      let fresh_ab := f ^^^ a ^^^ b ^^^ c
      let fresh_bc := d ^^^ a
      let fresh_ca := e ^^^ a ^^^ b
      let tapes ← auxMpcAND E P a b fresh_ab tapes
      let tapes ← auxMpcAND E P b c fresh_bc tapes
      auxMpcAND E P c a fresh_ca tapes) (n := P.numSboxes) (s := tapes16 tp pos)
    ⟨tp 15, by simp, rfl, fun p => by rw [if_neg (by omega)]⟩ (by
      rintro k hk t ⟨z, rfl, hl, hb⟩
      have hlen : ∀ (z' : Buf), z'.length = (tp 15).length → ∀ q < 3 * P.numSboxes, ∀ j < 16,
          pos + q < 8 * (Function.update tp 15 z' j).length := by
        intro z' hz q hq j hj
        by_cases e : j = 15
        · subst e
          rw [Function.update_self, hz]
          have := h 15 (by omega); omega
        · rw [Function.update_of_ne e]
          have := h j hj; omega
      have h15 := h 15 (by omega)
      dsimp only
      rw [getBit_ok (by omega), ok_bind, getBit_ok (by omega), ok_bind, getBit_ok (by omega), ok_bind, getBit_ok (by omega), ok_bind,
        getBit_ok (by omega), ok_bind, getBit_ok (by omega), ok_bind, ← b8_add, ← b8_add, ← b8_add, ← b8_add, ← b8_add, ← b8_add]
      rw [auxMpcAND_ok h16 (hlen z hl _ (by omega)), ok_bind, Function.update_idem, Function.update_self, tpar15_update]
      rw [auxMpcAND_ok h16 (fun j hj => by rw [Nat.add_assoc]; exact hlen _ (by simpa using hl) _ (by omega) j hj), ok_bind, Function.update_idem,
        Function.update_self, tpar15_update]
      rw [auxMpcAND_ok h16 (fun j hj => by rw [Nat.add_assoc, Nat.add_assoc]; exact hlen _ (by simpa using hl) _ (by omega) j hj),
        Function.update_idem, Function.update_self, tpar15_update]
      refine ⟨_, rfl, _, by rw [show pos + 3 * k + 1 + 1 + 1 = pos + 3 * (k + 1) by ring], by simpa using hl, fun p => ?_⟩
      rw [bitsOf_setBitP (by simp; omega), bitsOf_setBitP (by simp; omega), bitsOf_setBitP (by omega)]
      simp only [Function.update_apply]
      by_cases h2 : p = pos + 3 * k + 1 + 1
      · rw [if_pos h2, if_pos (by omega), h2, show pos + 3 * k + 1 + 1 - pos = 3 * k + 2 by omega, auxBit_2]
      rw [if_neg h2]
      by_cases h1 : p = pos + 3 * k + 1
      · rw [if_pos h1, if_pos (by omega), h1, show pos + 3 * k + 1 - pos = 3 * k + 1 by omega, auxBit_1]
      rw [if_neg h1]
      by_cases h0 : p = pos + 3 * k
      · rw [if_pos h0, if_pos (by omega), h0, show pos + 3 * k - pos = 3 * k by omega, auxBit_0]
      rw [if_neg h0, hb]
      by_cases hp : pos ≤ p ∧ p < pos + 3 * k
      · rw [if_pos hp, if_pos (by omega)]
      · rw [if_neg hp, if_neg (by omega)])
  obtain ⟨t, h1, z, rfl, h2, h3⟩ := key
  exact ⟨z, h1, h2, h3⟩

end Picnic
