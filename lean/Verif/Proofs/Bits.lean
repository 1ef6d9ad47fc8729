import Verif.Proofs.Base
import Verif.Model.LowMC
import Mathlib.Tactic.IntervalCases
import Mathlib.Tactic.FinCases

/-
Bit layer: buffers as functions from bit numbers to ZMod 2.
-/

namespace Picnic

/-- Bit number `k` (most significant first) of a byte. -/
def byteBit (b : Byte) (k : ℕ) : ZMod 2 := if b.getLsbD (7 - k) then 1 else 0

/-- Bit number `i` of a buffer in the numbering of `getBit`; zero outside. -/
def bitsOf (b : Buf) (i : ℕ) : ZMod 2 := byteBit (b.getD (i / 8) 0) (i % 8)

/-- A single bit as a byte. -/
def b8 (x : ZMod 2) : Byte := if x = 1 then 1 else 0

@[simp] theorem b8_zero : b8 0 = 0 := by decide
@[simp] theorem b8_one : b8 1 = 1 := by decide
theorem b8_add (x y : ZMod 2) : b8 (x + y) = b8 x ^^^ b8 y := by revert x y; decide
theorem b8_mul (x y : ZMod 2) : b8 (x * y) = b8 x &&& b8 y := by revert x y; decide
theorem b8_inj {x y : ZMod 2} : b8 x = b8 y ↔ x = y := by revert x y; decide
theorem b8_eq_zero {x : ZMod 2} : b8 x = 0 ↔ x = 0 := by revert x; decide
theorem zmod2_cases (x : ZMod 2) : x = 0 ∨ x = 1 := by revert x; decide
theorem zmod2_add_self (x : ZMod 2) : x + x = 0 := by revert x; decide

@[simp] theorem byteBit_zero (k : ℕ) : byteBit 0#8 k = 0 := by simp [byteBit]

theorem getBit_byte (x : Byte) (k : ℕ) (hk : k < 8) :
    ((x >>> (7 - k)) &&& 0x01) = b8 (byteBit x k) := by
  simp only [byteBit]
  apply BitVec.eq_of_getLsbD_eq
  intro i hi
  simp only [BitVec.getLsbD_and, BitVec.getLsbD_ushiftRight]
  rcases Nat.eq_zero_or_pos i with h | h
  · subst h
    simp only [Nat.add_zero]
    by_cases hb : x.getLsbD (7 - k) = true <;> simp [hb]
  · have : (0x01 : Byte).getLsbD i = false := by
      interval_cases i <;> rfl
    rw [this]
    by_cases hb : x.getLsbD (7 - k) = true <;> simp [hb]
    · omega

theorem getBit_ok {b : Buf} {i : ℕ} (h : i < 8 * b.length) : getBit b i = Outcome.ok (b8 (bitsOf b i)) := by
  have h8 : i / 8 < b.length := by omega
  simp only [getBit, rd_ok h8, ok_bind, pure_eq_ok]
  rw [getBit_byte _ _ (by omega)]
  simp [bitsOf, List.getD_eq_getElem?_getD, List.getElem?_eq_getElem h8]

/-- Pure version of `setBit`. -/
def setBitP (b : Buf) (i : ℕ) (v : ZMod 2) : Buf :=
  b.set (i / 8) ((b.getD (i / 8) 0 &&& ~~~ ((1 : Byte) <<< (7 - i % 8))) ||| (b8 v <<< (7 - i % 8)))

@[simp] theorem setBitP_length (b : Buf) (i : ℕ) (v : ZMod 2) : (setBitP b i v).length = b.length := by
  simp [setBitP]

theorem setBit_ok {b : Buf} {i : ℕ} (h : i < 8 * b.length) (v : ZMod 2) :
    setBit b i (b8 v) = Outcome.ok (setBitP b i v) := by
  have h8 : i / 8 < b.length := by omega
  simp only [setBit, rd_ok h8, ok_bind, wr_ok h8, setBitP]
  simp [List.getD_eq_getElem?_getD, List.getElem?_eq_getElem h8]

theorem byteBit_set (x : Byte) (k j : ℕ) (hk : k < 8) (hj : j < 8) (v : ZMod 2) :
    byteBit ((x &&& ~~~ ((1 : Byte) <<< (7 - k))) ||| (b8 v <<< (7 - k))) j = if j = k then v else byteBit x j := by
  have key : ∀ x : Byte, ∀ k < 8, ∀ j < 8, ∀ v : ZMod 2,
      byteBit ((x &&& ~~~ ((1 : Byte) <<< (7 - k))) ||| (b8 v <<< (7 - k))) j = if j = k then v else byteBit x j := by
    intro x k hk j hj v
    unfold byteBit
    rcases zmod2_cases v with rfl | rfl <;> interval_cases k <;> interval_cases j <;> simp
  exact key x k hk j hj v

theorem bitsOf_setBitP {b : Buf} {i : ℕ} (h : i < 8 * b.length) (v : ZMod 2) :
    bitsOf (setBitP b i v) = Function.update (bitsOf b) i v := by
  have h8 : i / 8 < b.length := by omega
  funext j
  simp only [bitsOf, setBitP, Function.update_apply]
  by_cases hji : j / 8 = i / 8
  · rw [hji]
    simp only [List.getD_eq_getElem?_getD, List.getElem?_set_self h8, Option.getD_some]
    rw [byteBit_set _ _ _ (by omega) (by omega)]
    by_cases hmod : j % 8 = i % 8
    · have : j = i := by omega
      simp [this]
    · have : j ≠ i := by intro h; exact hmod (by rw [h])
      simp [hmod, this]
  · have : j ≠ i := by intro h; exact hji (by rw [h])
    simp only [this, if_false, List.getD_eq_getElem?_getD]
    rw [List.getElem?_set_ne (by omega)]

theorem byte_ext {x y : Byte} (h : ∀ k < 8, byteBit x k = byteBit y k) : x = y := by
  apply BitVec.eq_of_getLsbD_eq
  intro i hi
  have := h (7 - i) (by omega)
  simp only [byteBit, show 7 - (7 - i) = i by omega] at this
  by_cases hx : x.getLsbD i = true <;> by_cases hy : y.getLsbD i = true <;> simp_all

theorem bitsOf_byte {b : Buf} {i k : ℕ} (hk : k < 8) : bitsOf b (8 * i + k) = byteBit (b.getD i 0) k := by
  simp only [bitsOf]
  rw [show (8 * i + k) / 8 = i by omega, show (8 * i + k) % 8 = k by omega]

theorem buf_ext {a b : Buf} (hl : a.length = b.length) (h : ∀ i < 8 * a.length, bitsOf a i = bitsOf b i) : a = b := by
  apply List.ext_getElem hl
  intro i h1 h2
  apply byte_ext
  intro k hk
  have := h (8 * i + k) (by omega)
  rw [bitsOf_byte hk, bitsOf_byte hk] at this
  simpa [List.getD_eq_getElem?_getD, List.getElem?_eq_getElem h1, List.getElem?_eq_getElem h2] using this

theorem bitsOf_ge {b : Buf} {i : ℕ} (h : 8 * b.length ≤ i) : bitsOf b i = 0 := by
  have : b.length ≤ i / 8 := by omega
  simp [bitsOf, List.getD_eq_getElem?_getD, List.getElem?_eq_none this, byteBit_zero]

theorem bitsOf_append_left {a b : Buf} {i : ℕ} (h : i < 8 * a.length) : bitsOf (a ++ b) i = bitsOf a i := by
  have : i / 8 < a.length := by omega
  simp [bitsOf, List.getD_eq_getElem?_getD, List.getElem?_append_left this]

theorem bitsOf_append_right {a b : Buf} {i : ℕ} : bitsOf (a ++ b) (8 * a.length + i) = bitsOf b i := by
  simp only [bitsOf]
  rw [show (8 * a.length + i) / 8 = a.length + i / 8 by omega, show (8 * a.length + i) % 8 = i % 8 by omega]
  simp only [List.getD_eq_getElem?_getD]
  rw [List.getElem?_append_right (by omega)]
  congr 4; omega

theorem bitsOf_take {b : Buf} {n i : ℕ} (h : i < 8 * n) : bitsOf (b.take n) i = bitsOf b i := by
  have : i / 8 < n := by omega
  simp [bitsOf, List.getD_eq_getElem?_getD, List.getElem?_take_of_lt this]

theorem bitsOf_drop {b : Buf} {n i : ℕ} : bitsOf (b.drop n) i = bitsOf b (8 * n + i) := by
  simp only [bitsOf]
  rw [show (8 * n + i) / 8 = n + i / 8 by omega, show (8 * n + i) % 8 = i % 8 by omega]
  simp [List.getD_eq_getElem?_getD]

@[simp] theorem bitsOf_zeros (n i : ℕ) : bitsOf (zeros n) i = 0 := by
  by_cases h : i < 8 * n
  · have : i / 8 < n := by omega
    simp [bitsOf, zeros, List.getD_eq_getElem?_getD, this, byteBit_zero]
  · exact bitsOf_ge (by simp; omega)

@[simp] theorem bitsOf_nil (i : ℕ) : bitsOf [] i = 0 := bitsOf_ge (by simp)

/-! ### buffers from bit functions -/

/-- The byte with the given bits (most significant first). -/
def byteOf (f : ℕ → ZMod 2) : Byte :=
  (List.range 8).foldl (fun b k => (b &&& ~~~ ((1 : Byte) <<< (7 - k))) ||| (b8 (f k) <<< (7 - k))) 0

theorem byteBit_byteOf (f : ℕ → ZMod 2) {k : ℕ} (hk : k < 8) : byteBit (byteOf f) k = f k := by
  simp only [byteOf, show List.range 8 = [0, 1, 2, 3, 4, 5, 6, 7] from rfl, List.foldl]
  interval_cases k <;>
    repeat (first
      | rw [byteBit_set _ _ _ (by omega) (by omega), if_neg (by omega)]
      | rw [byteBit_set _ _ _ (by omega) (by omega), if_pos rfl])

/-- The buffer of `n` bytes with the given bits. -/
def ofBits (f : ℕ → ZMod 2) (n : ℕ) : Buf := (List.range n).map fun i => byteOf fun k => f (8 * i + k)

@[simp] theorem ofBits_length (f : ℕ → ZMod 2) (n : ℕ) : (ofBits f n).length = n := by simp [ofBits]

@[simp] theorem ofBits_drop (f : ℕ → ZMod 2) (n : ℕ) : (ofBits f n).drop n = [] :=
  List.drop_eq_nil_of_le (by simp)

theorem bitsOf_ofBits (f : ℕ → ZMod 2) {n i : ℕ} (h : i < 8 * n) : bitsOf (ofBits f n) i = f i := by
  have h8 : i / 8 < n := by omega
  simp only [bitsOf, ofBits, List.getD_eq_getElem?_getD, List.getElem?_map, List.getElem?_range h8, Option.map_some,
    Option.getD_some]
  rw [byteBit_byteOf _ (by omega)]
  congr 1; omega

theorem ofBits_bitsOf (b : Buf) : ofBits (bitsOf b) b.length = b :=
  buf_ext (by simp) (fun i hi => bitsOf_ofBits _ (by simpa using hi))

theorem ofBits_take {f : ℕ → ZMod 2} {n m : ℕ} (h : m ≤ n) : (ofBits f n).take m = ofBits f m := by
  refine buf_ext (by simp; omega) fun i hi => ?_
  simp only [List.length_take, ofBits_length] at hi
  rw [bitsOf_take (by omega), bitsOf_ofBits _ (by omega), bitsOf_ofBits _ (by omega)]

theorem ofBits_congr {f g : ℕ → ZMod 2} {n : ℕ} (h : ∀ i < 8 * n, f i = g i) : ofBits f n = ofBits g n :=
  buf_ext (by simp) (fun i hi => by
    simp only [ofBits_length] at hi
    rw [bitsOf_ofBits _ hi, bitsOf_ofBits _ hi, h i hi])

end Picnic
