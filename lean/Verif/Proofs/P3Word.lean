import Verif.Proofs.ZkbMpc
import Verif.Model.Picnic3

/-
/repo/picnic3_impl.c: 16-bit words with one bit per party.
-/

namespace Picnic

open Finset

/-- The bit of party `j` in a word, in the numbering of `getBit` on the two bytes of the word. -/
def wbit (w : U16) (j : ℕ) : ZMod 2 := bb (w.getLsbD (8 * (j / 8) + (7 - j % 8)))

theorem wbit_xor (x y : U16) (j : ℕ) : wbit (x ^^^ y) j = wbit x j + wbit y j := by
  simp only [wbit, BitVec.getLsbD_xor, bb_xor]

theorem wbit_and (x y : U16) (j : ℕ) : wbit (x &&& y) j = wbit x j * wbit y j := by
  simp only [wbit, BitVec.getLsbD_and, bb_and]

theorem bb_inj {x y : Bool} (h : bb x = bb y) : x = y := by
  revert h; cases x <;> cases y <;> decide

theorem wbit_ext {x y : U16} (h : ∀ j < 16, wbit x j = wbit y j) : x = y := by
  apply BitVec.eq_of_getLsbD_eq
  intro i hi
  have := h (8 * (i / 8) + (7 - i % 8)) (by omega)
  unfold wbit at this
  rw [show 8 * ((8 * (i / 8) + (7 - i % 8)) / 8) + (7 - (8 * (i / 8) + (7 - i % 8)) % 8) = i by omega] at this
  exact bb_inj this

/-- The word with the given bits. -/
def word16 (f : ℕ → ZMod 2) : U16 := byteOf (fun k => f (8 + k)) ++ byteOf f

theorem wbit_append (a b : Byte) {j : ℕ} (hj : j < 16) : wbit ((a ++ b : BitVec (8 + 8))) j = bitsOf [b, a] j := by
  unfold wbit bitsOf byteBit
  rw [BitVec.getLsbD_append]
  by_cases h : j < 8
  · rw [show j / 8 = 0 by omega, show j % 8 = j by omega, show 8 * 0 + (7 - j) = 7 - j by omega]
    simp [bb, show 7 - j < 8 by omega]
  · rw [show j / 8 = 1 by omega, show j % 8 = j - 8 by omega]
    simp [bb]

theorem wbit_word16 (f : ℕ → ZMod 2) {j : ℕ} (hj : j < 16) : wbit (word16 f) j = f j := by
  unfold word16
  rw [wbit_append _ _ hj, bitsOf]
  by_cases h : j < 8
  · rw [show j / 8 = 0 by omega, show j % 8 = j by omega]
    exact byteBit_byteOf _ h
  · rw [show j / 8 = 1 by omega, show j % 8 = j - 8 by omega]
    simp only [List.getD_cons_succ, List.getD_cons_zero]
    rw [byteBit_byteOf _ (by omega)]
    congr 1; omega

theorem word16_congr {f g : ℕ → ZMod 2} (h : ∀ j < 16, f j = g j) : word16 f = word16 g :=
  wbit_ext fun j hj => by rw [wbit_word16 _ hj, wbit_word16 _ hj, h j hj]

theorem word16_xor (f g : ℕ → ZMod 2) : word16 f ^^^ word16 g = word16 fun j => f j + g j :=
  wbit_ext fun j hj => by rw [wbit_xor, wbit_word16 _ hj, wbit_word16 _ hj, wbit_word16 _ hj]

theorem word16_and (f g : ℕ → ZMod 2) : word16 f &&& word16 g = word16 fun j => f j * g j :=
  wbit_ext fun j hj => by rw [wbit_and, wbit_word16 _ hj, wbit_word16 _ hj, wbit_word16 _ hj]

theorem extend16_eq (x : ZMod 2) : extend16 (b8 x) = word16 fun _ => x := by
  rcases zmod2_cases x with rfl | rfl <;> decide

theorem bitsOf_u16bytes (w : U16) {j : ℕ} (hj : j < 16) : bitsOf (u16bytes w) j = wbit w j := by
  unfold u16bytes bitsOf byteBit wbit
  by_cases h : j < 8
  · rw [show j / 8 = 0 by omega, show j % 8 = j by omega]
    simp [bb, show 7 - j < 8 by omega]
  · rw [show j / 8 = 1 by omega, show j % 8 = j - 8 by omega]
    simp [bb, show 7 - (j - 8) < 8 by omega]

theorem u16ofBytes_ok {b : Buf} (h : b.length = 2) : u16ofBytes b = Outcome.ok (word16 (bitsOf b)) := by
  match b, h with
  | [b0, b1], _ =>
    unfold u16ofBytes
    rw [rd_ok (by simp), ok_bind, rd_ok (by simp), ok_bind, pure_eq_ok]
    congr 1
    refine wbit_ext fun j hj => ?_
    rw [wbit_word16 _ hj]
    exact wbit_append b1 b0 hj

theorem u16bytes_length (w : U16) : (u16bytes w).length = 2 := rfl

theorem parity16_eq (x : U16) : parity16 x = (b8 (∑ j ∈ range 16, wbit x j)).setWidth 16 := by
  have h1 : ∀ y : U16, y &&& 1 = (b8 (bb (y.getLsbD 0))).setWidth 16 := by
    intro y
    apply BitVec.eq_of_getLsbD_eq
    intro i hi
    rw [BitVec.getLsbD_and, BitVec.getLsbD_setWidth, b8_bb]
    rcases Nat.eq_zero_or_pos i with h | h
    · subst h
      cases y.getLsbD 0 <;> simp
    · have : (1 : U16).getLsbD i = false := by interval_cases i <;> rfl
      rw [this]
      cases y.getLsbD 0 <;> simp
      omega
  have h2 : bb ((let y := x ^^^ (x >>> 1)
         let y := y ^^^ (y >>> 2)
         let y := y ^^^ (y >>> 4)
         let y := y ^^^ (y >>> 8)
         y).getLsbD 0) = ∑ j ∈ range 16, wbit x j := by
    simp only [BitVec.getLsbD_xor, BitVec.getLsbD_ushiftRight, bb_xor, wbit, sum_range_succ, range_zero, sum_empty]
    norm_num
    ring
  rw [← h2, ← h1]
  rfl

theorem setWidth_b8 (x : ZMod 2) : ((b8 x).setWidth 16).setWidth 8 = b8 x := by
  rcases zmod2_cases x with rfl | rfl <;> decide

theorem parity16_word (f : ℕ → ZMod 2) : (parity16 (word16 f)).setWidth 8 = b8 (∑ j ∈ range 16, f j) := by
  rw [parity16_eq, setWidth_b8, sum_congr rfl fun j hj => wbit_word16 _ (mem_range.1 hj)]

/-! ### reading the tapes -/

/-- The tapes of 16 parties. -/
abbrev tapes16 (tp : ℕ → Buf) (pos : ℕ) : RandomTape := { tape := arrN 16 tp, pos := pos }

/-- The word of tape bits at a position. -/
abbrev tword (tp : ℕ → Buf) (pos : ℕ) : U16 := word16 fun j => bitsOf (tp j) pos

theorem tapesToWord_ok {E : Env} {tp : ℕ → Buf} {pos : ℕ} (h : ∀ j < 16, pos < 8 * (tp j).length) :
    tapesToWord E (tapes16 tp pos) = Outcome.ok (tword tp pos, tapes16 tp (pos + 1)) := by
  unfold tapesToWord
  have key := loop_inv (fun i (s : Buf) => s.length = 2 ∧ ∀ j < i, bitsOf s j = bitsOf (tp j) pos)
    (f := fun i shares => do
      let t ← rd (tapes16 tp pos).tape i
      let bit ← getBit t (tapes16 tp pos).pos
      setBit shares i bit) (n := 16) (s := E.junkBuf siteStack (tapes16 tp pos).pos 2) ⟨by simp, fun j hj => by omega⟩ (by
      intro i hi s ⟨hl, hb⟩
      refine ⟨_, bind_of (rd_arrN hi) (bind_of (getBit_ok (h i hi)) (setBit_ok (by omega) _)), by simpa using hl, fun j hj => ?_⟩
      rw [bitsOf_setBitP (by omega), Function.update_apply]
      split_ifs with e
      · rw [e]
      · exact hb j (by omega))
  obtain ⟨s, h1, h2, h3⟩ := key
  rw [h1, ok_bind, u16ofBytes_ok h2, ok_bind, pure_eq_ok]
  congr 2
  exact word16_congr h3

theorem tapesToWords_ok {E : Env} {tp : ℕ → Buf} {pos n : ℕ} (h : ∀ j < 16, pos + n ≤ 8 * (tp j).length) :
    tapesToWords E n (tapes16 tp pos) = Outcome.ok (arrN n fun i => tword tp (pos + i), tapes16 tp (pos + n)) := by
  unfold tapesToWords
  refine loop_seq (fun i => (arrN i fun i => tword tp (pos + i), tapes16 tp (pos + i))) (by simp) fun i hi => ?_
  dsimp only
  rw [tapesToWord_ok fun j hj => by have := h j hj; omega, ok_bind]
  rw [pure_eq_ok, arrN, arrN, List.range_succ, List.map_append]
  rfl

/-- Sum of the tape bits of all parties at a position. -/
def tpar (tp : ℕ → Buf) (pos : ℕ) : ZMod 2 := ∑ j ∈ range 16, bitsOf (tp j) pos

theorem tapesToParityBits_ok {E : Env} {tp : ℕ → Buf} {pos n : ℕ} {out : Buf} (h : ∀ j < 16, pos + n ≤ 8 * (tp j).length)
    (ho : n ≤ 8 * out.length) :
    ∃ out', tapesToParityBits E out n (tapes16 tp pos) = Outcome.ok (out', tapes16 tp (pos + n)) ∧ out'.length = out.length ∧
      ∀ i, bitsOf out' i = if i < n then tpar tp (pos + i) else bitsOf out i := by
  unfold tapesToParityBits
  have key := loop_inv (fun i (s : Buf × RandomTape) => s.2 = tapes16 tp (pos + i) ∧ s.1.length = out.length ∧
      ∀ k, bitsOf s.1 k = if k < i then tpar tp (pos + k) else bitsOf out k)
    (f := fun i (s : Buf × RandomTape) => do
      let (w, tapes) ← tapesToWord E s.2
      let output ← setBit s.1 i ((parity16 w).setWidth 8)
      pure (output, tapes)) (n := n) (s := (out, tapes16 tp pos)) ⟨rfl, rfl, fun k => by simp⟩ (by
      rintro i hi ⟨s, t⟩ ⟨ht, hl, hb⟩
      dsimp only at ht hl hb ⊢
      subst ht
      rw [tapesToWord_ok fun j hj => by have := h j hj; omega, ok_bind]
      dsimp only
      rw [parity16_word, setBit_ok (by omega), ok_bind]
      refine ⟨_, rfl, rfl, by simpa using hl, fun k => ?_⟩
      dsimp only
      rw [bitsOf_setBitP (by omega), Function.update_apply, hb]
      split_ifs with h1 h2 h3
      · rw [h1]; rfl
      · omega
      · rfl
      · omega
      · omega
      · rfl)
  obtain ⟨⟨s, t⟩, h1, rfl, h2, h3⟩ := key
  exact ⟨s, h1, h2, h3⟩

end Picnic
