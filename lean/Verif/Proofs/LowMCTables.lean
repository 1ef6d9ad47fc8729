import Verif.Model.LowMCTables
import Verif.Proofs.P3Api
import Verif.Props.KeyGen
import Mathlib.Tactic.IntervalCases
import Mathlib.Tactic.Ring

/-
Products of bit matrices that are stored in numbers.
-/

namespace Picnic.Tables

open Finset Spec

/-- A bit as an element of GF(2). -/
def z (b : Bool) : ZMod 2 := if b then 1 else 0

theorem z_xor (a b : Bool) : z (a ^^ b) = z a + z b := by cases a <;> cases b <;> decide

theorem z_and (a b : Bool) : z (a && b) = z a * z b := by cases a <;> cases b <;> decide

/-- The numbers `f 0`, …, `f (m - 1)`, with `n` bits each. -/
def pack (n : ℕ) (f : ℕ → ℕ) : ℕ → ℕ
  | 0 => 0
  | m + 1 => 2 ^ (n * m) * f m + pack n f m

theorem pack_lt {n : ℕ} {f : ℕ → ℕ} (h : ∀ i, f i < 2 ^ n) (m : ℕ) : pack n f m < 2 ^ (n * m) := by
  induction m with
  | zero => simp [pack]
  | succ m ih =>
    have h1 := h m
    rw [pack, Nat.mul_succ, pow_add]
    calc 2 ^ (n * m) * f m + pack n f m < 2 ^ (n * m) * f m + 2 ^ (n * m) := by omega
      _ = 2 ^ (n * m) * (f m + 1) := by ring
      _ ≤ 2 ^ (n * m) * 2 ^ n := Nat.mul_le_mul_left _ h1

theorem pack_testBit {n : ℕ} {f : ℕ → ℕ} (h : ∀ i, f i < 2 ^ n) (m : ℕ) {i k : ℕ} (hk : k < n) :
    (pack n f m).testBit (n * i + k) = (decide (i < m) && (f i).testBit k) := by
  induction m with
  | zero => simp [pack]
  | succ m ih =>
    rw [pack, Nat.testBit_two_pow_mul_add _ (pack_lt h m)]
    rcases Nat.lt_trichotomy i m with hi | rfl | hi
    · have : n * i + k < n * m := by
        calc n * i + k < n * i + n := by omega
          _ = n * (i + 1) := by ring
          _ ≤ n * m := Nat.mul_le_mul_left _ hi
      rw [if_pos this, ih]
      simp [hi, Nat.lt_succ_of_lt hi]
    · rw [if_neg (by omega), Nat.add_sub_cancel_left]
      simp
    · have hge : n * m + n ≤ n * i := by
        calc n * m + n = n * (m + 1) := by ring
          _ ≤ n * i := Nat.mul_le_mul_left _ hi
      have hz : (f m).testBit (n * i + k - n * m) = false :=
        Nat.testBit_lt_two_pow ((h m).trans_le (Nat.pow_le_pow_right (by decide) (by omega)))
      rw [if_neg (by omega), hz]
      simp [show ¬ i < m + 1 by omega]

theorem pack_mul (n : ℕ) (f : ℕ → ℕ) (b m : ℕ) : pack n f m * b = pack n (fun i => f i * b) m := by
  induction m with
  | zero => simp [pack]
  | succ m ih => rw [pack, pack, ← ih]; ring

theorem testBit_pair {n a b : ℕ} (hn : 0 < n) (h : ∀ i, ∀ k < n, a.testBit (n * i + k) = b.testBit (n * i + k)) : a = b := by
  refine Nat.eq_of_testBit_eq fun t => ?_
  have := h (t / n) (t % n) (Nat.mod_lt _ hn)
  rwa [Nat.div_add_mod] at this

/-- Column `j` of a matrix: entry `i` is bit `n * i`. -/
def col (n A j : ℕ) : ℕ := (A >>> j) &&& pack n (fun _ => 1) n

theorem one_lt {n : ℕ} (hn : 0 < n) : 1 < 2 ^ n := Nat.one_lt_two_pow (by omega)

theorem col_eq {n : ℕ} (hn : 0 < n) (A j : ℕ) : col n A j = pack n (fun i => (A.testBit (n * i + j)).toNat) n := by
  refine testBit_pair hn fun i k hk => ?_
  have h1 : ∀ i : ℕ, (A.testBit (n * i + j)).toNat < 2 ^ n := fun i => (Bool.toNat_lt _).trans_le (one_lt hn)
  rw [col, Nat.testBit_and, Nat.testBit_shiftRight, pack_testBit (fun _ => one_lt hn) n hk, pack_testBit h1 n hk]
  rcases Nat.eq_zero_or_pos k with rfl | h0
  · cases hA : A.testBit (n * i + j) <;> simp [hA, Nat.add_comm j]
  · have : ∀ b : Bool, b.toNat.testBit k = false := fun b =>
      Nat.testBit_lt_two_pow ((Bool.toNat_lt b).trans_le (Nat.one_lt_two_pow (by omega)))
    rw [this, show (1 : ℕ).testBit k = false from this true]
    simp

/-- Sum of column `j` of `A` times row `j` of the other matrix, for the first `m` values of `j`. -/
def mulRows (n A : ℕ) (B : ℕ → ℕ) : ℕ → ℕ
  | 0 => 0
  | m + 1 => mulRows n A B m ^^^ col n A m * B m

theorem mulRows_testBit {n : ℕ} (hn : 0 < n) (A : ℕ) {B : ℕ → ℕ} (hB : ∀ j, B j < 2 ^ n) {i k : ℕ} (hi : i < n) (hk : k < n) (m : ℕ) :
    z ((mulRows n A B m).testBit (n * i + k)) = ∑ j ∈ range m, z (A.testBit (n * i + j)) * z ((B j).testBit k) := by
  induction m with
  | zero => simp [mulRows, z]
  | succ m ih =>
    have hb : ∀ i : ℕ, (A.testBit (n * i + m)).toNat * B m < 2 ^ n := fun i => by
      cases A.testBit (n * i + m)
      · simp
      · simpa using hB m
    rw [mulRows, Nat.testBit_xor, z_xor, ih, sum_range_succ, col_eq hn, pack_mul, pack_testBit hb n hk, ← z_and]
    congr 2
    cases A.testBit (n * i + m) <;> simp [hi]

/-- Row `j`. -/
def row (n B j : ℕ) : ℕ := (B >>> (n * j)) % 2 ^ n

/-- The product is the identity matrix. -/
def invCheck (n A B : ℕ) : Bool := Nat.beq (mulRows n A (row n B) n) (pack n (fun i => 2 ^ i) n)

theorem isInv_of_check {n A B : ℕ} (hn : 0 < n) (h : invCheck n A B = true) :
    IsInv n (fun i j => z (A.testBit (n * i + j))) (fun i j => z (B.testBit (n * i + j))) := by
  intro i hi k hk
  have e := Nat.eq_of_beq_eq_true h
  have hB : ∀ j, row n B j < 2 ^ n := fun j => Nat.mod_lt _ (by positivity)
  have h1 := mulRows_testBit hn A hB hi hk n
  have hr : ∀ j, (row n B j).testBit k = B.testBit (n * j + k) := fun j => by
    rw [row, Nat.testBit_mod_two_pow, Nat.testBit_shiftRight]; simp [hk]
  simp only [hr] at h1
  rw [← h1, e]
  -- the identity matrix, with rows cut to n bits
  have hp : ∀ m ≤ n, pack n (fun i => 2 ^ i) m = pack n (fun i => 2 ^ i % 2 ^ n) m := by
    intro m
    induction m with
    | zero => intro _; rfl
    | succ m ih =>
      intro hm
      rw [pack, pack, ih (by omega), Nat.mod_eq_of_lt (Nat.pow_lt_pow_right (by decide) (by omega))]
  rw [hp n le_rfl, pack_testBit (fun i => Nat.mod_lt _ (by positivity)) n hk, Nat.testBit_mod_two_pow, Nat.testBit_two_pow]
  by_cases h : i = k
  · simp [h, hk, z]
  · simp [h, z]

/-! ### The tables in the format of the library -/

/-- The matrix in the storage format of the library: rows of `W` words, first bit of a byte is the most significant one. -/
def matrixBuf (W n A : ℕ) : Buf :=
  ofBits (fun k => if k % (32 * W) < n then z (A.testBit (n * (k / (32 * W)) + k % (32 * W))) else 0) (4 * W * n)

/-- The bits of a number in the storage format of the library. -/
def rowBuf (W n c : ℕ) : Buf := ofBits (fun k => if k < n then z (c.testBit k) else 0) (4 * W)

theorem matBits_matrixBuf {W n : ℕ} (hW : n ≤ 32 * W) (A : ℕ) {i j : ℕ} (hi : i < n) (hj : j < n) :
    matBits W (matrixBuf W n A) i j = z (A.testBit (n * i + j)) := by
  have hpos : 0 < 32 * W := by omega
  have hlt : 32 * W * i + j < 8 * (4 * W * n) := by
    calc 32 * W * i + j < 32 * W * i + 32 * W := by omega
      _ = 32 * W * (i + 1) := by ring
      _ ≤ 32 * W * n := Nat.mul_le_mul_left _ hi
      _ = _ := by ring
  rw [matBits, matrixBuf, bitsOf_ofBits _ hlt, Nat.mul_add_div hpos, Nat.div_eq_of_lt (by omega), Nat.add_zero,
    Nat.mul_add_mod, Nat.mod_eq_of_lt (by omega), if_pos hj]

theorem isInv_matrixBuf {W n A B : ℕ} (hn : 0 < n) (hW : n ≤ 32 * W) (h : invCheck n A B = true) :
    IsInv n (matBits W (matrixBuf W n A)) (matBits W (matrixBuf W n B)) := by
  intro i hi k hk
  rw [← isInv_of_check hn h i hi k hk]
  exact sum_congr rfl fun j hj => by
    rw [matBits_matrixBuf hW A hi (mem_range.1 hj), matBits_matrixBuf hW B (mem_range.1 hj) hk]

/-- Tables in the format of the library. -/
def toConsts (W : ℕ) (T : NatTables) : LowMCConsts where
  K r := matrixBuf W T.n (T.K r)
  KInv _ := matrixBuf W T.n T.KInv
  L r := matrixBuf W T.n (T.L r)
  LInv r := matrixBuf W T.n (T.LInv r)
  RC r := rowBuf W T.n (T.RC r)

theorem toConsts_wf {P : Params} (hP : ParamsWF P) {T : NatTables} (hn : T.n = P.stateSizeBits) : ConstsWF P (toConsts P.stateSizeWords T) where
  K_len := fun r _ => by simp [toConsts, matrixBuf, hn]
  L_len := fun r _ => by simp [toConsts, matrixBuf, hn]
  RC_len := fun r _ => by simp [toConsts, rowBuf]
  RC_pad := fun r _ i h1 h2 => by
    simp only [toConsts, rowBuf]
    rw [bitsOf_ofBits _ (by omega), if_neg (by omega)]

theorem toConsts_invLen {P : Params} {T : NatTables} (hn : T.n = P.stateSizeBits) : InvLen P (toConsts P.stateSizeWords T) where
  KInv_len := by simp [toConsts, matrixBuf, hn]
  LInv_len := fun r _ => by simp [toConsts, matrixBuf, hn]

/-- All products are identity matrices. -/
def NatTables.ok (T : NatTables) : Bool :=
  invCheck T.n (T.K 0) T.KInv && (invCheck T.n (T.L 0) (T.LInv 0) && (invCheck T.n (T.L 1) (T.LInv 1) &&
    (invCheck T.n (T.L 2) (T.LInv 2) && invCheck T.n (T.L 3) (T.LInv 3))))

/-- All products in the other order. -/
def NatTables.left (T : NatTables) : Bool :=
  invCheck T.n (T.LInv 0) (T.L 0) && (invCheck T.n (T.LInv 1) (T.L 1) && (invCheck T.n (T.LInv 2) (T.L 2) && invCheck T.n (T.LInv 3) (T.L 3)))

theorem t129_left : t129.left = true := by decide +kernel

theorem t192_left : t192.left = true := by decide +kernel

theorem t255_left : t255.left = true := by decide +kernel

theorem t129_ok : t129.ok = true := by decide +kernel

theorem t192_ok : t192.ok = true := by decide +kernel

theorem t255_ok : t255.ok = true := by decide +kernel

theorem toConsts_inv {P : Params} (hP : ParamsWF P) (hr : P.numRounds = 4) {T : NatTables} (hn : T.n = P.stateSizeBits) (h : T.ok = true) :
    InvOK P (toConsts P.stateSizeWords T) := by
  have hw := hP.words
  have hpos := hP.nPos
  have hW : P.stateSizeBits ≤ 32 * P.stateSizeWords := by omega
  simp only [NatTables.ok, Bool.and_eq_true, hn] at h
  obtain ⟨h0, h1, h2, h3, h4⟩ := h
  refine ⟨?_, fun r hlt => ?_⟩
  · simp only [toConsts, hn]
    exact isInv_matrixBuf hpos hW h0
  · rw [hr] at hlt
    simp only [toConsts, hn]
    rcases (by omega : r = 0 ∨ r = 1 ∨ r = 2 ∨ r = 3) with rfl | rfl | rfl | rfl
    · exact isInv_matrixBuf hpos hW h1
    · exact isInv_matrixBuf hpos hW h2
    · exact isInv_matrixBuf hpos hW h3
    · exact isInv_matrixBuf hpos hW h4

theorem toConsts_left {P : Params} (hP : ParamsWF P) (hr : P.numRounds = 4) {T : NatTables} (hn : T.n = P.stateSizeBits) (h : T.left = true) (r : ℕ)
    (hlt : r < P.numRounds) :
    IsInv P.stateSizeBits (matBits P.stateSizeWords ((toConsts P.stateSizeWords T).LInv r)) (matBits P.stateSizeWords ((toConsts P.stateSizeWords T).L r)) := by
  have hw := hP.words
  have hpos := hP.nPos
  have hW : P.stateSizeBits ≤ 32 * P.stateSizeWords := by omega
  simp only [NatTables.left, Bool.and_eq_true, hn] at h
  obtain ⟨h1, h2, h3, h4⟩ := h
  rw [hr] at hlt
  simp only [toConsts, hn]
  rcases (by omega : r = 0 ∨ r = 1 ∨ r = 2 ∨ r = 3) with rfl | rfl | rfl | rfl
  · exact isInv_matrixBuf hpos hW h1
  · exact isInv_matrixBuf hpos hW h2
  · exact isInv_matrixBuf hpos hW h3
  · exact isInv_matrixBuf hpos hW h4

/-! ### Encryption with numbers

Entry `i` of a vector is bit `n * i`. -/

/-- Entry `i`. -/
def bt (n S i : ℕ) : ℕ := (S >>> (n * i)) % 2

theorem bt_lt (n S i : ℕ) : bt n S i < 2 := Nat.mod_lt _ (by decide)

theorem bt_testBit (n S i : ℕ) : (bt n S i).testBit 0 = S.testBit (n * i) := by
  rw [bt, show (2 : ℕ) = 2 ^ 1 from rfl, Nat.testBit_mod_two_pow, Nat.testBit_shiftRight]; simp

/-- The vector as bits. -/
def val (n S : ℕ) : Bits := fun i => z (S.testBit (n * i))

theorem bt_cast (n S i : ℕ) : ((bt n S i : ℕ) : ZMod 2) = val n S i := by
  rw [val, ← bt_testBit]
  rcases (by have := bt_lt n S i; omega : bt n S i = 0 ∨ bt n S i = 1) with h | h <;> rw [h] <;> rfl

theorem z_bit {x : ℕ} : z ((x % 2).testBit 0) = (x : ZMod 2) := by
  rw [← ZMod.natCast_mod x 2]
  rcases (by omega : x % 2 = 0 ∨ x % 2 = 1) with h | h <;> rw [h] <;> rfl

theorem val_pack {n : ℕ} (hn : 0 < n) (f : ℕ → ℕ) {i : ℕ} (hi : i < n) : val n (pack n (fun i => f i % 2) n) i = (f i : ZMod 2) := by
  have h : ∀ i, f i % 2 < 2 ^ n := fun i => (Nat.mod_lt _ (by decide)).trans_le (one_lt hn)
  have e := pack_testBit h n (i := i) hn
  rw [Nat.add_zero] at e
  rw [val, e, decide_eq_true hi, Bool.true_and, z_bit]

/-- Matrix times vector. -/
def mulN (n A S : ℕ) : ℕ := mulRows n A (bt n S) n

theorem val_mulN {n : ℕ} (hn : 0 < n) (A S : ℕ) {i : ℕ} (hi : i < n) :
    val n (mulN n A S) i = ∑ j ∈ range n, z (A.testBit (n * i + j)) * val n S j := by
  have h := mulRows_testBit hn A (fun j => (bt_lt n S j).trans_le (one_lt hn)) hi hn n
  rw [Nat.add_zero] at h
  rw [val, mulN, h]
  exact sum_congr rfl fun j _ => by rw [bt_testBit, val]

/-- The S-box layer. -/
def sboxN (n m S : ℕ) : ℕ :=
  pack n (fun i => (if i < 3 * m then
      (if i % 3 = 2 then bt n S i + bt n S (i - 1) * bt n S (i - 2)
      else if i % 3 = 1 then bt n S (i + 1) + bt n S i + bt n S (i + 1) * bt n S (i - 1)
      else bt n S (i + 2) + bt n S (i + 1) + bt n S i + bt n S (i + 2) * bt n S (i + 1))
    else bt n S i) % 2) n

theorem val_sboxN {n : ℕ} (hn : 0 < n) (m S : ℕ) {i : ℕ} (hi : i < n) : val n (sboxN n m S) i = sboxLayer m (val n S) i := by
  rw [sboxN, val_pack hn _ hi, sboxLayer]
  by_cases h : i < 3 * m
  · rw [if_pos h, if_pos h]
    have h3 : i % 3 = 0 ∨ i % 3 = 1 ∨ i % 3 = 2 := by omega
    rcases h3 with h3 | h3 | h3
    · simp [h3, sbox, bt_cast, show 3 * (i / 3) = i by omega]
    · simp [h3, sbox, bt_cast, show 3 * (i / 3) = i - 1 by omega, show i - 1 + 2 = i + 1 by omega, show i - 1 + 1 = i by omega]
    · simp [h3, sbox, bt_cast, show 3 * (i / 3) = i - 2 by omega, show i - 2 + 2 = i by omega, show i - 2 + 1 = i - 1 by omega]
  · rw [if_neg h, if_neg h, bt_cast]

/-- A block of bytes as a vector. -/
def ofBuf (n : ℕ) (b : Buf) : ℕ := pack n (fun i => (b.getD (i / 8) 0).toNat / 2 ^ (7 - i % 8) % 2) n

/-- The bits of a number as a vector. -/
def ofNum (n c : ℕ) : ℕ := pack n (fun i => c / 2 ^ i % 2) n

/-- The state after `t` rounds. -/
def stateN (T : NatTables) (m key pt : ℕ) : ℕ → ℕ
  | 0 => pt ^^^ mulN T.n (T.K 0) key
  | t + 1 => mulN T.n (T.L t) (sboxN T.n m (stateN T m key pt t)) ^^^ ofNum T.n (T.RC t) ^^^ mulN T.n (T.K (t + 1)) key

theorem val_xor (n S T i : ℕ) : val n (S ^^^ T) i = val n S i + val n T i := by rw [val, Nat.testBit_xor, z_xor]; rfl

theorem val_ofBuf {n : ℕ} (hn : 0 < n) (b : Buf) {i : ℕ} (hi : i < n) : val n (ofBuf n b) i = bitsOf b i := by
  rw [ofBuf, val_pack hn _ hi, bitsOf, byteBit]
  generalize b.getD (i / 8) 0 = x
  have : i % 8 < 8 := Nat.mod_lt _ (by decide)
  generalize i % 8 = k at *
  revert x
  interval_cases k <;> decide +kernel

theorem val_ofNum {n : ℕ} (hn : 0 < n) (c : ℕ) {i : ℕ} (hi : i < n) : val n (ofNum n c) i = z (c.testBit i) := by
  rw [ofNum, val_pack hn _ hi, Nat.testBit_eq_decide_div_mod_eq, z, ← ZMod.natCast_mod]
  rcases (by omega : c / 2 ^ i % 2 = 0 ∨ c / 2 ^ i % 2 = 1) with h | h <;> simp [h]

theorem val_stateN {P : Params} (hP : ParamsWF P) {T : NatTables} (hn : T.n = P.stateSizeBits) (key pt : Buf) (t : ℕ) (ht : t ≤ P.numRounds) {i : ℕ}
    (hi : i < P.stateSizeBits) :
    val T.n (stateN T P.numSboxes (ofBuf T.n key) (ofBuf T.n pt) t) i =
      (lowmcOf P (toConsts P.stateSizeWords T)).state (bitsOf key) (bitsOf pt) t i := by
  have hw := hP.words
  have hpos := hP.nPos
  have hs := hP.sboxes
  have hW : P.stateSizeBits ≤ 32 * P.stateSizeWords := by omega
  have hmul : ∀ (A S : ℕ) (v : Bits), (∀ j < P.stateSizeBits, val P.stateSizeBits S j = v j) → ∀ i < P.stateSizeBits,
      val P.stateSizeBits (mulN P.stateSizeBits A S) i =
        mulVec P.stateSizeBits (matBits P.stateSizeWords (matrixBuf P.stateSizeWords P.stateSizeBits A)) v i := by
    intro A S v hv i hi
    rw [val_mulN hpos A S hi, mulVec, if_pos hi]
    exact sum_congr rfl fun j hj => by rw [matBits_matrixBuf hW A hi (mem_range.1 hj), hv j (mem_range.1 hj)]
  have hkey : ∀ j < P.stateSizeBits, val P.stateSizeBits (ofBuf P.stateSizeBits key) j = bitsOf key j := fun j hj => val_ofBuf hpos key hj
  induction t generalizing i with
  | zero =>
    simp only [stateN, LowMC.state, hn, val_xor, Pi.add_apply]
    rw [val_ofBuf hpos pt hi, hmul _ _ _ hkey i hi]
    simp only [lowmcOf, toConsts, hn]
  | succ t ih =>
    have hsb : ∀ j < P.stateSizeBits, val P.stateSizeBits (sboxN P.stateSizeBits P.numSboxes
        (stateN T P.numSboxes (ofBuf P.stateSizeBits key) (ofBuf P.stateSizeBits pt) t)) j =
        sboxLayer P.numSboxes ((lowmcOf P (toConsts P.stateSizeWords T)).state (bitsOf key) (bitsOf pt) t) j := by
      intro j hj
      rw [val_sboxN hpos _ _ hj]
      have ih' : ∀ j < P.stateSizeBits, _ := fun j hj => ih (by omega) (i := j) hj
      rw [hn] at ih'
      unfold sboxLayer
      by_cases h : j < 3 * P.numSboxes
      · rw [if_pos h, if_pos h, ih' _ (by omega), ih' _ (by omega), ih' _ (by omega)]
      · rw [if_neg h, if_neg h, ih' _ hj]
    simp only [stateN, LowMC.state, hn, val_xor, Pi.add_apply]
    rw [hmul _ _ _ hsb i hi, hmul _ _ _ hkey i hi, val_ofNum hpos _ hi]
    simp only [lowmcOf, toConsts, hn, rowBuf, trunc, if_pos hi]
    rw [bitsOf_ofBits _ (by omega), if_pos hi]

/-- The ciphertext is the encryption, with zero bits at the end. -/
def katCheck (T : NatTables) (m : ℕ) (key pt ct : Buf) : Bool :=
  Nat.beq (stateN T m (ofBuf T.n key) (ofBuf T.n pt) 4) (ofBuf T.n ct) &&
    (List.range (8 * bytesFor T.n - T.n)).all fun k => decide (bitsOf ct (T.n + k) = 0)

theorem relation_of_check {P : Params} (hP : ParamsWF P) (hr : P.numRounds = 4) {T : NatTables} (hn : T.n = P.stateSizeBits) {key pt ct : Buf}
    (h : katCheck T P.numSboxes key pt ct = true) : Relation P (toConsts P.stateSizeWords T) key pt ct := by
  have hpos := hP.nPos
  rw [katCheck, Bool.and_eq_true, List.all_eq_true] at h
  obtain ⟨h1, h2⟩ := h
  have e := Nat.eq_of_beq_eq_true h1
  intro i hi
  by_cases hin : i < P.stateSizeBits
  · rw [if_pos hin, LowMC.enc, show (lowmcOf P (toConsts P.stateSizeWords T)).r = 4 from hr, ← val_stateN hP hn key pt 4 (by omega) hin, e,
      hn, val_ofBuf hpos ct hin]
  · rw [if_neg hin]
    have := h2 (i - T.n) (List.mem_range.2 (by rw [hn]; omega))
    rwa [decide_eq_true_eq, show T.n + (i - T.n) = i by omega] at this

end Picnic.Tables
