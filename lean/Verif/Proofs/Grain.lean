import Verif.Spec.Grain
import Verif.Proofs.LowMCTables

/-
The self-shrinking generator with numbers: many pairs of bits at a time, in fields of a number.
-/

namespace Picnic.Tables

open Finset Spec Spec.Grain

/-! ### Fields -/

theorem pack_congr {n m : ℕ} {f g : ℕ → ℕ} (h : ∀ i < m, f i = g i) : pack n f m = pack n g m := by
  induction m with
  | zero => rfl
  | succ m ih => rw [pack, pack, h m (by omega), ih fun i hi => h i (by omega)]

theorem pack_add (n : ℕ) (f g : ℕ → ℕ) (m : ℕ) : pack n f m + pack n g m = pack n (fun i => f i + g i) m := by
  induction m with
  | zero => rfl
  | succ m ih => rw [pack, pack, pack, ← ih]; ring

theorem pack_and {n : ℕ} (hn : 0 < n) {f g : ℕ → ℕ} (hf : ∀ i, f i < 2 ^ n) (hg : ∀ i, g i < 2 ^ n) (m : ℕ) :
    pack n f m &&& pack n g m = pack n (fun i => f i &&& g i) m := by
  refine testBit_pair hn fun i k hk => ?_
  rw [Nat.testBit_and, pack_testBit hf m hk, pack_testBit hg m hk, pack_testBit (fun i => Nat.and_lt_two_pow _ (hg i)) m hk, Nat.testBit_and]
  cases decide (i < m) <;> simp

/-- A one in each field. -/
def rep (n m : ℕ) : ℕ := (2 ^ (n * m) - 1) / (2 ^ n - 1)

theorem rep_eq {n : ℕ} (hn : 0 < n) (m : ℕ) : rep n m = pack n (fun _ => 1) m := by
  have h1 := one_lt hn
  have h : pack n (fun _ => 1) m * (2 ^ n - 1) = 2 ^ (n * m) - 1 := by
    induction m with
    | zero => simp [pack]
    | succ m ih =>
      rw [pack, Nat.add_mul, ih, show n * (m + 1) = n * m + n by ring, pow_add, Nat.mul_one, Nat.mul_sub, Nat.mul_one]
      have h2 : 1 ≤ 2 ^ (n * m) := Nat.one_le_two_pow
      have h3 : 2 ^ (n * m) ≤ 2 ^ (n * m) * 2 ^ n := Nat.le_mul_of_pos_right _ (by omega)
      omega
  rw [rep, ← h, Nat.mul_div_cancel _ (by omega)]

theorem pack_pair (w : ℕ) (f : ℕ → ℕ) (m : ℕ) : pack w f (2 * m) = pack (2 * w) (fun i => f (2 * i) + 2 ^ w * f (2 * i + 1)) m := by
  induction m with
  | zero => rfl
  | succ m ih =>
    rw [pack, ← ih, show 2 * (m + 1) = 2 * m + 1 + 1 by ring, pack, pack, show w * (2 * m + 1) = 2 * w * m + w by ring, pow_add,
      show w * (2 * m) = 2 * w * m by ring]
    ring

/-- The fields with even numbers. -/
def lo (w m A : ℕ) : ℕ := A &&& ((rep (2 * w) m <<< w) - rep (2 * w) m)

/-- The fields with odd numbers. -/
def hi (w m A : ℕ) : ℕ := (A - lo w m A) >>> w

theorem lo_pack {w : ℕ} (hw : 0 < w) {f : ℕ → ℕ} (hf : ∀ i, f i < 2 ^ w) (m : ℕ) :
    lo w m (pack w f (2 * m)) = pack (2 * w) (fun i => f (2 * i)) m := by
  have h1 := one_lt hw
  have hp : 2 ^ (2 * w) = 2 ^ w * 2 ^ w := by rw [two_mul, pow_add]
  have e : (rep (2 * w) m <<< w) - rep (2 * w) m = pack (2 * w) (fun _ => 2 ^ w - 1) m := by
    rw [rep_eq (by omega), Nat.shiftLeft_eq, ← Nat.mul_sub_one, pack_mul]
    exact pack_congr fun i _ => by simp
  have hb : ∀ i, f (2 * i) + 2 ^ w * f (2 * i + 1) < 2 ^ (2 * w) := fun i => by
    have a := hf (2 * i)
    have b := hf (2 * i + 1)
    rw [hp]
    calc f (2 * i) + 2 ^ w * f (2 * i + 1) < 2 ^ w + 2 ^ w * f (2 * i + 1) := by omega
      _ = 2 ^ w * (f (2 * i + 1) + 1) := by ring
      _ ≤ 2 ^ w * 2 ^ w := Nat.mul_le_mul_left _ b
  rw [lo, e, pack_pair, pack_and (by omega) hb (fun _ => by rw [hp]; exact (Nat.sub_lt (by omega) (by decide)).trans_le (Nat.le_mul_of_pos_right _ (by omega)))]
  exact pack_congr fun i _ => by
    rw [Nat.and_two_pow_sub_one_eq_mod, Nat.add_mul_mod_self_left, Nat.mod_eq_of_lt (hf _)]

theorem hi_pack {w : ℕ} (hw : 0 < w) {f : ℕ → ℕ} (hf : ∀ i, f i < 2 ^ w) (m : ℕ) :
    hi w m (pack w f (2 * m)) = pack (2 * w) (fun i => f (2 * i + 1)) m := by
  rw [hi, lo_pack hw hf, pack_pair, ← pack_add, Nat.add_sub_cancel_left, Nat.shiftRight_eq_div_pow]
  have : pack (2 * w) (fun i => 2 ^ w * f (2 * i + 1)) m = pack (2 * w) (fun i => f (2 * i + 1)) m * 2 ^ w := by
    rw [pack_mul]; exact pack_congr fun i _ => by ring
  rw [this, Nat.mul_div_cancel _ (by positivity)]

/-- Bit `j` of each field. -/
theorem bits_pack {n : ℕ} (hn : 0 < n) (A m j : ℕ) : (A >>> j) &&& rep n m = pack n (fun i => (A.testBit (n * i + j)).toNat) m := by
  rw [rep_eq hn]
  refine testBit_pair hn fun i k hk => ?_
  have h1 : ∀ i : ℕ, (A.testBit (n * i + j)).toNat < 2 ^ n := fun i => (Bool.toNat_lt _).trans_le (one_lt hn)
  rw [Nat.testBit_and, Nat.testBit_shiftRight, pack_testBit (fun _ => one_lt hn) m hk, pack_testBit h1 m hk]
  rcases Nat.eq_zero_or_pos k with rfl | h0
  · cases hA : A.testBit (n * i + j) <;> simp [hA, Nat.add_comm j]
  · have : ∀ b : Bool, b.toNat.testBit k = false := fun b =>
      Nat.testBit_lt_two_pow ((Bool.toNat_lt b).trans_le (Nat.one_lt_two_pow (by omega)))
    rw [this, show (1 : ℕ).testBit k = false from this true]
    simp

/-- Each field of `H` is shifted by the number that the lowest bits of the field of `C` give. -/
def shiftBy (n m C H : ℕ) : ℕ → ℕ
  | 0 => H
  | b + 1 =>
    shiftBy n m C H b + (((shiftBy n m C H b &&& ((((C >>> b) &&& rep n m) <<< n) - ((C >>> b) &&& rep n m))) <<< 2 ^ b) -
      (shiftBy n m C H b &&& ((((C >>> b) &&& rep n m) <<< n) - ((C >>> b) &&& rep n m))))

theorem shiftBy_pack {n : ℕ} (hn : 0 < n) {c h : ℕ → ℕ} (m : ℕ) (hc : ∀ i, c i < 2 ^ n) (b : ℕ) (hb : b ≤ n)
    (hh : ∀ i, ∀ s ≤ b, h i * 2 ^ (c i % 2 ^ s) < 2 ^ n) :
    shiftBy n m (pack n c m) (pack n h m) b = pack n (fun i => h i * 2 ^ (c i % 2 ^ b)) m := by
  induction b with
  | zero => exact pack_congr fun i _ => by simp [Nat.mod_one]
  | succ b ih =>
    have ih := ih (by omega) fun i s hs => hh i s (by omega)
    have hsel : ((pack n c m >>> b) &&& rep n m) <<< n - ((pack n c m >>> b) &&& rep n m) =
        pack n (fun i => ((c i).testBit b).toNat * (2 ^ n - 1)) m := by
      rw [bits_pack hn, Nat.shiftLeft_eq, ← Nat.mul_sub_one, pack_mul]
      refine pack_congr fun i hi => ?_
      rw [pack_testBit hc m (by omega), decide_eq_true hi, Bool.true_and]
    have hs2 : ∀ i, ((c i).testBit b).toNat * (2 ^ n - 1) < 2 ^ n := fun i => by
      have := one_lt hn
      cases (c i).testBit b <;> simp
    rw [shiftBy, ih, hsel, pack_and hn (fun i => hh i b (by omega)) hs2, Nat.shiftLeft_eq, ← Nat.mul_sub_one, pack_mul, pack_add]
    refine pack_congr fun i _ => ?_
    have e : c i % 2 ^ (b + 1) = c i % 2 ^ b + 2 ^ b * ((c i).testBit b).toNat := by
      rw [Nat.mod_pow_succ, Nat.testBit_eq_decide_div_mod_eq]
      rcases (by omega : c i / 2 ^ b % 2 = 0 ∨ c i / 2 ^ b % 2 = 1) with h | h <;> simp [h]
    rw [e]
    have hlt := hh i b (by omega)
    cases (c i).testBit b
    · simp
    · simp only [Bool.toNat_true, Nat.one_mul, Nat.mul_one]
      rw [Nat.and_two_pow_sub_one_eq_mod, Nat.mod_eq_of_lt hlt, pow_add, Nat.mul_sub_one, ← Nat.mul_assoc]
      have : h i * 2 ^ (c i % 2 ^ b) ≤ h i * 2 ^ (c i % 2 ^ b) * 2 ^ 2 ^ b := Nat.le_mul_of_pos_right _ (by positivity)
      omega

/-! ### Kept bits -/

/-- Bits as a number, the first one is the lowest. -/
def num : List Bool → ℕ
  | [] => 0
  | b :: l => b.toNat + 2 * num l

theorem num_append (l r : List Bool) : num (l ++ r) = num l + num r * 2 ^ l.length := by
  induction l with
  | nil => simp [num]
  | cons b l ih => rw [List.cons_append, num, num, ih, List.length_cons, pow_succ]; ring

theorem num_lt (l : List Bool) : num l < 2 ^ l.length := by
  induction l with
  | nil => simp [num]
  | cons b l ih =>
    rw [num, List.length_cons, pow_succ]
    have := Bool.toNat_lt b
    omega

theorem num_testBit (l : List Bool) {k : ℕ} (hk : k < l.length) : (num l).testBit k = l[k] := by
  induction l generalizing k with
  | nil => simp at hk
  | cons b l ih =>
    rw [num, show b.toNat + 2 * num l = 2 ^ 1 * num l + b.toNat by ring, Nat.testBit_two_pow_mul_add _ (by simpa using Bool.toNat_lt b)]
    cases k with
    | zero => cases b <;> simp
    | succ k => rw [if_neg (by omega), List.getElem_cons_succ, Nat.add_sub_cancel, ih]

/-- The bits kept from the pairs `s`, …, `s + N - 1` of a number. -/
def keptN (S s N : ℕ) : List Bool :=
  (List.range' s N).filterMap fun t => if S.testBit (2 * t) then some (S.testBit (2 * t + 1)) else none

theorem keptN_length (S s N : ℕ) : (keptN S s N).length ≤ N := by
  have := List.length_filterMap_le (fun t => if S.testBit (2 * t) then some (S.testBit (2 * t + 1)) else none) (List.range' s N)
  rwa [List.length_range'] at this

theorem keptN_add (S s M N : ℕ) : keptN S s (M + N) = keptN S s M ++ keptN S (s + M) N := by
  rw [keptN, keptN, keptN, ← List.filterMap_append]
  congr 1
  rw [← List.range'_append_1]

/-- Numbers of kept bits in groups of `2 ^ l` pairs, in fields of `2 * 2 ^ l` bits; all `2 ^ T` pairs. -/
def levelC (T S : ℕ) : ℕ → ℕ
  | 0 => (S >>> 0) &&& rep 2 (2 ^ T)
  | l + 1 => lo (2 * 2 ^ l) (2 ^ (T - (l + 1))) (levelC T S l) + hi (2 * 2 ^ l) (2 ^ (T - (l + 1))) (levelC T S l)

/-- The kept bits of groups of `2 ^ l` pairs. -/
def levelB (T S : ℕ) : ℕ → ℕ
  | 0 => ((S >>> 0) &&& rep 2 (2 ^ T)) &&& ((S >>> 1) &&& rep 2 (2 ^ T))
  | l + 1 => lo (2 * 2 ^ l) (2 ^ (T - (l + 1))) (levelB T S l) +
      shiftBy (2 * (2 * 2 ^ l)) (2 ^ (T - (l + 1))) (lo (2 * 2 ^ l) (2 ^ (T - (l + 1))) (levelC T S l))
        (hi (2 * 2 ^ l) (2 ^ (T - (l + 1))) (levelB T S l)) (l + 1)

theorem lt_two_pow_mul {a k : ℕ} (h : a ≤ k) (hk : 0 < k) : a < 2 ^ (2 * k) :=
  (Nat.lt_two_pow_self (n := a)).trans_le (Nat.pow_le_pow_right (by decide) (by omega))

theorem levelC_eq (T S l : ℕ) (hl : l ≤ T) :
    levelC T S l = pack (2 * 2 ^ l) (fun f => (keptN S (f * 2 ^ l) (2 ^ l)).length) (2 ^ (T - l)) := by
  induction l with
  | zero =>
    rw [levelC, bits_pack (by decide)]
    refine pack_congr fun i _ => ?_
    rw [Nat.add_zero]
    cases h : S.testBit (2 * i) <;> simp [keptN, List.range'_succ, h]
  | succ l ih =>
    have hpos : 0 < 2 ^ l := by positivity
    have e : 2 ^ (T - l) = 2 * 2 ^ (T - (l + 1)) := by rw [← pow_succ']; congr 1; omega
    have hb : ∀ f, (keptN S (f * 2 ^ l) (2 ^ l)).length < 2 ^ (2 * 2 ^ l) := fun f => lt_two_pow_mul (keptN_length _ _ _) hpos
    rw [levelC, ih (by omega), e, lo_pack (by omega) hb, hi_pack (by omega) hb, pack_add, pow_succ']
    refine pack_congr fun i _ => ?_
    rw [two_mul (2 ^ l), keptN_add, List.length_append, show 2 * i * 2 ^ l = i * (2 ^ l + 2 ^ l) by ring,
      show (2 * i + 1) * 2 ^ l = i * (2 ^ l + 2 ^ l) + 2 ^ l by ring]

theorem levelB_eq (T S l : ℕ) (hl : l ≤ T) :
    levelB T S l = pack (2 * 2 ^ l) (fun f => num (keptN S (f * 2 ^ l) (2 ^ l))) (2 ^ (T - l)) := by
  induction l with
  | zero =>
    have h1 : ∀ j i : ℕ, (S.testBit (2 * i + j)).toNat < 2 ^ 2 := fun j i => (Bool.toNat_lt _).trans_le (by decide)
    rw [levelB, bits_pack (by decide), bits_pack (by decide), pack_and (by decide) (h1 0) (h1 1)]
    refine pack_congr fun i _ => ?_
    rw [Nat.add_zero]
    cases h : S.testBit (2 * i) <;> cases h' : S.testBit (2 * i + 1) <;> simp [keptN, List.range'_succ, h, h', num]
  | succ l ih =>
    have hpos : 0 < 2 ^ l := by positivity
    have e : 2 ^ (T - l) = 2 * 2 ^ (T - (l + 1)) := by rw [← pow_succ']; congr 1; omega
    have hlen : ∀ f, (keptN S (f * 2 ^ l) (2 ^ l)).length ≤ 2 ^ l := fun f => keptN_length _ _ _
    have hc : ∀ f, (keptN S (f * 2 ^ l) (2 ^ l)).length < 2 ^ (2 * 2 ^ l) := fun f => lt_two_pow_mul (hlen f) hpos
    have hn : ∀ f, num (keptN S (f * 2 ^ l) (2 ^ l)) < 2 ^ 2 ^ l := fun f =>
      (num_lt _).trans_le (Nat.pow_le_pow_right (by decide) (hlen f))
    have hb : ∀ f, num (keptN S (f * 2 ^ l) (2 ^ l)) < 2 ^ (2 * 2 ^ l) := fun f =>
      (hn f).trans_le (Nat.pow_le_pow_right (by decide) (by omega))
    have hl1 : l + 1 ≤ 2 * (2 * 2 ^ l) := by have := Nat.lt_two_pow_self (n := l); omega
    rw [levelB, ih (by omega), levelC_eq T S l (by omega), e, lo_pack (by omega) hb, hi_pack (by omega) hb, lo_pack (by omega) hc,
      shiftBy_pack (by omega) _ (fun i => (hc _).trans_le (Nat.pow_le_pow_right (by decide) (by omega))) (l + 1) hl1, pack_add, pow_succ' 2 l]
    · refine pack_congr fun i _ => ?_
      have hm : (keptN S (2 * i * 2 ^ l) (2 ^ l)).length % 2 ^ (l + 1) = (keptN S (2 * i * 2 ^ l) (2 ^ l)).length :=
        Nat.mod_eq_of_lt (by have := hlen (2 * i); rw [pow_succ]; omega)
      rw [← pow_succ' 2 l, hm, pow_succ' 2 l, two_mul (2 ^ l), keptN_add, num_append, show 2 * i * 2 ^ l = i * (2 ^ l + 2 ^ l) by ring,
        show (2 * i + 1) * 2 ^ l = i * (2 ^ l + 2 ^ l) + 2 ^ l by ring]
    · intro i s _
      have h1 := hn (2 * i + 1)
      have h2 : 2 ^ ((keptN S (2 * i * 2 ^ l) (2 ^ l)).length % 2 ^ s) ≤ 2 ^ 2 ^ l :=
        Nat.pow_le_pow_right (by decide) ((Nat.mod_le _ _).trans (hlen _))
      calc num (keptN S ((2 * i + 1) * 2 ^ l) (2 ^ l)) * 2 ^ ((keptN S (2 * i * 2 ^ l) (2 ^ l)).length % 2 ^ s)
          ≤ num (keptN S ((2 * i + 1) * 2 ^ l) (2 ^ l)) * 2 ^ 2 ^ l := Nat.mul_le_mul_left _ h2
        _ < 2 ^ 2 ^ l * 2 ^ 2 ^ l := Nat.mul_lt_mul_of_pos_right h1 (by positivity)
        _ = 2 ^ (2 * 2 ^ l) := by rw [two_mul, pow_add]
        _ ≤ _ := Nat.pow_le_pow_right (by decide) (by omega)

/-- All kept bits. -/
theorem level_top (T S : ℕ) : levelB T S T = num (keptN S 0 (2 ^ T)) ∧ levelC T S T = (keptN S 0 (2 ^ T)).length := by
  rw [levelB_eq T S T le_rfl, levelC_eq T S T le_rfl, Nat.sub_self, pow_zero]
  simp [pack]

end Picnic.Tables
