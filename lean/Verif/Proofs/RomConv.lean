import Verif.Proofs.RomViews

/-
C62: the tapes of the unopened parties can be changed such that another key gives the same opened views.
-/

namespace Picnic.Rom

open Spec Spec.Zkb Spec.Rom Spec.Picnic1

variable {I : Inst} {M : ℕ}

/-- Sizes that hold for all parameter sets. -/
structure Sizes (I : Inst) : Prop where
  m : 3 * I.X.m ≤ I.X.n
  n : I.X.n ≤ 8 * I.blk
  gate : 3 * I.X.m * I.X.r ≤ 8 * I.gate

/-- A key of the right size, with zero padding. -/
structure IsKey (I : Inst) (sk : Bytes) : Prop where
  len : sk.length ≤ I.blk
  pad : ∀ i, I.X.n ≤ i → toBits sk i = 0

theorem isKey_nil : IsKey I [] := ⟨by simp, fun i _ => toBits_ge (by simp)⟩

theorem IsKey.trunc {sk : Bytes} (h : IsKey I sk) (hS : Sizes I) : Spec.trunc (8 * I.blk) (toBits sk) = toBits sk := by
  funext i
  unfold Spec.trunc
  split_ifs with hi
  · rfl
  · rw [h.pad i (by have := hS.n; omega)]

/-- The tape of the unopened party for the key `sk`. -/
def hid (I : Inst) (sk sk' pt : Bytes) (a : Answers I M) (t : Fin I.T) (c : ℕ) : Bits :=
  hidTape I.X (toBits pt) (c = 0) ((c + 1) % 3 = 0) (bview I sk pt a t c) (bview I sk pt a t ((c + 1) % 3)) (toBits sk')

/-- The change of the tape of the unopened party. -/
def delta (I : Inst) (sk sk' pt : Bytes) (a : Answers I M) (t : Fin I.T) (c : ℕ) : Bits := fun i =>
  if (c + 2) % 3 ≠ 2 ∧ i < I.X.n then toBits sk i + toBits sk' i
  else if offset I ((c + 2) % 3) ≤ i ∧ i < offset I ((c + 2) % 3) + 3 * I.X.m * I.X.r then
    hid I sk sk pt a t c (i - offset I ((c + 2) % 3)) + hid I sk sk' pt a t c (i - offset I ((c + 2) % 3))
  else 0

def conv (I : Inst) (sk sk' pt : Bytes) (e : List ℕ) (a : Answers I M) : Answers I M
  | .tape t j => if (j : ℕ) = (e.getD t 0 + 2) % 3 then fun i => a (.tape t j) i + delta I sk sk' pt a t (e.getD t 0) i else a (.tape t j)
  | q => a q

section

variable {sk sk' pt : Bytes} {e : List ℕ} {a : Answers I M} {t : Fin I.T}

theorem conv_other {j : Fin 3} (h : (j : ℕ) ≠ (e.getD t 0 + 2) % 3) : conv I sk sk' pt e a (.tape t j) = a (.tape t j) := by
  simp only [conv]
  rw [if_neg h]

theorem conv_at {j : Fin 3} (h : (j : ℕ) = (e.getD t 0 + 2) % 3) (i : Fin (8 * M)) :
    conv I sk sk' pt e a (.tape t j) i = a (.tape t j) i + delta I sk sk' pt a t (e.getD t 0) i := by
  simp only [conv]
  rw [if_pos h]

theorem conv_hidden {j : Fin 3} (h : (j : ℕ) = (e.getD t 0 + 2) % 3) {i : ℕ} (hi : i < 8 * M) :
    bits (conv I sk sk' pt e a (.tape t j)) i = bits (a (.tape t j)) i + delta I sk sk' pt a t (e.getD t 0) i := by
  rw [bits_lt _ hi, bits_lt _ hi]
  simp only [conv]
  rw [if_pos h]

theorem fin3 {j : ℕ} (h : j < 3) : ((Fin.ofNat 3 j : Fin 3) : ℕ) = j := by simp [Fin.ofNat, Nat.mod_eq_of_lt h]

/-- Random bits of an opened party. -/
theorem tape_conv_other {j : ℕ} (hj : j < 3) (h : j ≠ (e.getD t 0 + 2) % 3) : tapeBits I (conv I sk sk' pt e a) t j = tapeBits I a t j := by
  unfold tapeBits
  rw [conv_other (by rw [fin3 hj]; exact h)]

/-- Random bits of the unopened party. -/
theorem tape_conv_hidden (hS : Sizes I) (hM : I.blk + I.gate ≤ M) {c : ℕ} (he : e.getD t 0 = c) {p : ℕ} (hp : p < 3 * I.X.m * I.X.r) :
    tapeBits I (conv I sk sk' pt e a) t ((c + 2) % 3) p = tapeBits I a t ((c + 2) % 3) p + (hid I sk sk pt a t c p + hid I sk sk' pt a t c p) := by
  have h1 := hS.gate
  have h2 := hS.n
  have ho : offset I ((c + 2) % 3) ≤ 8 * I.blk := by unfold offset; split_ifs <;> omega
  have ho' : ¬ ((c + 2) % 3 ≠ 2 ∧ offset I ((c + 2) % 3) + p < I.X.n) := by
    rintro ⟨h, h'⟩
    unfold offset at h'
    rw [if_neg h] at h'
    omega
  unfold tapeBits trunc
  rw [if_pos (by omega), if_pos (by omega)]
  beta_reduce
  rw [conv_hidden (by rw [fin3 (Nat.mod_lt _ (by omega)), he]) (by omega), he]
  congr 1
  unfold delta
  rw [if_neg ho', if_pos ⟨by omega, by omega⟩, Nat.add_sub_cancel_left]

/-- The key share that comes from the tape of an unopened party. -/
theorem share_conv_hidden (hM : I.blk + I.gate ≤ M) (hS : Sizes I) {c : ℕ} (he : e.getD t 0 = c) {j : Fin 3} (hj : (j : ℕ) = (c + 2) % 3) (h2 : (j : ℕ) ≠ 2) (i : ℕ) :
    trunc I.X.n (bits (conv I sk sk' pt e a (.tape t j))) i = trunc I.X.n (bits (a (.tape t j))) i + trunc I.X.n (toBits sk + toBits sk') i := by
  have := hS.n
  unfold trunc
  split_ifs with hi
  · rw [conv_hidden (by rw [he]; exact hj) (by omega), he]
    congr 1
    unfold delta
    rw [if_pos ⟨by omega, hi⟩]
    rfl
  · simp

/-- The key shares of the opened parties are the same. -/
theorem key_conv (hM : I.blk + I.gate ≤ M) (hS : Sizes I) (hk : IsKey I sk) (hk' : IsKey I sk') {c : ℕ} (he : e.getD t 0 = c) (hc : c < 3) {j : ℕ} (hj : j < 3)
    (h : j ≠ (c + 2) % 3) : keyBits I sk' (conv I sk sk' pt e a) t j = keyBits I sk a t j := by
  have h01 : ∀ {j : Fin 3}, (j : ℕ) ≠ (c + 2) % 3 → conv I sk sk' pt e a (.tape t j) = a (.tape t j) := fun {j} h => conv_other (by rw [he]; exact h)
  rcases (show j = 0 ∨ j = 1 ∨ j = 2 by omega) with rfl | rfl | rfl
  · simp only [keyBits, if_true]
    rw [h01 (j := 0) h]
  · simp only [keyBits, one_ne_zero, if_true, if_false]
    rw [h01 (j := 1) h]
  · simp only [keyBits, OfNat.ofNat_ne_zero, OfNat.ofNat_ne_one, if_false]
    funext i
    unfold Spec.trunc
    by_cases hi : i < 8 * I.blk
    · rw [if_pos hi, if_pos hi]
      simp only [Pi.add_apply]
      have hsk : i < I.X.n ∨ toBits sk i = 0 ∧ toBits sk' i = 0 := by
        by_cases hi : i < I.X.n
        · exact Or.inl hi
        · exact Or.inr ⟨hk.pad i (by omega), hk'.pad i (by omega)⟩
      rcases (show c = 1 ∨ c = 2 by omega) with rfl | rfl
      · have s1 := share_conv_hidden (sk := sk) (sk' := sk') (pt := pt) (a := a) hM hS he (j := 0) rfl (by decide) i
        unfold Spec.trunc at s1
        rw [s1, h01 (j := 1) (by decide)]
        have := zmod2_add_self (toBits sk' i)
        rcases hsk with hn | ⟨e1, e2⟩
        · rw [if_pos hn, if_pos hn, if_pos hn]
          simp only [Pi.add_apply]
          linear_combination this
        · rw [e1, e2]
          split_ifs <;> simp [e1, e2]
      · have s1 := share_conv_hidden (sk := sk) (sk' := sk') (pt := pt) (a := a) hM hS he (j := 1) rfl (by decide) i
        unfold Spec.trunc at s1
        rw [s1, h01 (j := 0) (by decide)]
        have := zmod2_add_self (toBits sk' i)
        rcases hsk with hn | ⟨e1, e2⟩
        · rw [if_pos hn, if_pos hn, if_pos hn]
          simp only [Pi.add_apply]
          linear_combination this
        · rw [e1, e2]
          split_ifs <;> simp [e1, e2]
    · rw [if_neg hi, if_neg hi]

/-- The key shares add up to the key, for a padded key of any length. -/
theorem key_sum' (hS : Sizes I) (hk : IsKey I sk) (a : Answers I M) (t : Fin I.T) {c : ℕ} (hc : c < 3) :
    keyBits I sk a t c + keyBits I sk a t ((c + 1) % 3) + keyBits I sk a t ((c + 2) % 3) = toBits sk := by
  have key : keyBits I sk a t 0 + keyBits I sk a t 1 + keyBits I sk a t 2 = toBits sk := by
    funext i
    simp only [keyBits, if_true, one_ne_zero, if_false, OfNat.ofNat_ne_zero, OfNat.ofNat_ne_one, Pi.add_apply, Spec.trunc]
    have h1 := zmod2_add_self (bits (a (.tape t 0)) i)
    have h2 := zmod2_add_self (bits (a (.tape t 1)) i)
    have hn := hS.n
    by_cases hi : i < 8 * I.blk
    · rw [if_pos hi]
      by_cases hi' : i < I.X.n
      · rw [if_pos hi', if_pos hi']
        linear_combination h1 + h2
      · rw [if_neg hi', if_neg hi']
        ring
    · rw [if_neg hi, if_neg (by omega), if_neg (by omega), hk.pad i (by omega)]
      simp
  rcases (show c = 0 ∨ c = 1 ∨ c = 2 by omega) with rfl | rfl | rfl
  · exact key
  · rw [← key]
    change keyBits I sk a t 1 + keyBits I sk a t 2 + keyBits I sk a t 0 = _
    ring
  · rw [← key]
    change keyBits I sk a t 2 + keyBits I sk a t 0 + keyBits I sk a t 1 = _
    ring

/-- The tape of the unopened party is the one that belongs to the key. -/
theorem tape_hidden (hS : Sizes I) (hk : IsKey I sk) (pt : Bytes) (a : Answers I M) (t : Fin I.T) {c : ℕ} (hc : c < 3) {p : ℕ} (hp : p < 3 * I.X.m * I.X.r) :
    tapeBits I a t ((c + 2) % 3) p = hid I sk sk pt a t c p := by
  obtain ⟨h1, h2, h3⟩ := cons_all hS.m sk pt a t hc
  refine hid_tape_unique hS.m (oneFirst_of hc) h1 h2 h3 (fun i _ => ?_) p hp
  have := congrFun (key_sum' hS hk a t hc) i
  simp only [Pi.add_apply] at this ⊢
  change keyBits I sk a t ((c + 2) % 3) i = toBits sk i + keyBits I sk a t c i + keyBits I sk a t ((c + 1) % 3) i
  have a1 := zmod2_add_self (keyBits I sk a t c i)
  have a2 := zmod2_add_self (keyBits I sk a t ((c + 1) % 3) i)
  linear_combination this - a1 - a2

/-- The views of the opened parties are the same. -/
theorem bview_conv (hM : I.blk + I.gate ≤ M) (hS : Sizes I) (hk : IsKey I sk) (hk' : IsKey I sk') {c : ℕ} (he : e.getD t 0 = c) (hc : c < 3) {j : ℕ} (hj : j < 3)
    (h : j ≠ (c + 2) % 3) : bview I sk' pt (conv I sk sk' pt e a) t j = bview I sk pt a t j := by
  have c1 : (c + 1) % 3 < 3 := Nat.mod_lt _ (by omega)
  have c2 : (c + 2) % 3 < 3 := Nat.mod_lt _ (by omega)
  obtain ⟨h1, h2, h3⟩ := cons_all hS.m sk pt a t hc
  obtain ⟨n1, n2⟩ := hid_cons (key := toBits sk') (oneFirst_of hc) h1
  set w : ℕ → Zkb.View := fun j => if j = (c + 2) % 3 then
    hidView I.X (toBits pt) (c = 0) ((c + 1) % 3 = 0) (bview I sk pt a t c) (bview I sk pt a t ((c + 1) % 3)) (toBits sk') else bview I sk pt a t j with hw
  have w0 : w c = bview I sk pt a t c := if_neg (by omega)
  have w1 : w ((c + 1) % 3) = bview I sk pt a t ((c + 1) % 3) := if_neg (by omega)
  have w2 : w ((c + 2) % 3) = hidView I.X (toBits pt) (c = 0) ((c + 1) % 3 = 0) (bview I sk pt a t c) (bview I sk pt a t ((c + 1) % 3)) (toBits sk') := if_pos rfl
  have wj : w j = bview I sk pt a t j := if_neg h
  have all : ∀ i < 3, i = c ∨ i = (c + 1) % 3 ∨ i = (c + 2) % 3 := fun i hi => by omega
  have hkey : ∀ i < 3, ∀ q < I.X.n, (w i).key q = keyBits I sk' (conv I sk sk' pt e a) t i q := fun i hi q hq => by
    by_cases hi2 : i = (c + 2) % 3
    · subst hi2
      rw [w2]
      have s1 := congrFun (key_sum' hS hk' (conv I sk sk' pt e a) t hc) q
      simp only [Pi.add_apply] at s1
      rw [key_conv hM hS hk hk' he hc hc (by omega), key_conv hM hS hk hk' he hc c1 (by omega)] at s1
      change toBits sk' q + keyBits I sk a t c q + keyBits I sk a t ((c + 1) % 3) q = _
      have a1 := zmod2_add_self (keyBits I sk a t c q)
      have a2 := zmod2_add_self (keyBits I sk a t ((c + 1) % 3) q)
      linear_combination -s1 + a1 + a2
    · rw [key_conv hM hS hk hk' he hc hi hi2]
      simp only [hw, if_neg hi2]
      rfl
  have htape : ∀ i < 3, ∀ p < 3 * I.X.m * I.X.r, (w i).tape p = tapeBits I (conv I sk sk' pt e a) t i p := fun i hi p hp => by
    by_cases hi2 : i = (c + 2) % 3
    · subst hi2
      rw [w2, tape_conv_hidden hS hM he hp, tape_hidden hS hk pt a t hc hp]
      have := zmod2_add_self (hid I sk sk pt a t c p)
      change hid I sk sk' pt a t c p = _
      linear_combination -this
    · rw [tape_conv_other hi (by rw [he]; exact hi2)]
      simp only [hw, if_neg hi2]
      rfl
  have hcons : ∀ i < 3, Zkb.Consistent I.X (toBits pt) i (w i) (w ((i + 1) % 3)) := fun i hi => by
    have e11 : ((c + 1) % 3 + 1) % 3 = (c + 2) % 3 := by omega
    have e21 : ((c + 2) % 3 + 1) % 3 = c := by omega
    rcases all i hi with rfl | rfl | rfl
    · rw [w0, w1]; exact h1
    · rw [e11, w1, w2]
      unfold Zkb.Consistent
      rw [e11]
      exact n1
    · rw [e21, w0, w2]
      unfold Zkb.Consistent
      rw [e21]
      exact n2
  have hg := gates_unique hS.m hkey htape hcons j hj
  have hgf : gateBits I sk' pt (conv I sk sk' pt e a) t j = gateBits I sk pt a t j := by
    funext p
    by_cases hp : p < 3 * I.X.m * I.X.r
    · have := hg p hp
      rw [wj] at this
      exact this.symm
    · unfold gateBits
      rw [gates_ge _ _ (by omega), gates_ge _ _ (by omega)]
  unfold bview
  rw [key_conv hM hS hk hk' he hc hj h, hgf, tape_conv_other hj (by rw [he]; exact h)]

theorem delta_conv (hM : I.blk + I.gate ≤ M) (hS : Sizes I) (hk : IsKey I sk) (hk' : IsKey I sk') {c : ℕ} (he : e.getD t 0 = c) (hc : c < 3) :
    delta I sk' sk pt (conv I sk sk' pt e a) t c = delta I sk sk' pt a t c := by
  have v0 := bview_conv (a := a) (pt := pt) hM hS hk hk' he hc hc (by omega)
  have v1 := bview_conv (a := a) (pt := pt) hM hS hk hk' he hc (j := (c + 1) % 3) (Nat.mod_lt _ (by omega)) (by omega)
  have hh : ∀ k, hid I sk' k pt (conv I sk sk' pt e a) t c = hid I sk k pt a t c := fun k => by
    unfold hid
    rw [v0, v1]
  funext i
  unfold delta
  rw [hh, hh, add_comm (toBits sk' i), add_comm (hid I sk sk' pt a t c _)]

/-- The change can be undone. -/
theorem conv_conv (hM : I.blk + I.gate ≤ M) (hS : Sizes I) (hk : IsKey I sk) (hk' : IsKey I sk') (he : ∀ t : Fin I.T, e.getD t 0 < 3) :
    conv I sk' sk pt e (conv I sk sk' pt e a) = a := by
  funext q
  cases q with
  | tape t j =>
    by_cases h : (j : ℕ) = (e.getD t 0 + 2) % 3
    · funext i
      have hc := he t
      have hd := delta_conv (a := a) (t := t) (pt := pt) hM hS hk hk' rfl hc
      rw [conv_at h, hd, conv_at h]
      have := zmod2_add_self (delta I sk sk' pt a t (e.getD t 0) i)
      linear_combination this
    · rw [conv_other h, conv_other h]
  | _ => rfl

end

end Picnic.Rom
