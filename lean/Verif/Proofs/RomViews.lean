import Verif.Spec.Rom
import Verif.Proofs.ZkbPriv
import Verif.Proofs.Conf1

/-
C62: views of the signer and of the simulator.
-/

namespace Picnic.Rom

open Spec Spec.Zkb Spec.Rom Spec.Picnic1

section gates

variable {X : Spec.LowMC} {pt : Bits} {key tape : ℕ → Bits}

theorem gates_ge (r j : ℕ) {p : ℕ} (h : 3 * X.m * r ≤ p) : gates X pt key tape r j p = 0 := by
  induction r with
  | zero => rfl
  | succ r ih =>
    have : 3 * X.m * r ≤ 3 * X.m * (r + 1) := Nat.mul_le_mul_left _ (by omega)
    unfold gates
    rw [if_neg (by omega)]
    exact ih (by omega)

theorem gates_stable (j : ℕ) {r s p : ℕ} (h : p < 3 * X.m * r) (hs : r ≤ s) : gates X pt key tape s j p = gates X pt key tape r j p := by
  induction s with
  | zero => obtain rfl : r = 0 := by omega
            rfl
  | succ s ih =>
    rcases Nat.lt_or_ge s r with hlt | hge
    · obtain rfl : r = s + 1 := by omega
      rfl
    · have : 3 * X.m * r ≤ 3 * X.m * s := Nat.mul_le_mul_left _ hge
      rw [← ih hge]
      conv_lhs => unfold gates
      rw [if_neg (by omega)]

/-- The gate bits are consistent. -/
theorem gates_cons (hm : 3 * X.m ≤ X.n) (j : ℕ) :
    Zkb.Consistent X pt j ⟨key j, gates X pt key tape X.r j, tape j⟩ ⟨key ((j + 1) % 3), gates X pt key tape X.r ((j + 1) % 3), tape ((j + 1) % 3)⟩ := by
  intro t ht k hk i hi
  dsimp only
  have hlt : 3 * X.m * t + 3 * k + i < 3 * X.m * (t + 1) := gate_lt (by omega) hk hi
  obtain ⟨-, e2, e3⟩ := gate_decode (t := t) hk hi
  have hc : ∀ j' (f : Bool), ∀ q < X.n, share X f (key j') (gates X pt key tape X.r j') pt t q = share X f (key j') (gates X pt key tape t j') pt t q := fun j' f =>
    share_congr hm (fun _ _ => rfl) (fun _ _ => rfl) t fun p hp => gates_stable j' hp (by omega)
  rw [gates_stable j hlt (by omega)]
  conv_lhs => unfold gates
  rw [if_pos ⟨by omega, hlt⟩]
  dsimp only
  rw [e2, e3, gateL_congr hm (hc j _) hk, gateR_congr hm (hc j _) hk, gateL_congr hm (hc ((j + 1) % 3) _) hk, gateR_congr hm (hc ((j + 1) % 3) _) hk]

/-- Gate bits of three consistent views. -/
theorem gates_unique (hm : 3 * X.m ≤ X.n) {v : ℕ → Zkb.View} (hk : ∀ j < 3, ∀ i < X.n, (v j).key i = key j i)
    (ht : ∀ j < 3, ∀ p < 3 * X.m * X.r, (v j).tape p = tape j p) (hv : ∀ j < 3, Zkb.Consistent X pt j (v j) (v ((j + 1) % 3))) :
    ∀ j < 3, ∀ p < 3 * X.m * X.r, (v j).gates p = gates X pt key tape X.r j p :=
  consistent_unique3 (u := fun j => ⟨key j, gates X pt key tape X.r j, tape j⟩) hm hk ht hv fun j _ => gates_cons hm j

end gates

/-! ### Bits of the answers -/

variable {I : Inst} {M : ℕ}

theorem bits_lt (v : Val M) {i : ℕ} (h : i < 8 * M) : bits v i = v ⟨i, h⟩ := by rw [bits, dif_pos h]

theorem bits_ge (v : Val M) {i : ℕ} (h : 8 * M ≤ i) : bits v i = 0 := by rw [bits, dif_neg (by omega)]

theorem toBits_ofBits (n : ℕ) (v : Bits) : toBits (Spec.Picnic1.ofBits n v) = trunc (8 * n) v := by
  rw [toBits_eq, ofBits_eq]
  funext i
  by_cases h : i < 8 * n
  · rw [bitsOf_ofBits _ h, trunc, if_pos h]
  · rw [bitsOf_ge (by simp; omega), trunc, if_neg h]

theorem bytes_len (n : ℕ) (v : Val M) : (bytes n v).length = n := by rw [bytes, ofBits_eq]; simp

theorem toBits_ge {b : Bytes} {i : ℕ} (h : 8 * b.length ≤ i) : toBits b i = 0 := by rw [toBits_eq]; exact bitsOf_ge h

/-- The view of party `j` as bits. -/
def bview (I : Inst) (sk pt : Bytes) (a : Answers I M) (t : Fin I.T) (j : ℕ) : Zkb.View := ⟨keyBits I sk a t j, gateBits I sk pt a t j, tapeBits I a t j⟩

theorem bview_cons (hm : 3 * I.X.m ≤ I.X.n) (sk pt : Bytes) (a : Answers I M) (t : Fin I.T) (j : ℕ) :
    Zkb.Consistent I.X (toBits pt) j (bview I sk pt a t j) (bview I sk pt a t ((j + 1) % 3)) := gates_cons hm j

theorem view_eq (sk pt : Bytes) (a : Answers I M) (t : Fin I.T) (j : ℕ) : view I sk pt a t j =
    ⟨seed a t j, Spec.Picnic1.ofBits I.blk (bview I sk pt a t j).key, Spec.Picnic1.ofBits I.gate (bview I sk pt a t j).gates,
      Spec.Picnic1.ofBits I.blk (Zkb.output I.X (toBits pt) j (bview I sk pt a t j))⟩ := rfl

/-- The three key shares add up to the key. -/
theorem key_sum {sk : Bytes} (hsk : sk.length = I.blk) (hn : I.X.n ≤ 8 * I.blk) (a : Answers I M) (t : Fin I.T) {c : ℕ} (hc : c < 3) :
    keyBits I sk a t c + keyBits I sk a t ((c + 1) % 3) + keyBits I sk a t ((c + 2) % 3) = toBits sk := by
  have key : keyBits I sk a t 0 + keyBits I sk a t 1 + keyBits I sk a t 2 = toBits sk := by
    funext i
    simp only [keyBits, if_true, one_ne_zero, if_false, OfNat.ofNat_ne_zero, OfNat.ofNat_ne_one, Pi.add_apply, trunc]
    have h1 := zmod2_add_self (bits (a (.tape t 0)) i)
    have h2 := zmod2_add_self (bits (a (.tape t 1)) i)
    by_cases hi : i < 8 * I.blk
    · rw [if_pos hi]
      by_cases hi' : i < I.X.n
      · rw [if_pos hi', if_pos hi']
        linear_combination h1 + h2
      · rw [if_neg hi', if_neg hi']
        ring
    · rw [if_neg hi, if_neg (by omega), if_neg (by omega), toBits_ge (by omega)]
      simp
  rcases (show c = 0 ∨ c = 1 ∨ c = 2 by omega) with rfl | rfl | rfl
  · exact key
  · rw [← key]
    change keyBits I sk a t 1 + keyBits I sk a t 2 + keyBits I sk a t 0 = _
    ring
  · rw [← key]
    change keyBits I sk a t 2 + keyBits I sk a t 0 + keyBits I sk a t 1 = _
    ring

theorem cons_all (hm : 3 * I.X.m ≤ I.X.n) (sk pt : Bytes) (a : Answers I M) (t : Fin I.T) {c : ℕ} (hc : c < 3) :
    ConsF I.X (toBits pt) (c = 0) ((c + 1) % 3 = 0) (bview I sk pt a t c) (bview I sk pt a t ((c + 1) % 3)) ∧
    ConsF I.X (toBits pt) ((c + 1) % 3 = 0) ((c + 2) % 3 = 0) (bview I sk pt a t ((c + 1) % 3)) (bview I sk pt a t ((c + 2) % 3)) ∧
    ConsF I.X (toBits pt) ((c + 2) % 3 = 0) (c = 0) (bview I sk pt a t ((c + 2) % 3)) (bview I sk pt a t c) := by
  have e11 : ((c + 1) % 3 + 1) % 3 = (c + 2) % 3 := by omega
  have e21 : ((c + 2) % 3 + 1) % 3 = c := by omega
  refine ⟨bview_cons hm sk pt a t c, ?_, ?_⟩
  · have := bview_cons hm sk pt a t ((c + 1) % 3)
    unfold Zkb.Consistent at this
    rw [e11] at this
    exact this
  · have := bview_cons hm sk pt a t ((c + 2) % 3)
    unfold Zkb.Consistent at this
    rw [e21] at this
    exact this

/-- The output shares add up to the ciphertext. -/
theorem out_sum (hm : 3 * I.X.m ≤ I.X.n) {sk : Bytes} (hsk : sk.length = I.blk) (hn : I.X.n ≤ 8 * I.blk) (pt : Bytes) (a : Answers I M) (t : Fin I.T)
    {c : ℕ} (hc : c < 3) :
    Zkb.output I.X (toBits pt) ((c + 2) % 3) (bview I sk pt a t ((c + 2) % 3)) =
      Zkb.output I.X (toBits pt) c (bview I sk pt a t c) + Zkb.output I.X (toBits pt) ((c + 1) % 3) (bview I sk pt a t ((c + 1) % 3)) +
        I.X.enc (toBits sk) (toBits pt) := by
  obtain ⟨h1, h2, h3⟩ := cons_all hm sk pt a t hc
  have h := share_sumF (oneFirst_of hc) h1 h2 h3 I.X.r le_rfl
  have hk := key_sum (M := M) hsk hn a t hc
  have hs : (bview I sk pt a t c).key + (bview I sk pt a t ((c + 1) % 3)).key + (bview I sk pt a t ((c + 2) % 3)).key = toBits sk := hk
  rw [hs] at h
  unfold LowMC.enc
  rw [← h]
  unfold Zkb.output
  have a1 := bits_add_self (share I.X (decide (c = 0)) (bview I sk pt a t c).key (bview I sk pt a t c).gates (toBits pt) I.X.r)
  have a2 := bits_add_self (share I.X (decide ((c + 1) % 3 = 0)) (bview I sk pt a t ((c + 1) % 3)).key (bview I sk pt a t ((c + 1) % 3)).gates (toBits pt) I.X.r)
  linear_combination (exp := 1) - a1 - a2

end Picnic.Rom
