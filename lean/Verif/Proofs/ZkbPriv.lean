import Mathlib.Algebra.Ring.Pi
import Verif.Proofs.ZkbVerify

/-
The views of two parties of the ZKB++ decomposition, together with any key, can be completed by a view of the third party.
-/

namespace Picnic

open Spec Spec.Zkb

/-- The S-box layer on three shares. -/
theorem subShare_sum {m : ℕ} {sa sb sc wa wb wc : Bits}
    (hw : ∀ k < m, ∀ j < 3, wa (3 * k + j) + wb (3 * k + j) + wc (3 * k + j) =
      gateL (sa + sb + sc) k j * gateR (sa + sb + sc) k j) :
    subShare m sa wa + subShare m sb wb + subShare m sc wc = sboxLayer m (sa + sb + sc) := by
  funext i
  simp only [Pi.add_apply, subShare, sboxLayer, sbox]
  by_cases hi : i < 3 * m
  · simp only [if_pos hi]
    have hk : i / 3 < m := by omega
    have g0 := hw (i / 3) hk 0 (by omega)
    have g1 := hw (i / 3) hk 1 (by omega)
    have g2 := hw (i / 3) hk 2 (by omega)
    simp only [gateL, gateR, if_true, if_false, OfNat.ofNat_ne_zero, OfNat.ofNat_ne_one, one_ne_zero, Nat.add_zero,
      Pi.add_apply] at g0 g1 g2
    by_cases h2' : i % 3 = 2
    · simp only [if_pos h2']
      linear_combination g1
    · simp only [if_neg h2']
      by_cases h1' : i % 3 = 1
      · simp only [if_pos h1']
        linear_combination g2
      · simp only [if_neg h1']
        linear_combination g0
  · simp only [if_neg hi]

theorem bits_add_self (a : Bits) : a + a = 0 := by funext i; exact zmod2_add_self _

/-- Consistency, with the flags that say which party adds the constants. -/
def ConsF (X : Spec.LowMC) (pt : Bits) (f f' : Bool) (v v' : Zkb.View) : Prop :=
  ∀ t < X.r, ∀ k < X.m, ∀ j < 3,
    let s := share X f v.key v.gates pt t
    let s' := share X f' v'.key v'.gates pt t
    let p := 3 * X.m * t + 3 * k + j
    v.gates p = andShare (gateL s k j) (gateR s k j) (gateL s' k j) (gateR s' k j) (v.tape p) (v'.tape p)

/-- State of the third party. -/
def hidState (X : Spec.LowMC) (pt : Bits) (fa fb : Bool) (va vb : Zkb.View) (key : Bits) (t : ℕ) : Bits :=
  X.state key pt t + share X fa va.key va.gates pt t + share X fb vb.key vb.gates pt t

/-- Tape of the third party. -/
def hidTape (X : Spec.LowMC) (pt : Bits) (fa fb : Bool) (va vb : Zkb.View) (key : Bits) : Bits := fun p =>
  let t := p / (3 * X.m)
  let k := p % (3 * X.m) / 3
  let j := p % (3 * X.m) % 3
  let sb := share X fb vb.key vb.gates pt t
  let sh := hidState X pt fa fb va vb key t
  vb.gates p + andShare (gateL sb k j) (gateR sb k j) (gateL sh k j) (gateR sh k j) (vb.tape p) 0

/-- View of the third party. -/
def hidView (X : Spec.LowMC) (pt : Bits) (fa fb : Bool) (va vb : Zkb.View) (key : Bits) : Zkb.View where
  key := key + va.key + vb.key
  tape := hidTape X pt fa fb va vb key
  gates := fun p =>
    let t := p / (3 * X.m)
    let k := p % (3 * X.m) / 3
    let j := p % (3 * X.m) % 3
    let sa := share X fa va.key va.gates pt t
    let sh := hidState X pt fa fb va vb key t
    andShare (gateL sh k j) (gateR sh k j) (gateL sa k j) (gateR sa k j) (hidTape X pt fa fb va vb key p) (va.tape p)

theorem gate_decode {m t k j : ℕ} (hk : k < m) (hj : j < 3) :
    (3 * m * t + 3 * k + j) / (3 * m) = t ∧ (3 * m * t + 3 * k + j) % (3 * m) / 3 = k ∧
      (3 * m * t + 3 * k + j) % (3 * m) % 3 = j := by
  have e : (3 * m * t + 3 * k + j) % (3 * m) = 3 * k + j := by
    rw [Nat.add_assoc, Nat.mul_add_mod]; exact Nat.mod_eq_of_lt (by omega)
  refine ⟨?_, by rw [e]; omega, by rw [e]; omega⟩
  rw [Nat.add_assoc, Nat.mul_add_div (by omega), Nat.div_eq_of_lt (by omega)]; omega

theorem andShare_tape (x y x' y' w r : ZMod 2) :
    andShare x y x' y' r (w + andShare x y x' y' r 0) = w := by
  unfold andShare
  have h : ∀ a : ZMod 2, a + a = 0 := zmod2_add_self
  linear_combination h (x * y') + h (x' * y) + h (x * y) + h r

/-- Exactly one of three parties adds the constants. -/
def OneFirst (fa fb fc : Bool) : Prop := ∀ v : Bits, (if fa then v else 0) + (if fb then v else 0) + (if fc then v else 0) = v

variable {X : Spec.LowMC} {pt : Bits} {fa fb fc : Bool} {va vb : Zkb.View} {key : Bits}

theorem hid_gate {t k j : ℕ} (hk : k < X.m) (hj : j < 3) :
    (hidView X pt fa fb va vb key).gates (3 * X.m * t + 3 * k + j) =
      andShare (gateL (hidState X pt fa fb va vb key t) k j) (gateR (hidState X pt fa fb va vb key t) k j)
        (gateL (share X fa va.key va.gates pt t) k j) (gateR (share X fa va.key va.gates pt t) k j)
        (hidTape X pt fa fb va vb key (3 * X.m * t + 3 * k + j)) (va.tape (3 * X.m * t + 3 * k + j)) := by
  obtain ⟨e1, e2, e3⟩ := gate_decode (t := t) hk hj
  simp only [hidView, e1, e2, e3]

theorem hid_cons_b {t k j : ℕ} (hk : k < X.m) (hj : j < 3) :
    vb.gates (3 * X.m * t + 3 * k + j) =
      andShare (gateL (share X fb vb.key vb.gates pt t) k j) (gateR (share X fb vb.key vb.gates pt t) k j)
        (gateL (hidState X pt fa fb va vb key t) k j) (gateR (hidState X pt fa fb va vb key t) k j)
        (vb.tape (3 * X.m * t + 3 * k + j)) (hidTape X pt fa fb va vb key (3 * X.m * t + 3 * k + j)) := by
  obtain ⟨e1, e2, e3⟩ := gate_decode (t := t) hk hj
  simp only [hidTape, e1, e2, e3]
  rw [andShare_tape]

/-- The third party's state follows from its view. -/
theorem hid_share (hf : OneFirst fa fb fc) (hab : ConsF X pt fa fb va vb) :
    ∀ t ≤ X.r, share X fc (hidView X pt fa fb va vb key).key (hidView X pt fa fb va vb key).gates pt t =
      hidState X pt fa fb va vb key t := by
  intro t
  induction t with
  | zero =>
    intro _
    unfold hidState
    simp only [share, LowMC.state, hidView, mulVec_add]
    have h1 := hf pt
    have h2 := bits_add_self (if fa then pt else 0)
    have h3 := bits_add_self (if fb then pt else 0)
    linear_combination (exp := 1) h1 - h2 - h3
  | succ t ih =>
    intro ht
    have ih := ih (by omega)
    unfold hidState
    have hsum : share X fa va.key va.gates pt t + share X fb vb.key vb.gates pt t + hidState X pt fa fb va vb key t =
        X.state key pt t := by
      unfold hidState
      have h2 := bits_add_self (share X fa va.key va.gates pt t)
      have h3 := bits_add_self (share X fb vb.key vb.gates pt t)
      linear_combination (exp := 1) h2 + h3
    have hsub := subShare_sum (m := X.m) (sa := share X fa va.key va.gates pt t) (sb := share X fb vb.key vb.gates pt t)
      (sc := hidState X pt fa fb va vb key t) (wa := fun i => va.gates (3 * X.m * t + i))
      (wb := fun i => vb.gates (3 * X.m * t + i)) (wc := fun i => (hidView X pt fa fb va vb key).gates (3 * X.m * t + i)) (by
      intro k hk j hj
      have e0 := hab t (by omega) k hk j hj
      simp only at e0
      simp only [← Nat.add_assoc]
      rw [e0, hid_cons_b (fa := fa) (va := va) (key := key) hk hj, hid_gate hk hj, andShare_sum, gateL_add, gateL_add, gateR_add, gateR_add])
    rw [hsum] at hsub
    simp only [share, LowMC.state]
    rw [ih, ← hsub]
    simp only [hidView, mulVec_add]
    have h1 := hf (X.RC t)
    have h2 := bits_add_self (if fa then X.RC t else 0)
    have h3 := bits_add_self (if fb then X.RC t else 0)
    have h4 := bits_add_self (mulVec X.n (X.L t) (subShare X.m (share X fa va.key va.gates pt t) fun i => va.gates (3 * X.m * t + i)))
    have h5 := bits_add_self (mulVec X.n (X.L t) (subShare X.m (share X fb vb.key vb.gates pt t) fun i => vb.gates (3 * X.m * t + i)))
    linear_combination (exp := 1) h1 - h2 - h3 - h4 - h5

/-- The completed views are consistent. -/
theorem hid_cons (hf : OneFirst fa fb fc) (hab : ConsF X pt fa fb va vb) :
    ConsF X pt fb fc vb (hidView X pt fa fb va vb key) ∧ ConsF X pt fc fa (hidView X pt fa fb va vb key) va := by
  constructor
  · intro t ht k hk j hj
    simp only
    rw [hid_share hf hab t (by omega)]
    exact hid_cons_b hk hj
  · intro t ht k hk j hj
    simp only
    rw [hid_share hf hab t (by omega)]
    exact hid_gate hk hj

/-- Its output share is the encryption minus the other output shares. -/
theorem hid_output (hf : OneFirst fa fb fc) (hab : ConsF X pt fa fb va vb) :
    share X fc (hidView X pt fa fb va vb key).key (hidView X pt fa fb va vb key).gates pt X.r =
      X.enc key pt + share X fa va.key va.gates pt X.r + share X fb vb.key vb.gates pt X.r :=
  hid_share hf hab X.r le_rfl

/-- The shares of consistent views add up, in any order of the parties. -/
theorem share_sumF {vc : Zkb.View} (hf : OneFirst fa fb fc) (hab : ConsF X pt fa fb va vb) (hbc : ConsF X pt fb fc vb vc)
    (hca : ConsF X pt fc fa vc va) : ∀ t ≤ X.r,
    share X fa va.key va.gates pt t + share X fb vb.key vb.gates pt t + share X fc vc.key vc.gates pt t =
      X.state (va.key + vb.key + vc.key) pt t := by
  intro t
  induction t with
  | zero =>
    intro _
    simp only [share, LowMC.state, mulVec_add]
    have h1 := hf pt
    linear_combination (exp := 1) h1
  | succ t ih =>
    intro ht
    have ih := ih (by omega)
    have hsub := subShare_sum (m := X.m) (sa := share X fa va.key va.gates pt t) (sb := share X fb vb.key vb.gates pt t)
      (sc := share X fc vc.key vc.gates pt t) (wa := fun i => va.gates (3 * X.m * t + i))
      (wb := fun i => vb.gates (3 * X.m * t + i)) (wc := fun i => vc.gates (3 * X.m * t + i)) (by
      intro k hk j hj
      have e0 := hab t (by omega) k hk j hj
      have e1 := hbc t (by omega) k hk j hj
      have e2 := hca t (by omega) k hk j hj
      simp only at e0 e1 e2
      simp only [← Nat.add_assoc]
      rw [e0, e1, e2, andShare_sum, gateL_add, gateL_add, gateR_add, gateR_add])
    rw [ih] at hsub
    simp only [share, LowMC.state]
    rw [← hsub]
    simp only [mulVec_add]
    have h1 := hf (X.RC t)
    linear_combination (exp := 1) h1

theorem oneFirst_of {c : ℕ} (hc : c < 3) : OneFirst (c = 0) ((c + 1) % 3 = 0) ((c + 2) % 3 = 0) := by
  intro v
  interval_cases c <;> simp

/-- The third party's tape is determined by the other two views, the key, and consistency. -/
theorem hid_tape_unique {vc : Zkb.View} (hm : 3 * X.m ≤ X.n) (hf : OneFirst fa fb fc) (hab : ConsF X pt fa fb va vb)
    (hbc : ConsF X pt fb fc vb vc) (hca : ConsF X pt fc fa vc va)
    (hk : ∀ i < X.n, vc.key i = (key + va.key + vb.key) i) :
    ∀ p < 3 * X.m * X.r, vc.tape p = hidTape X pt fa fb va vb key p := by
  intro p hp
  obtain ⟨t, k, j, ht, hkm, hj, rfl⟩ := gate_index hp
  have e1 := hbc t ht k hkm j hj
  have e2 := hid_cons_b (X := X) (pt := pt) (fa := fa) (fb := fb) (va := va) (vb := vb) (key := key) (t := t) hkm hj
  simp only at e1
  have hst : ∀ i < X.n, share X fc vc.key vc.gates pt t i = hidState X pt fa fb va vb key t i := by
    intro i hi
    have h := congrFun (share_sumF hf hab hbc hca t (by omega)) i
    have hs : X.state (va.key + vb.key + vc.key) pt t i = X.state key pt t i := by
      refine state_congr hm (fun i hi => ?_) (fun _ _ => rfl) t i hi
      simp only [Pi.add_apply] at hk ⊢
      rw [hk i hi]
      have h1 := zmod2_add_self (va.key i)
      have h2 := zmod2_add_self (vb.key i)
      linear_combination h1 + h2
    rw [hs] at h
    unfold hidState
    simp only [Pi.add_apply] at h ⊢
    have h1 := zmod2_add_self (share X fa va.key va.gates pt t i)
    have h2 := zmod2_add_self (share X fb vb.key vb.gates pt t i)
    linear_combination h - h1 - h2
  rw [gateL_congr hm hst hkm, gateR_congr hm hst hkm] at e1
  rw [e1] at e2
  unfold andShare at e2
  linear_combination e2

end Picnic
