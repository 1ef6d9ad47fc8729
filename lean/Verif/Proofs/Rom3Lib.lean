import Verif.Proofs.Rom3Main
import Verif.Proofs.RomLib
import Mathlib.Data.Fintype.EquivFin

/-
C64: with SHAKE in place of the oracle the valid signatures are those of the specification.
-/

namespace Picnic.Rom3

open Spec Spec.Tree Spec.Picnic1 Spec.Picnic3 Finset

variable {I : Picnic3.Inst} {f g : Bytes → ℕ → BitVec 8} {p M N : ℕ} {ct pt msg sig salt : Bytes}

/-! ### Hash values that are long enough -/

section

variable (h : ∀ x n, n ≤ M → (on I f).hash x n = (on I g).hash x n) (hM1 : I.digest ≤ M) (hM2 : 2 * I.seed ≤ M) (hM3 : 2 * I.gate ≤ M)

include h

include hM2 in
theorem child_short {rep x : ℕ} {s : ℕ → Bytes} (c : (on I f).Child salt rep s x) : (on I g).Child salt rep s x := by
  unfold Picnic3.Inst.Child at c ⊢
  rw [c, h _ _ hM2]

include hM3 in
theorem share_short (t : ℕ) (v : Round) (j : ℕ) : (on I f).share salt t v j = (on I g).share salt t v j := by
  refine share_tape ?_ fun _ => rfl
  unfold Picnic3.Inst.tape
  exact congrArg _ (h _ _ hM3)

include hM1 hM2 hM3 in
theorem valid_short (hv : (on I f).IsValid ct pt msg sig) : (on I g).IsValid ct pt msg sig := by
  obtain ⟨salt, s, hh, v, C, Q, hs, ⟨h1, h2, h3, h4, h5⟩, h6, h7⟩ := hv
  have hd : ∀ x, (on I f).hash x I.digest = (on I g).hash x I.digest := fun x => h x _ hM1
  have hcom : ∀ t v j, (on I f).commit salt t v j = (on I g).commit salt t v j := fun t v j => hd _
  have hsh : ∀ t v j, (on I f).share salt t v j = (on I g).share salt t v j := fun t v j => share_short h hM3 t v j
  have hcd : ∀ v, (on I f).comDigest v = (on I g).comDigest v := fun v => hd _
  have hch : (on I f).challengeDigest v hh ct pt salt msg = (on I g).challengeDigest v hh ct pt salt msg := by
    unfold Picnic3.Inst.challengeDigest
    simp only [hcd]
    exact hd _
  rw [hch] at h6 h7
  refine ⟨salt, s, hh, v, C, Q, hs, ⟨⟨h1.1, fun x hx hk => child_short h hM2 (h1.2 x hx hk)⟩, fun t ht hC => ?_, fun t hC => ?_, ⟨fun t ht hC => ?_, fun x hx he h1 => ?_, h4.absent⟩, h5⟩, ?_, h7⟩
  · obtain ⟨a, ⟨κ, b⟩, c⟩ := h2 t ht hC
    exact ⟨⟨a.1, fun x hx hN => child_short h hM2 (a.2 x hx hN)⟩, ⟨κ, prepared_congr (fun j _ => hsh t _ j) b⟩, fun j hj => (c j hj).trans (hcom t _ j)⟩
  · obtain ⟨a, b, c, d⟩ := h3 t hC
    refine ⟨⟨a.1, fun x hx hk => child_short h hM2 (a.2 x hx hk)⟩, ⟨b.aux, b.key, b.msgs, b.com⟩, fun j hj hjk => ?_, by
      unfold Picnic3.Inst.result at d ⊢; rw [← d, public_on (f := g) (g := f)]; rfl⟩
    obtain ⟨c1, c2⟩ := c j hj hjk
    refine ⟨?_, c2.trans (hcom t _ j)⟩
    unfold Picnic3.Inst.Sends at c1 ⊢
    rw [← hsh t _ j]
    refine ⟨c1.1, c1.2.1, fun r hr i hi => ?_⟩
    have := c1.2.2 r hr i hi
    rw [public_on (f := g) (g := f)]
    exact this
  · exact (h4.leaf t ht hC).trans (hd _)
  · exact Eq.trans (h4.inner x hx he h1) (hd _)
  · have : (fun d => (on I f).hash ([1] ++ d) (on I f).digest) = fun d => (on I g).hash ([1] ++ d) (on I g).digest := funext fun d => hd _
    unfold Picnic3.Inst.Challenge at h6 ⊢
    rw [← this]
    exact h6

end

/-! ### Strings that are short enough -/

theorem valid_long (hI : I.Is p) (hreg : Spec.Rom.Regular I) (hN : (I.T + 1) * I.digest + 32 + ct.length + pt.length + msg.length ≤ N)
    (ag : ∀ x : Bytes, x.length ≤ N → f x = g x) (hv : (on I f).IsValid ct pt msg sig) : (on I g).IsValid ct pt msg sig := by
  obtain ⟨salt, s, hh, v, C, Q, hT⟩ := hv
  obtain ⟨τ, rfl, rfl, rfl, rfl, rfl⟩ : ∃ τ : Picnic3.Transcript, τ.s = s ∧ τ.h = hh ∧ τ.v = v ∧ τ.C = C ∧ τ.Q = Q := ⟨⟨s, hh, v, C, Q⟩, rfl, rfl, rfl, rfl, rfl⟩
  have hT : (on I f).TranscriptOf ct pt msg sig salt τ := hT
  have hlong := chal_long hI
  have acc := hT.accepts
  have hL : ∀ w, Used I τ w → (str I salt τ w).length ≤ N := fun w hw => by
    have := kind_len hI (str_kind hI hreg hT hw)
    omega
  have hacc := accepts_congr (L := {x | x.length ≤ N}) hI (fun x hx => ag x (by omega)) (fun x hx => ag x (by omega)) (fun x hx => ag x hx) hT.1 (chal_ne hI hT) acc
    ⟨fun t ht j hj ho => hL (.inl (⟨t, ht⟩, ⟨j, hj⟩)) ho, fun t ht => hL (.inr (.inl ⟨t, ht⟩)) trivial, fun t ht => hL (.inr (.inr (.inl ⟨t, (acc.2 t ht).1⟩))) ht,
      fun t ht k hk hkD => by
        have hp : OnPath I τ ((2 ^ I.depth + t) / 2 ^ k) := ⟨t, ht, k, hk, hkD, rfl⟩
        exact hL (.inr (.inr (.inr ⟨_, (onPath_range (fun t ht => (acc.2 t ht).1) hp).2.1⟩))) hp⟩
  have hcd : ∀ t < I.T, (on I f).comDigest (τ.v t) = (on I g).comDigest (τ.v t) := fun t ht => hash_same (ag _ (hL (.inr (.inl ⟨t, ht⟩)) trivial)) _
  have hch : (on I f).challengeDigest τ.v τ.h ct pt salt msg = (on I g).challengeDigest τ.v τ.h ct pt salt msg := by
    have hl := chal_str_len hT hI
    have e : (on I f).challengeString ct pt msg salt τ = (on I g).challengeString ct pt msg salt τ := by
      unfold Picnic3.Inst.challengeString
      congr 5
      exact List.flatMap_congr fun t ht => hcd t (List.mem_range.1 ht)
    have e1 : (on I f).challengeDigest τ.v τ.h ct pt salt msg = (on I f).hash ((on I f).challengeString ct pt msg salt τ) I.digest := rfl
    have e2 : (on I g).challengeDigest τ.v τ.h ct pt salt msg = (on I g).hash ((on I g).challengeString ct pt msg salt τ) I.digest := rfl
    rw [e1, e2, ← e]
    exact hash_same (ag _ (by omega)) _
  obtain ⟨a, -, b, c⟩ := hT
  rw [hch] at b c
  exact ⟨salt, τ.s, τ.h, τ.v, τ.C, τ.Q, a, hacc.1, chal_same (fun x hx => ag x (by omega)) (hash_length _ _) b, c⟩

/-! ### The table -/

open Spec.Rom in
theorem hash_hashTable {x : Bytes} (hx : x.length ≤ N) {n : ℕ} (hn : n ≤ M) : Rom.hash (hashTable I N M) x n = I.hash x n := by
  unfold Rom.hash Rom.bytes
  refine Picnic.Rom.ofBits_toBits (hash_length _ _) fun i hi => ?_
  unfold Rom.bits Rom.ask
  rw [dif_pos (show i < 8 * M by omega), dif_pos hx]
  simp only [hashTable]
  have e : I.hash x n = (I.hash x M).take n := by
    unfold Picnic3.Inst.hash
    rw [← List.map_take, List.take_range, Nat.min_eq_left hn]
  rw [e, toBits_eq, toBits_eq, bitsOf_take hi]

open Spec.Rom in
theorem valid_table (hI : I.Is p) (hreg : Regular I) (hN : (I.T + 1) * I.digest + 32 + ct.length + pt.length + msg.length ≤ N)
    (hM1 : I.digest ≤ M) (hM2 : 2 * I.seed ≤ M) (hM3 : 2 * I.gate ≤ M) :
    (over I (hashTable I N M)).IsValid ct pt msg sig ↔ I.IsValid ct pt msg sig := by
  let f : Bytes → ℕ → BitVec 8 := fun x => if x.length ≤ N then (over I (hashTable I N M)).xof x else I.xof x
  have hf : ∀ x n, n ≤ M → (on I f).hash x n = (on I I.xof).hash x n := by
    intro x n hn
    by_cases hx : x.length ≤ N
    · have e1 : (on I f).hash x n = (over I (hashTable I N M)).hash x n := by
        unfold Picnic3.Inst.hash
        refine List.map_congr_left fun i _ => ?_
        show f x i = _
        simp only [f, if_pos hx]
      rw [e1, over_hash, hash_hashTable hx hn]
    · unfold Picnic3.Inst.hash
      refine List.map_congr_left fun i _ => ?_
      show f x i = _
      simp only [f, if_neg hx]
  constructor
  · intro h
    have h1 : (on I f).IsValid ct pt msg sig := valid_long (f := (over I (hashTable I N M)).xof) (g := f) hI hreg hN (fun x hx => by simp only [f, if_pos hx]) h
    exact valid_short (f := f) (g := I.xof) hf hM1 hM2 hM3 h1
  · intro h
    have h1 : (on I f).IsValid ct pt msg sig := valid_short (f := I.xof) (g := f) (fun x n hn => (hf x n hn).symm) hM1 hM2 hM3 h
    exact valid_long (f := f) (g := (over I (hashTable I N M)).xof) hI hreg hN (fun x hx => by simp only [f, if_pos hx]) h1

/-! ### Matrices -/

theorem mulVec_congr' {n : ℕ} {A : ℕ → ℕ → ZMod 2} {x y : Bits} (h : ∀ i < n, x i = y i) : mulVec n A x = mulVec n A y := by
  funext i
  unfold mulVec
  split_ifs
  · exact sum_congr rfl fun j hj => by rw [h j (mem_range.1 hj)]
  · rfl

/-- A vector of `n` bits with zeros appended. -/
def extend (n : ℕ) (v : Fin n → ZMod 2) : Bits := fun i => if hi : i < n then v ⟨i, hi⟩ else 0

theorem extend_eq {n : ℕ} (z : Bits) : ∀ i < n, extend n (fun j => z j) i = z i := fun i hi => by simp [extend, hi]

theorem extend_fin {n : ℕ} (v : Fin n → ZMod 2) (i : Fin n) : extend n v i = v i := by simp [extend]

theorem mulVec_inj {n : ℕ} {A B : ℕ → ℕ → ZMod 2} (h : IsInv n A B) {x y : Bits} (he : ∀ i < n, mulVec n A x i = mulVec n A y i) : ∀ i < n, x i = y i := by
  have hsurj : Function.Surjective fun (v : Fin n → ZMod 2) (i : Fin n) => mulVec n A (extend n v) i := fun v => ⟨fun j => mulVec n B (extend n v) j, funext fun i => by
    beta_reduce
    rw [mulVec_congr' (extend_eq _), mulVec_inv h _ i.2, extend_fin]⟩
  have := Finite.injective_iff_surjective.2 hsurj (a₁ := fun j => x j) (a₂ := fun j => y j) (funext fun i => by
    beta_reduce
    rw [mulVec_congr' (extend_eq x), mulVec_congr' (extend_eq y)]
    exact he i i.2)
  exact fun i hi => congrFun this ⟨i, hi⟩

end Picnic.Rom3
