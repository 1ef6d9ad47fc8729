import Verif.Proofs.Rom3Lib
import Verif.Proofs.Domains

/-
C64: the keys that can be read off the questions of a forger.
-/

namespace Picnic.Rom3

open Spec Spec.Rom Finset
open Spec.Picnic3 (Round commitString comString msgString)

variable {N M p : ℕ} {I : Picnic3.Inst}

theorem state_key {X : LowMC} {k k' pt : Bits} (h : ∀ i < X.n, k i = k' i) (t : ℕ) : X.state k pt t = X.state k' pt t := by
  induction t with
  | zero =>
    unfold LowMC.state
    rw [mulVec_congr' h]
  | succ t ih =>
    unfold LowMC.state
    rw [mulVec_congr' h, ih]

variable (I) in
/-- `a` and `b` are the strings for the commitments and the messages of a repetition, `k` is the key. -/
def From (O : Oracle N M) (L : List Bytes) (a b : Bytes) (k : Bits) : Prop :=
  ∃ salt t, salt.length = 32 ∧ t < I.T ∧ ∃ (v w : Round) (κ : Bits), (over I O).Prepared salt t v κ ∧ comString v = a ∧
    (∀ j < 16, (v.seed j).length = I.seed ∧ v.com j = (over I O).commit salt t v j ∧ commitString salt t v j ∈ L) ∧ msgString w = b ∧ w.key.length = I.blk ∧
    Picnic1.toBits w.key + κ = k

theorem from_unique (hI : I.Is p) (hreg : Regular I) {O : Oracle N M} {L : List Bytes} (hL : Apart I O {x | x ∈ L}) {a b : Bytes} {k k' : Bits} (h : From I O L a b k)
    (h' : From I O L a b k') : ∀ i < I.X.n, k i = k' i := by
  obtain ⟨salt, t, hs, ht, v, w, κ, ⟨p1, p2, m, p3⟩, c1, c2, b1, b2, rfl⟩ := h
  obtain ⟨salt', t', hs', ht', v', w', κ', ⟨p1', p2', m', p3'⟩, c1', c2', b1', b2', rfl⟩ := h'
  have hk : w.key = w'.key := by
    have e := b1.trans b1'.symm
    unfold msgString at e
    exact (List.append_inj e (b2.trans b2'.symm)).1
  have hcom : ∀ j < 16, v.com j = v'.com j := fun j hj => by
    have e := c1.trans c1'.symm
    unfold comString at e
    refine flatMap_inj (fun j hj => ?_) e j (List.mem_range.2 hj)
    rw [(c2 j (List.mem_range.1 hj)).2.1, (c2' j (List.mem_range.1 hj)).2.1]
    unfold Picnic3.Inst.commit
    rw [Spec.Picnic3.hash_length, Spec.Picnic3.hash_length]
  have hstr : ∀ j < 16, commitString salt t v j = commitString salt' t' v' j := fun j hj => by
    refine hL _ (c2 j hj).2.2 _ (c2' j hj).2.2 ?_
    have e := hcom j hj
    rw [(c2 j hj).2.1, (c2' j hj).2.1] at e
    rw [← over_hash (I := I), ← over_hash (I := I)]
    exact e
  have hT : I.T < 2 ^ 16 := by
    obtain ⟨-, -, -, h4, -⟩ | ⟨-, -, -, h4, -⟩ | ⟨-, -, -, h4, -⟩ := nums hI <;> rw [h4] <;> decide
  have split : ∀ j < 16, v.seed j = v'.seed j ∧ (j = 15 → v.aux = v'.aux) ∧ salt = salt' ∧ t = t' := fun j hj => by
    have e := hstr j hj
    unfold commitString at e
    simp only [List.append_assoc] at e
    obtain ⟨e1, e⟩ := List.append_inj e ((c2 j hj).1.trans (c2' j hj).1.symm)
    have hl : (if j = 15 then v.aux else []).length = (if j = 15 then v'.aux else []).length := by
      split_ifs
      · exact p1.trans p1'.symm
      · rfl
    obtain ⟨e2, e⟩ := List.append_inj e hl
    obtain ⟨e3, e⟩ := List.append_inj e (hs.trans hs'.symm)
    obtain ⟨e4, -⟩ := List.append_inj e rfl
    refine ⟨e1, fun h15 => ?_, e3, int16_inj (ht.trans hT) (ht'.trans hT) e4⟩
    simpa [h15] using e2
  obtain ⟨-, -, rfl, rfl⟩ := split 0 (by norm_num)
  have hsh : ∀ j < 16, (over I O).share salt t v j = (over I O).share salt t v' j := fun j hj => by
    refine share_tape (I := I) (f := (over I O).xof) (g := (over I O).xof) ?_ (split j hj).2.1
    funext q
    unfold Picnic3.Inst.tape
    rw [(split j hj).1]
  have hκ : ∀ i < I.X.n, κ i = κ' i := hreg.1 _ _ fun i hi => by
    refine (p3.key i hi).trans (Eq.trans ?_ (p3'.key i hi).symm)
    exact congrFun (mask_congr (I := I) (f := (over I O).xof) (g := (over I O).xof) hsh 0) i
  intro i hi
  rw [hk]
  show _ + κ i = _ + κ' i
  rw [hκ i hi]

theorem candidates (hI : I.Is p) (hreg : Regular I) (O : Oracle N M) (L : List Bytes) (hL : Apart I O {x | x ∈ L}) :
    ∃ K : List Bits, K.length ≤ L.length ^ 2 ∧ ∀ ct pt, Reveal3 I O ct pt {x | x ∈ L} → ∃ k ∈ K, ∀ i < I.X.n, I.X.enc k (Picnic1.toBits pt) i = Picnic1.toBits ct i := by
  classical
  refine ⟨(L ×ˢ L).map fun ab => if h : ∃ k, From I O L ab.1 ab.2 k then h.choose else 0, by rw [List.length_map, List.length_product, sq], ?_⟩
  rintro ct pt ⟨salt, digests, hs, t, ht, v, w, κ, h1, h2, h3, h4, h5, h6, h7⟩
  have hf : From I O L (comString v) (msgString w) (Picnic1.toBits w.key + κ) := ⟨salt, t, hs, ht, v, w, κ, h1, rfl, h4, rfl, h6, rfl⟩
  have hex : ∃ k, From I O L (comString v) (msgString w) k := ⟨_, hf⟩
  refine ⟨_, List.mem_map.2 ⟨(comString v, msgString w), List.mem_product.2 ⟨h3, h5⟩, dif_pos hex⟩, fun i hi => ?_⟩
  rw [← h7 i hi]
  have := state_key (X := I.X) (pt := Picnic1.toBits pt) (from_unique hI hreg hL hex.choose_spec hf) I.X.r
  exact congrFun this i

end Picnic.Rom3
