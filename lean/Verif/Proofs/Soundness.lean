import Verif.Spec.Soundness
import Verif.Proofs.ZkbSpec
import Verif.Proofs.Conf1
import Mathlib.Data.Fintype.Powerset
import Mathlib.Data.Fintype.Pi
import Mathlib.Algebra.Order.BigOperators.Group.Finset
import Mathlib.Algebra.Order.BigOperators.Ring.Finset
import Mathlib.Data.Finset.Powerset
import Mathlib.Tactic.Ring
import Mathlib.Data.Nat.Choose.Basic
import Mathlib.Data.Nat.Factorial.Basic

/-
Counting the challenges that can be answered.
-/

namespace Picnic

open Spec Finset

/-! ### vectors over a proper subset of three values -/

theorem card_vectors_le {T : ℕ} {A : (Fin T → Fin 3) → Prop} [DecidablePred A] {a : Fin T → Fin 3 → Prop} (hA : ∀ e, A e → ∀ t, a t (e t))
    (ha : ∀ t, ∃ c, ¬ a t c) : (univ.filter A).card ≤ 2 ^ T := by
  classical
  choose c hc using ha
  have hsub : univ.filter A ⊆ Fintype.piFinset fun t => univ.erase (c t) := by
    intro e he
    rw [mem_filter] at he
    rw [Fintype.mem_piFinset]
    intro t
    rw [mem_erase]
    exact ⟨fun h => hc t (h ▸ hA e he.2 t), mem_univ _⟩
  refine (card_le_card hsub).trans ?_
  rw [Fintype.card_piFinset]
  simp

/-! ### vectors with `u` entries -/

theorem card_some_vectors {T u : ℕ} : (univ.filter fun e : Fin T → Option (Fin 16) => Picnic3.IsVector u e).card = T.choose u * 16 ^ u := by
  classical
  have hch : T.choose u = (powersetCard u (univ : Finset (Fin T))).card := by rw [card_powersetCard, card_univ, Fintype.card_fin]
  rw [hch]
  rw [card_eq_sum_card_fiberwise (f := fun e => univ.filter fun t => (e t).isSome) (t := powersetCard u univ) ?_]
  · rw [← smul_eq_mul, ← sum_const]
    refine sum_congr rfl fun S hS => ?_
    rw [mem_powersetCard] at hS
    have : ((univ.filter fun e : Fin T → Option (Fin 16) => Picnic3.IsVector u e).filter fun e => (univ.filter fun t => (e t).isSome) = S) =
        Fintype.piFinset fun t => if t ∈ S then univ.erase none else {none} := by
      ext e
      rw [mem_filter, mem_filter, Fintype.mem_piFinset]
      constructor
      · rintro ⟨⟨-, h1⟩, h2⟩ t
        split_ifs with ht
        · rw [← h2, mem_filter] at ht
          rw [mem_erase]
          exact ⟨fun h => by simp [h] at ht, mem_univ _⟩
        · rw [← h2, mem_filter] at ht
          rw [mem_singleton]
          simpa using ht
      · intro h
        have h2 : (univ.filter fun t => (e t).isSome) = S := by
          ext t
          rw [mem_filter]
          have := h t
          split_ifs at this with ht
          · rw [mem_erase] at this
            simp only [mem_univ, true_and, ht, iff_true]
            exact Option.isSome_iff_ne_none.2 this.1
          · rw [mem_singleton] at this
            simp [this, ht]
        refine ⟨⟨mem_univ _, ?_⟩, h2⟩
        rw [Picnic3.IsVector, ← hS.2, ← h2]
    rw [this, Fintype.card_piFinset, ← hS.2]
    rw [prod_congr rfl (g := fun t => if t ∈ S then 16 else 1) fun t _ => by split_ifs <;> simp]
    rw [prod_ite_mem, univ_inter, prod_const]
  · intro e he
    rw [mem_coe, mem_filter] at he
    rw [mem_coe, mem_powersetCard]
    exact ⟨subset_univ _, he.2⟩

/-- Vectors with `u` entries that have an entry wherever `G` fails, and at most one possible entry where `G` holds. -/
theorem card_cheat_le {T u : ℕ} {A : (Fin T → Option (Fin 16)) → Prop} [DecidablePred A] {G : Fin T → Prop} [DecidablePred G] {p : Fin T → Fin 16}
    (hu : ∀ e, A e → Picnic3.IsVector u e) (hb : ∀ e, A e → ∀ t, ¬ G t → e t ≠ none) (hg : ∀ e, A e → ∀ t, G t → e t = none ∨ e t = some (p t)) :
    ∃ b ≤ u, (univ.filter A).card ≤ (T - b).choose (u - b) * 16 ^ b := by
  classical
  set B : Finset (Fin T) := univ.filter fun t => ¬ G t with hB
  have hsub : ∀ e, A e → B ⊆ univ.filter fun t => (e t).isSome := by
    intro e he t ht
    rw [hB, mem_filter] at ht
    rw [mem_filter]
    exact ⟨mem_univ _, Option.isSome_iff_ne_none.2 (hb e he t ht.2)⟩
  by_cases hbu : B.card ≤ u
  swap
  · refine ⟨0, Nat.zero_le _, ?_⟩
    rw [filter_eq_empty_iff.2, card_empty]
    · exact Nat.zero_le _
    intro e _ he
    exact hbu ((card_le_card (hsub e he)).trans (hu e he).le)
  refine ⟨B.card, hbu, ?_⟩
  have hU : ((univ : Finset (Fin T)) \ B).card = T - B.card := by rw [card_sdiff_of_subset (subset_univ _), card_univ, Fintype.card_fin]
  rw [← hU, ← card_powersetCard, mul_comm]
  refine card_le_mul_card_image_of_maps_to (f := fun e => (univ.filter fun t => (e t).isSome) \ B) ?_ _ ?_
  · intro e he
    rw [mem_filter] at he
    rw [mem_powersetCard]
    refine ⟨sdiff_subset_sdiff (subset_univ _) le_rfl, ?_⟩
    rw [card_sdiff_of_subset (hsub e he.2), hu e he.2]
  · intro S _
    have hS : ((univ.filter A).filter fun e => (univ.filter fun t => (e t).isSome) \ B = S) ⊆
        Fintype.piFinset fun t => if t ∈ B then univ.erase none else if t ∈ S then {some (p t)} else {none} := by
      intro e he
      rw [mem_filter, mem_filter] at he
      obtain ⟨⟨-, he⟩, rfl⟩ := he
      rw [Fintype.mem_piFinset]
      intro t
      have h1 := hb e he t
      have h2 := hg e he t
      by_cases hG : G t
      · have htB : t ∉ B := by simp [hB, hG]
        rw [if_neg htB]
        rcases h2 hG with h | h
        · rw [if_neg (by simp [h]), h, mem_singleton]
        · rw [if_pos (by simp [h, htB]), h, mem_singleton]
      · rw [if_pos (by simp [hB, hG]), mem_erase]
        exact ⟨h1 hG, mem_univ _⟩
    refine (card_le_card hS).trans ?_
    rw [Fintype.card_piFinset, prod_congr rfl (g := fun t => if t ∈ B then 16 else 1) fun t _ => by split_ifs <;> simp]
    rw [prod_ite_mem, univ_inter, prod_const]

/-! ### numbers -/

theorem choose_ratio {T u b x y : ℕ} (hb : b ≤ u) (hu : u ≤ T) (h : u.descFactorial b * x ≤ T.descFactorial b * y) :
    (T - b).choose (u - b) * x ≤ T.choose u * y := by
  have h1 : T.choose u * u.choose b = T.choose b * (T - b).choose (u - b) := Nat.choose_mul hb
  have h2 := Nat.descFactorial_eq_factorial_mul_choose u b
  have h3 := Nat.descFactorial_eq_factorial_mul_choose T b
  have hT : 0 < T.descFactorial b := Nat.descFactorial_pos.2 (by omega)
  refine Nat.le_of_mul_le_mul_left ?_ hT
  calc T.descFactorial b * ((T - b).choose (u - b) * x) = b.factorial * (T.choose b * (T - b).choose (u - b)) * x := by rw [h3]; ring
    _ = T.choose u * (u.descFactorial b * x) := by rw [← h1, h2]; ring
    _ ≤ T.choose u * (T.descFactorial b * y) := Nat.mul_le_mul_left _ h
    _ = T.descFactorial b * (T.choose u * y) := by ring

theorem zkb_numbers : 2 ^ 219 * 2 ^ 128 ≤ 3 ^ 219 ∧ 2 ^ 329 * 2 ^ 192 ≤ 3 ^ 329 ∧ 2 ^ 438 * 2 ^ 256 ≤ 3 ^ 438 := by decide +kernel

theorem p3_numbers : (∀ b < 37, Nat.descFactorial 36 b * (16 ^ b * 2 ^ 128) ≤ Nat.descFactorial 250 b * 16 ^ 36) ∧
    (∀ b < 53, Nat.descFactorial 52 b * (16 ^ b * 2 ^ 192) ≤ Nat.descFactorial 419 b * 16 ^ 52) ∧
    (∀ b < 69, Nat.descFactorial 68 b * (16 ^ b * 2 ^ 256) ≤ Nat.descFactorial 601 b * 16 ^ 68) := by decide +kernel

/-! ### three answers -/

section zkb

open Spec.Picnic1

variable {I : Picnic1.Inst} {ct pt salt : Buf} {outs coms : ℕ → Buf} {L : Set Buf} {t : ℕ}

theorem known_unique (hL : ∀ x ∈ L, ∀ y ∈ L, ¬ I.Collide x y) {a b : Picnic1.View} (ha : I.Known L a) (hb : I.Known L b)
    (hc : I.commit a = I.commit b) (hk : a.key.length = b.key.length) (hg : a.gates.length = b.gates.length) (ho : a.out.length = b.out.length) : a = b := by
  have e1 : I.viewString a = I.viewString b := by
    by_contra hne
    exact hL _ ha.2 _ hb.2 ⟨hne, hc⟩
  unfold Picnic1.Inst.viewString at e1
  obtain ⟨e2, e3⟩ := List.append_inj' e1 ho
  obtain ⟨e4, e5⟩ := List.append_inj' e2 hg
  obtain ⟨e6, e7⟩ := List.append_inj' e4 hk
  have e8 : seedString a = seedString b := by
    by_contra hne
    exact hL _ ha.1 _ hb.1 ⟨hne, List.append_cancel_left e6⟩
  have e9 : a.seed = b.seed := List.append_cancel_left (as := [4]) e8
  obtain ⟨as, ak, ag, ao⟩ := a
  obtain ⟨bs, bk, bg, bo⟩ := b
  simp only at e3 e5 e7 e9
  rw [e3, e5, e7, e9]

theorem keyShare_length (s salt : Buf) (t j : ℕ) : (I.keyShare s salt t j).length = I.blk := by
  rw [Picnic1.Inst.keyShare, ofBits_eq, ofBits_length]

theorem answer_lengths {e : ℕ} {o : Opening} {a b : Picnic1.View} (he : e < 3) (h : I.Answer ct pt salt outs coms L t e o a b) :
    (a.key.length = I.blk ∧ a.gates.length = I.gate ∧ a.out.length = I.blk) ∧ (b.key.length = I.blk ∧ b.gates.length = I.gate ∧ b.out.length = I.blk) := by
  have h1 := h.fits.key
  refine ⟨⟨?_, h.opened.gates0, ?_⟩, ?_, ?_, ?_⟩
  · rw [h.opened.key0]
    split_ifs with h2
    · rw [h1, if_neg (by omega)]
    · exact keyShare_length ..
  · rw [h.opened.out0, ofBits_eq, ofBits_length]
  · rw [h.opened.key1]
    split_ifs with h2
    · rw [h1, if_neg (by omega)]
    · exact keyShare_length ..
  · rw [h.opened.gates1, h.fits.gates]
  · rw [h.opened.out1, ofBits_eq, ofBits_length]

/-- Answers to all three challenges reveal a secret key. -/
theorem three_answers (hn : I.X.n ≤ 8 * I.blk) (hL : ∀ x ∈ L, ∀ y ∈ L, ¬ I.Collide x y) {o : ℕ → Opening} {a b : ℕ → Picnic1.View}
    (h : ∀ e < 3, I.Answer ct pt salt outs coms L t e (o e) (a e) (b e)) :
    (∀ j < 3, I.Known L (a j) ∧ I.commit (a j) = coms j ∧ (a j).key.length = I.blk) ∧
    ∀ i < I.X.n, I.X.enc (toBits (a 0).key + toBits (a 1).key + toBits (a 2).key) (toBits pt) i = toBits ct i := by
  have hcom : ∀ j < 3, I.commit (a j) = coms j := fun j hj => by
    rw [← (h j hj).coms j hj, arrange, if_pos rfl]
  have hab : ∀ j < 3, b j = a ((j + 1) % 3) := by
    intro j hj
    have hj' : (j + 1) % 3 < 3 := Nat.mod_lt _ (by omega)
    obtain ⟨-, l1, l2, l3⟩ := answer_lengths hj (h j hj)
    obtain ⟨⟨m1, m2, m3⟩, -⟩ := answer_lengths hj' (h _ hj')
    refine known_unique hL (h j hj).known.2 (h _ hj').known.1 ?_ (l1.trans m1.symm) (l2.trans m2.symm) (l3.trans m3.symm)
    rw [hcom _ hj', ← (h j hj).coms _ hj', arrange, if_neg (by omega), if_pos rfl]
  refine ⟨fun j hj => ⟨(h j hj).known.1, hcom j hj, (answer_lengths hj (h j hj)).1.1⟩, fun i hi => ?_⟩
  have hcons : ∀ j < 3, Zkb.Consistent I.X (toBits pt) j (I.bitView salt t j (a j)) (I.bitView salt t ((j + 1) % 3) (a ((j + 1) % 3))) := by
    intro j hj
    have := (h j hj).opened.consistent
    rwa [hab j hj] at this
  have hs := congrFun (output_sum (hcons 0 (by omega)) (hcons 1 (by omega)) (hcons 2 (by omega))) i
  have hlast := ((h 0 (by omega)).outs 2 (by omega)).trans ((h 2 (by omega)).outs 2 (by omega)).symm
  rw [arrange, if_neg (by omega), if_neg (by omega), arrange, if_pos rfl, hab 0 (by omega)] at hlast
  have h1 := congrArg (fun b => toBits b i) hlast
  beta_reduce at h1
  have hi8 : i < 8 * I.blk := by omega
  rw [(h 2 (by omega)).opened.out0, (h 0 (by omega)).opened.out0, show (0 + 1) % 3 = 1 from rfl, (h 1 (by omega)).opened.out0] at h1
  simp only [toBits_eq, ofBits_eq] at h1 hs ⊢
  rw [bitsOf_ofBits _ hi8, bitsOf_ofBits _ hi8] at h1
  simp only [Pi.add_apply] at h1 hs
  rw [bitsOf_ofBits _ hi8, bitsOf_ofBits _ hi8] at h1
  simp only [Picnic1.Inst.bitView, toBits_eq] at h1 hs ⊢
  rw [← hs, ← h1]
  generalize Zkb.output _ _ 0 _ _ = x
  generalize Zkb.output _ _ 1 _ _ = y
  have h3 := zmod2_add_self x
  have h4 := zmod2_add_self y
  linear_combination h3 + h4

end zkb

theorem challenge_range {I : Picnic1.Inst} {d : Buf} {e : List ℕ} (h : I.Challenge d e) : e.length = I.T ∧ ∀ x ∈ e, x < 3 := by
  obtain ⟨n, h1, rfl⟩ := h
  exact ⟨by rw [List.length_take]; omega, fun x hx => stream_lt (List.mem_of_mem_take hx)⟩

end Picnic
