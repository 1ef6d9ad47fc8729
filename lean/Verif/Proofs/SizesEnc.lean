import Verif.Proofs.SizesNum
import Verif.Proofs.Rom3Main
import Verif.Props.Conform3
import Mathlib.Algebra.BigOperators.Fin

/-
The length of a Picnic3 signature of the specification.
-/

namespace Picnic

open Finset Spec Spec.Tree Spec.Sizes Spec.Picnic3 Spec.Challenge
open Picnic.Rom3 (opened_top)

theorem openLeaf_eq {D T : ℕ} {C Q : List ℕ} {e : Fin T → Option (Fin 16)} (hC : ∀ h ∈ C, h < T) (ha : Asks C Q e) : OpenLeaf D e = Picked D C := by
  funext y
  rw [eq_iff_iff]
  constructor
  · rintro ⟨t, ht, rfl⟩
    exact ⟨t, (ha t).1.2 ht, rfl⟩
  · rintro ⟨h, hh, rfl⟩
    exact ⟨⟨h, hC h hh⟩, (ha ⟨h, hC h hh⟩).1.1 hh, rfl⟩

theorem cut_top {D T : ℕ} {C Q : List ℕ} {e : Fin T → Option (Fin 16)} (hC : ∀ h ∈ C, h < T) (ha : Asks C Q e) :
    cut D e = {x | Top D T (Picked D C) x}.ncard := by
  unfold cut
  rw [openLeaf_eq hC ha]
  congr 1
  ext x
  exact ⟨fun h => ⟨h.2.1, h.1, h.2.2⟩, fun h => ⟨h.2.1, h.1, h.2.2⟩⟩

theorem ncard_list {l : List ℕ} (h : l.Nodup) : {x | x ∈ l}.ncard = l.length := by
  classical
  rw [← List.toFinset_card_of_nodup h, ← Set.ncard_coe_finset]
  congr 1
  ext x
  simp

theorem revealed_nodup (D n : ℕ) (l : List ℕ) : (revealed D n l).Nodup := (firsts_nodup _).1

theorem opened_nodup (D n : ℕ) (l : List ℕ) : (opened D n l).Nodup := (firsts_nodup _).1

theorem revealed_rev {D n : ℕ} {l : List ℕ} (hD : 1 ≤ D) (hn1 : 1 ≤ n) (hn : n ≤ 2 ^ D) (hl : ∀ h ∈ l, h < n) {x : ℕ} :
    x ∈ revealed D n l ↔ Rev D n (Picked D l) x := by
  refine ⟨fun h => (revealed_facts hD hn1 hn hl h).2.2.2, fun h => ?_⟩
  have h2 := (rev_node hn1 hn (picked_atDepth hn hl) h).2.1
  refine (revealed_mem hD hn1 hn hl).2 ⟨by omega, ?_⟩
  obtain ⟨-, -, hrv⟩ := revN_spec hD hn1 hn hl
  rw [hrv, Nat.sub_add_cancel (by omega)]
  exact h

theorem revealed_len {D n : ℕ} {l : List ℕ} (hD : 1 ≤ D) (hn1 : 1 ≤ n) (hn : n ≤ 2 ^ D) (hl : ∀ h ∈ l, h < n) :
    (revealed D n l).length = {x | Top D n (Picked D l) x}.ncard := by
  rw [← ncard_list (revealed_nodup D n l)]
  have : {x | x ∈ revealed D n l} = dsc D n '' {x | Top D n (Picked D l) x} := by
    ext x
    rw [Set.mem_setOf_eq, revealed_rev hD hn1 hn hl]
    exact ⟨fun ⟨s, h, e⟩ => ⟨s, h, e.symm⟩, fun ⟨s, h, e⟩ => ⟨s, h, e.symm⟩⟩
  rw [this]
  exact Set.ncard_image_of_injOn fun a ha b hb e => dsc_inj (picked_atDepth hn hl) ha hb e

theorem revealed_len4 {k : ℕ} (hk : k < 16) : (revealed 4 16 [k]).length = 4 := by
  have key : ∀ h < 16, (match (createTree 16 0 >>= fun t => getRevealedNodes t [h] 1) with
      | Outcome.ok rv => rv.length
      | _ => 0) = 4 := by decide +kernel
  have h1 := key k hk
  rw [createTree_ok (by decide) (by decide), ok_bind] at h1
  have hl : ∀ h ∈ [k], h < 16 := by simpa using hk
  have h4 := (revN_spec (D := 4) (n := 16) (l := [k]) (by decide) (by decide) (by decide) hl).1 0 (fun _ => false) fun _ => zeros 0
  have h5 : getRevealedNodes (mkTree (ceilLog2 16) 16 0 (fun _ => false) fun _ => zeros 0) [k] 1 = Outcome.ok (revN 4 16 [k]) := h4
  rw [h5] at h1
  have h6 := revN_eq (D := 4) (n := 16) (l := [k]) (by decide) (by decide) (by decide) hl
  have h7 : (revN 4 16 [k]).length = 4 := h1
  rw [h6, List.length_map] at h7
  exact h7

theorem closed_mem {T : ℕ} {C : List ℕ} {j : ℕ} (hj : j < T) : j ∈ closed T C ↔ j ∉ C := by
  unfold closed
  simp [hj]

theorem opened_len {D n : ℕ} {C : List ℕ} (h2 : 2 ≤ n) (hn : n ≤ 2 ^ D) (hC : ∀ h ∈ C, h < n) (hne : C ≠ []) :
    (opened D n (closed n C)).length = {x | Top D n (Picked D C) x}.ncard := by
  have hp : Present D n (closed n C) = Picked D C := present_picked hC fun j hj => closed_mem hj
  have hcl : ∀ h ∈ closed n C, h < n := fun h hh => by
    unfold closed at hh
    rw [List.mem_filter, List.mem_range] at hh
    exact hh.1
  have hex : ∃ y, Present D n (closed n C) y := by
    rw [hp]
    obtain ⟨a, l', rfl⟩ := List.exists_cons_of_ne_nil hne
    exact ⟨_, a, by simp, rfl⟩
  rw [← ncard_list (opened_nodup D n _)]
  congr 1
  ext x
  rw [Set.mem_setOf_eq, Set.mem_setOf_eq, ← hp]
  constructor
  · intro h
    exact (opened_top h2 hn hcl hex (opened_pos hn hcl hex h)).1 h
  · intro h
    exact (opened_top h2 hn hcl hex (by have := h.2.1; omega)).2 h

theorem child_len {I : Inst} {salt : Bytes} {rep : ℕ} {s : ℕ → Bytes} {x : ℕ} (h : I.Child salt rep s x) : (s x).length = I.seed := by
  unfold Inst.Child at h
  rw [h, List.length_take, List.length_drop, hash_length]
  rcases Nat.mod_two_eq_zero_or_one x with h | h <;> rw [h] <;> omega

theorem merkle_len {I : Inst} {salt : Bytes} {v : ℕ → Round} {h : ℕ → Bytes} (hm : I.Merkle salt v (fun _ => True) h) {x : ℕ} (hx1 : 1 ≤ x)
    (hx : Node I.depth I.T x) : (h x).length = I.digest := by
  obtain ⟨y, k, hy, hk, rfl⟩ := hx
  obtain ⟨t, rfl⟩ := Nat.exists_eq_add_of_le hy.1
  have ht : t < I.T := by have := hy.2; omega
  by_cases hlt : (2 ^ I.depth + t) / 2 ^ k < 2 ^ I.depth
  · have := hm.inner _ hlt ⟨t, ht, trivial, k, rfl⟩ hx1
    unfold Inst.MerkleNode at this
    rw [this, hash_length]
  · have hk0 : k = 0 := by
      by_contra hk0
      have h1 : 2 ^ I.depth ≤ (2 ^ I.depth + t) / 2 ^ k := by omega
      by_cases hT : I.T ≤ 2 ^ I.depth
      · have := (div_pow_range hk hy.1 (by rw [pow_succ]; omega)).2
        have h2 : 2 ^ (I.depth - k + 1) ≤ 2 ^ I.depth := Nat.pow_le_pow_right (by omega) (by omega)
        omega
      · exact hT (Nat.le_pow_clog (by omega) _)
    subst hk0
    rw [pow_zero, Nat.div_one, hm.leaf t ht trivial]
    exact hash_length _ _

/-- The sum over the repetitions. -/
theorem sum_rounds {T u : ℕ} (e : Vec T u) (A g : ℕ) :
    (∑ t : Fin T, if (e.1 t).isSome then A + (if e.1 t = some 15 then 0 else g) else 0) = u * A + (u - lasts e.1) * g := by
  have he := e.2
  unfold IsVector at he
  have h1 : ∀ t : Fin T, (if (e.1 t).isSome then A + (if e.1 t = some 15 then 0 else g) else 0) + (if e.1 t = some 15 then g else 0) =
      if (e.1 t).isSome then A + g else 0 := by
    intro t
    by_cases h : e.1 t = some 15
    · rw [if_pos (by rw [h]; rfl), if_pos h, if_pos h, if_pos (by rw [h]; rfl), Nat.add_zero]
    · rw [if_neg h, if_neg h, Nat.add_zero]
  have h2 : (∑ t : Fin T, if (e.1 t).isSome then A + (if e.1 t = some 15 then 0 else g) else 0) + lasts e.1 * g = u * (A + g) := by
    have : lasts e.1 * g = ∑ t : Fin T, if e.1 t = some 15 then g else 0 := by
      unfold lasts
      rw [card_filter, sum_mul]
      exact sum_congr rfl fun t _ => by split_ifs <;> simp
    rw [this, ← sum_add_distrib, sum_congr rfl fun t _ => h1 t, ← sum_filter, sum_const, he, smul_eq_mul]
  have hl := lasts_le e
  have h3 : (u - lasts e.1) * g + lasts e.1 * g = u * g := by rw [← Nat.add_mul, Nat.sub_add_cancel hl]
  rw [Nat.mul_add] at h2
  omega

theorem flatMap_range_len (T : ℕ) (f : ℕ → Bytes) : ((List.range T).flatMap f).length = ∑ t : Fin T, (f t).length := by
  induction T with
  | zero => rfl
  | succ T ih =>
    rw [List.range_succ, List.flatMap_append, List.length_append, ih, Fin.sum_univ_castSucc]
    simp

theorem signature_len {I : Inst} {p : ℕ} (hI : I.Is p) {sk ct pt msg s : Bytes} (h : I.IsSignature sk ct pt msg s) :
    ∃ (C Q : List ℕ) (e : I.Vector), I.Challenge (s.take I.digest) C Q ∧ Asks C Q e.1 ∧ s.length = size I e := by
  obtain ⟨sd, hh, v, κ, C, Q, htree, hr, hm, hc, rfl⟩ := h
  have hsl : ((I.secrets sk ct pt msg).take 32).length = 32 := by
    rw [List.length_take, Inst.secrets, hash_length]; omega
  generalize (I.secrets sk ct pt msg).take 32 = salt at *
  have hdl : (I.challengeDigest v hh ct pt salt msg).length = I.digest := hash_length _ _
  have hnum := inst_numbers hI
  have hT2 : 2 ≤ I.T := by omega
  have hu1 : 1 ≤ I.u := by omega
  have hD1 : 1 ≤ I.depth := by omega
  have hTD : I.T ≤ 2 ^ I.depth := Nat.le_pow_clog (by omega) _
  obtain ⟨⟨e, he, ha⟩, hlen, hC, hQ⟩ : (∃ e : Fin I.T → Option (Fin 16), IsVector I.u e ∧ Asks C Q e) ∧ C.length = I.u ∧ (∀ h ∈ C, h < I.T) ∧ ∀ t, hid C Q t < 16 := by
    have h1 := hc
    unfold Inst.Challenge at h1
    rw [C52_chain_p3] at h1
    obtain ⟨n, hn⟩ := h1
    obtain ⟨h1, h2, h3, h4, h5⟩ := reads3_wf hn
    exact ⟨reads3_vector hn, h1, h3, fun t => getD_below (by decide) h5 _⟩
  have hne : C ≠ [] := by rintro rfl; simp at hlen; omega
  refine ⟨C, Q, ⟨e, he⟩, ?_, ha, ?_⟩
  · unfold Inst.encode
    rw [List.append_assoc, List.append_assoc, List.append_assoc, List.take_left' hdl]
    exact hc
  unfold Inst.encode size
  simp only [List.length_append]
  rw [hdl, hsl, flatMap_range_len]
  rw [Rom3.flatMap_len (c := I.seed) fun x hx => child_len (htree.2 x (revealed_facts hD1 (by omega) hTD hC hx).1 (revealed_facts hD1 (by omega) hTD hC hx).2.1)]
  have hcl : ∀ h ∈ closed I.T C, h < I.T := fun h hh => by
    unfold closed at hh
    rw [List.mem_filter, List.mem_range] at hh
    exact hh.1
  have hex : ∃ y, Present I.depth I.T (closed I.T C) y := by
    rw [present_picked hC fun j hj => closed_mem hj]
    obtain ⟨a, l', rfl⟩ := List.exists_cons_of_ne_nil hne
    exact ⟨_, a, by simp, rfl⟩
  rw [Rom3.flatMap_len (c := I.digest) fun x hx => by
    have hp := opened_pos hTD hcl hex hx
    exact merkle_len hm hp ((opened_top hT2 hTD hcl hex hp).1 hx).1]
  rw [revealed_len hD1 (by omega) hTD hC, opened_len hT2 hTD hC hne, ← cut_top hC ha]
  have hround : ∀ t : Fin I.T, (if t.1 ∈ C then (v t).encode (hid C Q t) else []).length =
      if (e t).isSome then (4 * I.seed + I.blk + I.gate + I.digest) + (if e t = some 15 then 0 else I.gate) else 0 := by
    intro t
    by_cases ht : t.1 ∈ C
    · rw [if_pos ht, if_pos ((ha t).1.1 ht)]
      obtain ⟨k, hk⟩ := Option.isSome_iff_exists.1 ((ha t).1.1 ht)
      have hkq := (ha t).2 k hk
      rw [hkq, hk]
      obtain ⟨h1, h2, h3, h4⟩ := hr t t.2
      have hk16 : ∀ h ∈ [k.1], h < 16 := by simp
      unfold Round.encode
      simp only [List.length_append]
      rw [Rom3.flatMap_len (c := I.seed) fun x hx => child_len (h1.2 x (revealed_facts (by decide) (by decide) (by decide) hk16 hx).1
        (revealed_facts (by decide) (by decide) (by decide) hk16 hx).2.1), revealed_len4 k.2, (h4 k k.2).1.1, (h4 k k.2).2, h3]
      have e1 : (I.commit salt t (v t) k).length = I.digest := hash_length _ _
      have e2 : ∀ b : Bits, (Picnic1.ofBits I.blk b).length = I.blk := fun b => by simp [Picnic1.ofBits]
      rw [e1, e2]
      have e3 : (if k.1 = 15 then ([] : Bytes) else (v t).aux).length = if some k = some 15 then 0 else I.gate := by
        by_cases hk15 : k = 15
        · rw [if_pos (by rw [hk15]; rfl), if_pos (by rw [hk15])]; rfl
        · rw [if_neg (fun h : k.1 = 15 => hk15 (Fin.ext h)), if_neg (fun h => hk15 (Option.some.inj h)), h2.1]
      rw [e3]
      omega
    · rw [if_neg ht, if_neg fun h => ht ((ha t).1.2 h)]; rfl
  rw [sum_congr rfl fun t _ => hround t, sum_rounds ⟨e, he⟩]
  ring

/-- A signature starts with a hash value. -/
theorem signature_digest {I : Inst} {sk ct pt msg s : Bytes} (h : I.IsSignature sk ct pt msg s) : ∃ m, s.take I.digest = I.hash m I.digest := by
  obtain ⟨sd, hh, v, κ, C, Q, -, -, -, -, rfl⟩ := h
  generalize (I.secrets sk ct pt msg).take 32 = salt
  have hdl : (I.challengeDigest v hh ct pt salt msg).length = I.digest := hash_length _ _
  unfold Inst.encode
  rw [List.append_assoc, List.append_assoc, List.append_assoc, List.take_left' hdl]
  exact ⟨_, rfl⟩

end Picnic
