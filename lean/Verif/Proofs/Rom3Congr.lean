import Verif.Proofs.Rom3Trans
import Verif.Proofs.Recover

/-
C64: answers to challenges of Picnic3 with two hash functions that agree at the strings for seeds and tapes and at the strings that are known.
-/

namespace Picnic.Rom3

open Spec Spec.Tree Spec.Picnic1 Spec.Picnic3 Finset

variable {I : Picnic3.Inst} {f g : Bytes → ℕ → BitVec 8} {p : ℕ} {ct pt salt : Bytes} {L : Set Bytes} {t : ℕ}

theorem partial_congr {D n rep : ℕ} {l : List ℕ} {s : ℕ → Bytes} (ag : ∀ x : Bytes, x.length = I.seed + 37 → f x = g x) (hs : salt.length = 32)
    (hD : 1 ≤ D) (hn1 : 1 ≤ n) (hn : n ≤ 2 ^ D) (hl : ∀ h ∈ l, h < n) (h : (on I f).PartialTree salt rep D n l s) : (on I g).PartialTree salt rep D n l s := by
  refine ⟨h.1, fun x hx ⟨k, hk, hk'⟩ => ?_⟩
  have c := h.2 x hx ⟨k, hk, hk'⟩
  obtain ⟨k, rfl⟩ : ∃ k', k = k' + 1 := ⟨k - 1, by omega⟩
  have h2 := (revealed_facts hD hn1 hn hl hk').1
  have h2x : 2 ≤ x := h2.trans (Nat.div_le_self _ _)
  rw [pow_succ', ← Nat.div_div_eq_div_mul] at hk'
  have hlen := (partial_down (f := f) (g := f) (fun _ _ => rfl) hs hD hn1 hn hl h h (fun _ _ => rfl) k (x / 2) (up_parent (leaf_atDepth hn) hx h2x) hk').2
  unfold Picnic3.Inst.Child at c ⊢
  rw [c, hash_same (ag _ (seedText_len hs hlen _ _))]

theorem tree_congr {D n rep : ℕ} {root : Bytes} {s : ℕ → Bytes} (ag : ∀ x : Bytes, x.length = I.seed + 37 → f x = g x) (hs : salt.length = 32)
    (hn : n ≤ 2 ^ D) (h : (on I f).SeedTree salt rep D n root s) (hl : root.length = I.seed) : (on I g).SeedTree salt rep D n root s := by
  refine ⟨h.1, fun x hx hN => ?_⟩
  have c := h.2 x hx hN
  have hlen := (tree_down (f := f) (g := f) (fun _ _ => rfl) hs hn h h rfl hl (x / 2) (up_parent (leaf_atDepth hn) hN hx)).2
  unfold Picnic3.Inst.Child at c ⊢
  rw [c, hash_same (ag _ (seedText_len hs hlen _ _))]

theorem mask_congr {sh sh' : ℕ → Bits} (h : ∀ j < 16, sh j = sh' j) (r : ℕ) : (on I f).mask sh r = (on I g).mask sh' r := by
  funext i
  unfold Picnic3.Inst.mask
  split_ifs
  · rfl
  · exact sum_congr rfl fun j hj => by rw [h j (mem_range.1 hj)]

theorem prepared_congr {v : Round} {κ : Bits} (hsh : ∀ j < 16, (on I f).share salt t v j = (on I g).share salt t v j) (h : (on I f).Prepared salt t v κ) :
    (on I g).Prepared salt t v κ := by
  obtain ⟨l1, p1, w, m1, m2, m3⟩ := h
  have e := mask_congr (I := I) (f := f) (g := g) hsh
  refine ⟨l1, p1, w, fun i hi => ?_, fun r hr i hi => ?_, fun r hr i hi => ?_⟩
  · rw [← e]; exact m1 i hi
  · rw [← e, ← e]; exact m2 r hr i hi
  · rw [← e]
    have := m3 r hr i hi
    rw [sum_congr rfl fun j hj => by rw [← hsh j (mem_range.1 hj)]]
    exact this

theorem share_congr {v : Round} (ag36 : ∀ x : Bytes, x.length = I.seed + 36 → f x = g x) (hs : salt.length = 32) {j : ℕ} (hl : (v.seed j).length = I.seed) :
    (on I f).share salt t v j = (on I g).share salt t v j := share_tape (tape_same ag36 hs rfl hl) fun _ => rfl

theorem public_on (a b : Bits) (c : ℕ → Bits) (r : ℕ) : (on I f).public a b c r = (on I g).public a b c r := by
  induction r with
  | zero => rfl
  | succ r ih =>
    unfold Picnic3.Inst.public
    rw [ih]

/-- The checks of a verifier. -/
theorem accepts_congr {τ : Picnic3.Transcript} (hI : I.Is p) (ag37 : ∀ x : Bytes, x.length = I.seed + 37 → f x = g x) (ag36 : ∀ x : Bytes, x.length = I.seed + 36 → f x = g x)
    (agL : ∀ x ∈ L, f x = g x) (hs : salt.length = 32) (hne : τ.C ≠ []) (h : (on I f).Accepts ct pt salt τ) (hh : (on I f).Hashed salt L τ) :
    (on I g).Accepts ct pt salt τ := by
  have hS := sizes hI
  have hT1 : 1 ≤ I.T := by have := hS.T2; omega
  have hr : ∀ t ∈ τ.C, t < I.T := fun t ht => (h.2 t ht).1
  have hlen : ∀ t < I.T, ∀ j < 16, τ.Opens t j → ((τ.v t).seed j).length = I.seed := fun t ht j hj ho => ((h.round ht).1 j hj ho).1
  have hsh : ∀ t < I.T, ∀ j < 16, τ.Opens t j → (on I f).share salt t (τ.v t) j = (on I g).share salt t (τ.v t) j := fun t ht j hj ho =>
    share_congr ag36 hs (hlen t ht j hj ho)
  have hcom : ∀ t < I.T, ∀ j < 16, τ.Opens t j → (on I f).commit salt t (τ.v t) j = (on I g).commit salt t (τ.v t) j := fun t ht j hj ho =>
    hash_same (agL _ (hh.commit t ht j hj ho)) _
  obtain ⟨⟨h1, h2, h3, h4, h5⟩, h6⟩ := h
  refine ⟨⟨partial_congr ag37 hs hS.D1 hT1 hS.Tle hr h1, fun t ht hC => ?_, fun t hC => ?_, ⟨fun t ht hC => ?_, fun x hx ⟨t, ht, hC, k, hk⟩ hx1 => ?_, h4.absent⟩, h5⟩, h6⟩
  · have ht : t < I.T := ht
    obtain ⟨a, ⟨κ, b⟩, c⟩ := h2 t ht hC
    have ho : ∀ j, τ.Opens t j := fun j hc => absurd hc hC
    obtain ⟨i, hi⟩ := revealed_cover (D := I.depth) (n := I.T) hS.D1 hT1 hS.Tle hr hne ht hC
    have hroot := (partial_down (f := f) (g := f) (fun _ _ => rfl) hs hS.D1 hT1 hS.Tle hr h1 h1 (fun _ _ => rfl) i (2 ^ I.depth + t)
      (up_self ⟨by omega, by omega⟩) hi).2
    exact ⟨tree_congr ag37 hs (by decide) a hroot, ⟨κ, prepared_congr (fun j hj => hsh t ht j hj (ho j)) b⟩, fun j hj => (c j hj).trans (hcom t ht j hj (ho j))⟩
  · obtain ⟨a, b, c, d⟩ := h3 t hC
    refine ⟨partial_congr ag37 hs (by decide) (by decide) (by decide) (single_lt' (h6 t hC).2) a, ⟨b.aux, b.key, b.msgs, b.com⟩, fun j hj hjk => ?_, by unfold Picnic3.Inst.result at d ⊢; rw [← d, public_on (f := g) (g := f)]; rfl⟩
    obtain ⟨c1, c2⟩ := c j hj hjk
    refine ⟨?_, c2.trans (hcom t (hr t hC) j hj fun _ => hjk)⟩
    unfold Picnic3.Inst.Sends at c1 ⊢
    rw [← hsh t (hr t hC) j hj fun _ => hjk]
    refine ⟨c1.1, c1.2.1, fun r hr i hi => ?_⟩
    have := c1.2.2 r hr i hi
    rw [public_on (f := g) (g := f)]
    exact this
  · have := h4.leaf t ht hC
    exact this.trans (hash_same (agL _ (hh.msg t hC)) _)
  · have hm := h4.inner x hx ⟨t, ht, hC, k, hk⟩ hx1
    have hk1 : 1 ≤ k := by
      by_contra h0
      obtain rfl : k = 0 := by omega
      rw [pow_zero, Nat.div_one] at hk
      have : 2 ^ (on I f).depth = 2 ^ I.depth := rfl
      have : 2 ^ (on I g).depth = 2 ^ I.depth := rfl
      omega
    have hkD : k ≤ I.depth := by
      by_contra h0
      have hTle := hS.Tle
      have ht : t < I.T := ht
      have hlt : 2 ^ I.depth + t < 2 ^ k := lt_of_lt_of_le (show 2 ^ I.depth + t < 2 ^ (I.depth + 1) by rw [pow_succ]; omega) (Nat.pow_le_pow_right (by decide) (by omega))
      have : (2 ^ I.depth + t) / 2 ^ k = x := hk
      rw [Nat.div_eq_of_lt hlt] at this
      omega
    have hL := hh.node t hC k hk1 hkD
    have hk' : (2 ^ (on I f).depth + t) / 2 ^ k = x := hk
    rw [hk'] at hL
    exact Eq.trans hm (hash_same (agL _ hL) _)

theorem answerable_congr (hI : I.Is p) (ag37 : ∀ x : Bytes, x.length = I.seed + 37 → f x = g x) (ag36 : ∀ x : Bytes, x.length = I.seed + 36 → f x = g x)
    (agL : ∀ x ∈ L, f x = g x) (hs : salt.length = 32) {root : Bytes} {digests : ℕ → Bytes} {e : Fin I.T → Option (Fin 16)} (he : IsVector I.u e)
    (h : (on I f).Answerable ct pt salt root digests L e) : (on I g).Answerable ct pt salt root digests L e := by
  obtain ⟨τ, h1, h2, h3, h4, h5⟩ := h
  have hne : τ.C ≠ [] := by
    intro h0
    have hu := (sizes hI).u1
    unfold IsVector at he
    rw [Finset.filter_eq_empty_iff.2 fun t _ hs => by have := (h2 t).1.2 hs; simp [h0] at this, Finset.card_empty] at he
    omega
  exact ⟨τ, accepts_congr hI ag37 ag36 agL hs hne h1 h3, h2, ⟨h3.commit, h3.com, h3.msg, h3.node⟩, h4, fun t ht => (hash_same (agL _ (h3.com t ht)) _).symm.trans (h5 t ht)⟩

theorem reveals_congr (ag36 : ∀ x : Bytes, x.length = I.seed + 36 → f x = g x) (agL : ∀ x ∈ L, f x = g x) (hs : salt.length = 32) {digests : ℕ → Bytes}
    (h : (on I f).Reveals ct pt salt digests L) : (on I g).Reveals ct pt salt digests L := by
  obtain ⟨t, ht, v, w, κ, h1, h2, h3, h4, h5⟩ := h
  refine ⟨t, ht, v, w, κ, prepared_congr (fun j hj => share_congr ag36 hs (h4 j hj).1) h1, (hash_same (agL _ h3) _).symm.trans h2, h3, fun j hj => ?_, h5⟩
  obtain ⟨a, b, c⟩ := h4 j hj
  exact ⟨a, b.trans (hash_same (agL _ c) _), c⟩

end Picnic.Rom3
