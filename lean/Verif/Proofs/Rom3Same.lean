import Verif.Proofs.Binding3
import Verif.Proofs.Conf3Sig
import Verif.Proofs.Domains
import Verif.Spec.RomForge3

/-
C64: what a verifier of Picnic3 computes is determined by the signature and the hash function.
-/

namespace Picnic.Rom3

open Spec Spec.Tree Spec.Picnic1 Spec.Picnic3 Finset

variable {I : Picnic3.Inst} {f g : Bytes → ℕ → BitVec 8} {salt : Bytes} {t : ℕ}

/-- Picnic3 with another hash function. -/
abbrev on (I : Picnic3.Inst) (f : Bytes → ℕ → BitVec 8) : Picnic3.Inst := { I with xof := f }

theorem hash_same {x : Bytes} (h : f x = g x) (n : ℕ) : (on I f).hash x n = (on I g).hash x n := by
  unfold Picnic3.Inst.hash
  simp only [h]

/-! ### Seeds -/

theorem seedText_len {s : Bytes} (hs : salt.length = 32) (hl : s.length = I.seed) (a b : ℕ) : ([1] ++ s ++ salt ++ int16 a ++ int16 b).length = I.seed + 37 := by
  simp only [List.length_append, List.length_singleton, int16_len, hs, hl]
  omega

theorem child_same (ag : ∀ x : Bytes, x.length = I.seed + 37 → f x = g x) (hs : salt.length = 32) {rep : ℕ} {s s' : ℕ → Bytes} {x : ℕ} (hp : s (x / 2) = s' (x / 2))
    (hl : (s (x / 2)).length = I.seed) (c : (on I f).Child salt rep s x) (c' : (on I g).Child salt rep s' x) : s x = s' x := by
  rw [c, c', ← hp, hash_same (ag _ (seedText_len hs hl _ _))]

/-- The seeds below revealed ones. -/
theorem partial_down {D n rep : ℕ} {l : List ℕ} {s s' : ℕ → Bytes} (ag : ∀ x : Bytes, x.length = I.seed + 37 → f x = g x) (hs : salt.length = 32)
    (hD : 1 ≤ D) (hn1 : 1 ≤ n) (hn : n ≤ 2 ^ D) (hl : ∀ h ∈ l, h < n) (h : (on I f).PartialTree salt rep D n l s) (h' : (on I g).PartialTree salt rep D n l s')
    (he : ∀ x ∈ revealed D n l, s x = s' x) : ∀ k x, Node D n x → x / 2 ^ k ∈ revealed D n l → s x = s' x ∧ (s x).length = I.seed := by
  intro k
  induction k with
  | zero =>
    intro x _ hx
    rw [pow_zero, Nat.div_one] at hx
    exact ⟨he x hx, h.1 x hx⟩
  | succ k ih =>
    intro x hx hk
    have h2 := (revealed_facts hD hn1 hn hl hk).1
    have h2x : 2 ≤ x := h2.trans (Nat.div_le_self _ _)
    have hk' := hk
    rw [pow_succ', ← Nat.div_div_eq_div_mul] at hk'
    obtain ⟨e1, e2⟩ := ih (x / 2) (up_parent (leaf_atDepth hn) hx h2x) hk'
    have c := h.2 x hx ⟨k + 1, by omega, hk⟩
    exact ⟨child_same ag hs e1 e2 c (h'.2 x hx ⟨k + 1, by omega, hk⟩), child_length (I := on I f) c⟩

/-- The seeds of a whole tree. -/
theorem tree_down {D n rep : ℕ} {root root' : Bytes} {s s' : ℕ → Bytes} (ag : ∀ x : Bytes, x.length = I.seed + 37 → f x = g x) (hs : salt.length = 32)
    (hn : n ≤ 2 ^ D) (h : (on I f).SeedTree salt rep D n root s) (h' : (on I g).SeedTree salt rep D n root' s')
    (he : root = root') (hl : root.length = I.seed) : ∀ x, Node D n x → s x = s' x ∧ (s x).length = I.seed := by
  intro x
  induction x using Nat.strong_induction_on with
  | _ x ih =>
    intro hx
    have h1 := up_pos (leaf_atDepth hn) hx
    by_cases hx1 : x = 1
    · rw [hx1, h.1, h'.1]
      exact ⟨he, hl⟩
    · obtain ⟨e1, e2⟩ := ih (x / 2) (by omega) (up_parent (leaf_atDepth hn) hx (by omega))
      have c := h.2 x (by omega) hx
      exact ⟨child_same ag hs e1 e2 c (h'.2 x (by omega) hx), child_length (I := on I f) c⟩

/-! ### Tapes -/

theorem tapeText_len {s : Bytes} (hs : salt.length = 32) (hl : s.length = I.seed) (a b : ℕ) : (s ++ salt ++ int16 a ++ int16 b).length = I.seed + 36 := by
  simp only [List.length_append, int16_len, hs, hl]

theorem tape_same (ag : ∀ x : Bytes, x.length = I.seed + 36 → f x = g x) (hs : salt.length = 32) {v v' : Round} {j : ℕ} (he : v.seed j = v'.seed j)
    (hl : (v.seed j).length = I.seed) : (on I f).tape salt t j v = (on I g).tape salt t j v' := by
  unfold Picnic3.Inst.tape
  rw [← he, hash_same (ag _ (tapeText_len hs hl _ _))]
  rfl

theorem share_tape {v v' : Round} {j : ℕ} (h : (on I f).tape salt t j v = (on I g).tape salt t j v') (ha : j = 15 → v.aux = v'.aux) :
    (on I f).share salt t v j = (on I g).share salt t v' j := by
  funext p
  unfold Picnic3.Inst.share
  split_ifs with hc hc
  · rw [ha hc.1]
  · rw [h]

/-! ### Correction bits -/

theorem layer_inj {n : ℕ} (hn : n % 3 = 0) {x y z w : Bits} (hxy : ∀ i < n, x i = y i) (h : ∀ i < n, layer x z i = layer y w i) : ∀ i < n, z i = w i := by
  intro i hi
  obtain h0 | h1 | h2 : i % 3 = 0 ∨ i % 3 = 1 ∨ i % 3 = 2 := by omega
  · have := h i hi
    unfold layer at this
    rw [if_neg (by omega), if_neg (by omega), if_neg (by omega), if_neg (by omega), hxy (i + 2) (by omega), hxy (i + 1) (by omega), hxy i hi] at this
    exact add_left_cancel this
  · have := h (i + 1) (by omega)
    unfold layer at this
    rw [if_pos (by omega), if_pos (by omega), hxy (i + 1) (by omega), Nat.add_sub_cancel] at this
    exact add_left_cancel this
  · have := h (i - 1) (by omega)
    unfold layer at this
    rw [if_neg (show ¬ (i - 1) % 3 = 2 by omega), if_pos (show (i - 1) % 3 = 1 by omega), if_neg (show ¬ (i - 1) % 3 = 2 by omega), if_pos (show (i - 1) % 3 = 1 by omega), hxy (i - 1) (by omega), hxy (i - 1 + 1) (by omega), Nat.sub_add_cancel (by omega)] at this
    exact add_left_cancel this

theorem pad_ext {n : ℕ} {a b : Bytes} (ha : a.length = bytesFor n) (hb : b.length = bytesFor n) (pa : ZeroPad n a) (pb : ZeroPad n b)
    (h : ∀ i < n, toBits a i = toBits b i) : a = b := by
  simp only [toBits_eq] at h
  refine buf_ext (ha.trans hb.symm) fun i _ => ?_
  by_cases hi : i < n
  · exact h i hi
  · have qa := (padZero_iff_gates (P := default) (n := n) ha).1 pa i (by omega)
    have qb := (padZero_iff_gates (P := default) (n := n) hb).1 pb i (by omega)
    rw [qa, qb]

/-- Correct correction bits are determined by the tapes. -/
theorem aux_same (hreg : Spec.Rom.Regular I) (hn : I.X.n = 3 * I.X.m) {v v' : Round} {κ κ' : Bits} (h : (on I f).Prepared salt t v κ) (h' : (on I g).Prepared salt t v' κ')
    (hsh : ∀ j < 16, (on I f).tape salt t j v = (on I g).tape salt t j v') : v.aux = v'.aux := by
  obtain ⟨l1, p1, w, m⟩ := h
  obtain ⟨l2, p2, w', m'⟩ := h'
  set sh := (on I f).share salt t v with hsh1
  set sh' := (on I g).share salt t v' with hsh2
  have hn3 : I.X.n % 3 = 0 := by omega
  -- shares of masks are on the tapes
  have e1 : ∀ j < 16, ∀ r, ∀ i < I.X.n, sh j (2 * I.X.n * r + i) = sh' j (2 * I.X.n * r + i) := by
    intro j hj r i hi
    have hmod : (2 * I.X.n * r + i) % (2 * I.X.n) = i := by rw [Nat.mul_add_mod, Nat.mod_eq_of_lt (by omega)]
    rw [hsh1, hsh2]
    unfold Picnic3.Inst.share
    rw [if_neg (by rintro ⟨-, h⟩; dsimp only [on] at h; omega), if_neg (by rintro ⟨-, h⟩; dsimp only [on] at h; omega), hsh j hj]
  have e2 : ∀ j < 16, j ≠ 15 → ∀ p, sh j p = sh' j p := by
    intro j hj hj15 p
    rw [hsh1, hsh2]
    unfold Picnic3.Inst.share
    rw [if_neg (by tauto), if_neg (by tauto), hsh j hj]
  have e3 : ∀ r ≤ I.X.r, ∀ i < I.X.n, (on I f).mask sh r i = (on I g).mask sh' r i := by
    intro r hr i hi
    unfold Picnic3.Inst.mask
    split_ifs
    · rfl
    · exact sum_congr rfl fun j hj => e1 j (mem_range.1 hj) r i hi
  have e4 : ∀ i < I.X.n, κ i = κ' i := hreg.1 κ κ' fun i hi => by
    have a := m.key i hi
    have b := m'.key i hi
    exact a.trans ((e3 0 (Nat.zero_le _) i hi).trans b.symm)
  have e5 : ∀ r < I.X.r, ∀ i < I.X.n, w r i = w' r i := by
    intro r hr
    refine layer_inj hn3 (fun i hi => e3 r hr.le i hi) (hreg.2 r hr _ _ fun i hi => ?_)
    have a := m.round r hr i hi
    have b := m'.round r hr i hi
    have c := e3 (r + 1) hr i hi
    rw [← a, ← b] at c
    dsimp only [on] at c
    rw [mulVec_congr e4] at c
    exact add_right_cancel c
  have e6 : ∀ r < I.X.r, ∀ i < I.X.n, sh 15 (2 * I.X.n * r + I.X.n + i) = sh' 15 (2 * I.X.n * r + I.X.n + i) := by
    intro r hr i hi
    have a := m.gate r hr i hi
    have b := m'.gate r hr i hi
    obtain ⟨i1, i2⟩ := in_lt hn3 hi
    dsimp only [on] at a b
    have c : (on I f).mask sh r (in1 i) * (on I f).mask sh r (in2 i) + w r i = (on I g).mask sh' r (in1 i) * (on I g).mask sh' r (in2 i) + w' r i := by
      rw [e3 r hr.le _ i1, e3 r hr.le _ i2, e5 r hr i hi]
    have c' := a.trans (c.trans b.symm)
    rw [sum_range_succ _ 15, sum_range_succ _ 15, sum_congr rfl fun j hj => e2 j (by have := mem_range.1 hj; omega) (by have := mem_range.1 hj; omega) _] at c'
    exact add_left_cancel c'
  refine pad_ext l1 l2 p1 p2 fun q hq => ?_
  have hq' : q < I.X.n * I.X.r := by rw [hn]; exact hq
  have hn0 : 0 < I.X.n := by
    by_contra h0
    rw [show I.X.n = 0 by omega, Nat.zero_mul] at hq'
    omega
  have hr : q / I.X.n < I.X.r := Nat.div_lt_of_lt_mul hq'
  have hi : q % I.X.n < I.X.n := Nat.mod_lt _ hn0
  have := e6 _ hr _ hi
  rw [hsh1, hsh2] at this
  unfold Picnic3.Inst.share at this
  have hmod : (2 * I.X.n * (q / I.X.n) + I.X.n + q % I.X.n) % (2 * I.X.n) = I.X.n + q % I.X.n := by
    rw [Nat.add_assoc, Nat.mul_add_mod, Nat.mod_eq_of_lt (by omega)]
  have hdiv : (2 * I.X.n * (q / I.X.n) + I.X.n + q % I.X.n) / (2 * I.X.n) = q / I.X.n := by
    rw [Nat.add_assoc, Nat.mul_add_div (by omega), Nat.div_eq_of_lt (a := I.X.n + q % I.X.n) (by omega), Nat.add_zero]
  dsimp only [on] at this
  rw [hmod, hdiv, if_pos ⟨rfl, by omega⟩, if_pos ⟨rfl, by omega⟩, Nat.add_sub_cancel_left, Nat.div_add_mod] at this
  exact this

/-! ### Messages -/

theorem public_same (hn : I.X.n % 3 = 0) {pt key : Bits} {msg msg' : ℕ → Bits} (r : ℕ) (h : ∀ r' < r, ∀ j < 16, ∀ i < I.X.n, msg j (I.X.n * r' + i) = msg' j (I.X.n * r' + i)) :
    (on I f).public pt key msg r = (on I g).public pt key msg' r := by
  induction r with
  | zero => rfl
  | succ r ih =>
    have ih := ih fun r' hr' => h r' (by omega)
    rw [Picnic3.Inst.public, Picnic3.Inst.public, ih]
    dsimp only [on]
    rw [mulVec_congr fun i hi => layer_congr hn (x := (on I g).public pt key msg' r) (y := (on I g).public pt key msg' r) (fun _ _ => rfl) (fun i hi => by
      rw [sum_congr rfl fun j hj => h r (by omega) j (mem_range.1 hj) i hi]) hi]

/-- The messages are determined by the shares of the opened parties, the masked key and the messages of the other party. -/
theorem msgs_same (hn : I.X.n = 3 * I.X.m) {pt : Bytes} {v v' : Round} {sh sh' : ℕ → Bits} {k : ℕ} (hk : v.key = v'.key) (hm : v.msgs k = v'.msgs k)
    (hs : ∀ j < 16, j ≠ k → (on I f).Sends pt sh v j ∧ (on I g).Sends pt sh' v' j ∧ sh j = sh' j) : ∀ j < 16, v.msgs j = v'.msgs j := by
  have hn3 : I.X.n % 3 = 0 := by omega
  have key : ∀ r ≤ I.X.r, ∀ r' < r, ∀ j < 16, ∀ i < I.X.n, toBits (v.msgs j) (I.X.n * r' + i) = toBits (v'.msgs j) (I.X.n * r' + i) := by
    intro r
    induction r with
    | zero => intro _ r' hr'; omega
    | succ r ih =>
      intro hr r' hr' j hj i hi
      by_cases hlt : r' < r
      · exact ih (by omega) r' hlt j hj i hi
      obtain rfl : r' = r := by omega
      by_cases hjk : j = k
      · rw [hjk, hm]
      obtain ⟨s1, s2, s3⟩ := hs j hj hjk
      have a := s1.2.2 r' hr i hi
      have b := s2.2.2 r' hr i hi
      have e := public_same (f := f) (g := g) hn3 (pt := toBits pt) (key := toBits v.key) (msg := fun j => toBits (v.msgs j)) (msg' := fun j => toBits (v'.msgs j)) r' (ih (by omega))
      dsimp only [on] at a b e
      rw [a, b, e, hk, s3]
  intro j hj
  by_cases hjk : j = k
  · rw [hjk, hm]
  obtain ⟨s1, s2, -⟩ := hs j hj hjk
  refine pad_ext s1.1 s2.1 s1.2.1 s2.2.1 fun q hq => ?_
  have hq' : q < I.X.n * I.X.r := by rw [hn]; exact hq
  have hn0 : 0 < I.X.n := by
    by_contra h0
    rw [show I.X.n = 0 by omega, Nat.zero_mul] at hq'
    omega
  have := key I.X.r le_rfl (q / I.X.n) (Nat.div_lt_of_lt_mul hq') j hj (q % I.X.n) (Nat.mod_lt _ hn0)
  rwa [Nat.div_add_mod] at this

/-! ### Merkle tree -/

theorem opened_top {D n : ℕ} {l : List ℕ} (h2 : 2 ≤ n) (hn : n ≤ 2 ^ D) (hl : ∀ h ∈ l, h < n) (hne : ∃ y, Present D n l y) {x : ℕ} (hx : 1 ≤ x) :
    x ∈ opened D n l ↔ Top D n (Present D n l) x := by
  have h := (mrevN_spec h2 hn hl hne).2.2 (x - 1)
  rw [Nat.sub_add_cancel hx] at h
  rw [← h, mrevN_eq h2 hn hl hne]
  constructor
  · exact fun h => List.mem_map_of_mem h
  · intro h
    obtain ⟨y, hy, e⟩ := List.mem_map.1 h
    have := opened_pos hn hl hne hy
    rwa [show x = y by omega]

/-- The nodes of the Merkle tree after number `B`. -/
theorem merkle_same {v v' : ℕ → Round} {C : List ℕ} {h h' : ℕ → Bytes} (h2 : 2 ≤ I.T) (hC : ∀ t ∈ C, t < I.T) (hne : C ≠ []) (B : ℕ)
    (ag : ∀ (h : ℕ → Bytes) (x : ℕ), B < x → x < 2 ^ I.depth → (h (2 * x)).length = I.digest → (2 * x + 1 < 2 ^ I.depth + I.T → (h (2 * x + 1)).length = I.digest) →
      f (I.nodeString salt h x) = g (I.nodeString salt h x))
    (m : (on I f).Merkle salt v (· ∈ C) h) (m' : (on I g).Merkle salt v' (· ∈ C) h') (ho : ∀ x ∈ opened I.depth I.T (closed I.T C), h x = h' x ∧ (h x).length = I.digest)
    (hv : ∀ t ∈ C, h (2 ^ I.depth + t) = h' (2 ^ I.depth + t)) :
    ∀ x, B ≤ x → 1 ≤ x → x < 2 ^ I.depth → Up I.depth (Present I.depth I.T (closed I.T C)) x → (h (2 * x) = h' (2 * x) ∧ (h (2 * x)).length = I.digest) ∧
      (2 * x + 1 < 2 ^ I.depth + I.T → h (2 * x + 1) = h' (2 * x + 1) ∧ (h (2 * x + 1)).length = I.digest) := by
  have hn : I.T ≤ 2 ^ I.depth := Nat.le_pow_clog (by decide) _
  set D := I.depth with hDdef
  set S := Present D I.T (closed I.T C) with hS
  have hcl : ∀ t < I.T, t ∈ C ↔ t ∉ closed I.T C := fun t ht => by simp [closed, ht]
  have hSd : AtDepth D S := present_atDepth hn
  have hlt : ∀ t ∈ closed I.T C, t < I.T := fun t ht => by simpa using (List.mem_filter.1 ht).1
  have hpr : ∃ y, S y := by
    obtain ⟨t, l, rfl⟩ := List.exists_cons_of_ne_nil hne
    have ht := hC t (by simp)
    refine ⟨2 ^ D + t, ⟨by omega, by omega⟩, fun ⟨q, hq, e⟩ => ?_⟩
    obtain rfl : t = q := by omega
    exact (hcl t ht).1 (by simp) hq
  intro x
  induction hk : 2 ^ (D + 1) - x using Nat.strong_induction_on generalizing x with
  | _ k ih =>
    intro hB hx1 hxD hu
    have child : ∀ y, y / 2 = x → y < 2 ^ D + I.T → h y = h' y ∧ (h y).length = I.digest := by
      intro y hy hyT
      by_cases hyu : Up D S y
      · by_cases hyD : y < 2 ^ D
        · have hpath := (up_spec hn hcl (by omega)).2 hyu
          have n1 : h y = (on I f).hash (I.nodeString salt h y) I.digest := m.inner y hyD hpath (by omega)
          have n2 : h' y = (on I g).hash (I.nodeString salt h' y) I.digest := m'.inner y hyD hpath (by omega)
          refine ⟨?_, by rw [n1]; exact hash_length _ _⟩
          obtain ⟨⟨c1, c2⟩, c3⟩ := ih (2 ^ (D + 1) - y) (by rw [pow_succ] at hk ⊢; omega) y rfl (by omega) (by omega) hyD hyu
          rw [n1, n2, hash_same (ag h y (by omega) hyD c2 fun hy' => (c3 hy').2)]
          congr 1
          unfold Picnic3.Inst.nodeString
          rw [c1]
          split_ifs with h3
          · rw [(c3 h3).1]
          · rfl
        · have hl := (up_leaf hSd (by omega)).1 hyu
          have e : 2 ^ D + (y - 2 ^ D) = y := by omega
          have hyC : y - 2 ^ D ∈ C := (hcl _ (by omega)).2 fun hc => hl.2 ⟨_, hc, e.symm⟩
          have := hv _ hyC
          rw [e] at this
          refine ⟨this, ?_⟩
          have h3 := m.leaf _ (by change y - 2 ^ D < I.T; omega) hyC
          change h (2 ^ D + (y - 2 ^ D)) = _ at h3
          rw [e] at h3
          rw [h3]
          exact hash_length _ _
      · by_cases hyN : Node D I.T y
        · exact ho y ((opened_top h2 hn hlt hpr (by omega)).2 ⟨hyN, by omega, hyu, by rw [hy]; exact hu⟩)
        · have hyD : y < 2 ^ D := by
            by_contra hge
            exact hyN (up_self ⟨by omega, hyT⟩)
          have a := m.absent y hyD hyN
          have b := m'.absent y hyD hyN
          rw [a, b]
          exact ⟨rfl, List.length_replicate⟩
    have hexl := node_child hn (up_mono (fun y h => h.1) hu) hxD
    exact ⟨child (2 * x) (by omega) (node_lt hexl), fun h => child (2 * x + 1) (by omega) h⟩

end Picnic.Rom3
