import Verif.Proofs.Distribution2
import Verif.Props.P3Example

/-
How many sequences of digests do not determine a challenge.
-/

namespace Picnic

open Spec Spec.Challenge Finset

/-! ### ZKB++ -/

theorem trits_nil {k : ℕ} {d : Digest k} (h : trits (bytes d) = []) : d = fun _ => ⟨255, by decide⟩ := by
  funext i
  have hm : BitVec.ofFin (d i) ∈ bytes d := by
    rw [bytes, List.mem_ofFn']
    exact ⟨i, rfl⟩
  rw [trits, List.filter_eq_nil_iff] at h
  have hp : ∀ x ∈ pairs (BitVec.ofFin (d i)), ¬ x < 3 := fun x hx => by
    have := h x (List.mem_flatMap.2 ⟨_, hm, hx⟩)
    simpa using this
  simp only [pairs, List.mem_cons, List.not_mem_nil, or_false, forall_eq_or_imp, forall_eq, BitVec.toNat_ofFin] at hp
  apply Fin.ext
  have := (d i).2
  simp only
  omega

/-- Digests in blocks. -/
def blocks {A : Type} {q M : ℕ} (ω : Fin q → Fin M → A) : List A := (List.ofFn fun i => List.ofFn (ω i)).flatten

theorem card_blocks_le {A : Type} [Fintype A] {q M : ℕ} {p : List A → Prop} [DecidablePred p] {X Y : ℕ}
    (h : (univ.filter fun ω : Fin q → Fin M → A => p (blocks ω)).card * X ≤ Y * Fintype.card (Fin q → Fin M → A)) :
    (univ.filter fun D : Fin (q * M) → A => p (List.ofFn D)).card * X ≤ Y * Fintype.card (Fin (q * M) → A) := by
  let e : (Fin (q * M) → A) ≃ (Fin q → Fin M → A) := ((finProdFinEquiv.arrowCongr (Equiv.refl A)).symm).trans (Equiv.curry _ _ _)
  have he : ∀ D, blocks (e D) = List.ofFn D := fun D => by
    rw [List.ofFn_mul, blocks]
    congr 2
    funext i
    congr 1
    funext j
    simp only [e, Equiv.trans_apply, Equiv.curry_apply, Function.curry_apply, Equiv.arrowCongr, Equiv.coe_fn_symm_mk, Function.comp_apply]
    change D (finProdFinEquiv (i, j)) = _
    congr 1
    apply Fin.ext
    simp [finProdFinEquiv]
    ring
  rw [Fintype.card_congr e]
  have : (univ.filter fun D : Fin (q * M) → A => p (List.ofFn D)).card = (univ.filter fun ω : Fin q → Fin M → A => p (blocks ω)).card := by
    refine card_bij (fun D _ => e D) ?_ ?_ ?_
    · intro D hD
      rw [mem_filter] at hD ⊢
      rw [he]
      exact ⟨mem_univ _, hD.2⟩
    · intro D _ D' _ h
      exact e.injective h
    · intro ω hω
      rw [mem_filter] at hω
      refine ⟨e.symm ω, ?_, e.apply_symm_apply ω⟩
      rw [mem_filter, ← he, e.apply_symm_apply]
      exact ⟨mem_univ _, hω.2⟩
  rw [this]
  exact h

theorem blocks_flatMap {A B : Type} {q M : ℕ} (ω : Fin q → Fin M → A) (g : A → List B) :
    (blocks ω).flatMap g = (List.ofFn fun i => (List.ofFn (ω i)).flatMap g).flatten := by
  rw [blocks, List.flatMap_def, List.map_flatten, List.flatten_flatten, List.map_map, List.map_ofFn]
  simp only [Function.comp_def, List.flatMap_def]

theorem flatten_length_ge {B : Type} : ∀ {q : ℕ} (f : Fin q → List B), (∀ i, f i ≠ []) → q ≤ (List.ofFn f).flatten.length
  | 0, _, _ => Nat.zero_le _
  | q + 1, f, h => by
    rw [List.ofFn_succ, List.flatten_cons, List.length_append]
    have := flatten_length_ge (fun i => f i.succ) fun i => h _
    have := List.length_pos_iff.2 (h 0)
    omega

open Classical in
theorem zkb_stuck (T k M : ℕ) : (univ.filter fun D : Fin (T * M) → Digest k => ¬ ∃ l, Reads T (texts D) l).card * 2 ^ (8 * k * M) ≤
    T * Fintype.card (Fin (T * M) → Digest k) := by
  simp only [texts_eq]
  refine card_blocks_le (p := fun L => ¬ ∃ l, Reads T (L.map bytes) l) ?_
  refine le_trans (Nat.mul_le_mul_right _ (card_le_card ?_)) (card_some_le (fun _ _ a => (List.ofFn a).flatMap (fun d => trits (bytes d)) = [])
    (fun _ _ _ _ _ => Iff.rfl) fun _ _ => ?_)
  · intro ω hω
    rw [mem_filter] at hω ⊢
    refine ⟨mem_univ _, ?_⟩
    by_contra hne
    push Not at hne
    refine hω.2 ⟨_, ?_, rfl⟩
    rw [List.flatMap_map, blocks_flatMap]
    exact flatten_length_ge _ hne
  · have h1 : (univ.filter fun a : Fin M → Digest k => (List.ofFn a).flatMap (fun d => trits (bytes d)) = []).card ≤ 1 := by
      rw [card_le_one]
      intro a ha b hb
      have key : ∀ a : Fin M → Digest k, (List.ofFn a).flatMap (fun d => trits (bytes d)) = [] → ∀ j, a j = fun _ => ⟨255, by decide⟩ := fun a h j => by
        rw [List.flatMap_eq_nil_iff] at h
        exact trits_nil (h _ (by rw [List.mem_ofFn']; exact ⟨j, rfl⟩))
      funext j
      rw [key a (mem_filter.1 ha).2, key b (mem_filter.1 hb).2]
    refine (Nat.mul_le_mul_right _ h1).trans (le_of_eq ?_)
    simp only [Fintype.card_fun, Fintype.card_fin]
    rw [one_mul, ← pow_mul, ← pow_mul, mul_assoc]

/-! ### Picnic3 -/

/-- The numbers below `T` in a block of digests. -/
def nums (b T : ℕ) {k M : ℕ} (a : Fin M → Digest k) : Finset ℕ := (numbers b T ((List.ofFn a).map bytes)).toFinset

/-- The numbers in the blocks before block `i`. -/
def seen (b T : ℕ) {k q M : ℕ} (ω : Fin q → Fin M → Digest k) (i : ℕ) : Finset ℕ := (univ.filter fun j : Fin q => j.1 < i).biUnion fun j => nums b T (ω j)

theorem mem_numbers {b N : ℕ} {L : List Bytes} {x : ℕ} : x ∈ numbers b N L ↔ (∃ d ∈ L, x ∈ chunks b d) ∧ x < N := by
  simp only [numbers, List.mem_flatMap, List.mem_filter, decide_eq_true_eq]
  constructor
  · rintro ⟨d, h1, h2, h3⟩; exact ⟨⟨d, h1, h2⟩, h3⟩
  · rintro ⟨⟨d, h1, h2⟩, h3⟩; exact ⟨d, h1, h2, h3⟩

theorem seen_succ {b T k q M : ℕ} (ω : Fin q → Fin M → Digest k) (i : Fin q) : seen b T ω (i.1 + 1) = nums b T (ω i) ∪ seen b T ω i := by
  ext x
  simp only [seen, mem_biUnion, mem_filter, mem_univ, true_and, mem_union]
  constructor
  · rintro ⟨j, h1, h2⟩
    by_cases hj : j = i
    · subst hj; exact Or.inl h2
    · have : j.1 ≠ i.1 := fun h => hj (Fin.ext h)
      exact Or.inr ⟨j, by omega, h2⟩
  · rintro (h | ⟨j, h1, h2⟩)
    · exact ⟨i, by omega, h⟩
    · exact ⟨j, by omega, h2⟩

theorem seen_lt {b T k q M : ℕ} (ω : Fin q → Fin M → Digest k) (i : ℕ) : ∀ x ∈ seen b T ω i, x < T := by
  intro x hx
  simp only [seen, mem_biUnion, nums, List.mem_toFinset, mem_numbers] at hx
  obtain ⟨_, _, _, h⟩ := hx
  exact h

theorem seen_grows {b T u k q M : ℕ} (ω : Fin q → Fin M → Digest k) (h : ∀ i : Fin q, ¬ ((seen b T ω i).card < u ∧ nums b T (ω i) ⊆ seen b T ω i)) :
    ∀ i ≤ q, i ≤ u → i ≤ (seen b T ω i).card
  | 0, _, _ => Nat.zero_le _
  | i + 1, hq, hu => by
    have ih := seen_grows ω h i (by omega) (by omega)
    have h1 := seen_succ (b := b) (T := T) ω ⟨i, by omega⟩
    have h2 := h ⟨i, by omega⟩
    simp only at h1 h2
    rw [h1]
    by_cases hc : (seen b T ω i).card < u
    · obtain ⟨x, hx, hx'⟩ := not_subset.1 fun hs => h2 ⟨hc, hs⟩
      have : insert x (seen b T ω i) ⊆ nums b T (ω ⟨i, by omega⟩) ∪ seen b T ω i :=
        insert_subset (mem_union_left _ hx) subset_union_right
      have := card_le_card this
      rw [card_insert_of_notMem hx'] at this
      omega
    · have := card_le_card (subset_union_right : seen b T ω i ⊆ nums b T (ω ⟨i, by omega⟩) ∪ seen b T ω i)
      omega

theorem card_digest_le {k b : ℕ} (hb : 0 < b) (G : ℕ → Prop) [DecidablePred G] [DecidablePred fun d : Digest k => ∀ x ∈ chunks b (bytes d), G x] {X Y : ℕ}
    (hX : ((range (2 ^ b)).filter G).card ≤ Y) (hY : Y ^ (k * 8 / b) * X ≤ 2 ^ (b * (k * 8 / b))) :
    (univ.filter fun d : Digest k => ∀ x ∈ chunks b (bytes d), G x).card * X ≤ Fintype.card (Digest k) := by
  obtain ⟨e, he⟩ := chunk_equiv (k := k) hb
  have h1 : (univ.filter fun d : Digest k => ∀ x ∈ chunks b (bytes d), G x).card ≤
      (Fintype.piFinset (fun _ : Fin (k * 8 / b) => (univ.filter fun v : Fin (2 ^ b) => G v.1)) ×ˢ (univ : Finset (Fin (8 * k - k * 8 / b * b) → Fin 2))).card := by
    refine card_le_card_of_injOn e (fun d hd => ?_) (e.injective.injOn)
    rw [mem_coe, mem_filter, he] at hd
    rw [mem_coe, mem_product, Fintype.mem_piFinset]
    refine ⟨fun i => ?_, mem_univ _⟩
    rw [mem_filter]
    exact ⟨mem_univ _, hd.2 _ (by rw [List.mem_ofFn']; exact ⟨i, rfl⟩)⟩
  have h2 : (univ.filter fun v : Fin (2 ^ b) => G v.1).card ≤ Y := by
    refine le_trans (card_le_card_of_injOn (fun v : Fin (2 ^ b) => v.1) (fun v hv => ?_) (Fin.val_injective.injOn)) hX
    rw [mem_coe, mem_filter] at hv
    rw [mem_coe, mem_filter, mem_range]
    exact ⟨v.2, hv.2⟩
  rw [card_product, Fintype.card_piFinset, prod_const, card_univ, Fintype.card_fin, card_univ] at h1
  calc _ ≤ Y ^ (k * 8 / b) * Fintype.card (Fin (8 * k - k * 8 / b * b) → Fin 2) * X :=
        Nat.mul_le_mul_right _ (h1.trans (Nat.mul_le_mul_right _ (Nat.pow_le_pow_left h2 _)))
    _ = Y ^ (k * 8 / b) * X * Fintype.card (Fin (8 * k - k * 8 / b * b) → Fin 2) := by ring
    _ ≤ 2 ^ (b * (k * 8 / b)) * Fintype.card (Fin (8 * k - k * 8 / b * b) → Fin 2) := Nat.mul_le_mul_right _ hY
    _ = Fintype.card (Digest k) := by
      rw [Fintype.card_congr e, Fintype.card_prod, pow_mul]
      simp only [Fintype.card_fun, Fintype.card_fin]

open Classical in
theorem p3_stuck {T u k M b : ℕ} (hC : ∀ j, b ≤ j ↔ T ≤ 2 ^ j) (hb : 0 < b) (hu : u ≤ 2 * k) (hM : 0 < M) {X : ℕ}
    (hY : (2 ^ b - T + u) ^ (k * 8 / b) * X ≤ 2 ^ (b * (k * 8 / b))) :
    (univ.filter fun D : Fin ((u + 1) * M) → Digest k => ¬ ∃ C Q, Reads3 T 16 u (texts D) C Q).card * X ^ M ≤
      (u + 1) * Fintype.card (Fin ((u + 1) * M) → Digest k) := by
  simp only [texts_eq]
  refine card_blocks_le (p := fun L => ¬ ∃ C Q, Reads3 T 16 u (L.map bytes) C Q) ?_
  refine le_trans (Nat.mul_le_mul_right _ (card_le_card ?_)) (card_some_le (fun i ω a => (seen b T ω i).card < u ∧ nums b T a ⊆ seen b T ω i)
    (fun i ω ω' h a => ?_) fun i ω => ?_)
  · intro ω hω
    rw [mem_filter] at hω ⊢
    refine ⟨mem_univ _, ?_⟩
    by_contra hne
    push Not at hne
    refine hω.2 ?_
    have hs := seen_grows (u := u) ω (fun i hi => hne i hi.1 hi.2) u (by omega) le_rfl
    let L1 := blocks fun i : Fin u => ω i.castSucc
    let L2 := List.ofFn (ω (Fin.last u))
    have hL : (blocks ω).map bytes = L1.map bytes ++ L2.map bytes := by
      rw [blocks, List.ofFn_succ', List.concat_eq_append, List.flatten_append, List.map_append]
      simp [L1, L2, blocks]
    have h1 : ∃ n, n ≤ (L1.map bytes).length ∧ u ≤ (firsts (numbers b T (((blocks ω).map bytes).take n))).length := by
      refine ⟨_, le_rfl, ?_⟩
      rw [hL, List.take_left, firsts_length]
      refine hs.trans (card_le_card fun x hx => ?_)
      simp only [seen, mem_biUnion, mem_filter, mem_univ, true_and, nums, List.mem_toFinset, mem_numbers] at hx ⊢
      obtain ⟨j, hj, ⟨d, hd, hx⟩, hxT⟩ := hx
      refine ⟨⟨d, ?_, hx⟩, hxT⟩
      rw [List.mem_map] at hd ⊢
      obtain ⟨d', hd', rfl⟩ := hd
      refine ⟨d', ?_, rfl⟩
      simp only [L1, blocks, List.mem_flatten, List.mem_ofFn']
      exact ⟨_, ⟨⟨j.1, hj⟩, rfl⟩, hd'⟩
    have hn := (Nat.find_spec h1)
    refine ⟨_, _, b, 4, Nat.find h1, hC, fun j => ?_, hn.2, fun k' hk' => ?_, rfl, ?_, rfl⟩
    · rw [show 16 = 2 ^ 4 from rfl, Nat.pow_le_pow_iff_right (by decide)]
    · have := Nat.find_min h1 hk'
      have := hn.1
      by_contra hc
      exact Nat.find_min h1 hk' ⟨by omega, by omega⟩
    · have hle := hn.1
      generalize Nat.find h1 = n0 at hle
      rw [hL, List.drop_append_of_le_length hle]
      obtain ⟨m, rfl⟩ : ∃ m, M = m + 1 := ⟨M - 1, by omega⟩
      have : (chunks 4 (bytes (ω (Fin.last u) 0))).filter (· < 16) = chunks 4 (bytes (ω (Fin.last u) 0)) := by
        rw [List.filter_eq_self]
        intro x hx
        simp only [chunks, List.mem_map] at hx
        obtain ⟨i, _, rfl⟩ := hx
        have : chunk 4 (bytes (ω (Fin.last u) 0)) i < 2 ^ 4 := sum_bits_lt fun _ _ => bit_two _ _
        simpa using this
      simp only [numbers, L2, List.ofFn_succ, List.map_cons, List.flatMap_append, List.flatMap_cons, List.length_append, this]
      have : (chunks 4 (bytes (ω (Fin.last u) 0))).length = 2 * k := by
        simp [chunks, bytes_length]
        omega
      omega
  · have : seen b T ω i = seen b T ω' i := by
      unfold seen
      refine biUnion_congr rfl fun j hj => ?_
      rw [h j (mem_filter.1 hj).2]
    rw [this]
  · by_cases hc : (seen b T ω i).card < u
    swap
    · rw [filter_false_of_mem fun a _ h => hc h.1]
      simp
    let S := seen b T ω i
    have key := card_digest_le (k := k) hb (fun x => x < T → x ∈ S) (X := X) (Y := 2 ^ b - T + u) (by
      have : (range (2 ^ b)).filter (fun x => x < T → x ∈ S) ⊆ Ico T (2 ^ b) ∪ S := fun x hx => by
        rw [mem_filter, mem_range] at hx
        rw [mem_union, mem_Ico]
        by_cases hx' : x < T
        · exact Or.inr (hx.2 hx')
        · exact Or.inl ⟨by omega, hx.1⟩
      refine (card_le_card this).trans ((card_union_le _ _).trans ?_)
      rw [Nat.card_Ico]
      exact Nat.add_le_add_left hc.le _) hY
    have h1 : (univ.filter fun a : Fin M → Digest k => (seen b T ω i).card < u ∧ nums b T a ⊆ seen b T ω i) ⊆
        Fintype.piFinset fun _ : Fin M => univ.filter fun d : Digest k => ∀ x ∈ chunks b (bytes d), x < T → x ∈ S := by
      intro a ha
      rw [mem_filter] at ha
      rw [Fintype.mem_piFinset]
      intro j
      rw [mem_filter]
      refine ⟨mem_univ _, fun x hx hxT => ha.2.2 ?_⟩
      rw [nums, List.mem_toFinset, mem_numbers]
      exact ⟨⟨_, List.mem_map_of_mem ((List.mem_ofFn' _ _).2 ⟨j, rfl⟩), hx⟩, hxT⟩
    have h2 := card_le_card h1
    rw [Fintype.card_piFinset, prod_const, card_univ, Fintype.card_fin] at h2
    refine (Nat.mul_le_mul_right _ h2).trans ?_
    rw [← Nat.mul_pow, Fintype.card_fun, Fintype.card_fin]
    exact Nat.pow_le_pow_left key _

end Picnic
