import Verif.Proofs.Distribution
import Verif.Proofs.Forger
import Verif.Proofs.P3Challenge
import Mathlib.Logic.Equiv.Basic

/-
Counting the sequences of digests with a given challenge.
-/

namespace Picnic

open Spec Spec.Challenge

/-- Permuting what is read off a list, by an injective map that keeps the length. -/
theorem equi_list {A : Type} {N : ℕ} {r : A → List ℕ} (hr : Equi N r) (σ : ℕ → Equiv.Perm ℕ) (hσ : Below N σ) :
    ∃ Φ : List A → List A, Function.Injective Φ ∧ (∀ L, (Φ L).length = L.length) ∧ ∀ L, (Φ L).flatMap r = (L.flatMap r).mapIdx fun i x => σ i x := by
  have := fun k => hr (fun i => σ (i + k)) (below_shift hσ k)
  choose φ h1 h2 using this
  let Ψ : List A → ℕ → List A := fun L => L.rec (fun _ => []) fun a _ f k => φ k a :: f (k + (r a).length)
  have hnil : ∀ k, Ψ [] k = [] := fun _ => rfl
  have hcons : ∀ a L k, Ψ (a :: L) k = φ k a :: Ψ L (k + (r a).length) := fun _ _ _ => rfl
  clear_value Ψ
  have hlen : ∀ L k, (Ψ L k).length = L.length := fun L => by
    induction L with
    | nil => intro k; rw [hnil]
    | cons a L ih => intro k; rw [hcons, List.length_cons, List.length_cons, ih]
  have hinj : ∀ L L' k, Ψ L k = Ψ L' k → L = L' := fun L => by
    induction L with
    | nil =>
      intro L' k h
      have := congrArg List.length h
      rw [hlen, hlen] at this
      exact (List.length_eq_zero_iff.1 this.symm).symm
    | cons a L ih =>
      intro L' k h
      cases L' with
      | nil => have := congrArg List.length h; rw [hlen, hlen] at this; simp at this
      | cons a' L' =>
        rw [hcons, hcons, List.cons.injEq] at h
        obtain rfl := h1 k h.1
        rw [ih _ _ h.2]
  refine ⟨fun L => Ψ L 0, fun L L' h => hinj _ _ _ h, fun L => hlen L 0, fun L => ?_⟩
  have : ∀ L k, (Ψ L k).flatMap r = (L.flatMap r).mapIdx fun i x => σ (i + k) x := fun L => by
    induction L with
    | nil => intro k; rw [hnil]; rfl
    | cons a L ih =>
      intro k
      rw [hcons, List.flatMap_cons, List.flatMap_cons, ih, h2, List.mapIdx_append]
      congr 2
      funext i x
      rw [Nat.add_assoc, Nat.add_comm k]
  exact this L 0

open Classical in
/-- Comparing numbers of sequences by a map of lists. -/
theorem card_map_le {A : Type} [Fintype A] {N : ℕ} {p p' : List A → Prop} (Φ : List A → List A) (h1 : ∀ L L', p L → p L' → Φ L = Φ L' → L = L')
    (h2 : ∀ L, p L → (Φ L).length = L.length) (h3 : ∀ L, p L → p' (Φ L)) :
    (Finset.univ.filter fun D : Fin N → A => p (List.ofFn D)).card ≤ (Finset.univ.filter fun D : Fin N → A => p' (List.ofFn D)).card := by
  by_cases hA : Nonempty A
  swap
  · rw [not_nonempty_iff] at hA
    by_cases hN : N = 0
    · subst hN
      refine Finset.card_le_card fun D hD => ?_
      rw [Finset.mem_filter, List.ofFn_zero] at hD ⊢
      have := h3 _ hD.2
      have e : Φ [] = [] := List.length_eq_zero_iff.1 (by rw [h2 _ hD.2]; rfl)
      rw [e] at this
      exact ⟨Finset.mem_univ _, this⟩
    · have : IsEmpty (Fin N → A) := ⟨fun D => hA.elim (D ⟨0, by omega⟩)⟩
      rw [Finset.univ_eq_empty]
      simp
  obtain ⟨a0⟩ := hA
  let f : (Fin N → A) → Fin N → A := fun D i => (Φ (List.ofFn D)).getD i a0
  have hf : ∀ D, p (List.ofFn D) → List.ofFn (f D) = Φ (List.ofFn D) := fun D hp => by
    have hl : (Φ (List.ofFn D)).length = N := by rw [h2 _ hp, List.length_ofFn]
    refine List.ext_getElem (by rw [List.length_ofFn, hl]) fun i hi hi' => ?_
    rw [List.getElem_ofFn, ← List.getD_eq_getElem (d := a0)]
  refine Finset.card_le_card_of_injOn f (fun D hD => ?_) fun D hD D' hD' h => ?_
  · have hp := (Finset.mem_filter.1 hD).2
    refine Finset.mem_filter.2 ⟨Finset.mem_univ _, ?_⟩
    rw [hf D hp]
    exact h3 _ hp
  · have hp := (Finset.mem_filter.1 hD).2
    have hp' := (Finset.mem_filter.1 hD').2
    refine List.ofFn_injective (h1 _ _ hp hp' ?_)
    rw [← hf D hp, ← hf D' hp', h]

theorem swap_below {N a b : ℕ} (ha : a < N) (hb : b < N) (x : ℕ) : Equiv.swap a b x < N ↔ x < N := by
  rw [Equiv.swap_apply_def]
  split_ifs with h1 h2
  · subst h1; exact iff_of_true hb ha
  · subst h2; exact iff_of_true ha hb
  · rfl

theorem mapIdx_swap {l l' : List ℕ} (h : l.length = l'.length) : (l.mapIdx fun i x => Equiv.swap (l.getD i 0) (l'.getD i 0) x) = l' := by
  refine List.ext_getElem (by simpa using h) fun i h1 h2 => ?_
  have hi : i < l.length := by simpa using h1
  rw [List.getElem_mapIdx, List.getD_eq_getElem _ _ hi, List.getD_eq_getElem _ _ h2, Equiv.swap_apply_left]

theorem getD_below {N : ℕ} (hN : 0 < N) {l : List ℕ} (h : ∀ x ∈ l, x < N) (i : ℕ) : l.getD i 0 < N := by
  by_cases hi : i < l.length
  · rw [List.getD_eq_getElem _ _ hi]; exact h _ (List.getElem_mem _)
  · rw [List.getD_eq_default _ _ (by omega)]; exact hN

theorem texts_eq {k N : ℕ} (D : Fin N → Digest k) : texts D = (List.ofFn D).map bytes := by
  rw [texts, List.map_ofFn]; rfl

theorem mapIdx_take {α β : Type} (f : ℕ → α → β) (l : List α) (n : ℕ) : (l.mapIdx f).take n = (l.take n).mapIdx f := by
  refine List.ext_getElem (by simp) fun i h1 h2 => ?_
  simp

open Classical in
theorem reads_le {T k N : ℕ} {l l' : List ℕ} (hl : l.length = T) (hl' : l'.length = T) (h3 : ∀ x ∈ l, x < 3) (h3' : ∀ x ∈ l', x < 3) :
    (Finset.univ.filter fun D : Fin N → Digest k => Reads T (texts D) l).card ≤ (Finset.univ.filter fun D : Fin N → Digest k => Reads T (texts D) l').card := by
  obtain ⟨Φ, p1, p2, p3⟩ := equi_list (equi_trits (k := k)) (fun i => Equiv.swap (l.getD i 0) (l'.getD i 0))
    fun i x => swap_below (getD_below (by decide) h3 i) (getD_below (by decide) h3' i) x
  simp only [texts_eq]
  refine card_map_le (p := fun L => Reads T (L.map bytes) l) (p' := fun L => Reads T (L.map bytes) l') Φ (fun L L' _ _ h => p1 h) (fun L _ => p2 L) ?_
  rintro L ⟨h1, h2⟩
  rw [Reads]
  rw [List.flatMap_map] at h1 h2 ⊢
  rw [p3, List.length_mapIdx, mapIdx_take, ← h2, mapIdx_swap (hl.trans hl'.symm)]
  exact ⟨h1, rfl⟩

/-! ### Picnic3 -/

theorem foldl_firsts_map {π : Equiv.Perm ℕ} (l : List ℕ) : ∀ acc : List ℕ,
    (l.map π).foldl (fun acc x => if x ∈ acc then acc else acc ++ [x]) (acc.map π) =
      (l.foldl (fun acc x => if x ∈ acc then acc else acc ++ [x]) acc).map π := by
  induction l with
  | nil => intro acc; rfl
  | cons a l ih =>
    intro acc
    rw [List.map_cons, List.foldl_cons, List.foldl_cons]
    by_cases h : a ∈ acc
    · rw [if_pos h, if_pos (List.mem_map_of_mem h), ih]
    · rw [if_neg h, if_neg (by rw [List.mem_map_of_injective π.injective]; exact h), ← ih, List.map_append, List.map_singleton]

theorem firsts_map (π : Equiv.Perm ℕ) (l : List ℕ) : firsts (l.map π) = (firsts l).map π := foldl_firsts_map l []

/-- Renaming of rounds and parties by a map of the digests. -/
theorem reads3_map {k T N u bC bP : ℕ} (hC : ∀ j, bC ≤ j ↔ T ≤ 2 ^ j) (hP : ∀ j, bP ≤ j ↔ N ≤ 2 ^ j) (hT : 2 ≤ T) (hN : 2 ≤ N)
    (π : Equiv.Perm ℕ) (hπ : ∀ x, π x < T ↔ x < T) (ρ : List ℕ → ℕ → Equiv.Perm ℕ) (hρ : ∀ C, Below N (ρ C)) :
    ∃ Φ : List (Digest k) → List (Digest k),
      (∀ L L', (∃ C Q, Reads3 T N u (L.map bytes) C Q) → (∃ C Q, Reads3 T N u (L'.map bytes) C Q) → Φ L = Φ L' → L = L') ∧
      (∀ L, (Φ L).length = L.length) ∧
      ∀ L C Q, Reads3 T N u (L.map bytes) C Q → Reads3 T N u ((Φ L).map bytes) (C.map π) (Q.mapIdx fun i x => ρ C i x) := by
  classical
  have hbC : 0 < bC := by
    by_contra h
    have := (hC 0).1 (by omega)
    omega
  have hbP : 0 < bP := by
    by_contra h
    have := (hP 0).1 (by omega)
    omega
  obtain ⟨f, f1, f2⟩ := equi_chunks (k := k) hbC ((hC bC).1 le_rfl) (fun _ => π) fun _ x => hπ x
  have := fun C => equi_list (equi_chunks (k := k) hbP ((hP bP).1 le_rfl)) (ρ C) (hρ C)
  choose g g1 g2 g3 using this
  have hnf : ∀ L : List (Digest k), numbers bC T ((L.map f).map bytes) = (numbers bC T (L.map bytes)).map π := fun L => by
    rw [numbers, numbers, List.flatMap_map, List.flatMap_map, List.flatMap_map, List.map_flatMap]
    refine List.flatMap_congr fun d _ => ?_
    refine (f2 d).trans ?_
    refine List.ext_getElem (by simp) fun i h1 h2 => ?_
    simp
  have hng : ∀ C (L : List (Digest k)), numbers bP N ((g C L).map bytes) = (numbers bP N (L.map bytes)).mapIdx fun i x => ρ C i x := fun C L => by
    rw [numbers, numbers, List.flatMap_map, List.flatMap_map, g3]
  let n : List (Digest k) → ℕ → ℕ := fun L j => (firsts (numbers bC T ((L.take j).map bytes))).length
  let K : List (Digest k) → ℕ := fun L => if h : ∃ j, u ≤ n L j then Nat.find h else 0
  let C : List (Digest k) → List ℕ := fun L => (firsts (numbers bC T ((L.take (K L)).map bytes))).take u
  have hK : ∀ L j, u ≤ n L j → (∀ j' < j, n L j' < u) → K L = j := fun L j h1 h2 => by
    have he : ∃ j, u ≤ n L j := ⟨j, h1⟩
    simp only [K, dif_pos he]
    rw [Nat.find_eq_iff]
    exact ⟨h1, fun m hm => by have := h2 m hm; omega⟩
  have hbits : ∀ {b M : ℕ}, (∀ j, b ≤ j ↔ M ≤ 2 ^ j) → ∀ {b'}, (∀ j, b' ≤ j ↔ M ≤ 2 ^ j) → b' = b := fun {b M} h {b'} h' =>
    le_antisymm ((h' b).2 ((h b).1 le_rfl)) ((h b').2 ((h' b').1 le_rfl))
  have hread : ∀ L C' Q, Reads3 T N u (L.map bytes) C' Q → u ≤ n L (K L) ∧ (∀ j < K L, n L j < u) ∧ C' = C L ∧
      u ≤ (numbers bP N ((L.drop (K L)).map bytes)).length ∧ Q = (numbers bP N ((L.drop (K L)).map bytes)).take u := by
    rintro L C' Q ⟨bC', bP', j, e1, e2, e3, e4, e5, e6, e7⟩
    obtain rfl := hbits hC e1
    obtain rfl := hbits hP e2
    simp only [← List.map_take, ← List.map_drop] at e3 e4 e5 e6 e7
    have := hK L j e3 e4
    simp only [C]
    rw [this]
    exact ⟨e3, e4, e5, e6, e7⟩
  let Φ : List (Digest k) → List (Digest k) := fun L => (L.take (K L)).map f ++ g (C L) (L.drop (K L))
  have hΦ : ∀ L, Φ L = (L.take (K L)).map f ++ g (C L) (L.drop (K L)) := fun _ => rfl
  have hKle : ∀ L, (∃ C Q, Reads3 T N u (L.map bytes) C Q) → K L ≤ L.length := by
    rintro L ⟨C', Q, h⟩
    obtain ⟨h1, h2, -⟩ := hread L C' Q h
    by_contra hlt
    have := h2 L.length (by omega)
    simp only [n] at this h1
    rw [List.take_of_length_le (by omega)] at this h1
    omega
  have htake : ∀ L j, K L ≤ L.length → j ≤ K L → (Φ L).take j = (L.take j).map f := fun L j h1 h2 => by
    rw [hΦ, List.take_append_of_le_length (by rw [List.length_map, List.length_take]; omega), ← List.map_take, List.take_take, min_eq_left h2]
  have hnΦ : ∀ L j, K L ≤ L.length → j ≤ K L → n (Φ L) j = n L j := fun L j h1 h2 => by
    simp only [n]
    rw [htake L j h1 h2, hnf, firsts_map, List.length_map]
  have hlen : ∀ L, (Φ L).length = L.length := fun L => by
    rw [hΦ, List.length_append, List.length_map, g2, ← List.length_append, List.take_append_drop]
  refine ⟨Φ, fun L L' hL hL' h => ?_, hlen, fun L C' Q h => ?_⟩
  · have a1 := hKle L hL
    have a2 := hKle L' hL'
    obtain ⟨_, _, hL⟩ := hL
    obtain ⟨_, _, hL'⟩ := hL'
    obtain ⟨b1, b2, -⟩ := hread L _ _ hL
    obtain ⟨c1, c2, -⟩ := hread L' _ _ hL'
    have hKK : K L = K L' := by
      rcases lt_trichotomy (K L) (K L') with hlt | heq | hlt
      · have := c2 _ hlt
        rw [← hnΦ L' _ a2 hlt.le, ← h, hnΦ L _ a1 le_rfl] at this
        omega
      · exact heq
      · have := b2 _ hlt
        rw [← hnΦ L _ a1 hlt.le, h, hnΦ L' _ a2 le_rfl] at this
        omega
    rw [hΦ, hΦ] at h
    obtain ⟨d1, d2⟩ := List.append_inj h (by simp only [List.length_map, List.length_take]; omega)
    have d3 := (List.map_injective_iff.2 f1) d1
    have hCC : C L = C L' := by simp only [C]; rw [d3]
    rw [hCC] at d2
    have d4 := g1 _ d2
    rw [← List.take_append_drop (K L) L, d3, d4, List.take_append_drop]
  · have a1 := hKle L ⟨_, _, h⟩
    obtain ⟨b1, b2, b3, b4, b5⟩ := hread L _ _ h
    have hdrop : (Φ L).drop (K L) = g (C L) (L.drop (K L)) := by
      rw [hΦ, List.drop_append_of_le_length (by rw [List.length_map, List.length_take]; omega), List.drop_of_length_le (by simp)]
      rfl
    refine ⟨bC, bP, K L, hC, hP, ?_, ?_, ?_, ?_, ?_⟩
    · rw [← List.map_take]
      exact le_of_le_of_eq b1 (hnΦ L _ a1 le_rfl).symm
    · intro j hj
      rw [← List.map_take]
      exact lt_of_eq_of_lt (hnΦ L j a1 hj.le) (b2 j hj)
    · rw [← List.map_take, htake L _ a1 le_rfl, hnf, firsts_map, ← List.map_take, b3]
    · rw [← List.map_drop, hdrop, hng, List.length_mapIdx]
      exact b4
    · rw [← List.map_drop, hdrop, hng, mapIdx_take, ← b5, b3]

/-- A permutation of the numbers below `T` that maps one list to another. -/
theorem exists_perm {T : ℕ} : ∀ {l l' : List ℕ}, l.Nodup → l'.Nodup → l.length = l'.length → (∀ x ∈ l, x < T) → (∀ x ∈ l', x < T) →
    ∃ π : Equiv.Perm ℕ, (∀ x, π x < T ↔ x < T) ∧ l.map π = l'
  | [], [], _, _, _, _, _ => ⟨Equiv.refl _, fun _ => Iff.rfl, rfl⟩
  | a :: l, a' :: l', h1, h2, h3, h4, h5 => by
    rw [List.nodup_cons] at h1 h2
    obtain ⟨π, p1, p2⟩ := exists_perm h1.2 h2.2 (by simpa using h3) (fun x hx => h4 x (by simp [hx])) fun x hx => h5 x (by simp [hx])
    have ha := (p1 a).2 (h4 a (by simp))
    have ha' := h5 a' (by simp)
    refine ⟨π.trans (Equiv.swap (π a) a'), fun x => ?_, ?_⟩
    · rw [Equiv.trans_apply, swap_below ha ha', p1]
    · rw [List.map_cons, Equiv.trans_apply, Equiv.swap_apply_left, ← p2]
      congr 1
      refine List.map_congr_left fun x hx => ?_
      rw [Equiv.trans_apply, Equiv.swap_apply_of_ne_of_ne]
      · intro h
        exact h1.1 (π.injective h ▸ hx)
      · intro h
        exact h2.1 (by rw [← p2, ← h]; exact List.mem_map_of_mem hx)
  | [], _ :: _, _, _, h, _, _ => by simp at h
  | _ :: _, [], _, _, h, _, _ => by simp at h

/-- What is read is in range. -/
theorem reads3_wf {T N u : ℕ} {L : List Bytes} {C Q : List ℕ} (h : Reads3 T N u L C Q) :
    C.length = u ∧ C.Nodup ∧ (∀ x ∈ C, x < T) ∧ Q.length = u ∧ ∀ x ∈ Q, x < N := by
  obtain ⟨bC, bP, k, -, -, e3, -, rfl, e6, rfl⟩ := h
  refine ⟨by rw [List.length_take]; omega, (firsts_nodup _).1.sublist (List.take_sublist _ _), fun x hx => ?_, by rw [List.length_take]; omega, fun x hx => ?_⟩
  · have := (firsts_nodup _).2 x (List.mem_of_mem_take hx)
    simp only [numbers, List.mem_flatMap, List.mem_filter, decide_eq_true_eq] at this
    obtain ⟨_, _, _, h⟩ := this
    exact h
  · have := List.mem_of_mem_take hx
    simp only [numbers, List.mem_flatMap, List.mem_filter, decide_eq_true_eq] at this
    obtain ⟨_, _, _, h⟩ := this
    exact h

theorem reads3_unique {T N u : ℕ} {L : List Bytes} {C Q C' Q' : List ℕ} (h : Reads3 T N u L C Q) (h' : Reads3 T N u L C' Q') : C = C' ∧ Q = Q' := by
  obtain ⟨bC, bP, k, e1, e2, e3, e4, rfl, e6, rfl⟩ := h
  obtain ⟨bC', bP', k', e1', e2', e3', e4', rfl, e6', rfl⟩ := h'
  obtain rfl : bC = bC' := le_antisymm ((e1 _).2 ((e1' _).1 le_rfl)) ((e1' _).2 ((e1 _).1 le_rfl))
  obtain rfl : bP = bP' := le_antisymm ((e2 _).2 ((e2' _).1 le_rfl)) ((e2' _).2 ((e2 _).1 le_rfl))
  obtain rfl : k = k' := by
    rcases lt_trichotomy k k' with h | h | h
    · have := e4' _ h; omega
    · exact h
    · have := e4 _ h; omega
  exact ⟨rfl, rfl⟩

/-- The party of a vector at a round. -/
def party {T : ℕ} (e : Fin T → Option (Fin 16)) (t : ℕ) : ℕ := if h : t < T then ((e ⟨t, h⟩).getD 0).1 else 0

theorem party_lt {T : ℕ} (e : Fin T → Option (Fin 16)) (t : ℕ) : party e t < 16 := by
  unfold party
  split_ifs
  · exact Fin.isLt _
  · decide

theorem asks_iff {T u : ℕ} {C Q : List ℕ} {e : Fin T → Option (Fin 16)} (hn : C.Nodup) (hT : ∀ x ∈ C, x < T) (hC : C.length = u) (hQ : Q.length = u) :
    Picnic3.Asks C Q e ↔ (∀ t : Fin T, t.1 ∈ C ↔ (e t).isSome) ∧ Q = C.map (party e) := by
  constructor
  · intro h
    refine ⟨fun t => (h t).1, List.ext_getElem (by simp [hC, hQ]) fun i h1 h2 => ?_⟩
    rw [List.getElem_map]
    have hi : i < C.length := by omega
    have ht := hT _ (List.getElem_mem hi)
    have hs := (h ⟨C[i], ht⟩).1.1 (List.getElem_mem hi)
    obtain ⟨q, hq⟩ := Option.isSome_iff_exists.1 hs
    have := (h ⟨C[i], ht⟩).2 q hq
    rw [Picnic3.hid, hn.idxOf_getElem, List.getD_eq_getElem _ _ h1] at this
    rw [this, party, dif_pos ht, hq]
    rfl
  · rintro ⟨h1, rfl⟩ t
    refine ⟨h1 t, fun q hq => ?_⟩
    have hm := (h1 t).2 (by rw [hq]; rfl)
    have hi := List.idxOf_lt_length_iff.2 hm
    rw [Picnic3.hid, List.getD_eq_getElem _ _ (by simpa using hi), List.getElem_map, List.getElem_idxOf, party, dif_pos t.2]
    simp [hq]

open Classical in
theorem reads3_le {T u k N bC : ℕ} (hC : ∀ j, bC ≤ j ↔ T ≤ 2 ^ j) (hT : 2 ≤ T) {e e' : Fin T → Option (Fin 16)} (he : Picnic3.IsVector u e)
    (he' : Picnic3.IsVector u e') :
    (Finset.univ.filter fun D : Fin N → Digest k => ∃ C Q, Reads3 T 16 u (texts D) C Q ∧ Picnic3.Asks C Q e).card ≤
      (Finset.univ.filter fun D : Fin N → Digest k => ∃ C Q, Reads3 T 16 u (texts D) C Q ∧ Picnic3.Asks C Q e').card := by
  have hP : ∀ j, 4 ≤ j ↔ 16 ≤ 2 ^ j := fun j => by
    rw [show 16 = 2 ^ 4 from rfl, Nat.pow_le_pow_iff_right (by decide)]
  -- a renaming of the rounds
  let S : (Fin T → Option (Fin 16)) → List ℕ := fun e => ((Finset.univ.filter fun t => (e t).isSome).map Fin.valEmbedding).toList
  have hS : ∀ e (t : Fin T), t.1 ∈ S e ↔ (e t).isSome := fun e t => by
    simp only [S, Finset.mem_toList, Finset.mem_map, Finset.mem_filter, Finset.mem_univ, true_and, Fin.valEmbedding_apply]
    exact ⟨fun ⟨s, h, hs⟩ => Fin.ext hs ▸ h, fun h => ⟨t, h, rfl⟩⟩
  have hSl : ∀ e, Picnic3.IsVector u e → (S e).length = u := fun e he => by
    simp only [S, Finset.length_toList, Finset.card_map]; exact he
  have hSlt : ∀ e, ∀ x ∈ S e, x < T := fun e x hx => by
    simp only [S, Finset.mem_toList, Finset.mem_map] at hx
    obtain ⟨s, -, rfl⟩ := hx
    exact s.2
  have hSn : ∀ e, (S e).Nodup := fun e => Finset.nodup_toList _
  obtain ⟨π, p1, p2⟩ := exists_perm (hSn e) (hSn e') ((hSl e he).trans (hSl e' he').symm) (hSlt e) (hSlt e')
  have hπ : ∀ t ht, (e ⟨t, ht⟩).isSome ↔ (e' ⟨π t, (p1 t).2 ht⟩).isSome := fun t ht => by
    rw [← hS e, ← hS e', ← p2]
    exact (List.mem_map_of_injective π.injective).symm
  let ρ : List ℕ → ℕ → Equiv.Perm ℕ := fun C i => Equiv.swap ((C.map (party e)).getD i 0) (((C.map π).map (party e')).getD i 0)
  have hparty : ∀ (e : Fin T → Option (Fin 16)) (C : List ℕ), ∀ x ∈ C.map (party e), x < 16 := fun e C x hx => by
    obtain ⟨y, -, rfl⟩ := List.mem_map.1 hx
    exact party_lt _ _
  obtain ⟨Φ, q1, q2, q3⟩ := reads3_map (k := k) (u := u) hC hP hT (by decide) π p1 ρ fun C i x =>
    swap_below (getD_below (by decide) (hparty e C) i) (getD_below (by decide) (hparty e' (C.map π)) i) x
  simp only [texts_eq]
  refine card_map_le (p := fun L => ∃ C Q, Reads3 T 16 u (L.map bytes) C Q ∧ Picnic3.Asks C Q e)
    (p' := fun L => ∃ C Q, Reads3 T 16 u (L.map bytes) C Q ∧ Picnic3.Asks C Q e') Φ
    (fun L L' ⟨C, Q, h, _⟩ ⟨C', Q', h', _⟩ hh => q1 L L' ⟨C, Q, h⟩ ⟨C', Q', h'⟩ hh) (fun L _ => q2 L) ?_
  rintro L ⟨C, Q, h, ha⟩
  have h' := q3 L C Q h
  obtain ⟨w1, w2, w3, w4, -⟩ := reads3_wf h
  obtain ⟨w1', w2', w3', w4', -⟩ := reads3_wf h'
  refine ⟨_, _, h', ?_⟩
  rw [asks_iff w2 w3 w1 w4] at ha
  rw [asks_iff w2' w3' w1' w4']
  refine ⟨fun t => ?_, ?_⟩
  · have ht : π.symm t < T := by rw [← p1, Equiv.apply_symm_apply]; exact t.2
    have := hπ (π.symm t) ht
    simp only [Equiv.apply_symm_apply] at this
    rw [← this, ← ha.1]
    constructor
    · intro hm
      obtain ⟨y, hy, hyt⟩ := List.mem_map.1 hm
      change π.symm t.1 ∈ C
      rw [← hyt, Equiv.symm_apply_apply]
      exact hy
    · intro hm
      have := List.mem_map_of_mem (f := π) hm
      rwa [Equiv.apply_symm_apply] at this
  · rw [ha.2]
    exact mapIdx_swap (by simp)

/-! ### chains of digests -/

theorem flatMap_chain {α : Type} (g : Bytes → List α) (next : Bytes → Bytes) (d : Bytes) (n : ℕ) :
    (chain next d (n + 1)).flatMap g = g d ++ (chain next (next d) n).flatMap g := by
  rw [chain, List.range_succ_eq_map, List.map_cons, List.flatMap_cons, List.map_map]
  rfl

theorem stream_chain (next : Bytes → Bytes) : ∀ (n : ℕ) (d : Bytes), stream next d n = (chain next d n).flatMap trits
  | 0, _ => rfl
  | n + 1, d => by rw [stream, stream_chain next n, flatMap_chain]

theorem stream3_chain (b N : ℕ) (next : Bytes → Bytes) : ∀ (n : ℕ) (d : Bytes), stream3 b N next d n = numbers b N (chain next d n)
  | 0, _ => rfl
  | n + 1, d => by rw [stream3, stream3_chain b N next n, numbers, numbers, flatMap_chain]

theorem chain_take {next : Bytes → Bytes} {d : Bytes} {n k : ℕ} (h : k ≤ n) : (chain next d n).take k = chain next d k := by
  rw [chain, ← List.map_take, List.take_range, min_eq_left h, chain]

theorem chain_drop {next : Bytes → Bytes} {d : Bytes} {n k : ℕ} : (chain next d n).drop k = chain next (next^[k] d) (n - k) := by
  refine List.ext_getElem (by simp [chain]) fun i h1 h2 => ?_
  simp only [chain, List.getElem_drop, List.getElem_map, List.getElem_range]
  rw [← Function.iterate_add_apply, Nat.add_comm]

theorem chain_length (next : Bytes → Bytes) (d : Bytes) (n : ℕ) : (chain next d n).length = n := by simp [chain]

end Picnic
