import Verif.Proofs.Merkle3

/-
/repo/tree.c: inputs of the wrong size, and the number of opened nodes.
-/

namespace Picnic

open Spec.Tree

theorem foldlM_set_false {ds : ℕ} {input : Buf} :
    ∀ (rv : List ℕ) (t : Tree) (k : Int) (off : ℕ), rv.foldlM (fun (st : Bool × Tree × Int × Nat) node =>
        if !st.1 then pure st
        else do
          let inLen := st.2.2.1 - ds
          if inLen < 0 then pure (false, st.2.1, inLen, st.2.2.2)
          else do
            let tree ← setNode st.2.1 node input st.2.2.2 ds
            pure (true, tree, inLen, st.2.2.2 + ds)) (false, t, k, off) = (Outcome.ok (false, t, k, off) : M (Bool × Tree × Int × Nat)) := by
  intro rv
  induction rv with
  | nil => intro t k off; rfl
  | cons r rv ih =>
    intro t k off
    rw [List.foldlM_cons]
    dsimp only
    rw [if_pos (by simp), pure_eq_ok, ok_bind]
    exact ih t k off

theorem foldlM_set_short {D n ds : ℕ} {input : Buf} :
    ∀ (rv : List ℕ) (k off : ℕ) (hv : ℕ → Bool) (vl : ℕ → Buf), (∀ r ∈ rv, r < 2 ^ D - 1 + n) →
      (∀ i, (vl i).length = ds) → k < rv.length * ds → off + k ≤ input.length →
      ∃ t k' o', rv.foldlM (fun (st : Bool × Tree × Int × Nat) node =>
        if !st.1 then pure st
        else do
          let inLen := st.2.2.1 - ds
          if inLen < 0 then pure (false, st.2.1, inLen, st.2.2.2)
          else do
            let tree ← setNode st.2.1 node input st.2.2.2 ds
            pure (true, tree, inLen, st.2.2.2 + ds)) (true, mkTree D n ds hv vl, (k : Int), off) =
        (Outcome.ok (false, t, k', o') : M (Bool × Tree × Int × Nat)) := by
  intro rv
  induction rv with
  | nil => intro k off hv vl _ _ h; simp at h
  | cons r rv ih =>
    intro k off hv vl h1 h2 h3 h4
    have hr := h1 r (by simp)
    rw [List.length_cons, Nat.add_mul, Nat.one_mul] at h3
    simp only [List.foldlM_cons]
    by_cases hk : k < ds
    · rw [if_neg (by simp), if_pos (by omega), pure_eq_ok, ok_bind]
      exact ⟨_, _, _, foldlM_set_false ..⟩
    · rw [if_neg (by simp), if_neg (by omega), setNode_ok hr (h2 r) (by omega), ok_bind, pure_eq_ok, ok_bind,
        show (k : Int) - ds = ((k - ds : ℕ) : Int) by omega]
      refine ih (k - ds) (off + ds) _ _ (fun x hx => h1 x (by simp [hx])) (fun i => ?_) (by omega) (by omega)
      rw [Function.update_apply]
      split_ifs
      · rw [List.length_take, List.length_drop]; omega
      · exact h2 i

/-- An opening of the wrong size is rejected. -/
theorem addMerkleNodes_size {D n ds size : ℕ} {l rv : List ℕ} {input : Buf} (hlen : l.length < n)
    (hrun : getRevealedMerkleNodes (mkTree D n ds (fun _ => false) fun _ => zeros ds) l l.length = Outcome.ok rv)
    (hnd : rv.Nodup) (hex : ∀ r ∈ rv, exb D n r = true) (h0 : 0 ∉ rv) (hs : size ≤ input.length) (hne : size ≠ rv.length * ds) :
    ∃ t, addMerkleNodes (mkTree D n ds (fun _ => false) fun _ => zeros ds) l l.length input size = Outcome.ok (false, t) := by
  unfold addMerkleNodes assertM
  rw [if_pos (by simpa using hlen), pure_eq_ok, ok_bind]
  by_cases hm : size > INT_MAX
  · rw [if_pos hm]; exact ⟨_, rfl⟩
  rw [if_neg hm, hrun, ok_bind, if_pos (by simp [containsNode]; intro x hx h; exact h0 (h ▸ hx)), ok_bind]
  by_cases hk : size < rv.length * ds
  · obtain ⟨t, k', o', e⟩ := foldlM_set_short (D := D) (n := n) (input := input) rv size 0 (fun _ => false) (fun _ => zeros ds)
      (fun r hr => exb_lt (hex r hr)) (by simp) hk (by omega)
    refine ⟨t, bind_of e ?_⟩
    dsimp only
    rw [if_pos (by simp), pure_eq_ok]
  · refine ⟨mkTree D n ds (fun i => decide (i ∈ rv) || false) fun i =>
        if i ∈ rv then List.take ds (List.drop (0 + List.idxOf i rv * ds) input) else zeros ds,
      bind_of (foldlM_set (ds := ds) rv (size : ℕ) 0 _ _ hnd (fun r hr => exb_lt (hex r hr)) (by simp) (by omega) (by omega)) ?_⟩
    dsimp only
    rw [if_neg (by simp), if_pos (by omega)]
    rfl

/-- Seed data that is too short is rejected. -/
theorem reconstructSeeds_short {E : Env} {P : Params} {D n size rep : ℕ} {l rv : List ℕ} {input salt : Buf}
    (hrun : getRevealedNodes (mkTree D n P.seedSizeBytes (fun _ => false) fun _ => zeros P.seedSizeBytes) l l.length = Outcome.ok rv)
    (hex : ∀ r ∈ rv, exb D n r = true) (hs : size < rv.length * P.seedSizeBytes) (hs2 : size ≤ input.length) :
    ∃ t, reconstructSeeds E P (mkTree D n P.seedSizeBytes (fun _ => false) fun _ => zeros P.seedSizeBytes) l l.length input size salt rep =
      Outcome.ok (false, t) := by
  unfold reconstructSeeds
  by_cases hm : size > INT_MAX
  · rw [if_pos hm]; exact ⟨_, rfl⟩
  rw [if_neg hm, hrun, ok_bind]
  obtain ⟨t, k', o', e⟩ := foldlM_set_short (D := D) (n := n) (input := input) rv size 0 (fun _ => false) (fun _ => zeros P.seedSizeBytes)
      (fun r hr => exb_lt (hex r hr)) (by simp) hs (by omega)
  refine ⟨t, bind_of e ?_⟩
  dsimp only
  rw [if_pos (by simp), pure_eq_ok]

open Classical in
/-- The number of picked leaves. -/
theorem level_picked {D n : ℕ} {l : List ℕ} (hn : n ≤ 2 ^ D) (hl : ∀ h ∈ l, h < n) (hnd : l.Nodup) :
    (level D (Picked D l) D).card = l.length := by
  have hS := picked_atDepth hn hl
  have e : level D (Picked D l) D = l.toFinset.image (2 ^ D + ·) := by
    ext y
    simp only [level, Finset.mem_filter, Finset.mem_Ico, Finset.mem_image, List.mem_toFinset]
    constructor
    · rintro ⟨⟨h1, _⟩, h⟩
      rw [up_leaf hS h1] at h
      obtain ⟨h, hh, rfl⟩ := h
      exact ⟨h, hh, rfl⟩
    · rintro ⟨h, hh, rfl⟩
      have := hl h hh
      refine ⟨⟨by omega, by rw [pow_succ]; omega⟩, ?_⟩
      rw [up_leaf hS (by omega)]
      exact ⟨h, hh, rfl⟩
  rw [e, Finset.card_image_of_injective _ (add_right_injective _), List.toFinset_card_of_nodup hnd]

/-- The number of revealed seeds. -/
theorem rev_bound {D n : ℕ} {l rv : List ℕ} (h1 : 1 ≤ n) (hn : n ≤ 2 ^ D) (hl : ∀ h ∈ l, h < n) (hnd : l.Nodup) (hne : l ≠ []) (hrnd : rv.Nodup)
    (hrv : ∀ r, r ∈ rv ↔ Rev D n (Picked D l) (r + 1)) :
    rv.length + l.length ≤ 1 + ∑ ℓ ∈ Finset.range D, min (2 ^ ℓ) l.length := by
  classical
  have hS := picked_atDepth hn hl
  have hSne : ∃ y, Picked D l y := by
    obtain ⟨a, l', rfl⟩ := List.exists_cons_of_ne_nil hne
    exact ⟨_, a, by simp, rfl⟩
  have hall : ∀ r ∈ rv, ∃ s, Top D n (Picked D l) s ∧ r + 1 = dsc D n s := fun r hr => (hrv r).1 hr
  choose! f hf using hall
  have hinj : Set.InjOn f (rv.toFinset : Set ℕ) := by
    intro a ha b hb e
    have h1 := (hf a (by simpa using ha)).2
    have h2 := (hf b (by simpa using hb)).2
    rw [e] at h1
    omega
  have := tops_bound hn hS hSne (level_picked hn hl hnd) (rv.toFinset.image f) (by
    intro x hx
    rw [Finset.mem_image] at hx
    obtain ⟨r, hr, rfl⟩ := hx
    exact (hf r (by simpa using hr)).1)
  rwa [Finset.card_image_of_injOn hinj, List.toFinset_card_of_nodup hrnd] at this

theorem present_picked {D n : ℕ} {l ml : List ℕ} (hl : ∀ h ∈ l, h < n) (hml : ∀ j < n, j ∈ ml ↔ j ∉ l) : Present D n ml = Picked D l := by
  funext y
  rw [eq_iff_iff]
  constructor
  · rintro ⟨⟨h1, h2⟩, h3⟩
    refine ⟨y - 2 ^ D, ?_, by omega⟩
    by_contra h
    exact h3 ⟨y - 2 ^ D, (hml _ (by omega)).2 h, by omega⟩
  · rintro ⟨h, hh, rfl⟩
    have := hl h hh
    refine ⟨⟨by omega, by omega⟩, ?_⟩
    rintro ⟨h', hh', e⟩
    have e2 : h' = h := by omega
    subst e2
    exact (hml h' this).1 hh' hh

/-- The number of opened Merkle nodes. -/
theorem top_bound {D n : ℕ} {l rv : List ℕ} (hn : n ≤ 2 ^ D) (hl : ∀ h ∈ l, h < n) (hnd : l.Nodup) (hne : l ≠ []) (hrnd : rv.Nodup)
    (hrv : ∀ r, r ∈ rv ↔ Top D n (Picked D l) (r + 1)) :
    rv.length + l.length ≤ 1 + ∑ ℓ ∈ Finset.range D, min (2 ^ ℓ) l.length := by
  classical
  have hS := picked_atDepth hn hl
  have hSne : ∃ y, Picked D l y := by
    obtain ⟨a, l', rfl⟩ := List.exists_cons_of_ne_nil hne
    exact ⟨_, a, by simp, rfl⟩
  have := tops_bound hn hS hSne (level_picked hn hl hnd) (rv.toFinset.image (· + 1)) (by
    intro x hx
    rw [Finset.mem_image] at hx
    obtain ⟨r, hr, rfl⟩ := hx
    exact (hrv r).1 (by simpa using hr))
  rwa [Finset.card_image_of_injective _ (add_left_injective 1), List.toFinset_card_of_nodup hrnd] at this

end Picnic
