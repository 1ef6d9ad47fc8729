import Verif.Spec.Forger
import Verif.Proofs.Soundness
import Verif.Proofs.Extract3
import Mathlib.Logic.Equiv.Fin.Basic
import Mathlib.Logic.Equiv.Prod

/-
Counting the answers with which an adaptive forger succeeds.
-/

namespace Picnic

open Spec Finset

/-- The number of answers such that answer `i` is in a small set that depends on the other answers. -/
theorem card_one_le {A : Type} [Fintype A] {q N : ℕ} (i : Fin q) (B : (Fin q → A) → A → Prop) [∀ ω, DecidablePred (B ω)]
    (hB : ∀ ω ω', (∀ j, j ≠ i → ω j = ω' j) → ∀ a, B ω a ↔ B ω' a) (hN : ∀ ω, (univ.filter (B ω)).card * N ≤ Fintype.card A) :
    (univ.filter fun ω : Fin q → A => B ω (ω i)).card * N ≤ Fintype.card (Fin q → A) := by
  classical
  have e : (Fin q → A) ≃ A × ({j // j ≠ i} → A) := Equiv.funSplitAt i A
  let up : ({j // j ≠ i} → A) → A → (Fin q → A) := fun r a => (Equiv.funSplitAt i A).symm (a, r)
  have hup : ∀ r a, up r a i = a := fun r a => by simp [up]
  have hup' : ∀ r a j (h : j ≠ i), up r a j = r ⟨j, h⟩ := fun r a j h => by simp [up, h]
  have h1 : (univ.filter fun ω : Fin q → A => B ω (ω i)).card = ∑ r : {j // j ≠ i} → A, (univ.filter fun a : A => B (up r a) a).card := by
    rw [← card_sigma]
    refine card_bij' (fun ω _ => ⟨fun j => ω j, ω i⟩) (fun p _ => up p.1 p.2) ?_ ?_ ?_ ?_
    · intro ω hω
      rw [mem_filter] at hω
      rw [mem_sigma]
      refine ⟨mem_univ _, ?_⟩
      rw [mem_filter]
      refine ⟨mem_univ _, ?_⟩
      refine (hB _ _ ?_ _).1 hω.2
      intro j hj
      rw [hup' _ _ _ hj]
    · intro p hp
      rw [mem_sigma, mem_filter] at hp
      rw [mem_filter]
      refine ⟨mem_univ _, ?_⟩
      rw [hup]
      exact hp.2.2
    · intro ω _
      funext j
      by_cases hj : j = i
      · subst hj; rw [hup]
      · rw [hup' _ _ _ hj]
    · rintro ⟨r, a⟩ _
      refine Sigma.ext ?_ ?_
      · funext j
        exact hup' _ _ _ j.2
      · exact heq_of_eq (hup _ _)
  have h2 : Fintype.card (Fin q → A) = ∑ _r : {j // j ≠ i} → A, Fintype.card A := by
    rw [sum_const, smul_eq_mul, card_univ, mul_comm, ← Fintype.card_prod]
    exact Fintype.card_congr (Equiv.funSplitAt i A)
  rw [h1, h2, sum_mul]
  refine sum_le_sum fun r _ => ?_
  by_cases hA : Nonempty A
  · obtain ⟨a0⟩ := hA
    have : (univ.filter fun a : A => B (up r a) a) = univ.filter (B (up r a0)) := by
      refine filter_congr fun a _ => hB _ _ ?_ _
      intro j hj
      rw [hup' _ _ _ hj, hup' _ _ _ hj]
    rw [this]
    exact hN _
  · rw [not_nonempty_iff] at hA
    rw [univ_eq_empty, filter_empty, card_empty, zero_mul]
    exact Nat.zero_le _

/-- The number of answers such that some answer `i` is in a small set that depends on the earlier answers. -/
theorem card_some_le {A : Type} [Fintype A] {q N : ℕ} (B : Fin q → (Fin q → A) → A → Prop) [∀ i ω, DecidablePred (B i ω)]
    [DecidablePred fun ω : Fin q → A => ∃ i, B i ω (ω i)]
    (hB : ∀ i ω ω', (∀ j < i, ω j = ω' j) → ∀ a, B i ω a ↔ B i ω' a) (hN : ∀ i ω, (univ.filter (B i ω)).card * N ≤ Fintype.card A) :
    (univ.filter fun ω : Fin q → A => ∃ i, B i ω (ω i)).card * N ≤ q * Fintype.card (Fin q → A) := by
  classical
  have h1 : (univ.filter fun ω : Fin q → A => ∃ i, B i ω (ω i)) ⊆ univ.biUnion fun i => univ.filter fun ω : Fin q → A => B i ω (ω i) := by
    intro ω hω
    obtain ⟨-, i, hi⟩ := mem_filter.1 hω
    exact mem_biUnion.2 ⟨i, mem_univ _, mem_filter.2 ⟨mem_univ _, hi⟩⟩
  calc _ ≤ (∑ i : Fin q, (univ.filter fun ω : Fin q → A => B i ω (ω i)).card) * N :=
        Nat.mul_le_mul_right _ ((card_le_card h1).trans card_biUnion_le)
    _ = ∑ i : Fin q, (univ.filter fun ω : Fin q → A => B i ω (ω i)).card * N := sum_mul _ _ _
    _ ≤ ∑ _i : Fin q, Fintype.card (Fin q → A) := sum_le_sum fun i _ =>
        card_one_le i (B i) (fun ω ω' h => hB i ω ω' fun j hj => h j hj.ne) (hN i)
    _ = _ := by rw [sum_const, card_univ, Fintype.card_fin, smul_eq_mul]

/-- A small set of challenges has few answers. -/
theorem fair_total {A B : Type} [Fintype A] [Fintype B] {R : A → B → Prop} (hR : Fair R) (e0 : B) [DecidablePred fun a => R a e0]
    [DecidablePred fun a => ¬ ∃ e, R a e] :
    Fintype.card B * (univ.filter fun a => R a e0).card + (univ.filter fun a => ¬ ∃ e, R a e).card = Fintype.card A := by
  classical
  have : Fintype.card B * (univ.filter fun a => R a e0).card = (univ.filter fun a => ∃ e, R a e).card := by
    have h : (univ.filter fun a => ∃ e, R a e) = (univ : Finset B).biUnion fun e => univ.filter fun a => R a e := by
      ext a; simp
    rw [h, card_biUnion, sum_congr rfl fun e _ => (show (univ.filter fun a => R a e).card = (univ.filter fun a => R a e0).card from by
      convert hR.uniform e e0), sum_const, smul_eq_mul, card_univ]
    intro e _ e' _ hne
    rw [Function.onFun, disjoint_left]
    intro a ha ha'
    exact hne (hR.unique a e e' (mem_filter.1 ha).2 (mem_filter.1 ha').2)
  rw [this, card_filter_add_card_filter_not, card_univ]

theorem card_fair {A B : Type} [Fintype A] [Fintype B] {R : A → B → Prop} (hR : Fair R) {S : B → Prop} {M : ℕ} [DecidablePred S]
    [DecidablePred fun a => ∃ e, R a e ∧ S e] (hS : (univ.filter S).card * M ≤ Fintype.card B) : (univ.filter fun a => ∃ e, R a e ∧ S e).card * M ≤ Fintype.card A := by
  classical
  by_cases hB : Nonempty B
  · obtain ⟨e0⟩ := hB
    let c := (univ.filter fun a => R a e0).card
    have h1 : (univ.filter fun a => ∃ e, R a e ∧ S e).card ≤ (univ.filter S).card * c := by
      have : (univ.filter fun a => ∃ e, R a e ∧ S e) ⊆ (univ.filter S).biUnion fun e => univ.filter fun a => R a e := by
        intro a ha
        obtain ⟨-, e, h1, h2⟩ := mem_filter.1 ha
        exact mem_biUnion.2 ⟨e, mem_filter.2 ⟨mem_univ _, h2⟩, mem_filter.2 ⟨mem_univ _, h1⟩⟩
      refine (card_le_card this).trans (card_biUnion_le.trans ?_)
      rw [sum_congr rfl fun e _ => hR.uniform e e0, sum_const, smul_eq_mul]
    have h2 : Fintype.card B * c ≤ Fintype.card A := by
      have : Fintype.card B * c = ((univ : Finset B).biUnion fun e => univ.filter fun a => R a e).card := by
        rw [card_biUnion, sum_congr rfl fun e _ => hR.uniform e e0, sum_const, smul_eq_mul, card_univ]
        intro e _ e' _ hne
        rw [Function.onFun, disjoint_left]
        intro a ha ha'
        exact hne (hR.unique a e e' (mem_filter.1 ha).2 (mem_filter.1 ha').2)
      rw [this]
      exact card_le_univ _
    calc _ ≤ (univ.filter S).card * c * M := Nat.mul_le_mul_right _ h1
      _ = (univ.filter S).card * M * c := by ring
      _ ≤ Fintype.card B * c := Nat.mul_le_mul_right _ hS
      _ ≤ _ := h2
  · have : (univ.filter fun a => ∃ e, R a e ∧ S e) = ∅ := by
      rw [filter_eq_empty_iff]
      rintro a - ⟨e, -⟩
      exact hB ⟨e⟩
    rw [this, card_empty, zero_mul]
    exact Nat.zero_le _

theorem fair_eq {A : Type} [Fintype A] : Fair (Eq : A → A → Prop) := by
  classical
  refine ⟨fun a e e' h h' => h.symm.trans h', fun e e' => ?_⟩
  have : ∀ e : A, (univ.filter fun a => a = e) = {e} := fun e => by ext; simp
  simp [this]

/-! ### strings that were hashed too late -/

section zkb

open Spec.Picnic1

variable {I : Inst}

/-- An answer with strings that are hashed later needs none of them, unless a preimage of a named digest has been found. -/
theorem zkb_early {ct pt : Buf} {f : First} {L L' : Set Buf} (hL : ∀ x ∈ L', x ∉ L → ¬ I.Named f L (I.hash x I.digest)) {e : Fin I.T → Fin 3}
    (h : I.Answerable ct pt f.salt f.outs f.coms L' e) : I.Answerable ct pt f.salt f.outs f.coms L e := by
  intro t
  obtain ⟨o, a, b, h⟩ := h t
  have key : ∀ v : Picnic1.View, I.Known L' v → (∃ j < 3, I.commit v = f.coms t j) → I.Known L v := by
    rintro v ⟨h1, h2⟩ ⟨j, hj, hc⟩
    have h3 : I.viewString v ∈ L := by
      by_contra h3
      exact hL _ h2 h3 (Or.inl ⟨t, t.2, j, hj, hc⟩)
    refine ⟨?_, h3⟩
    by_contra h4
    exact hL _ h1 h4 (Or.inr ⟨v, h3, rfl⟩)
  refine ⟨o, a, b, h.fits, h.pad, h.opened, h.outs, h.coms, key a h.known.1 ⟨e t, (e t).2, ?_⟩, key b h.known.2 ⟨(e t + 1) % 3, Nat.mod_lt _ (by decide), ?_⟩⟩
  · rw [← h.coms (e t) (e t).2, arrange, if_pos rfl]
  · have h3 := (e t).2
    rw [← h.coms ((e t + 1) % 3) (Nat.mod_lt _ (by decide)), arrange, if_neg (by omega), if_pos rfl]

theorem zkb_reveals_mono {ct pt : Buf} {coms : ℕ → ℕ → Buf} {L L' : Set Buf} (hL : L ⊆ L') (h : I.Reveals ct pt coms L) :
    I.Reveals ct pt coms L' := by
  obtain ⟨t, ht, v, h1, h2⟩ := h
  exact ⟨t, ht, v, fun j hj => ⟨⟨hL (h1 j hj).1.1, hL (h1 j hj).1.2⟩, (h1 j hj).2⟩, h2⟩

theorem zkb_mono {ct pt salt : Buf} {outs coms : ℕ → ℕ → Buf} {L L' : Set Buf} (hL : L ⊆ L') {e : Fin I.T → Fin 3}
    (h : I.Answerable ct pt salt outs coms L e) : I.Answerable ct pt salt outs coms L' e := by
  intro t
  obtain ⟨o, a, b, h⟩ := h t
  exact ⟨o, a, b, h.fits, h.pad, h.opened, h.outs, h.coms, ⟨hL h.known.1.1, hL h.known.1.2⟩, hL h.known.2.1, hL h.known.2.2⟩

/-- An answer needs finitely many strings. -/
theorem zkb_finite {ct pt salt : Buf} {outs coms : ℕ → ℕ → Buf} {L : Set Buf} {e : Fin I.T → Fin 3} (h : I.Answerable ct pt salt outs coms L e) :
    ∃ L', L'.Finite ∧ I.Answerable ct pt salt outs coms L' e := by
  choose o a b h using h
  refine ⟨⋃ t, {seedString (a t), I.viewString (a t), seedString (b t), I.viewString (b t)}, Set.finite_iUnion fun t => by simp, fun t =>
    ⟨o t, a t, b t, (h t).fits, (h t).pad, (h t).opened, (h t).outs, (h t).coms, ⟨?_, ?_⟩, ?_, ?_⟩⟩ <;>
  exact Set.mem_iUnion.2 ⟨t, by simp⟩

end zkb

section p3

open Spec.Picnic3

variable {I : Inst}

theorem p3_early {ct pt : Buf} {f : First} {L L' : Set Buf} (hL : ∀ x ∈ L', x ∉ L → ¬ I.Named f L (I.hash x I.digest))
    {e : Fin I.T → Option (Fin 16)} (h : I.Answerable ct pt f.salt f.root f.digests L' e) : I.Answerable ct pt f.salt f.root f.digests L e := by
  obtain ⟨τ, h1, h2, h3, h4, h5⟩ := h
  have hin : ∀ x ∈ L', I.Named f L (I.hash x I.digest) → x ∈ L := fun x hx hn => by
    by_contra hx'
    exact hL x hx hx' hn
  have hcom : ∀ t < I.T, comString (τ.v t) ∈ L := fun t ht => hin _ (h3.com t ht) (by
    have := Inst.Named.digests (I := I) (f := f) (L := L) t ht
    rw [← h5 t ht] at this
    exact this)
  -- the digests on the paths of the opened repetitions are named
  have hpath : ∀ t ∈ τ.C, ∀ d ≤ I.depth, I.Named f L (τ.h ((2 ^ I.depth + t) / 2 ^ (I.depth - d))) := by
    intro t hC d
    have ht := (h1.2 t hC).1
    have hT : I.T ≤ 2 ^ I.depth := Nat.le_pow_clog (by decide) _
    induction d with
    | zero =>
      intro _
      have e : (2 ^ I.depth + t) / 2 ^ (I.depth - 0) = 1 := by
        rw [Nat.sub_zero, Nat.add_div_left _ (by positivity), Nat.div_eq_of_lt (by omega)]
      rw [e, h4]
      exact .root
    | succ d ih =>
      intro hd
      have ih := ih (by omega)
      obtain ⟨k, hk⟩ : ∃ k, k = I.depth - (d + 1) := ⟨_, rfl⟩
      rw [show I.depth - d = k + 1 by omega] at ih
      rw [← hk]
      have hm := (h1.path hC (k := k + 1) (by omega)).2 (by omega)
      obtain ⟨la, -⟩ := h1.path hC (k := k) (by omega)
      have hs := h3.node t hC (k + 1) (by omega) (by omega)
      have hx : (2 ^ I.depth + t) / 2 ^ (k + 1) = (2 ^ I.depth + t) / 2 ^ k / 2 := by rw [pow_succ, Nat.div_div_eq_div_mul]
      have hy : (2 ^ I.depth + t) / 2 ^ k ≤ 2 ^ I.depth + t := Nat.div_le_self _ _
      have hs := hin _ hs (by
        rw [hm] at ih
        exact ih)
      rw [hx] at hs
      generalize (2 ^ I.depth + t) / 2 ^ k = y at *
      by_cases hpar : y % 2 = 0
      · have e : 2 * (y / 2) = y := by omega
        have := Inst.Named.left (I := I) (f := f) τ.h (y / 2) hs (by rw [e]; exact la)
        rwa [e] at this
      · have e : 2 * (y / 2) + 1 = y := by omega
        have := Inst.Named.right (I := I) (f := f) τ.h (y / 2) hs (by omega) (by rw [e]; exact la)
        rwa [e] at this
  refine ⟨τ, h1, h2, ⟨fun t ht j hj ho => ?_, hcom, fun t hC => ?_, fun t hC k hk hd => ?_⟩, h4, h5⟩
  · obtain ⟨r1, r2⟩ := h1.round ht
    refine hin _ (h3.commit t ht j hj ho) ?_
    have := Inst.Named.com (I := I) (f := f) (τ.v t) j (hcom t ht) r2 hj
    rw [(r1 j hj ho).2.2] at this
    exact this
  · refine hin _ (h3.msg t hC) ?_
    have := hpath t hC I.depth le_rfl
    rw [Nat.sub_self, pow_zero, Nat.div_one, h1.1.2.2.2.1.leaf t (h1.2 t hC).1 hC] at this
    exact this
  · refine hin _ (h3.node t hC k hk hd) ?_
    have := hpath t hC (I.depth - k) (by omega)
    rw [show I.depth - (I.depth - k) = k by omega, (h1.path hC hd).2 hk] at this
    exact this

theorem p3_reveals_mono {ct pt salt : Buf} {digests : ℕ → Buf} {L L' : Set Buf} (hL : L ⊆ L') (h : I.Reveals ct pt salt digests L) :
    I.Reveals ct pt salt digests L' := by
  obtain ⟨t, ht, v, w, κ, h1, h2, h3, h4, h5, h6⟩ := h
  exact ⟨t, ht, v, w, κ, h1, h2, hL h3, fun j hj => ⟨(h4 j hj).1, (h4 j hj).2.1, hL (h4 j hj).2.2⟩, hL h5, h6⟩

theorem p3_mono {ct pt salt root : Buf} {digests : ℕ → Buf} {L L' : Set Buf} (hL : L ⊆ L') {e : Fin I.T → Option (Fin 16)}
    (h : I.Answerable ct pt salt root digests L e) : I.Answerable ct pt salt root digests L' e := by
  obtain ⟨τ, h1, h2, ⟨a, b, c, d⟩, h4⟩ := h
  exact ⟨τ, h1, h2, ⟨fun t ht j hj ho => hL (a t ht j hj ho), fun t ht => hL (b t ht), fun t ht => hL (c t ht), fun t ht k hk hd => hL (d t ht k hk hd)⟩, h4⟩

/-- An answer needs finitely many strings. -/
theorem p3_finite {ct pt salt root : Buf} {digests : ℕ → Buf} {L : Set Buf} {e : Fin I.T → Option (Fin 16)}
    (h : I.Answerable ct pt salt root digests L e) : ∃ L', L'.Finite ∧ I.Answerable ct pt salt root digests L' e := by
  obtain ⟨τ, h1, h2, -, h4⟩ := h
  let S : ℕ → Set Buf := fun t => (⋃ j ∈ range 16, {commitString salt t (τ.v t) j}) ∪ {comString (τ.v t), msgString (τ.v t)} ∪
    ⋃ k ∈ range (I.depth + 1), {I.nodeString salt τ.h ((2 ^ I.depth + t) / 2 ^ k)}
  have hS : (⋃ t ∈ range I.T, S t).Finite := by
    refine Set.Finite.biUnion (finite_toSet _) fun t _ => ?_
    refine ((Set.Finite.biUnion (finite_toSet _) fun _ _ => Set.finite_singleton _).union (by simp)).union
      (Set.Finite.biUnion (finite_toSet _) fun _ _ => Set.finite_singleton _)
  have hin : ∀ t < I.T, S t ⊆ ⋃ t ∈ range I.T, S t := fun t ht => Set.subset_biUnion_of_mem (u := S) (mem_coe.2 (mem_range.2 ht))
  refine ⟨_, hS, τ, h1, h2, ⟨fun t ht j hj _ => hin t ht (Or.inl (Or.inl ?_)), fun t ht => hin t ht (Or.inl (Or.inr (by simp))),
    fun t hC => hin t (h1.2 t hC).1 (Or.inl (Or.inr (by simp))), fun t hC k _ hk => hin t (h1.2 t hC).1 (Or.inr ?_)⟩, h4⟩
  · exact Set.mem_biUnion (mem_coe.2 (mem_range.2 hj)) rfl
  · exact Set.mem_biUnion (mem_coe.2 (mem_range.2 (by omega : k < I.depth + 1))) rfl

end p3

end Picnic
