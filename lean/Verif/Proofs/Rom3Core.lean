import Verif.Proofs.Rom3Chain
import Verif.Proofs.Rom3Congr
import Verif.Proofs.ForgeProc
import Verif.Proofs.Forger
import Verif.Props.Soundness

/-
C64: questions to an oracle after which a challenge of Picnic3 can be answered.
-/

namespace Picnic.Rom3

open Spec Spec.Rom Spec.Challenge Picnic.Rom

variable {N M : ℕ} {I : Picnic3.Inst} {ct pt : Bytes} {R p : ℕ}

theorem over_xof {O O' : Oracle N M} {x : Bytes} (h : ask O x = ask O' x) : (over I O).xof x = (over I O').xof x := by
  funext i
  show (Rom.hash O x (i + 1)).getD i 0 = (Rom.hash O' x (i + 1)).getD i 0
  unfold Rom.hash
  rw [h]

theorem ask_same {O O' : Oracle N M} {x : Bytes} (h : ∀ hx : x.length ≤ N, O' ⟨x, hx⟩ = O ⟨x, hx⟩) : ask O x = ask O' x := by
  unfold ask
  split_ifs with hx
  · exact (h hx).symm
  · rfl

variable (P : Proc N M)

/-- Question `i` is `x`, and it is new. -/
def At (O : Oracle N M) (i : ℕ) (x : Arg N) : Prop := (P.asked O)[i]? = some x ∧ x ∉ (P.asked O).take i

def qstr (O : Oracle N M) (i : ℕ) : Bytes := ((P.asked O)[i]?.map (·.1)).getD []

/-- The strings before question `i`. -/
def Before (O : Oracle N M) (i : ℕ) : Set Bytes := {x | ∃ y ∈ (P.asked O).take i, y.1 = x}

/-- All strings. -/
def All (O : Oracle N M) : Set Bytes := {x | ∃ y ∈ P.asked O, y.1 = x}

variable {P}

theorem exists_at {O : Oracle N M} {x : Arg N} (h : x ∈ P.asked O) : ∃ i, At P O i x := by
  classical
  refine ⟨(P.asked O).idxOf x, List.getElem?_idxOf h, fun h1 => ?_⟩
  exact absurd ((List.mem_take_iff_idxOf_lt h).1 h1) (lt_irrefl _)

theorem mem_take {O : Oracle N M} {i k : ℕ} {x : Arg N} (h : (P.asked O)[k]? = some x) (hk : k < i) : x ∈ (P.asked O).take i := by
  rw [List.mem_iff_getElem?]
  exact ⟨k, by rw [List.getElem?_take_of_lt hk, h]⟩

theorem at_lt {O : Oracle N M} {i : ℕ} {x : Arg N} (h : At P O i x) (hR : (P.asked O).length ≤ R) : i < R :=
  lt_of_lt_of_le (List.getElem?_eq_some_iff.1 h.1).1 hR

theorem at_str {O : Oracle N M} {i : ℕ} {x : Arg N} (h : At P O i x) : qstr P O i = x.1 := by
  unfold qstr
  rw [h.1]
  rfl

/-- What comes before a new question does not depend on its answer. -/
theorem at_step {O O' : Oracle N M} {i : ℕ} {x : Arg N} (h : At P O i x) (ho : ∀ y ∈ (P.asked O).take i, O' y = O y) :
    (P.asked O').take (i + 1) = (P.asked O).take (i + 1) ∧ (P.asked O').take i = (P.asked O).take i ∧ At P O' i x := by
  have h1 := P.pre O O' i ho
  have h2 : (P.asked O').take i = (P.asked O).take i := by
    have := congrArg (List.take i) h1
    rwa [List.take_take, List.take_take, Nat.min_eq_left (by omega)] at this
  refine ⟨h1, h2, ?_, ?_⟩
  · have := congrArg (·[i]?) h1
    beta_reduce at this
    rw [List.getElem?_take_of_lt (by omega), List.getElem?_take_of_lt (by omega)] at this
    rw [this, h.1]
  · rw [h2]
    exact h.2

theorem at_agree {O O' : Oracle N M} {i : ℕ} {x : Arg N} (h : At P O i x) (ho : ∀ y : Arg N, y.1 ≠ x.1 → O' y = O y) : ∀ y ∈ (P.asked O).take i, O' y = O y :=
  fun y hy => ho y fun e => h.2 (by rwa [← Subtype.ext e])

theorem take_get {O O' : Oracle N M} {i l : ℕ} (h : (P.asked O').take i = (P.asked O).take i) (hl : l < i) : (P.asked O')[l]? = (P.asked O)[l]? := by
  have := congrArg (·[l]?) h
  beta_reduce at this
  rwa [List.getElem?_take_of_lt hl, List.getElem?_take_of_lt hl] at this

theorem before_get {O : Oracle N M} {i : ℕ} {x : Bytes} (h : x ∈ Before P O i) : ∃ l y, l < i ∧ (P.asked O)[l]? = some y ∧ y.1 = x := by
  obtain ⟨y, hy, rfl⟩ := h
  obtain ⟨l, hl, hl'⟩ := List.getElem_of_mem hy
  rw [List.length_take] at hl
  rw [List.getElem_take] at hl'
  exact ⟨l, y, by omega, by rw [List.getElem?_eq_getElem (by omega), hl'], rfl⟩

theorem before_all (O : Oracle N M) (i : ℕ) : Before P O i ⊆ All P O := fun _ ⟨y, hy, h⟩ => ⟨y, List.mem_of_mem_take hy, h⟩

/-! ### Digests in strings -/

/-- The places in a string where digests can be: those of a list of digests, the place after the first byte, and the place before the last 34 bytes. -/
def place (I : Picnic3.Inst) (o : Fin (I.T + 3)) (x : Bytes) : ℕ := if o.1 ≤ I.T then o * I.digest else if o.1 = I.T + 1 then 1 else x.length - 34 - I.digest

def slice (I : Picnic3.Inst) (o : Fin (I.T + 3)) (x : Bytes) : Bytes := (x.drop (place I o x)).take I.digest

/-- The first message in a string for the challenge. -/
def firstOf (I : Picnic3.Inst) (c : Bytes) : Picnic3.First :=
  ⟨(c.drop ((I.T + 1) * I.digest)).take 32, (c.drop (I.T * I.digest)).take I.digest, fun t => (c.drop (t * I.digest)).take I.digest⟩

theorem slice_flatMap {s : ℕ → Bytes} {c n j : ℕ} (h : ∀ i < n, (s i).length = c) (hj : j < n) (z : Bytes) : ((((List.range n).flatMap s) ++ z).drop (j * c)).take c = s j := by
  obtain ⟨m, rfl⟩ : ∃ m, n = j + (m + 1) := ⟨n - j - 1, by omega⟩
  rw [List.range_add, List.flatMap_append, List.append_assoc, List.drop_append_of_le_length (by rw [flatMap_len (c := c) fun i hi => h i (by have := List.mem_range.1 hi; omega), List.length_range]),
    List.drop_of_length_le (by rw [flatMap_len (c := c) fun i hi => h i (by have := List.mem_range.1 hi; omega), List.length_range]), List.nil_append,
    List.range_succ_eq_map, List.map_cons, List.flatMap_cons, List.append_assoc, Nat.add_zero, List.take_append_of_le_length (by rw [h j (by omega)]),
    List.take_of_length_le (by rw [h j (by omega)])]

theorem named_slice (hI : I.Is p) {O : Oracle N M} {L : Set Bytes} {c d : Bytes} (hc : (I.T + 1) * I.digest + 32 ≤ c.length) (h : (over I O).Named (firstOf I c) L d) :
    ∃ o, d = slice I o c ∨ ∃ y ∈ L, d = slice I o y := by
  have hS := sizes hI
  have h16 := hS.T16
  have hd := hS.dig
  cases h with
  | root => exact ⟨⟨I.T, by omega⟩, Or.inl (by simp [slice, place, firstOf])⟩
  | digests t ht =>
    have ht : t < I.T := ht
    exact ⟨⟨t, by omega⟩, Or.inl (by simp [slice, place, firstOf, ht.le])⟩
  | com v j hv hl hj =>
    refine ⟨⟨j, by omega⟩, Or.inr ⟨_, hv, ?_⟩⟩
    unfold slice place
    rw [if_pos (by simp only; omega)]
    have := slice_flatMap (s := v.com) (c := I.digest) hl hj []
    rw [List.append_nil] at this
    exact this.symm
  | left hh x hx hl =>
    refine ⟨⟨I.T + 1, by omega⟩, Or.inr ⟨_, hx, ?_⟩⟩
    unfold slice place Picnic3.Inst.nodeString
    have hl : (hh (2 * x)).length = I.digest := hl
    rw [if_neg (by simp), if_pos rfl]
    simp [List.take_append_of_le_length, hl]
  | right hh x hx hr hl =>
    refine ⟨⟨I.T + 2, by omega⟩, Or.inr ⟨_, hx, ?_⟩⟩
    unfold slice place Picnic3.Inst.nodeString
    have hl : (hh (2 * x + 1)).length = I.digest := hl
    have hs : (firstOf I c).salt.length = 32 := by
      simp only [firstOf, List.length_take, List.length_drop]
      omega
    rw [if_neg (by simp), if_neg (by simp), if_pos hr, show ([3] ++ hh (2 * x) ++ hh (2 * x + 1) ++ (firstOf I c).salt ++ Picnic1.int16 (x - 1) : Bytes) =
      ([3] ++ hh (2 * x)) ++ (hh (2 * x + 1) ++ ((firstOf I c).salt ++ Picnic1.int16 (x - 1))) by simp only [List.append_assoc],
      List.drop_left' (by simp only [List.length_append, hl, hs, int16_len]; omega), List.take_left' hl]

/-! ### Bad events -/

variable (P I) in
/-- Two questions have the same digest. -/
def Bad1 (i l : Fin R) (O : Oracle N M) : Prop := ∃ x y, At P O i x ∧ (P.asked O)[(l : ℕ)]? = some y ∧ (l : ℕ) < i ∧ Rom.hash O x.1 I.digest = Rom.hash O y.1 I.digest

variable (P I) in
/-- A question has a digest that is in it or in an earlier question. -/
def Bad3 (i l : Fin R) (o : Fin (I.T + 3)) (O : Oracle N M) : Prop :=
  ∃ x y, At P O i x ∧ (P.asked O)[(l : ℕ)]? = some y ∧ (l : ℕ) ≤ i ∧ Rom.hash O x.1 I.digest = slice I o y.1

theorem prob_bad1 (hM : I.digest ≤ M) (i l : Fin R) : prob (Bad1 I P i l) ≤ 1 / 2 ^ (8 * I.digest) := by
  refine prob_point hM (qstr P · i) (fun O => Rom.hash O (qstr P O l) I.digest) ?_ ?_ ?_
  · rintro O ⟨x, y, h, -⟩
    rw [at_str h]
    exact x.2
  · rintro O ⟨x, y, h, h1, h2, h3⟩
    rw [at_str h, h3, qstr, h1]
    rfl
  · rintro O O' ⟨x, y, h, h1, h2, h3⟩ ho
    rw [at_str h] at ho
    obtain ⟨e1, e2, h'⟩ := at_step h (at_agree h ho)
    refine ⟨by rw [at_str h, at_str h'], ?_⟩
    have e3 := take_get e2 h2
    unfold qstr
    rw [e3, h1, Option.map_some, Option.getD_some]
    unfold Rom.hash ask
    rw [dif_pos y.2, dif_pos y.2, ho]
    intro e
    exact h.2 (by rw [← Subtype.ext e]; exact mem_take h1 h2)

theorem prob_bad3 (hM : I.digest ≤ M) (i l : Fin R) (o : Fin (I.T + 3)) : prob (Bad3 I P i l o) ≤ 1 / 2 ^ (8 * I.digest) := by
  refine prob_point hM (qstr P · i) (fun O => slice I o (qstr P O l)) ?_ ?_ ?_
  · rintro O ⟨x, y, h, -⟩
    rw [at_str h]
    exact x.2
  · rintro O ⟨x, y, h, h1, h2, h3⟩
    rw [at_str h, h3, qstr, h1]
    rfl
  · rintro O O' ⟨x, y, h, h1, h2, h3⟩ ho
    rw [at_str h] at ho
    obtain ⟨e1, e2, h'⟩ := at_step h (at_agree h ho)
    refine ⟨by rw [at_str h, at_str h'], ?_⟩
    have e3 := take_get e1 (l := l) (by omega)
    unfold qstr
    rw [e3]

theorem no_collision {O : Oracle N M} (hR : (P.asked O).length ≤ R) (h1 : ∀ i l : Fin R, ¬ Bad1 I P i l O) :
    ∀ x ∈ All P O, ∀ y ∈ All P O, ¬ (over I O).Collide x y := by
  rintro _ ⟨x, hx, rfl⟩ _ ⟨y, hy, rfl⟩ ⟨hne, e⟩
  rw [over_hash, over_hash] at e
  obtain ⟨i, hi⟩ := exists_at hx
  obtain ⟨l, hl⟩ := exists_at hy
  obtain h | h | h := lt_trichotomy l i
  · exact h1 ⟨i, at_lt hi hR⟩ ⟨l, at_lt hl hR⟩ ⟨x, y, hi, hl.1, h, e⟩
  · subst h
    exact hne (by rw [Option.some.inj (hi.1.symm.trans hl.1)])
  · exact h1 ⟨l, at_lt hl hR⟩ ⟨i, at_lt hi hR⟩ ⟨y, x, hl, hi.1, h, e.symm⟩

/-! ### Lucky challenges -/

variable (P I ct pt) in
/-- The challenges that can be answered with what is known before question `i`. -/
def S (O : Oracle N M) (i : ℕ) : Set I.Vector :=
  {e | (∀ x ∈ Before P O i, ∀ y ∈ Before P O i, ¬ (over I O).Collide x y) ∧
    ¬ (over I O).Reveals ct pt (firstOf I (qstr P O i)).salt (firstOf I (qstr P O i)).digests (Before P O i) ∧
    (over I O).Answerable ct pt (firstOf I (qstr P O i)).salt (firstOf I (qstr P O i)).root (firstOf I (qstr P O i)).digests (Before P O i) e.1}

theorem chal_long (hI : I.Is p) : I.digest + 1 < (I.T + 1) * I.digest + 32 ∧ I.seed + 37 < (I.T + 1) * I.digest + 32 ∧ I.digest + 1 ≠ I.seed + 36 ∧ I.digest + 1 ≠ I.seed + 37 := by
  obtain ⟨-, -, -, h4, -, h6, h7, h8, h9, -⟩ | ⟨-, -, -, h4, -, h6, h7, h8, h9, -⟩ | ⟨-, -, -, h4, -, h6, h7, h8, h9, -⟩ := nums hI <;> rw [h4, h6, h7] <;> decide

/-- Question `i` as a fresh string. -/
def freshAt (hI : I.Is p) (P : Proc N M) (i : Fin R) : Fresh N M I R where
  V O := ∃ x, At P O i x ∧ (I.T + 1) * I.digest + 32 ≤ x.1.length
  c O := qstr P O i
  Z O := ((P.asked O).take i).map (·.1)
  hlen := by
    rintro O ⟨x, h, -⟩
    rw [at_str h]
    exact x.2
  hne := by
    rintro O ⟨x, h, hc⟩ d hd e
    rw [at_str h] at e
    rw [e, next_len, hd] at hc
    have := (chal_long hI).1
    omega
  hZ := by
    intro O _
    rw [List.length_map, List.length_take]
    exact le_trans (Nat.min_le_left _ _) (le_of_lt i.2)
  inv := by
    rintro O O' ⟨x, h, hc⟩ ho
    rw [at_str h] at ho
    have ho' : ∀ y ∈ (P.asked O).take i, O' y = O y := by
      intro y hy
      refine ho y (fun e => h.2 (by rwa [← Subtype.ext e])) fun d hd hd' e => ?_
      exact hd' (List.mem_map.2 ⟨y, hy, e⟩)
    obtain ⟨e1, e2, h'⟩ := at_step h ho'
    exact ⟨⟨x, h', hc⟩, by rw [at_str h, at_str h'], by rw [e2]⟩

theorem s_congr (hI : I.Is p) {i : Fin R} {O O' : Oracle N M} (hV : (freshAt hI P i).V O) (hs : (freshAt hI P i).Same O O') : S I ct pt P O i ⊆ S I ct pt P O' i := by
  obtain ⟨x, h, hc⟩ := hV
  have ho : ∀ y : Arg N, y.1 ≠ x.1 → (∀ d : Bytes, d.length = I.digest → [1] ++ d ∉ ((P.asked O).take i).map (·.1) → y.1 ≠ [1] ++ d) → O' y = O y := fun y h1 h2 =>
    hs y (by show y.1 ≠ qstr P O i; rw [at_str h]; exact h1) h2
  have ho' : ∀ y ∈ (P.asked O).take i, O' y = O y := by
    intro y hy
    refine ho y (fun e => h.2 (by rwa [← Subtype.ext e])) fun d hd hd' e => ?_
    exact hd' (List.mem_map.2 ⟨y, hy, e⟩)
  obtain ⟨e1, e2, h'⟩ := at_step h ho'
  have hB : Before P O' i = Before P O i := by unfold Before; rw [e2]
  have hq : qstr P O' i = qstr P O i := by rw [at_str h, at_str h']
  obtain ⟨c1, c2, c3, c4⟩ := chal_long hI
  have agL : ∀ y ∈ Before P O i, (over I O).xof y = (over I O').xof y := by
    rintro _ ⟨y, hy, rfl⟩
    exact over_xof (ask_same fun _ => ho' y hy)
  have agS : ∀ y : Bytes, y.length = I.seed + 36 ∨ y.length = I.seed + 37 → (over I O).xof y = (over I O').xof y := by
    intro y hy
    refine over_xof (ask_same fun hN => ho _ (fun e => ?_) fun d hd _ e => ?_)
    · have : y = x.1 := e
      rw [this] at hy
      omega
    · have : y = [1] ++ d := e
      rw [this, next_len] at hy
      omega
  have hsalt : (firstOf I (qstr P O i)).salt.length = 32 := by
    rw [at_str h]
    simp only [firstOf, List.length_take, List.length_drop]
    omega
  rintro e ⟨g1, g2, g3⟩
  refine ⟨?_, ?_, ?_⟩
  · rw [hB]
    rintro a ha b hb ⟨hne, he⟩
    refine g1 a ha b hb ⟨hne, ?_⟩
    rw [show (over I O).hash a (over I O).digest = (over I O').hash a (over I O').digest from hash_same (I := I) (agL a ha) _,
      show (over I O).hash b (over I O).digest = (over I O').hash b (over I O').digest from hash_same (I := I) (agL b hb) _]
    exact he
  · rw [hB, hq]
    intro hr
    exact g2 (reveals_congr (I := I) (f := (over I O').xof) (g := (over I O).xof) (fun y hy => (agS y (Or.inl hy)).symm) (fun y hy => (agL y hy).symm) hsalt hr)
  · rw [hB, hq]
    exact answerable_congr (I := I) (f := (over I O).xof) (g := (over I O').xof) hI (fun y hy => agS y (Or.inr hy)) (fun y hy => agS y (Or.inl hy)) agL hsalt e.2 g3

theorem s_card (hI : I.Is p) {κ : ℕ} (hκ : level p = some κ) (O : Oracle N M) (i : ℕ) (s : Finset I.Vector) (hs : ∀ e ∈ s, e ∈ S I ct pt P O i) :
    s.card * 2 ^ κ ≤ Fintype.card I.Vector := by
  classical
  obtain rfl | ⟨e, he⟩ := s.eq_empty_or_nonempty
  · simp
  obtain ⟨h1, h2, -⟩ := hs e he
  have h := C44_p3_rate (over I O) p hI κ hκ ct pt _ (firstOf I (qstr P O i)).root _ _ h1 h2
  have e1 : s.card ≤ (Finset.univ.filter fun e : Fin (over I O).T → Option (Fin 16) => Picnic3.IsVector (over I O).u e ∧
      (over I O).Answerable ct pt (firstOf I (qstr P O i)).salt (firstOf I (qstr P O i)).root (firstOf I (qstr P O i)).digests (Before P O i) e).card := by
    refine Finset.card_le_card_of_injOn (fun e : I.Vector => e.1) (fun e he => ?_) (fun a _ b _ hab => Subtype.ext hab)
    simp only [Finset.coe_filter, Finset.mem_univ, true_and, Set.mem_ofPred_eq]
    exact ⟨e.2, (hs e he).2.2⟩
  refine le_trans (Nat.mul_le_mul_right _ ?_) (le_trans h (le_of_eq ?_))
  · refine le_trans e1 (le_of_eq ?_)
    congr!
  · rw [Fintype.card_subtype]
    rfl

theorem prob_lucky_at (hI : I.Is p) {κ : ℕ} (hκ : level p = some κ) (hM : I.digest ≤ M) (hN : I.digest + 1 ≤ N) (i : Fin R) (m : ℕ) (hm : 0 < m) :
    prob (fun O => (freshAt hI P i).V O ∧ ∃ C Q, ∃ e ∈ S I ct pt P O i, (over I O).Challenge (Rom.hash O (qstr P O i) I.digest) C Q ∧ Picnic3.Asks C Q e.1) ≤
      1 / 2 ^ κ + (I.u + 1) / 2 ^ (54 * m) + ((((I.u + 1) * m : ℕ) : ℝ) ^ 2 + ((I.u + 1) * m : ℕ) * R) / 2 ^ (8 * I.digest) :=
  prob_lucky (F := freshAt hI P i) hI hM hN κ (fun O => S I ct pt P O i) (fun _ _ hV hs => s_congr hI hV hs) (fun O _ s hs => s_card hI hκ O i s hs) m hm

end Picnic.Rom3
