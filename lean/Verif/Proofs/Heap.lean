import Verif.Model.Heap
import Mathlib.Algebra.BigOperators.Group.List.Basic
import Mathlib.Algebra.Order.Group.Multiset
import Mathlib.Data.List.Induction
import Mathlib.Tactic.Abel

/-
Hoare triples for the model of heap blocks: a run without failing allocations, from a given multiset of live blocks.
-/

namespace Picnic.Heap

variable {α β : Type}

/-- From any heap with the live blocks `F` and without failing allocations, `m` has no undefined behaviour and ends with a result and
live blocks satisfying `Q`. -/
def Tr (m : HM α) (F : Multiset ℕ) (Q : α → Multiset ℕ → Prop) : Prop :=
  ∀ h : Heap, (∀ n, h.fail n = false) → h.live = F →
    ∃ a h', m h = Outcome.ok (a, h') ∧ (∀ n, h'.fail n = false) ∧ Q a h'.live

theorem Tr.bind {m : HM α} {f : α → HM β} {F : Multiset ℕ} {Q : α → Multiset ℕ → Prop} {R : β → Multiset ℕ → Prop} (h1 : Tr m F Q)
    (h2 : ∀ a L, Q a L → Tr (f a) L R) : Tr (m >>= f) F R := by
  intro h hf hl
  obtain ⟨a, h', e, hf', hq⟩ := h1 h hf hl
  obtain ⟨b, h'', e', hf'', hr⟩ := h2 a _ hq h' hf' rfl
  refine ⟨b, h'', ?_, hf'', hr⟩
  show StateT.bind m f h = _
  unfold StateT.bind
  show Outcome.bind (m h) _ = _
  rw [e]
  exact e'

theorem Tr.pure {a : α} {F : Multiset ℕ} {Q : α → Multiset ℕ → Prop} (h : Q a F) : Tr (Pure.pure a) F Q :=
  fun h' hf hl => ⟨a, h', rfl, hf, by rw [hl]; exact h⟩

theorem Tr.mono {m : HM α} {F : Multiset ℕ} {Q R : α → Multiset ℕ → Prop} (h1 : Tr m F Q) (h2 : ∀ a L, Q a L → R a L) : Tr m F R :=
  fun h hf hl => by
    obtain ⟨a, h', e, hf', hq⟩ := h1 h hf hl
    exact ⟨a, h', e, hf', h2 _ _ hq⟩

/-- The block of a pointer. -/
def Ptr.own : Ptr → Multiset ℕ
  | .blk i => {i}
  | _ => 0

def Ptr.IsBlk (p : Ptr) : Prop := ∃ i, p = .blk i

/-- The pointer refers to one of the blocks in `F`. -/
def Ptr.In (p : Ptr) (F : Multiset ℕ) : Prop := p.IsBlk ∧ p.own ≤ F

/-- `none` or a live block -/
def InC (c : Option Ptr) (F : Multiset ℕ) : Prop := ∀ p ∈ c, p.In F

theorem Ptr.In.mono {p : Ptr} {F G : Multiset ℕ} (h : p.In F) (hG : F ≤ G) : p.In G := ⟨h.1, h.2.trans hG⟩
theorem InC.mono {c : Option Ptr} {F G : Multiset ℕ} (h : InC c F) (hG : F ≤ G) : InC c G := fun p hp => (h p hp).mono hG
theorem InC.none {F : Multiset ℕ} : InC none F := fun _ h => by cases h
theorem InC.some {p : Ptr} {F : Multiset ℕ} (h : p.In F) : InC (some p) F := fun q hq => by cases hq; exact h

theorem tr_malloc {n : ℕ} {F : Multiset ℕ} : Tr (malloc n) F fun p L => p.IsBlk ∧ L = p.own + F := fun h hf hl => by
  refine ⟨.blk h.next, h.alloc n, by unfold malloc; rw [hf, if_neg (by simp)], hf, ⟨_, rfl⟩, ?_⟩
  · show h.next ::ₘ h.live = _
    rw [hl]; rfl

theorem tr_touch {p : Ptr} {F : Multiset ℕ} (h : p.In F) : Tr (touch p) F fun _ L => L = F := fun h' hf hl => by
  obtain ⟨⟨i, rfl⟩, h2⟩ := h
  refine ⟨(), h', ?_, hf, hl⟩
  show (if i ∈ h'.live then _ else _) = _
  rw [if_pos]
  rw [hl]
  exact Multiset.mem_of_le h2 (Multiset.mem_singleton_self i)

theorem tr_touchC {c : Option Ptr} {F : Multiset ℕ} (h : InC c F) : Tr (touchC c) F fun _ L => L = F := by
  cases c with
  | none => exact Tr.pure rfl
  | some p => exact tr_touch (h p rfl)

/-- A pointer that may be released: NULL or a block. -/
def Ptr.Ok (p : Ptr) : Prop := p = .null ∨ p.IsBlk

theorem Ptr.IsBlk.ok {p : Ptr} (h : p.IsBlk) : p.Ok := Or.inr h
theorem Ptr.ok_null : Ptr.Ok .null := Or.inl rfl

theorem tr_free {p : Ptr} {F : Multiset ℕ} (h : p.Ok) : Tr (free p) (p.own + F) fun _ L => L = F := fun h' hf hl => by
  rcases h with rfl | ⟨i, rfl⟩
  · exact ⟨(), h', rfl, hf, by rw [hl]; exact zero_add _⟩
  · refine ⟨(), { h' with live := h'.live.erase i }, ?_, hf, ?_⟩
    · show (if i ∈ h'.live then _ else _) = _
      rw [if_pos]
      rw [hl]
      exact Multiset.mem_add.2 (Or.inl (Multiset.mem_singleton_self i))
    · show h'.live.erase i = _
      rw [hl]
      exact Multiset.erase_cons_head _ _

/-- `tr_free` when the block is somewhere in the sum. -/
theorem tr_free' {p : Ptr} {F G : Multiset ℕ} (h : p.Ok) (e : F = p.own + G) : Tr (free p) F fun _ L => L = G := e ▸ tr_free h

theorem tr_realloc {p : Ptr} {n : ℕ} {F G : Multiset ℕ} (h : p.IsBlk) (e : F = p.own + G) : Tr (realloc p n) F fun q L => q.IsBlk ∧ L = q.own + G := by
  subst e
  refine Tr.bind (tr_touch ⟨h, Multiset.le_add_right _ _⟩) ?_
  rintro _ _ rfl
  refine Tr.bind tr_malloc ?_
  rintro q _ ⟨⟨i, rfl⟩, rfl⟩
  refine Tr.bind (tr_free' (G := Ptr.own (.blk i) + G) h.ok (by abel)) ?_
  rintro _ _ rfl
  exact Tr.pure ⟨⟨_, rfl⟩, rfl⟩

/-- Sum of the blocks of the elements of a list. -/
def ownL (own : α → Multiset ℕ) (l : List α) : Multiset ℕ := (l.map own).sum

theorem ownL_nil {own : α → Multiset ℕ} : ownL own [] = 0 := rfl
theorem ownL_append {own : α → Multiset ℕ} (l l' : List α) : ownL own (l ++ l') = ownL own l + ownL own l' := by simp [ownL]
theorem ownL_single {own : α → Multiset ℕ} (x : α) : ownL own [x] = own x := by simp [ownL]
theorem ownL_snoc {own : α → Multiset ℕ} (l : List α) (x : α) : ownL own (l ++ [x]) = ownL own l + own x := by
  rw [ownL_append, ownL_single]
theorem own_le {own : α → Multiset ℕ} {l : List α} {x : α} (h : x ∈ l) : own x ≤ ownL own l := by
  obtain ⟨a, b, rfl⟩ := List.append_of_mem h
  rw [ownL_append, show x :: b = [x] ++ b from rfl, ownL_append, ownL_single]
  exact (Multiset.le_add_right _ _).trans (Multiset.le_add_left _ _)

theorem tr_getH {l : List α} {i : ℕ} {F : Multiset ℕ} (h : i < l.length) : Tr (getH l i) F fun x L => x ∈ l ∧ L = F := by
  unfold getH
  rw [List.getElem?_eq_getElem h]
  exact Tr.pure ⟨List.getElem_mem h, rfl⟩

theorem tr_getH_eq {l : List α} {i : ℕ} {F : Multiset ℕ} (h : i < l.length) : Tr (getH l i) F fun x L => x = l[i] ∧ L = F := by
  unfold getH
  rw [List.getElem?_eq_getElem h]
  exact Tr.pure ⟨rfl, rfl⟩

theorem tr_forH {f : ℕ → HM Unit} {n : ℕ} {F : Multiset ℕ} (h : ∀ i < n, Tr (f i) F fun _ L => L = F) : Tr (forH f n) F fun _ L => L = F := by
  induction n with
  | zero => exact Tr.pure rfl
  | succ n ih =>
    refine Tr.bind (ih fun i hi => h i (by omega)) ?_
    rintro _ _ rfl
    exact h n (by omega)

/-- A loop that releases the elements of a list. -/
theorem tr_forH_free {own : α → Multiset ℕ} {f : ℕ → HM Unit} {l : List α} {F : Multiset ℕ}
    (h : ∀ i, ∀ hi : i < l.length, ∀ G, F ≤ G → Tr (f i) (own l[i] + G) fun _ L => L = G) :
    ∀ n, n = l.length → Tr (forH f n) (ownL own l + F) fun _ L => L = F := by
  intro n hn
  subst hn
  induction l using List.reverseRecOn generalizing F with
  | nil => exact Tr.pure (by rw [ownL_nil, zero_add])
  | append_singleton l x ih =>
    rw [List.length_append, List.length_singleton]
    have e : ownL own (l ++ [x]) + F = ownL own l + (own x + F) := by rw [ownL_snoc]; abel
    rw [e]
    refine Tr.bind (ih (F := own x + F) fun i hi G hG => ?_) ?_
    · have := h i (by simp; omega) G ((Multiset.le_add_left _ _).trans hG)
      rwa [List.getElem_append_left hi] at this
    · rintro _ _ rfl
      have := h l.length (by simp) F le_rfl
      rwa [List.getElem_concat_length rfl] at this

theorem tr_collectH {own : α → Multiset ℕ} {good : ℕ → α → Prop} {f : ℕ → HM α} {n : ℕ} {F : Multiset ℕ}
    (h : ∀ i < n, ∀ G, F ≤ G → Tr (f i) G fun x L => good i x ∧ L = own x + G) :
    Tr (collectH f n) F fun l L => l.length = n ∧ (∀ i, ∀ hi : i < l.length, good i l[i]) ∧ L = ownL own l + F := by
  induction n with
  | zero => exact Tr.pure ⟨rfl, fun i hi => absurd hi (by simp), by rw [ownL_nil, zero_add]⟩
  | succ n ih =>
    refine Tr.bind (ih fun i hi => h i (by omega)) ?_
    rintro l _ ⟨hl, hg, rfl⟩
    refine Tr.bind (h n (by omega) _ (Multiset.le_add_left _ _)) ?_
    rintro x _ ⟨hx, rfl⟩
    refine Tr.pure ⟨by simp [hl], fun i hi => ?_, by rw [ownL_snoc]; abel⟩
    by_cases hi' : i < l.length
    · rw [List.getElem_append_left hi']; exact hg i hi'
    · have : i = l.length := by simp at hi; omega
      subst this
      rw [List.getElem_concat_length rfl, hl]
      exact hx

theorem tr_collectWhile {own : α → Multiset ℕ} {good : ℕ → α → Prop} {d : α} {f : ℕ → HM (Bool × α)} {n : ℕ} {F : Multiset ℕ} (hd : own d = 0) (hgd : ∀ i, good i d)
    (h : ∀ i < n, ∀ G, F ≤ G → Tr (f i) G fun x L => good i x.2 ∧ L = own x.2 + G) :
    Tr (collectWhile d f n) F fun l L => l.2.length = n ∧ (∀ i, ∀ hi : i < l.2.length, good i l.2[i]) ∧ L = ownL own l.2 + F := by
  induction n with
  | zero => exact Tr.pure ⟨rfl, fun i hi => absurd hi (by simp), by rw [ownL_nil, zero_add]⟩
  | succ n ih =>
    refine Tr.bind (ih fun i hi => h i (by omega)) ?_
    rintro ⟨ok, l⟩ _ ⟨hl, hg, rfl⟩
    dsimp only at hl hg ⊢
    have key : ∀ x, good n x → ∀ i, ∀ hi : i < (l ++ [x]).length, good i (l ++ [x])[i] := fun x hx i hi => by
      by_cases hi' : i < l.length
      · rw [List.getElem_append_left hi']; exact hg i hi'
      · have : i = l.length := by simp at hi; omega
        subst this
        rw [List.getElem_concat_length rfl, hl]
        exact hx
    cases ok with
    | false => exact Tr.pure ⟨by simp [hl], key d (hgd n), by rw [ownL_snoc, hd, add_zero]⟩
    | true =>
      refine Tr.bind (h n (by omega) _ (Multiset.le_add_left _ _)) ?_
      rintro ⟨ok, x⟩ _ ⟨hx, rfl⟩
      exact Tr.pure ⟨by simp [hl], key x hx, by rw [ownL_snoc]; abel⟩

/-- The loop runs to its end if every step succeeds. -/
theorem tr_collectWhile_true {own : α → Multiset ℕ} {good : ℕ → α → Prop} {d : α} {f : ℕ → HM (Bool × α)} {n : ℕ} {F : Multiset ℕ}
    (h : ∀ i < n, ∀ G, F ≤ G → Tr (f i) G fun x L => x.1 = true ∧ good i x.2 ∧ L = own x.2 + G) :
    Tr (collectWhile d f n) F fun l L => l.1 = true ∧ l.2.length = n ∧ (∀ i, ∀ hi : i < l.2.length, good i l.2[i]) ∧ L = ownL own l.2 + F := by
  induction n with
  | zero => exact Tr.pure ⟨rfl, rfl, fun i hi => absurd hi (by simp), by rw [ownL_nil, zero_add]⟩
  | succ n ih =>
    refine Tr.bind (ih fun i hi => h i (by omega)) ?_
    rintro ⟨ok, l⟩ _ ⟨rfl, hl, hg, rfl⟩
    dsimp only at hl hg ⊢
    refine Tr.bind (h n (by omega) _ (Multiset.le_add_left _ _)) ?_
    rintro ⟨ok, x⟩ _ ⟨hok, hx, rfl⟩
    refine Tr.pure ⟨hok, by simp [hl], fun i hi => ?_, by rw [ownL_snoc]; abel⟩
    by_cases hi' : i < l.length
    · dsimp only
      rw [List.getElem_append_left hi']; exact hg i hi'
    · have : i = l.length := by simp at hi; omega
      subst this
      dsimp only
      rw [List.getElem_concat_length rfl, hl]
      exact hx

theorem tr_whileH {f : ℕ → HM Bool} {n : ℕ} {F : Multiset ℕ} {Q : Multiset ℕ → Prop}
    (h : ∀ i < n, Tr (f i) F fun b L => if b then L = F else Q L) :
    Tr (whileH f n) F fun b L => if b then L = F else Q L := by
  induction n with
  | zero => exact Tr.pure rfl
  | succ n ih =>
    refine Tr.bind (ih fun i hi => h i (by omega)) ?_
    rintro b L hL
    cases b with
    | false => exact Tr.pure hL
    | true =>
      rw [if_pos rfl] at hL
      subst hL
      exact h n (by omega)

end Picnic.Heap
