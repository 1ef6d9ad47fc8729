import Verif.Proofs.Heap
import Mathlib.Tactic.Linarith

/-
How many bytes are requested: rules for bounds on the growth of the heap, and such bounds for all functions of Model/Heap.
-/

namespace Picnic.Heap

variable {α β : Type}

/-- the numbers of live blocks have been given out -/
def Heap.WF (h : Heap) : Prop := ∀ i ∈ h.live, i < h.next

/-- A run of `m` that ends without undefined behaviour adds at most `n` bytes to the heap, at every moment; its result has `Q`.
Allocations may fail. -/
def Req (m : HM α) (n : ℕ) (Q : α → Prop) : Prop :=
  ∀ h : Heap, h.WF → ∀ a h', m h = Outcome.ok (a, h') →
    h'.WF ∧ h'.bytes ≤ h.bytes + n ∧ h'.peak ≤ max h.peak (h.bytes + n) ∧ Q a

theorem Req.mono {m : HM α} {n k : ℕ} {Q R : α → Prop} (h : Req m n Q) (hn : n ≤ k) (hq : ∀ a, Q a → R a) : Req m k R := by
  intro g hg a g' e
  obtain ⟨h1, h2, h3, h4⟩ := h g hg a g' e
  refine ⟨h1, by omega, by omega, hq a h4⟩

theorem Req.any {m : HM α} {n : ℕ} {Q : α → Prop} (h : Req m n Q) : Req m n fun _ => True := h.mono le_rfl fun _ _ => trivial

theorem Req.le {m : HM α} {n k : ℕ} {Q : α → Prop} (h : Req m n Q) (hn : n ≤ k) : Req m k Q := h.mono hn fun _ h => h

theorem Req.pure {a : α} {Q : α → Prop} (h : Q a) : Req (Pure.pure a) 0 Q := by
  intro g hg b g' e
  cases e
  exact ⟨hg, le_rfl, le_max_left _ _, h⟩

theorem Req.bind {m : HM α} {f : α → HM β} {n k : ℕ} {Q : α → Prop} {R : β → Prop} (h1 : Req m n Q) (h2 : ∀ a, Q a → Req (f a) k R) :
    Req (m >>= f) (n + k) R := by
  intro g hg b g' e
  have e' : Outcome.bind (m g) (fun x => f x.1 x.2) = Outcome.ok (b, g') := e
  cases em : m g with
  | ok x =>
    rw [em] at e'
    obtain ⟨a1, a2, a3, a4⟩ := h1 g hg x.1 x.2 em
    obtain ⟨b1, b2, b3, b4⟩ := h2 x.1 a4 x.2 a1 b g' e'
    exact ⟨b1, by omega, by omega, b4⟩
  | ub u => rw [em] at e'; cases e'
  | diverge => rw [em] at e'; cases e'
  | abort => rw [em] at e'; cases e'

theorem Req.ite {c : Prop} [Decidable c] {m m' : HM α} {n k : ℕ} {Q : α → Prop} (h1 : Req m n Q) (h2 : Req m' k Q) :
    Req (if c then m else m') (max n k) Q := by
  split
  · exact h1.le (le_max_left _ _)
  · exact h2.le (le_max_right _ _)

theorem bytes_alloc (h : Heap) (hg : h.WF) (n : ℕ) : (h.alloc n).bytes = h.bytes + n := by
  show ((h.next ::ₘ h.live).map fun i => if i = h.next then n else h.size i).sum = (h.live.map h.size).sum + n
  rw [Multiset.map_cons, Multiset.sum_cons, if_pos rfl, Nat.add_comm]
  congr 2
  exact Multiset.map_congr rfl fun i hi => if_neg (Nat.ne_of_lt (hg i hi))

theorem req_malloc {n : ℕ} : Req (malloc n) n fun _ => True := by
  intro g hg a g' e
  unfold malloc at e
  split at e
  · cases e
    exact ⟨fun i hi => Nat.lt_succ_of_lt (hg i hi), Nat.le_add_right _ _, le_max_left _ _, trivial⟩
  · cases e
    refine ⟨fun i hi => ?_, (bytes_alloc g hg n).le, ?_, trivial⟩
    · show i < g.next + 1
      rcases Multiset.mem_cons.1 hi with rfl | hi
      · exact Nat.lt_succ_self _
      · exact Nat.lt_succ_of_lt (hg i hi)
    · show max g.peak (g.alloc n).bytes ≤ _
      rw [bytes_alloc g hg]

theorem req_ubH {u : UB} {Q : α → Prop} : Req (ubH u) 0 Q := fun _ _ _ _ e => by cases e

theorem req_touch {p : Ptr} : Req (touch p) 0 fun _ => True := by
  intro g hg a g' e
  cases p with
  | undef => cases e
  | null => cases e
  | blk i =>
    have e' : (if i ∈ g.live then Outcome.ok ((), g) else .ub .oobRead) = Outcome.ok (a, g') := e
    split at e'
    · cases e'
      exact ⟨hg, le_rfl, le_max_left _ _, trivial⟩
    · cases e'

theorem req_touchC {c : Option Ptr} : Req (touchC c) 0 fun _ => True := by
  cases c with
  | none => exact Req.pure trivial
  | some p => exact req_touch

theorem req_free {p : Ptr} : Req (free p) 0 fun _ => True := by
  intro g hg a g' e
  cases p with
  | undef => cases e
  | null =>
    cases e
    exact ⟨hg, le_rfl, le_max_left _ _, trivial⟩
  | blk i =>
    have e' : (if i ∈ g.live then Outcome.ok ((), { g with live := g.live.erase i }) else .ub .badFree) = Outcome.ok (a, g') := e
    split at e'
    · rename_i hi
      cases e'
      refine ⟨fun j hj => hg j (Multiset.mem_of_mem_erase hj), ?_, le_max_left _ _, trivial⟩
      show ((g.live.erase i).map g.size).sum ≤ (g.live.map g.size).sum + 0
      conv_rhs => rw [← Multiset.cons_erase hi, Multiset.map_cons, Multiset.sum_cons]
      omega
    · cases e'

theorem req_getH {l : List α} {i : ℕ} {Q : α → Prop} (h : ∀ x ∈ l, Q x) : Req (getH l i) 0 Q := by
  unfold getH
  cases hi : l[i]? with
  | none => exact req_ubH
  | some x => exact Req.pure (h x (List.mem_of_getElem? hi))

theorem Req.forH {f : ℕ → HM Unit} {n k : ℕ} {Q : Unit → Prop} (h : ∀ i, Req (f i) k Q) : Req (forH f n) (n * k) fun _ => True := by
  induction n with
  | zero => exact (Req.pure trivial).le (Nat.zero_le _)
  | succ n ih =>
    rw [Nat.add_mul, Nat.one_mul]
    exact Req.bind ih fun _ _ => (h n).any

theorem Req.whileH {f : ℕ → HM Bool} {n k : ℕ} {Q : Bool → Prop} (h : ∀ i, Req (f i) k Q) : Req (whileH f n) (n * k) fun _ => True := by
  induction n with
  | zero => exact (Req.pure trivial).le (Nat.zero_le _)
  | succ n ih =>
    rw [Nat.add_mul, Nat.one_mul]
    refine Req.bind ih fun b _ => ?_
    cases b
    · exact (Req.pure trivial).le (Nat.zero_le _)
    · exact (h n).any

theorem Req.collectH {f : ℕ → HM α} {n k : ℕ} {Q : α → Prop} (h : ∀ i, Req (f i) k Q) : Req (collectH f n) (n * k) fun l => ∀ x ∈ l, Q x := by
  induction n with
  | zero => exact (Req.pure (by simp)).le (Nat.zero_le _)
  | succ n ih =>
    rw [Nat.add_mul, Nat.one_mul]
    refine Req.bind ih fun l hl => (Req.bind (h n) fun x hx => Req.pure ?_).le (Nat.add_zero _).le
    intro y hy
    rcases List.mem_append.1 hy with hy | hy
    · exact hl y hy
    · rw [List.mem_singleton.1 hy]
      exact hx

/-- A loop in which some rounds need `a` bytes and every round needs `b` bytes. -/
theorem Req.collectH_opened {f : ℕ → HM α} {n u a b : ℕ} {opened : ℕ → Bool} {Q : α → Prop} (ho : (List.range n).countP opened ≤ u)
    (h1 : ∀ i, opened i = true → Req (f i) (b + a) Q) (h2 : ∀ i, opened i = false → Req (f i) b Q) :
    Req (Heap.collectH f n) (n * b + u * a) fun _ => True := by
  refine Req.le (n := n * b + (List.range n).countP opened * a) ?_ (Nat.add_le_add_left (Nat.mul_le_mul_right _ ho) _)
  clear ho
  induction n with
  | zero => exact (Req.pure trivial).le (Nat.zero_le _)
  | succ n ih =>
    rw [List.range_succ, List.countP_append]
    refine (Req.bind ih fun l hl => Req.bind (Q := fun _ => True) (n := b + if opened n = true then a else 0) ?_ fun x hx => Req.pure trivial).le ?_
    · cases hn : opened n with
      | false => simpa using (h2 n hn).any
      | true => simpa using (h1 n hn).any
    · rw [Nat.add_mul, Nat.one_mul, Nat.add_mul]
      cases hn : opened n <;> simp [hn] <;> omega

theorem Req.collectWhile_opened {d : α} {f : ℕ → HM (Bool × α)} {n u a b : ℕ} {opened : ℕ → Bool} {Q : Bool × α → Prop}
    (ho : (List.range n).countP opened ≤ u)
    (h1 : ∀ i, opened i = true → Req (f i) (b + a) Q) (h2 : ∀ i, opened i = false → Req (f i) b Q) :
    Req (collectWhile d f n) (n * b + u * a) fun _ => True := by
  refine Req.le (n := n * b + (List.range n).countP opened * a) ?_ (Nat.add_le_add_left (Nat.mul_le_mul_right _ ho) _)
  clear ho
  induction n with
  | zero => exact (Req.pure trivial).le (Nat.zero_le _)
  | succ n ih =>
    rw [List.range_succ, List.countP_append]
    refine (Req.bind ih fun l hl => (?_ : Req _ (b + if opened n = true then a else 0) _)).le ?_
    · obtain ⟨ok, l⟩ := l
      cases ok
      · exact (Req.pure trivial).le (Nat.zero_le _)
      · refine (Req.bind (Q := fun _ => True) (n := b + if opened n = true then a else 0) (k := 0) ?_ fun x hx => ?_)
        · cases hn : opened n with
          | false => simpa using (h2 n hn).any
          | true => simpa using (h1 n hn).any
        · obtain ⟨_, _⟩ := x
          exact Req.pure trivial
    · rw [Nat.add_mul, Nat.one_mul, Nat.add_mul]
      cases hn : opened n <;> simp [hn] <;> omega

/-- Statements with a bound that needs no conditions. -/
class Known (m : HM α) (n : outParam ℕ) : Prop where
  req : Req m n fun _ => True

instance {a : α} : Known (Pure.pure a) 0 := ⟨Req.pure trivial⟩
instance {n : ℕ} : Known (malloc n) n := ⟨req_malloc⟩
instance {p : Ptr} : Known (touch p) 0 := ⟨req_touch⟩
instance {c : Option Ptr} : Known (touchC c) 0 := ⟨req_touchC⟩
instance {p : Ptr} : Known (free p) 0 := ⟨req_free⟩
instance {l : List α} {i : ℕ} : Known (getH l i) 0 := ⟨req_getH fun _ _ => trivial⟩

/-- The next statements, as far as they are known. -/
macro "rq" : tactic => `(tactic| repeat' first
  | with_reducible exact Known.req
  | with_reducible apply Req.ite
  | with_reducible apply Req.forH
  | with_reducible apply Req.collectH
  | with_reducible apply Req.whileH
  | with_reducible apply Req.bind
  | with_reducible intro _)

/-- The same with one more bound. -/
macro "rq" " with " t:term : tactic => `(tactic| repeat' first
  | with_reducible exact Known.req
  | with_reducible exact $t
  | with_reducible apply Req.ite
  | with_reducible apply Req.forH
  | with_reducible apply Req.collectH
  | with_reducible apply Req.whileH
  | with_reducible apply Req.bind
  | with_reducible intro _)

theorem req_realloc {p : Ptr} {n : ℕ} : Req (realloc p n) n fun _ => True := by
  unfold realloc
  refine Req.le (Req.bind req_touch fun _ _ => Req.bind req_malloc fun q _ => (?_ : Req _ 0 _)) (by omega)
  cases q
  · exact (Req.bind req_free fun _ _ => Req.pure trivial)
  · exact Req.pure trivial
  · exact (Req.bind req_free fun _ _ => Req.pure trivial)

instance {p : Ptr} {n : ℕ} : Known (realloc p n) n := ⟨req_realloc⟩

/-! ### /repo/picnic_types.c -/

def req_allocateShares (n : ℕ) : {w // Req (allocateShares n ) w fun _ => True} :=
  ⟨_, by
    unfold allocateShares
    rq⟩
instance {n : ℕ} : Known (allocateShares n ) (req_allocateShares n).1 := ⟨(req_allocateShares n).2⟩

theorem req_freeShares {s : HShares} : Req (freeShares s) 0 fun _ => True := by
  unfold freeShares
  refine Req.le (n := _) (by rq) ?_
  simp
instance {s : HShares} : Known (freeShares s) 0 := ⟨req_freeShares⟩

def req_allocateView (P : Params) : {w // ∀ (c : Ptr), Req (allocateView P c) w fun _ => True} :=
  ⟨_, fun c => by
    unfold allocateView
    rq⟩
instance {P : Params} {c : Ptr} : Known (allocateView P c) (req_allocateView P).1 := ⟨(req_allocateView P).2 c⟩

theorem req_freeView {c : Ptr} {v : HView} : Req (freeView c v) 0 fun _ => True := by
  unfold freeView
  refine Req.le (n := _) (by rq) ?_
  simp
instance {c : Ptr} {v : HView} : Known (freeView c v) 0 := ⟨req_freeView⟩

theorem req_useView {c : Ptr} {v : HView} : Req (useView c v) 0 fun _ => True := by
  unfold useView
  refine Req.le (n := _) (by rq) ?_
  simp
instance {c : Ptr} {v : HView} : Known (useView c v) 0 := ⟨req_useView⟩

def req_allocateRandomTape (P : Params) : {w // ∀ (c : Option Ptr), Req (allocateRandomTape P c) w fun _ => True} :=
  ⟨_, fun c => by
    unfold allocateRandomTape
    rq⟩
instance {P : Params} {c : Option Ptr} : Known (allocateRandomTape P c) (req_allocateRandomTape P).1 := ⟨(req_allocateRandomTape P).2 c⟩

theorem req_freeRandomTape {c : Option Ptr} {t : HTape} : Req (freeRandomTape c t) 0 fun _ => True := by
  unfold freeRandomTape
  refine Req.le (n := _) (by rq) ?_
  simp
instance {c : Option Ptr} {t : HTape} : Known (freeRandomTape c t) 0 := ⟨req_freeRandomTape⟩

theorem req_useTape {c : Option Ptr} {t : HTape} : Req (useTape c t) 0 fun _ => True := by
  unfold useTape
  refine Req.le (n := _) (by rq) ?_
  simp
instance {c : Option Ptr} {t : HTape} : Known (useTape c t) 0 := ⟨req_useTape⟩

def req_allocateProof2 (P : Params) : {w // ∀ (c : Ptr), Req (allocateProof2 P c) w fun _ => True} :=
  ⟨_, fun c => by
    unfold allocateProof2
    rq⟩
instance {P : Params} {c : Ptr} : Known (allocateProof2 P c) (req_allocateProof2 P).1 := ⟨(req_allocateProof2 P).2 c⟩

theorem req_freeProof2 {c : Ptr} {p : HProof2} : Req (freeProof2 c p) 0 fun _ => True := by
  unfold freeProof2
  refine Req.le (n := _) (by rq) ?_
  simp
instance {c : Ptr} {p : HProof2} : Known (freeProof2 c p) 0 := ⟨req_freeProof2⟩

def req_allocateProof (P : Params) : {w // ∀ (c : Ptr), Req (allocateProof P c) w fun _ => True} :=
  ⟨_, fun c => by
    unfold allocateProof
    rq⟩
instance {P : Params} {c : Ptr} : Known (allocateProof P c) (req_allocateProof P).1 := ⟨(req_allocateProof P).2 c⟩

theorem req_freeProof {c : Ptr} {p : HProof} : Req (freeProof c p) 0 fun _ => True := by
  unfold freeProof
  refine Req.le (n := _) (by rq) ?_
  simp
instance {c : Ptr} {p : HProof} : Known (freeProof c p) 0 := ⟨req_freeProof⟩

theorem req_useProof {P : Params} {c : Ptr} {p : HProof} : Req (useProof P c p) 0 fun _ => True := by
  unfold useProof
  refine Req.le (n := _) (by rq) ?_
  simp
instance {P : Params} {c : Ptr} {p : HProof} : Known (useProof P c p) 0 := ⟨req_useProof⟩

def req_allocateSignature (P : Params) : {w // ∀ (c : Option Ptr), Req (allocateSignature P c) w fun _ => True} :=
  ⟨_, fun c => by
    unfold allocateSignature
    rq⟩
instance {P : Params} {c : Option Ptr} : Known (allocateSignature P c) (req_allocateSignature P).1 := ⟨(req_allocateSignature P).2 c⟩

theorem req_freeSignature {P : Params} {c : Option Ptr} {s : HSig} : Req (freeSignature P c s) 0 fun _ => True := by
  unfold freeSignature
  refine Req.le (n := _) (by rq) ?_
  simp
instance {P : Params} {c : Option Ptr} {s : HSig} : Known (freeSignature P c s) 0 := ⟨req_freeSignature⟩

def req_allocateSignature2 (P : Params) : {w // ∀ (c : Option Ptr), Req (allocateSignature2 P c) w fun _ => True} :=
  ⟨_, fun c => by
    unfold allocateSignature2
    rq⟩
instance {P : Params} {c : Option Ptr} : Known (allocateSignature2 P c) (req_allocateSignature2 P).1 := ⟨(req_allocateSignature2 P).2 c⟩

theorem req_freeSignature2 {P : Params} {c : Option Ptr} {s : HSig2} : Req (freeSignature2 P c s) 0 fun _ => True := by
  unfold freeSignature2
  refine Req.le (n := _) (by rq) ?_
  simp
instance {P : Params} {c : Option Ptr} {s : HSig2} : Known (freeSignature2 P c s) 0 := ⟨req_freeSignature2⟩

def req_allocateSeeds (P : Params) : {w // Req (allocateSeeds P ) w fun _ => True} :=
  ⟨_, by
    unfold allocateSeeds
    rq⟩
instance {P : Params} : Known (allocateSeeds P ) (req_allocateSeeds P).1 := ⟨(req_allocateSeeds P).2⟩

theorem req_freeSeeds {s : HSeeds} : Req (freeSeeds s) 0 fun _ => True := by
  unfold freeSeeds
  refine Req.le (n := _) (by rq) ?_
  simp
instance {s : HSeeds} : Known (freeSeeds s) 0 := ⟨req_freeSeeds⟩

def req_allocateCommitments (P : Params) : {w // Req (allocateCommitments P ) w fun _ => True} :=
  ⟨_, by
    unfold allocateCommitments
    rq⟩
instance {P : Params} : Known (allocateCommitments P ) (req_allocateCommitments P).1 := ⟨(req_allocateCommitments P).2⟩

theorem req_freeCommitments {a : HArr} : Req (freeCommitments a) 0 fun _ => True := by
  unfold freeCommitments
  refine Req.le (n := _) (by rq) ?_
  simp
instance {a : HArr} : Known (freeCommitments a) 0 := ⟨req_freeCommitments⟩

theorem req_useArr {a : HArr} : Req (useArr a) 0 fun _ => True := by
  unfold useArr
  refine Req.le (n := _) (by rq) ?_
  simp
instance {a : HArr} : Known (useArr a) 0 := ⟨req_useArr⟩

def req_allocateCommitments2 (P : Params) : {w // Req (allocateCommitments2 P ) w fun _ => True} :=
  ⟨_, by
    unfold allocateCommitments2
    rq⟩
instance {P : Params} : Known (allocateCommitments2 P ) (req_allocateCommitments2 P).1 := ⟨(req_allocateCommitments2 P).2⟩

theorem req_freeCommitments2 {p : Ptr} : Req (freeCommitments2 p) 0 fun _ => True := by
  unfold freeCommitments2
  cases p
  · exact req_free
  · exact Req.pure trivial
  · exact req_free
instance {p : Ptr} : Known (freeCommitments2 p) 0 := ⟨req_freeCommitments2⟩

def req_allocateInputs (P : Params) : {w // Req (allocateInputs P ) w fun _ => True} :=
  ⟨_, by
    unfold allocateInputs
    rq⟩
instance {P : Params} : Known (allocateInputs P ) (req_allocateInputs P).1 := ⟨(req_allocateInputs P).2⟩

theorem req_freeInputs {p : Ptr} : Req (freeInputs p) 0 fun _ => True := by
  unfold freeInputs
  refine Req.le (n := _) (by rq) ?_
  simp
instance {p : Ptr} : Known (freeInputs p) 0 := ⟨req_freeInputs⟩

def req_allocateMsgs (P : Params) : {w // Req (allocateMsgs P ) w fun _ => True} :=
  ⟨_, by
    unfold allocateMsgs
    rq⟩
instance {P : Params} : Known (allocateMsgs P ) (req_allocateMsgs P).1 := ⟨(req_allocateMsgs P).2⟩

theorem req_freeMsgs {a : HArr} : Req (freeMsgs a) 0 fun _ => True := by
  unfold freeMsgs
  refine Req.le (n := _) (by rq) ?_
  simp
instance {a : HArr} : Known (freeMsgs a) 0 := ⟨req_freeMsgs⟩

def req_allocateViews (P : Params) : {w // Req (allocateViews P ) w fun _ => True} :=
  ⟨_, by
    unfold allocateViews
    rq⟩
instance {P : Params} : Known (allocateViews P ) (req_allocateViews P).1 := ⟨(req_allocateViews P).2⟩

theorem req_freeViews {P : Params} {v : HViews} : Req (freeViews P v) 0 fun _ => True := by
  unfold freeViews
  refine Req.le (n := _) (by rq) ?_
  simp
instance {P : Params} {v : HViews} : Known (freeViews P v) 0 := ⟨req_freeViews⟩

def req_allocateGCommitments (P : Params) : {w // Req (allocateGCommitments P ) w fun _ => True} :=
  ⟨_, by
    unfold allocateGCommitments
    rq⟩
instance {P : Params} : Known (allocateGCommitments P ) (req_allocateGCommitments P).1 := ⟨(req_allocateGCommitments P).2⟩

theorem req_freeGCommitments {a : HArr} : Req (freeGCommitments a) 0 fun _ => True := by
  unfold freeGCommitments
  cases a.self
  · exact Req.bind req_touch fun _ _ => Req.bind req_free fun _ _ => req_free
  · exact Req.pure trivial
  · exact Req.bind req_touch fun _ _ => Req.bind req_free fun _ _ => req_free
instance {a : HArr} : Known (freeGCommitments a) 0 := ⟨req_freeGCommitments⟩

/-! ### /repo/tree.c -/

def req_createTree (n m : ℕ) : {w // Req (createTree n m ) w fun t => t.numLeaves = n} :=
  ⟨_, by
    unfold createTree
    rq
    exact Req.pure rfl⟩
instance {n m : ℕ} : Known (createTree n m ) (req_createTree n m).1 := ⟨(req_createTree n m).2.any⟩

theorem req_freeTree {t : HTree} : Req (freeTree t) 0 fun _ => True := by
  unfold freeTree
  cases t.self
  · exact (Req.bind req_touch fun _ _ => Req.bind req_touch fun _ _ => Req.bind req_free fun _ _ => Req.bind req_touch fun _ _ => Req.bind req_free fun _ _ =>
      Req.bind req_touch fun _ _ => Req.bind req_free fun _ _ => Req.bind req_touch fun _ _ => Req.bind req_free fun _ _ => req_free)
  · exact Req.pure trivial
  · exact (Req.bind req_touch fun _ _ => Req.bind req_touch fun _ _ => Req.bind req_free fun _ _ => Req.bind req_touch fun _ _ => Req.bind req_free fun _ _ =>
      Req.bind req_touch fun _ _ => Req.bind req_free fun _ _ => Req.bind req_touch fun _ _ => Req.bind req_free fun _ _ => req_free)
instance {t : HTree} : Known (freeTree t) 0 := ⟨req_freeTree⟩

theorem req_useTree {t : HTree} : Req (useTree t) 0 fun _ => True := by
  unfold useTree
  refine Req.le (n := _) (by rq) ?_
  simp
instance {t : HTree} : Known (useTree t) 0 := ⟨req_useTree⟩

def req_generateSeeds (P : Params) (n : ℕ) : {w // ∀ (r s : Ptr), Req (generateSeeds P n r s) w fun t => t.numLeaves = n} :=
  ⟨_, fun r s => by
    unfold generateSeeds
    apply Req.bind (req_createTree _ _).2
    intro t ht
    rq
    exact Req.pure ht⟩
instance {P : Params} {n : ℕ} {r s : Ptr} : Known (generateSeeds P n r s) (req_generateSeeds P n).1 := ⟨((req_generateSeeds P n).2 r s).any⟩

def req_getRevealedNodes (k n : ℕ) : {w // ∀ (t : HTree) (l : Option Ptr), t.numLeaves = n → Req (getRevealedNodes t l k) w fun _ => True} :=
  ⟨_, fun t l ht => by
    unfold getRevealedNodes
    rw [ht]
    rq⟩

def req_revealSeedsSize (P : Params) (n k : ℕ) : {w // ∀ (l : Option Ptr), Req (revealSeedsSize P n l k) w fun _ => True} :=
  ⟨_, fun l => by
    unfold revealSeedsSize
    apply Req.bind (req_createTree _ _).2
    intro t ht
    apply Req.bind ((req_getRevealedNodes _ _).2 _ _ ht)
    intro _ _
    rq⟩
instance {P : Params} {n k : ℕ} {l : Option Ptr} : Known (revealSeedsSize P n l k) (req_revealSeedsSize P n k).1 := ⟨(req_revealSeedsSize P n k).2 l⟩

def req_revealSeeds (k n : ℕ) : {w // ∀ (t : HTree) (l : Option Ptr) (o : Ptr), t.numLeaves = n → Req (revealSeeds t l k o) w fun _ => True} :=
  ⟨_, fun t l o ht => by
    unfold revealSeeds
    apply Req.bind ((req_getRevealedNodes _ _).2 _ _ ht)
    intro _ _
    rq⟩

def req_reconstructSeeds (k n : ℕ) : {w // ∀ (t : HTree) (l : Option Ptr) (i s : Ptr) (ok : Bool), t.numLeaves = n →
    Req (reconstructSeeds t l k i s ok) w fun _ => True} :=
  ⟨_, fun t l i s ok ht => by
    unfold reconstructSeeds
    apply Req.bind ((req_getRevealedNodes _ _).2 _ _ ht)
    intro _ _
    rq⟩

theorem req_buildMerkleTree {t : HTree} {l s : Ptr} : Req (buildMerkleTree t l s) 0 fun _ => True := by
  unfold buildMerkleTree
  refine Req.le (n := _) (by rq) ?_
  simp
instance {t : HTree} {l s : Ptr} : Known (buildMerkleTree t l s) 0 := ⟨req_buildMerkleTree⟩

def req_getRevealedMerkleNodes (n : ℕ) : {w // ∀ (t : HTree) (l : Ptr), t.numLeaves = n → Req (getRevealedMerkleNodes t l) w fun _ => True} :=
  ⟨_, fun t l ht => by
    unfold getRevealedMerkleNodes
    rw [ht]
    rq⟩

def req_openMerkleTreeSize (P : Params) (n : ℕ) : {w // ∀ (l : Ptr), Req (openMerkleTreeSize P n l) w fun _ => True} :=
  ⟨_, fun l => by
    unfold openMerkleTreeSize
    apply Req.bind (req_createTree _ _).2
    intro t ht
    apply Req.bind ((req_getRevealedMerkleNodes _).2 _ _ ht)
    intro _ _
    rq⟩
instance {P : Params} {n : ℕ} {l : Ptr} : Known (openMerkleTreeSize P n l) (req_openMerkleTreeSize P n).1 := ⟨(req_openMerkleTreeSize P n).2 l⟩

def req_openMerkleTree (n k : ℕ) : {w // ∀ (t : HTree) (l : Ptr) (o : ℕ), t.numLeaves = n → o ≤ k → Req (openMerkleTree t l o) w fun _ => True} :=
  ⟨_, fun t l o ht ho => by
    unfold openMerkleTree
    apply Req.bind ((req_getRevealedMerkleNodes _).2 _ _ ht)
    intro _ _
    apply Req.bind (req_malloc.le ho)
    intro _ _
    rq⟩

def req_addMerkleNodes (n : ℕ) : {w // ∀ (t : HTree) (l i : Ptr) (ok : Bool), t.numLeaves = n → Req (addMerkleNodes t l i ok) w fun _ => True} :=
  ⟨_, fun t l i ok ht => by
    unfold addMerkleNodes
    apply Req.bind ((req_getRevealedMerkleNodes _).2 _ _ ht)
    intro _ _
    rq⟩

theorem req_verifyMerkleTree {t : HTree} {l s : Ptr} {ok : Bool} : Req (verifyMerkleTree t l s ok) 0 fun _ => True := by
  unfold verifyMerkleTree
  refine Req.le (n := _) (by rq) ?_
  simp
instance {t : HTree} {l s : Ptr} {ok : Bool} : Known (verifyMerkleTree t l s ok) 0 := ⟨req_verifyMerkleTree⟩

/-! ### /repo/picnic_impl.c -/

theorem req_useG {P : Params} {g : HArr} : Req (useG P g) 0 fun _ => True := by
  unfold useG
  refine Req.le (n := _) (by rq) ?_
  simp
instance {P : Params} {g : HArr} : Known (useG P g) 0 := ⟨req_useG⟩

def req_H3 (P : Params) : {w // ∀ (v : Ptr) (a : HArr) (c s : Ptr) (g : HArr), Req (H3 P v a c s g) w fun _ => True} :=
  ⟨_, fun v a c s g => by
    unfold H3
    rq⟩
instance {P : Params} {v : Ptr} {a : HArr} {c s : Ptr} {g : HArr} : Known (H3 P v a c s g) (req_H3 P).1 := ⟨(req_H3 P).2 v a c s g⟩

def req_verify (P : Params) : {w // ∀ (c : Ptr) (s : HSig) (ok : Bool), Req (verify P c s ok) w fun _ => True} :=
  ⟨_, fun c s ok => by
    unfold verify
    rq⟩
instance {P : Params} {c : Ptr} {s : HSig} {ok : Bool} : Known (verify P c s ok) (req_verify P).1 := ⟨(req_verify P).2 c s ok⟩

def req_signPicnic1 (P : Params) : {w // ∀ (c : Ptr) (s : HSig) (simOk : ℕ → Bool), Req (signPicnic1 P c s simOk) w fun _ => True} :=
  ⟨_, fun c s simOk => by
    unfold signPicnic1
    rq⟩
instance {P : Params} {c : Ptr} {s : HSig} {simOk : ℕ → Bool} : Known (signPicnic1 P c s simOk) (req_signPicnic1 P).1 := ⟨(req_signPicnic1 P).2 c s simOk⟩

/-! ### /repo/picnic3_impl.c -/

def req_expandChallengeHash (P : Params) : {w // ∀ (h c p : Ptr), Req (expandChallengeHash P h c p) w fun _ => True} :=
  ⟨_, fun h c p => by
    unfold expandChallengeHash
    rq⟩
instance {P : Params} {h c p : Ptr} : Known (expandChallengeHash P h c p) (req_expandChallengeHash P).1 := ⟨(req_expandChallengeHash P).2 h c p⟩

def req_getMissingLeavesList (P : Params) : {w // ∀ (c : Ptr), Req (getMissingLeavesList P c) w fun _ => True} :=
  ⟨_, fun c => by
    unfold getMissingLeavesList
    rq⟩
instance {P : Params} {c : Ptr} : Known (getMissingLeavesList P c) (req_getMissingLeavesList P).1 := ⟨(req_getMissingLeavesList P).2 c⟩


theorem req_verify3Exit {P : Params} {C : HArr} {Ch Cv : Ptr} {m : HArr} {t i : HTree} {s : Ptr} {l : List HTree} {p : Ptr} {l' : List HTape} :
    Req (verify3Exit P C Ch Cv m t i s l p l') 0 fun _ => True := by
  unfold verify3Exit
  refine Req.le (n := _) (by rq) ?_
  simp
instance {P : Params} {C : HArr} {Ch Cv : Ptr} {m : HArr} {t i : HTree} {s : Ptr} {l : List HTree} {p : Ptr} {l' : List HTape} :
    Known (verify3Exit P C Ch Cv m t i s l p l') 0 := ⟨req_verify3Exit⟩

/-- In every round of the loop over the seeds, a tree is created; those of opened repetitions are filled with `reconstructSeeds`. -/
def req_verifyPicnic3 (P : Params) : {w // ∀ (c : Ptr) (sig : HSig2) (d : Verify3),
    (List.range P.numMPCRounds).countP d.opened ≤ P.numOpenedRounds → Req (verifyPicnic3 P c sig d) w fun _ => True} :=
  ⟨_, fun c sig d ho => by
    unfold verifyPicnic3
    iterate 2 (apply Req.bind Known.req; intro _ _)
    apply Req.bind (req_createTree _ _).2
    intro treeCv hCv
    iterate 2 (apply Req.bind Known.req; intro _ _)
    apply Req.bind (req_createTree _ _).2
    intro iTree hi
    apply Req.bind Known.req; intro _ _
    apply Req.bind ((req_reconstructSeeds _ _).2 _ _ _ _ _ hi)
    intro ok _
    apply Req.ite
    · rq
    apply Req.bind (Req.collectWhile_opened (Q := fun _ => True) (b := (req_generateSeeds P P.numMPCParties).1) (a := (req_reconstructSeeds 1 P.numMPCParties).1)
      (opened := d.opened) ho ?_ ?_)
    · rintro ⟨ok, seed⟩ _
      dsimp only
      apply Req.ite
      · rq
      rq with (req_addMerkleNodes _).2 _ _ _ _ hCv
    · intro i hi
      simp only [hi, Bool.not_true, Bool.false_eq_true, if_false]
      refine Req.le (n := _) (Req.bind req_touch fun _ _ => Req.bind (req_createTree _ _).2 fun s hs => Req.bind req_touch fun _ _ =>
        Req.bind req_touch fun _ _ => Req.bind req_touch fun _ _ => Req.bind Known.req fun pf _ =>
        Req.bind ((req_reconstructSeeds _ _).2 _ _ _ _ _ hs) fun _ _ => Req.pure trivial) ?_
      show _ ≤ ((req_createTree P.numMPCParties P.seedSizeBytes).1 + (0 + (0 + (0 + 0)))) + _
      omega
    · intro i hi
      simp only [hi, Bool.not_false, if_true]
      refine Req.le (n := _) (by rq) ?_
      omega⟩

theorem req_sign3Exit {P : Params} {t s : Ptr} {l : List (HTree × HTape)} {i c : HTree} {C : HArr} {Ch Cv n : Ptr} {m : HArr} :
    Req (sign3Exit P t s l i c C Ch Cv n m) 0 fun _ => True := by
  unfold sign3Exit
  refine Req.le (n := _) (by rq) ?_
  simp
instance {P : Params} {t s : Ptr} {l : List (HTree × HTape)} {i c : HTree} {C : HArr} {Ch Cv n : Ptr} {m : HArr} :
    Known (sign3Exit P t s l i c C Ch Cv n m) 0 := ⟨req_sign3Exit⟩

/-- The lengths that depend on the challenge are at most those of whole lists of leaves. -/
structure Lens.Le (P : Params) (opened : ℕ → Bool) (l : Lens) : Prop where
  iSeedInfo : l.iSeedInfo ≤ P.numMPCRounds * P.seedSizeBytes
  cvInfo : l.cvInfo ≤ P.numMPCRounds * P.digestSizeBytes
  seedInfo : ∀ t, opened t = true → l.seedInfo t ≤ P.numMPCParties * P.seedSizeBytes

def req_proof (P : Params) : {w // ∀ (sig : HSig2) (st : List (HTree × HTape)) (tapes inputs : Ptr) (C msgs : HArr) (t n : ℕ),
    n ≤ P.numMPCParties * P.seedSizeBytes → (∀ x ∈ st, x.1.numLeaves = P.numMPCParties) →
    Req (do
        let pf ← allocateProof2 P sig.proofs
        touch sig.challengeP
        let seedInfo ← malloc (P.numMPCParties * P.seedSizeBytes)
        touch sig.proofs
        let x ← getH st t
        revealSeeds x.1 none 1 seedInfo
        let seedInfo ← realloc seedInfo n
        touch sig.proofs
        touch pf.aux
        useTape (some tapes) x.2
        touch pf.input
        touch inputs
        touch pf.msgs
        useArr msgs
        touch pf.C
        useArr C
        pure { pf with seedInfo := seedInfo }) w fun _ => True} :=
  ⟨_, fun sig st tapes inputs C msgs t n hn hst => by
    iterate 4 (apply Req.bind Known.req; intro _ _)
    apply Req.bind (req_getH hst)
    intro x hx
    apply Req.bind ((req_revealSeeds _ _).2 _ _ _ hx)
    intro _ _
    apply Req.bind (req_realloc.le hn)
    intro _ _
    rq⟩

def req_signPicnic3 (P : Params) : {w // ∀ (c : Ptr) (sig : HSig2) (simOk opened : ℕ → Bool) (len : Lens),
    (List.range P.numMPCRounds).countP opened ≤ P.numOpenedRounds → len.Le P opened → Req (signPicnic3 P c sig simOk opened len) w fun _ => True} :=
  ⟨_, fun c sig simOk opened len ho hl => by
    unfold signPicnic3
    iterate 4 (apply Req.bind Known.req; intro _ _)
    apply Req.bind ((req_generateSeeds _ _).2 _ _)
    intro iTree hi
    iterate 4 (apply Req.bind Known.req; intro _ _)
    apply Req.bind
    · apply Req.collectH (Q := fun x => x.1.numLeaves = P.numMPCParties)
      intro i
      apply Req.bind Known.req; intro _ _
      apply Req.bind ((req_generateSeeds _ _).2 _ _)
      intro s hs
      rq
      exact Req.pure hs
    · intro st hst
      iterate 6
        apply Req.bind
        · rq
        intro _ _
      apply Req.bind
      · rq
      intro ok _
      apply Req.ite
      · rq
      iterate 8 (apply Req.bind Known.req; intro _ _)
      apply Req.bind (req_createTree _ _).2
      intro treeCv hCv
      iterate 4 (apply Req.bind Known.req; intro _ _)
      apply Req.bind ((req_openMerkleTree _ _).2 _ _ _ hCv hl.cvInfo)
      intro _ _
      iterate 4 (apply Req.bind Known.req; intro _ _)
      apply Req.bind ((req_revealSeeds _ _).2 _ _ _ hi)
      intro _ _
      apply Req.bind (req_realloc.le hl.iSeedInfo)
      intro _ _
      apply Req.bind Known.req; intro _ _
      apply Req.bind (Req.collectH_opened (Q := fun _ => True) (b := 0) (a := (req_proof P).1) (opened := opened) ho ?_ ?_)
      · rq
      · intro i hi
        simp only [hi, if_true]
        exact Req.bind req_touch fun _ _ => (req_proof P).2 _ _ _ _ _ _ _ _ (hl.seedInfo i hi) hst
      · intro i hi
        simp only [hi, Bool.false_eq_true, if_false]
        exact Req.bind (n := 0) req_touch fun _ _ => (Known.req : Req (getH sig.proof i) 0 _)⟩

def req_deserializeSignature2 (P : Params) : {w // ∀ (c : Option Ptr) (sig : HSig2) (d : Decode2),
    (List.range P.numMPCRounds).countP d.opened ≤ P.numOpenedRounds → d.len.Le P d.opened → Req (deserializeSignature2 P c sig d) w fun _ => True} :=
  ⟨_, fun c sig d ho hl => by
    unfold deserializeSignature2
    apply Req.ite
    · rq
    iterate 10 (apply Req.bind Known.req; intro _ _)
    apply Req.ite
    · rq
    apply Req.bind (req_malloc.le hl.iSeedInfo); intro _ _
    iterate 2 (apply Req.bind Known.req; intro _ _)
    apply Req.bind (req_malloc.le hl.cvInfo); intro _ _
    iterate 2 (apply Req.bind Known.req; intro _ _)
    apply Req.bind (Req.collectWhile_opened (Q := fun _ => True) (b := 0) (a := (req_allocateProof2 P).1 + P.numMPCParties * P.seedSizeBytes)
      (opened := d.opened) ho ?_ ?_)
    · rintro ⟨ok, l⟩ _
      exact Req.pure trivial
    · intro i hi
      simp only [hi, if_true]
      refine Req.le (n := _) (Req.bind req_touch fun _ _ => Req.bind ((req_allocateProof2 P).2 _) fun _ _ =>
        Req.bind (req_malloc.le (hl.seedInfo i hi)) fun _ _ => (?_ : Req _ 0 _)) (by omega)
      refine Req.le (n := _) (by rq) ?_
      simp
    · intro i hi
      simp only [hi, Bool.false_eq_true, if_false]
      refine Req.le (n := _) (by rq) ?_
      simp⟩

/-! ### /repo/picnic.c -/

def req_picnicSign1 (P : Params) : {w // ∀ (simOk : ℕ → Bool) (serOk : Bool), Req (picnicSign1 P simOk serOk) w fun _ => True} :=
  ⟨_, fun simOk serOk => by
    unfold picnicSign1
    rq⟩

def req_picnicSign3 (P : Params) : {w // ∀ (simOk opened : ℕ → Bool) (len : Lens) (serOk : Bool),
    (List.range P.numMPCRounds).countP opened ≤ P.numOpenedRounds → len.Le P opened → Req (picnicSign3 P simOk opened len serOk) w fun _ => True} :=
  ⟨_, fun simOk opened len serOk ho hl => by
    unfold picnicSign3
    iterate 2 (apply Req.bind Known.req; intro _ _)
    apply Req.ite
    · rq
    apply Req.bind ((req_signPicnic3 P).2 _ _ _ _ _ ho hl)
    rintro ⟨ok, s⟩ _
    dsimp only
    rq⟩

def req_picnicVerify1 (P : Params) : {w // ∀ (decOk ok : Bool), Req (picnicVerify1 P decOk ok) w fun _ => True} :=
  ⟨_, fun decOk ok => by
    unfold picnicVerify1
    rq⟩

def req_picnicVerify3 (P : Params) : {w // ∀ (d : Decode2) (v : Verify3),
    (List.range P.numMPCRounds).countP d.opened ≤ P.numOpenedRounds → d.len.Le P d.opened → Req (picnicVerify3 P d v) w fun _ => True} :=
  ⟨_, fun d v ho hl => by
    unfold picnicVerify3
    iterate 2 (apply Req.bind Known.req; intro _ _)
    apply Req.ite
    · rq
    apply Req.bind ((req_deserializeSignature2 P).2 _ _ _ ho hl)
    rintro ⟨ok, s⟩ _
    dsimp only
    apply Req.ite
    · rq
    apply Req.bind ((req_verifyPicnic3 P).2 _ _ _ ho)
    intro ok _
    rq⟩

def req_printSignature1 (P : Params) : {w // ∀ (decOk : Bool), Req (printSignature1 P decOk) w fun _ => True} :=
  ⟨_, fun decOk => by
    unfold printSignature1
    rq⟩

def req_printSignature2 (P : Params) : {w // ∀ (d : Decode2),
    (List.range P.numMPCRounds).countP d.opened ≤ P.numOpenedRounds → d.len.Le P d.opened → Req (printSignature2 P d) w fun _ => True} :=
  ⟨_, fun d ho hl => by
    unfold printSignature2
    apply Req.bind Known.req; intro _ _
    apply Req.bind ((req_deserializeSignature2 P).2 _ _ _ ho hl)
    rintro ⟨ok, s⟩ _
    dsimp only
    rq⟩

end Picnic.Heap
