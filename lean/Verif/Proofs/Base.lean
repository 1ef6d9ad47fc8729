import Verif.Model.Params
import Mathlib.Data.ZMod.Basic
import Mathlib.Algebra.BigOperators.Group.Finset.Basic
import Mathlib.Algebra.BigOperators.Ring.Finset
import Mathlib.Tactic.Ring
import Mathlib.Tactic.Linarith

/-
Helper lemmas: the outcome monad, loops, memory accesses.
-/

namespace Picnic

open Outcome

@[simp] theorem pure_eq_ok {α : Type} (a : α) : (pure a : M α) = Outcome.ok a := rfl
@[simp] theorem ok_bind {α β : Type} (a : α) (f : α → M β) : (Outcome.ok a >>= f) = f a := rfl
@[simp] theorem ub_bind {α β : Type} (k : UB) (f : α → M β) : ((Outcome.ub k : M α) >>= f) = Outcome.ub k := rfl
@[simp] theorem abort_bind {α β : Type} (f : α → M β) : ((Outcome.abort : M α) >>= f) = Outcome.abort := rfl
@[simp] theorem diverge_bind {α β : Type} (f : α → M β) : ((Outcome.diverge : M α) >>= f) = Outcome.diverge := rfl

instance : LawfulMonad Outcome := LawfulMonad.mk'
  (id_map := by intro α x; cases x <;> rfl)
  (pure_bind := by intros; rfl)
  (bind_assoc := by intro α β γ x f g; cases x <;> rfl)

theorem bind_eq_ok {α β : Type} {x : M α} {f : α → M β} {b : β} (h : (x >>= f) = Outcome.ok b) :
    ∃ a, x = Outcome.ok a ∧ f a = Outcome.ok b := by
  cases x with
  | ok a => exact ⟨a, rfl, h⟩
  | ub k => simp at h
  | abort => simp at h
  | diverge => simp at h

@[simp] theorem assertM_true {b : Bool} (h : b = true) : assertM b = Outcome.ok () := by simp [assertM, h]

/-! ### loops -/

@[simp] theorem loop_zero {σ : Type} (f : ℕ → σ → M σ) (s : σ) : loop f 0 s = Outcome.ok s := rfl
theorem loop_succ {σ : Type} (f : ℕ → σ → M σ) (n : ℕ) (s : σ) : loop f (n + 1) s = (loop f n s >>= f n) := rfl

theorem bind_of {α β : Type} {x : M α} {a : α} {k : α → M β} {r : M β} (h : x = Outcome.ok a) (h2 : k a = r) :
    (x >>= k) = r := by rw [h, ok_bind, h2]

theorem bind_ex {α β : Type} {x : M α} {k : α → M β} {Q : α → Prop} {R : β → Prop}
    (h : ∃ a, x = Outcome.ok a ∧ Q a) (h2 : ∀ a, Q a → ∃ b, k a = Outcome.ok b ∧ R b) :
    ∃ b, (x >>= k) = Outcome.ok b ∧ R b := by
  obtain ⟨a, rfl, hq⟩ := h
  exact h2 a hq

theorem loop_seq {σ : Type} {f : ℕ → σ → M σ} {n : ℕ} {s : σ} (S : ℕ → σ) (h0 : s = S 0)
    (hs : ∀ i, i < n → f i (S i) = Outcome.ok (S (i + 1))) : loop f n s = Outcome.ok (S n) := by
  subst h0
  induction n with
  | zero => rfl
  | succ n ih => rw [loop_succ, ih fun i hi => hs i (by omega), ok_bind, hs n (by omega)]

theorem loop_inv {σ : Type} (I : ℕ → σ → Prop) {f : ℕ → σ → M σ} {n : ℕ} {s : σ} (h0 : I 0 s)
    (hs : ∀ i, i < n → ∀ s, I i s → ∃ s', f i s = Outcome.ok s' ∧ I (i + 1) s') :
    ∃ s', loop f n s = Outcome.ok s' ∧ I n s' := by
  induction n with
  | zero => exact ⟨s, rfl, h0⟩
  | succ n ih =>
    obtain ⟨s1, h1, hI⟩ := ih (fun i hi => hs i (by omega))
    obtain ⟨s2, h2, hI2⟩ := hs n (by omega) s1 hI
    exact ⟨s2, by rw [loop_succ, h1, ok_bind, h2], hI2⟩

theorem loopFrom_inv {σ : Type} (I : ℕ → σ → Prop) {f : ℕ → σ → M σ} {lo hi : ℕ} {s : σ} (hle : lo ≤ hi)
    (h0 : I lo s) (hs : ∀ i, lo ≤ i → i < hi → ∀ s, I i s → ∃ s', f i s = Outcome.ok s' ∧ I (i + 1) s') :
    ∃ s', loopFrom lo hi f s = Outcome.ok s' ∧ I hi s' := by
  obtain ⟨s', h1, h2⟩ := loop_inv (fun k s => I (lo + k) s) (f := fun k => f (lo + k)) (n := hi - lo) (s := s)
    (by simpa using h0) (fun i hi' s hI => by
      have := hs (lo + i) (by omega) (by omega) s hI
      simpa [Nat.add_assoc] using this)
  refine ⟨s', h1, ?_⟩
  have : lo + (hi - lo) = hi := by omega
  simpa [this] using h2

theorem loopDown_inv {σ : Type} (I : ℕ → σ → Prop) {f : ℕ → σ → M σ} {n : ℕ} {s : σ} (h0 : I n s)
    (hs : ∀ i, i < n → ∀ s, I (i + 1) s → ∃ s', f (i + 1) s = Outcome.ok s' ∧ I i s') :
    ∃ s', loopDown f n s = Outcome.ok s' ∧ I 0 s' := by
  induction n generalizing s with
  | zero => exact ⟨s, rfl, h0⟩
  | succ n ih =>
    obtain ⟨s1, h1, hI⟩ := hs n (by omega) s h0
    obtain ⟨s2, h2, hI2⟩ := ih hI (fun i hi => hs i (by omega))
    exact ⟨s2, by simp only [loopDown]; rw [h1, ok_bind, h2], hI2⟩

theorem loop_congr {σ : Type} {f g : ℕ → σ → M σ} {n : ℕ} (s : σ) (h : ∀ i, i < n → ∀ s, f i s = g i s) :
    loop f n s = loop g n s := by
  induction n with
  | zero => rfl
  | succ n ih => rw [loop_succ, loop_succ, ih (fun i hi => h i (by omega))]; congr 1; funext s; exact h n (by omega) s

theorem collect_succ {α : Type} (f : ℕ → M α) (n : ℕ) :
    collect f (n + 1) = (collect f n >>= fun l => f n >>= fun x => Outcome.ok (l ++ [x])) := rfl

theorem collect_ok {α : Type} {f : ℕ → M α} {g : ℕ → α} {n : ℕ} (h : ∀ i, i < n → f i = Outcome.ok (g i)) :
    collect f n = Outcome.ok ((List.range n).map g) := by
  induction n with
  | zero => rfl
  | succ n ih =>
    rw [collect_succ, ih (fun i hi => h i (by omega)), ok_bind, h n (by omega), ok_bind]
    simp [List.range_succ]

theorem collect_congr {α : Type} {f g : ℕ → M α} {n : ℕ} (h : ∀ i, i < n → f i = g i) :
    collect f n = collect g n := by
  induction n with
  | zero => rfl
  | succ n ih => rw [collect_succ, collect_succ, ih (fun i hi => h i (by omega)), h n (by omega)]

/-- A successful `collect` determines all elements. -/
theorem collect_eq_ok {α : Type} {f : ℕ → M α} {n : ℕ} {l : List α} (h : collect f n = Outcome.ok l) :
    l.length = n ∧ ∀ i (hi : i < l.length), f i = Outcome.ok l[i] := by
  induction n generalizing l with
  | zero => simp [collect] at h; subst h; simp
  | succ n ih =>
    rw [collect_succ] at h
    obtain ⟨l', h1, h⟩ := bind_eq_ok h
    obtain ⟨x, h2, h⟩ := bind_eq_ok h
    simp at h; subst h
    obtain ⟨hl, he⟩ := ih h1
    refine ⟨by simp [hl], fun i hi => ?_⟩
    by_cases hin : i < n
    · rw [he i (by omega), List.getElem_append_left (by omega)]
    · have hi' : i = n := by simp [hl] at hi; omega
      subst hi'
      rw [h2, List.getElem_append_right (by omega)]; simp [hl]

/-! ### memory accesses -/

theorem rd_ok {α : Type} {b : List α} {i : ℕ} (h : i < b.length) : rd b i = Outcome.ok b[i] := by
  simp [rd, List.getElem?_eq_getElem h]

theorem rd_eq_ok {α : Type} {b : List α} {i : ℕ} {x : α} (h : rd b i = Outcome.ok x) : b[i]? = some x := by
  unfold rd at h; split at h <;> simp_all

theorem rd_of_getElem? {α : Type} {b : List α} {i : ℕ} {x : α} (h : b[i]? = some x) : rd b i = Outcome.ok x := by
  simp [rd, h]

theorem wr_ok {α : Type} {b : List α} {i : ℕ} (h : i < b.length) (v : α) : wr b i v = Outcome.ok (b.set i v) := by
  simp [wr, h]

theorem rdN_ok {b : Buf} {off n : ℕ} (h : off + n ≤ b.length) : rdN b off n = Outcome.ok ((b.drop off).take n) := by
  simp [rdN, h]

theorem wrN_ok {b : Buf} {off : ℕ} {d : Buf} (h : off + d.length ≤ b.length) :
    wrN b off d = Outcome.ok (b.take off ++ d ++ b.drop (off + d.length)) := by
  simp [wrN, h]

theorem memcpy_ok {dst src : Buf} {doff soff n : ℕ} (h1 : soff + n ≤ src.length) (h2 : doff + n ≤ dst.length) :
    memcpy dst doff src soff n =
      Outcome.ok (dst.take doff ++ (src.drop soff).take n ++ dst.drop (doff + n)) := by
  have hl : ((src.drop soff).take n).length = n := by simp; omega
  simp only [memcpy]
  rw [rdN_ok h1, ok_bind, wrN_ok (by omega), hl]

/-- `memcpy` of a whole buffer into a buffer of the same size. -/
theorem memcpy_full {dst src : Buf} {n : ℕ} (h1 : src.length = n) (h2 : dst.length = n) :
    memcpy dst 0 src 0 n = Outcome.ok src := by
  rw [memcpy_ok (by omega) (by omega)]
  simp [← h1, List.drop_eq_nil_of_le (show dst.length ≤ src.length by omega)]

theorem memeq_ok {a b : Buf} {n : ℕ} (h1 : n ≤ a.length) (h2 : n ≤ b.length) :
    memeq a b n = Outcome.ok (a.take n == b.take n) := by
  simp [memeq, rdN, h1, h2]

@[simp] theorem zeros_length (n : ℕ) : (zeros n).length = n := by simp [zeros]
@[simp] theorem junkBuf_length (E : Env) (a b n : ℕ) : (E.junkBuf a b n).length = n := by simp [Env.junkBuf]

theorem memcpy_at {a r src : Buf} {off soff n : ℕ} (ha : a.length = off) (h1 : soff + n ≤ src.length)
    (h2 : n ≤ r.length) :
    memcpy (a ++ r) off src soff n = Outcome.ok (a ++ (src.drop soff).take n ++ r.drop n) := by
  subst ha
  rw [memcpy_ok h1 (by simp; omega)]
  simp

end Picnic
