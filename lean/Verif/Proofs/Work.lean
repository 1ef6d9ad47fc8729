import Verif.Spec.Work
import Verif.Proofs.LeakVerifyErase

/-
Counting the steps of a run.
-/

namespace Picnic.Leak

variable {α β σ : Type}

/-- the cost of an observation if an elementary step costs `e` and a permutation `p` -/
def price (e p : Nat) : Ev → Nat
  | .readN _ n => e * (n + 1)
  | .writeN _ n => e * (n + 1)
  | .permute => p
  | _ => e

/-- the cost of a run -/
def cost (e p : Nat) (x : LM α) : Nat := (x.tr.map (price e p)).sum

theorem cost_steps (x : LM α) : cost 1 0 x = Spec.steps x := by
  unfold cost Spec.steps
  congr 2
  funext v
  cases v <;> simp [price, Spec.weight]

theorem cost_permutations (x : LM α) (p : Nat) : cost 0 p x = p * Spec.permutations x := by
  unfold cost Spec.permutations
  generalize x.tr = l
  induction l with
  | nil => simp
  | cons v l ih =>
    rw [List.map_cons, List.sum_cons, ih]
    by_cases hv : v = .permute
    · subst hv; rw [List.count_cons_self, Nat.mul_succ, Nat.add_comm]; rfl
    · rw [List.count_cons_of_ne hv]
      cases v <;> simp_all [price]

variable {e p : Nat}

/-- the run `x` costs at most `n` -/
def Takes (e p : Nat) (x : LM α) (n : Nat) : Prop := cost e p x ≤ n

/-- what holds of the result of a run -/
def Post (x : LM α) (Q : α → Prop) : Prop := ∀ a, x.out = .ok a → Q a

theorem cost_bind' (x : LM α) (f : α → LM β) :
    (∃ a, x.out = .ok a ∧ cost e p (LM.bind x f) = cost e p x + cost e p (f a)) ∨
      ((∀ a, x.out ≠ .ok a) ∧ cost e p (LM.bind x f) = cost e p x) := by
  unfold cost LM.bind
  cases h : x.out with
  | ok a => left; exact ⟨a, rfl, by simp⟩
  | ub k => right; exact ⟨by simp, rfl⟩
  | abort => right; exact ⟨by simp, rfl⟩
  | diverge => right; exact ⟨by simp, rfl⟩

theorem Takes.mono {x : LM α} {n m : Nat} (h : Takes e p x n) (hn : n ≤ m) : Takes e p x m := Nat.le_trans h hn

theorem takes_bind' {x : LM α} {f : α → LM β} {n m : Nat} (h : Takes e p x n)
    (h' : ∀ a, x.out = .ok a → Takes e p (f a) m) : Takes e p (LM.bind x f) (n + m) := by
  unfold Takes at *
  rcases cost_bind' (e := e) (p := p) x f with ⟨a, ha, he⟩ | ⟨_, he⟩
  · have := h' a ha; omega
  · omega

theorem takes_bind {x : LM α} {f : α → LM β} {n m : Nat} (h : Takes e p x n)
    (h' : ∀ a, x.out = .ok a → Takes e p (f a) m) : Takes e p (x >>= f) (n + m) := takes_bind' h h'

theorem takes_pure (a : α) : Takes e p (pure a : LM α) 0 := Nat.le_refl _
theorem takes_ok (a : α) : Takes e p (LM.ok a : LM α) 0 := Nat.le_refl _
theorem takes_ub (k : UB) : Takes e p (LM.ub k : LM α) 0 := Nat.le_refl _
theorem takes_abort : Takes e p (LM.abort : LM α) 0 := Nat.le_refl _
theorem takes_diverge : Takes e p (LM.diverge : LM α) 0 := Nat.le_refl _
theorem takes_publish (v : Pub) : Takes e p (LM.publish v) 0 := Nat.le_refl _
theorem takes_tell (v : Ev) : Takes e p (LM.tell v) (price e p v) := by simp [Takes, cost, LM.tell]
theorem takes_note (b : Bool) : Takes e p (note b) e := takes_tell _

theorem takes_if {c : Prop} [Decidable c] {a b : LM α} {n m : Nat} (ha : c → Takes e p a n) (hb : ¬ c → Takes e p b m) :
    Takes e p (if c then a else b) (max n m) := by
  split
  · next h => exact (ha h).mono (Nat.le_max_left ..)
  · next h => exact (hb h).mono (Nat.le_max_right ..)

theorem takes_ite {c : Prop} [Decidable c] {a b : LM α} {n m : Nat} (ha : c → Takes e p a n) (hb : ¬ c → Takes e p b m) :
    Takes e p (LM.ite c a b) (e + max n m) := takes_bind' (takes_tell _) fun _ _ => takes_if ha hb

/-- a step of a proof that looks at a pointer -/
theorem takes_option {x : LM β} {n m : Nat} (o : Option α) (h : o = none → Takes e p x n)
    (h' : ∀ a, o = some a → Takes e p x m) : Takes e p x (max n m) := by
  cases o with
  | none => exact (h rfl).mono (Nat.le_max_left ..)
  | some a => exact (h' a rfl).mono (Nat.le_max_right ..)

theorem takes_assertM (b : Bool) : Takes e p (assertM b) e := takes_ite (fun _ => takes_ok _) fun _ => takes_abort

theorem takes_rd (b : List α) (i : Nat) : Takes e p (rd b i) e :=
  takes_bind' (m := 0) (takes_tell (.read i)) fun _ _ => by cases b[i]? <;> exact Nat.le_refl _

theorem takes_wr (b : List α) (i : Nat) (v : α) : Takes e p (wr b i v) e :=
  takes_bind' (m := 0) (takes_tell (.write i)) fun _ _ => by split <;> exact Nat.le_refl _

theorem takes_rdN (b : Buf) (i n : Nat) : Takes e p (rdN b i n) (e * (n + 1)) :=
  takes_bind' (m := 0) (takes_tell (.readN i n)) fun _ _ => by split <;> exact Nat.le_refl _

theorem takes_wrN (b : Buf) (i : Nat) (d : Buf) : Takes e p (wrN b i d) (e * (d.length + 1)) :=
  takes_bind' (m := 0) (takes_tell (.writeN i d.length)) fun _ _ => by split <;> exact Nat.le_refl _

theorem takes_wrN_of {b : Buf} {i : Nat} {d : Buf} (n : Nat) (h : d.length ≤ n) : Takes e p (wrN b i d) (e * (n + 1)) :=
  (takes_wrN b i d).mono (Nat.mul_le_mul_left _ (by omega))

theorem takes_deref (q : Option α) : Takes e p (deref q) 0 := by cases q <;> exact Nat.le_refl _

theorem rdN_length {b d : Buf} {i n : Nat} (h : Picnic.rdN b i n = .ok d) : d.length = n := by
  unfold Picnic.rdN at h
  split at h
  · injection h with h; subst h; simp; omega
  · cases h

theorem takes_memcpy (d : Buf) (i : Nat) (s : Buf) (j n : Nat) : Takes e p (memcpy d i s j n) (e * (n + 1) + e * (n + 1)) :=
  takes_bind (takes_rdN ..) fun b hb => takes_wrN_of n (by rw [out_rdN] at hb; exact (rdN_length hb).le)

theorem takes_memeq (a b : Buf) (n : Nat) : Takes e p (memeq a b n) (e * (n + 1) + (e * (n + 1) + 0)) :=
  takes_bind (takes_rdN ..) fun _ _ => takes_bind (takes_rdN ..) fun _ _ => takes_pure _

theorem takes_ldw (b : Buf) (i : Nat) : Takes e p (ldw b i) (e + (e + (e + (e + 0)))) :=
  takes_bind (takes_rd ..) fun _ _ => takes_bind (takes_rd ..) fun _ _ => takes_bind (takes_rd ..) fun _ _ =>
    takes_bind (takes_rd ..) fun _ _ => takes_pure _

theorem takes_stw (b : Buf) (i : Nat) (w : U32) : Takes e p (stw b i w) (e + (e + (e + e))) :=
  takes_bind (takes_wr ..) fun _ _ => takes_bind (takes_wr ..) fun _ _ => takes_bind (takes_wr ..) fun _ _ =>
    takes_wr ..

theorem takes_u16ofBytes (b : Buf) : Takes e p (u16ofBytes b) (e + (e + 0)) :=
  takes_bind (takes_rd ..) fun _ _ => takes_bind (takes_rd ..) fun _ _ => takes_pure _

theorem takes_iterate_inv {f : Nat → σ → M σ} {c : Nat} (I : σ → Prop) (n : Nat)
    (h : ∀ i < n, ∀ s, I s → Takes e p (f i s) c) (hI : ∀ i < n, ∀ s, I s → Post (f i s) I) {s : σ} (hs : I s) :
    Takes e p (iterate f n s) (n * c) ∧ Post (iterate f n s) I := by
  induction n with
  | zero => exact ⟨Nat.zero_le _, fun a ha => by cases ha; exact hs⟩
  | succ n ih =>
    obtain ⟨h1, h2⟩ := ih (fun i hi => h i (by omega)) (fun i hi => hI i (by omega))
    refine ⟨?_, ?_⟩
    · rw [Nat.succ_mul]
      exact takes_bind h1 fun a ha => h n (by omega) a (h2 a ha)
    · intro b hb
      rw [iterate, out_bind] at hb
      cases hx : (iterate f n s).out with
      | ok a => rw [hx] at hb; exact hI n (by omega) a (h2 a hx) b hb
      | ub k => rw [hx] at hb; cases hb
      | abort => rw [hx] at hb; cases hb
      | diverge => rw [hx] at hb; cases hb

theorem takes_loop_inv {f : Nat → σ → M σ} {c n : Nat} {s : σ} (I : σ → Prop) (hs : I s)
    (hI : ∀ i < n, ∀ s, I s → Post (f i s) I) (h : ∀ i < n, ∀ s, I s → Takes e p (f i s) c) :
    Takes e p (loop f n s) (e + n * c) :=
  takes_bind (takes_tell _) fun _ _ => (takes_iterate_inv I n h hI hs).1

theorem takes_loop {f : Nat → σ → M σ} {c n : Nat} {s : σ} (h : ∀ i s, Takes e p (f i s) c) :
    Takes e p (loop f n s) (e + n * c) :=
  takes_loop_inv (fun _ => True) trivial (fun _ _ _ _ _ _ => trivial) fun i _ s _ => h i s

theorem takes_loopFrom {f : Nat → σ → M σ} {c lo hi : Nat} {s : σ} (h : ∀ i s, Takes e p (f i s) c) :
    Takes e p (loopFrom lo hi f s) (e + (hi - lo) * c) :=
  takes_bind (takes_tell _) fun _ _ =>
    (takes_iterate_inv (fun _ => True) _ (fun _ _ _ _ => h _ _) (fun _ _ _ _ _ _ => trivial) trivial).1

theorem takes_iterateDown {f : Nat → σ → M σ} {c : Nat} (h : ∀ i s, Takes e p (f i s) c) (n : Nat) (s : σ) :
    Takes e p (iterateDown f n s) (n * c) := by
  induction n generalizing s with
  | zero => exact Nat.zero_le _
  | succ n ih =>
    exact (takes_bind (h _ _) fun a _ => ih a).mono (by rw [Nat.succ_mul]; omega)

theorem takes_loopDown {f : Nat → σ → M σ} {c n : Nat} {s : σ} (h : ∀ i s, Takes e p (f i s) c) :
    Takes e p (loopDown f n s) (e + n * c) :=
  takes_bind (takes_tell _) fun _ _ => takes_iterateDown h n s

theorem takes_collect {f : Nat → M α} {c n : Nat} (h : ∀ i, Takes e p (f i) c) : Takes e p (collect f n) (e + n * c) := by
  refine takes_bind (takes_tell _) fun _ _ => ?_
  clear * - h
  induction n with
  | zero => exact Nat.zero_le _
  | succ n ih =>
    rw [Nat.succ_mul]
    exact takes_bind ih fun _ _ => takes_bind (m := 0) (h n) fun _ _ => takes_pure _

theorem takes_collectOpt {f : Nat → M (Option α)} {c n : Nat} (h : ∀ i, Takes e p (f i) c) :
    Takes e p (collectOpt f n) (n * c) := by
  induction n with
  | zero => exact Nat.zero_le _
  | succ n ih =>
    rw [Nat.succ_mul]
    refine takes_bind ih fun l _ => ?_
    cases l with
    | none => exact Nat.zero_le _
    | some l =>
      refine takes_bind (m := 0) (h n) fun x _ => ?_
      cases x <;> exact takes_pure _

theorem takes_foldL_inv {l : List α} {f : σ → α → M σ} {c : Nat} (I : σ → Prop)
    (hI : ∀ s, I s → ∀ x, Post (f s x) I) (h : ∀ s x, I s → Takes e p (f s x) c) {s : σ} (hs : I s) :
    Takes e p (foldL l f s) (l.length * (c + e) + e) := by
  induction l generalizing s with
  | nil => exact (takes_bind (takes_note _) fun _ _ => takes_pure _).mono (by simp)
  | cons x l ih =>
    refine (takes_bind (takes_note _) fun _ _ => takes_bind (h s x hs) fun a ha => ih (hI s hs x a ha)).mono ?_
    rw [List.length_cons, Nat.succ_mul]; omega

theorem takes_foldL_of {l : List α} {f : σ → α → M σ} {c : Nat} {s : σ} (n : Nat) (hl : l.length ≤ n)
    (h : ∀ s x, Takes e p (f s x) c) : Takes e p (foldL l f s) (n * (c + e) + e) :=
  (takes_foldL_inv (fun _ => True) (fun _ _ _ _ _ => trivial) (fun s x _ => h s x) trivial).mono
    (Nat.add_le_add_right (Nat.mul_le_mul_right _ hl) _)

/- what holds of results -/

theorem post_bind {x : LM α} {f : α → LM β} {Q : β → Prop} (h : ∀ a, x.out = .ok a → Post (f a) Q) :
    Post (x >>= f) Q := by
  intro b hb
  rw [out_bind] at hb
  cases hx : x.out with
  | ok a => rw [hx] at hb; exact h a hx b hb
  | ub k => rw [hx] at hb; cases hb
  | abort => rw [hx] at hb; cases hb
  | diverge => rw [hx] at hb; cases hb

theorem post_bind' {x : LM α} {f : α → LM β} {Q : β → Prop} (h : ∀ a, x.out = .ok a → Post (f a) Q) :
    Post (LM.bind x f) Q := post_bind h

theorem post_seq {x : LM α} {f : α → LM β} {R : α → Prop} {Q : β → Prop} (hx : Post x R) (h : ∀ a, R a → Post (f a) Q) :
    Post (x >>= f) Q := post_bind fun a ha => h a (hx a ha)

theorem post_pure {a : α} {Q : α → Prop} (h : Q a) : Post (pure a : LM α) Q := fun b hb => by cases hb; exact h
theorem post_ok {a : α} {Q : α → Prop} (h : Q a) : Post (LM.ok a : LM α) Q := fun b hb => by cases hb; exact h
theorem post_ub {k : UB} {Q : α → Prop} : Post (LM.ub k : LM α) Q := fun b hb => by cases hb
theorem post_abort {Q : α → Prop} : Post (LM.abort : LM α) Q := fun b hb => by cases hb
theorem post_diverge {Q : α → Prop} : Post (LM.diverge : LM α) Q := fun b hb => by cases hb

theorem post_if {c : Prop} [Decidable c] {a b : LM α} {Q : α → Prop} (ha : c → Post a Q) (hb : ¬ c → Post b Q) :
    Post (if c then a else b) Q := by
  split
  · next h => exact ha h
  · next h => exact hb h

theorem post_ite {c : Prop} [Decidable c] {a b : LM α} {Q : α → Prop} (ha : c → Post a Q) (hb : ¬ c → Post b Q) :
    Post (LM.ite c a b) Q := post_bind' fun _ _ => post_if ha hb

theorem post_loop {f : Nat → σ → M σ} {n : Nat} {s : σ} (I : σ → Prop) (hs : I s)
    (h : ∀ i < n, ∀ s, I s → Post (f i s) I) : Post (loop f n s) I := by
  refine post_bind fun _ _ => ?_
  clear * - hs h
  induction n with
  | zero => exact post_ok hs
  | succ n ih => exact post_seq (ih fun i hi => h i (by omega)) fun a ha => h n (by omega) a ha

theorem post_loopDown {f : Nat → σ → M σ} {n : Nat} {s : σ} (I : σ → Prop) (hs : I s)
    (h : ∀ i s, I s → Post (f i s) I) : Post (loopDown f n s) I := by
  refine post_bind fun _ _ => ?_
  clear * - hs h
  induction n generalizing s with
  | zero => exact post_ok hs
  | succ n ih => exact post_seq (h _ s hs) fun a ha => ih ha

theorem post_foldL {l : List α} {f : σ → α → M σ} {s : σ} (I : σ → Prop) (hs : I s)
    (h : ∀ s x, I s → Post (f s x) I) : Post (foldL l f s) I := by
  induction l generalizing s with
  | nil => exact post_bind fun _ _ => post_pure hs
  | cons x l ih => exact post_bind fun _ _ => post_seq (h s x hs) fun a ha => ih ha

theorem post_wr {b : List α} {i : Nat} {v : α} : Post (wr b i v) fun c => c.length = b.length :=
  post_bind' fun _ _ => post_if (fun _ => post_ok (by simp)) fun _ => post_ub

theorem post_rdN {b : Buf} {i n : Nat} : Post (rdN b i n) fun d => d.length = n :=
  fun d hd => rdN_length (by rwa [out_rdN] at hd)

/-- a run with a budget: `n` steps in all, of which `φ` are left when it ends -/
def Pot (e p : Nat) (x : LM α) (n : Nat) (φ : α → Nat) : Prop := cost e p x ≤ n ∧ ∀ a, x.out = .ok a → cost e p x + φ a ≤ n

theorem pot_bind' {x : LM α} {f : α → LM β} {n : Nat} {φ : α → Nat} {ψ : β → Nat} (h : Pot e p x n φ)
    (h' : ∀ a, x.out = .ok a → Pot e p (f a) (φ a) ψ) : Pot e p (LM.bind x f) n ψ := by
  rcases cost_bind' (e := e) (p := p) x f with ⟨a, ha, he⟩ | ⟨hn, he⟩
  · have h1 := h.2 a ha
    obtain ⟨h2, h3⟩ := h' a ha
    refine ⟨by omega, fun b hb => ?_⟩
    rw [out_bind', ha] at hb
    have := h3 b hb
    omega
  · refine ⟨by have := h.1; omega, fun b hb => ?_⟩
    rw [out_bind'] at hb
    cases hx : x.out with
    | ok a => exact absurd hx (hn a)
    | ub k => rw [hx] at hb; cases hb
    | abort => rw [hx] at hb; cases hb
    | diverge => rw [hx] at hb; cases hb

theorem pot_bind {x : LM α} {f : α → LM β} {n : Nat} {φ : α → Nat} {ψ : β → Nat} (h : Pot e p x n φ)
    (h' : ∀ a, x.out = .ok a → Pot e p (f a) (φ a) ψ) : Pot e p (x >>= f) n ψ := pot_bind' h h'

theorem Takes.pot {x : LM α} {k : Nat} (h : Takes e p x k) (n : Nat) (hk : k ≤ n) : Pot e p x n fun _ => n - k :=
  ⟨Nat.le_trans h hk, fun a _ => by unfold Takes at h; show cost e p x + (n - k) ≤ n; omega⟩

theorem Pot.takes {x : LM α} {n : Nat} {φ : α → Nat} (h : Pot e p x n φ) : Takes e p x n := h.1

theorem Pot.mono {x : LM α} {n m : Nat} {φ ψ : α → Nat} (h : Pot e p x n φ) (hn : n ≤ m) (hφ : ∀ a, x.out = .ok a → ψ a + n ≤ φ a + m) :
    Pot e p x m ψ := ⟨Nat.le_trans h.1 hn, fun a ha => by have := h.2 a ha; have := hφ a ha; omega⟩

theorem pot_pure {a : α} {n : Nat} {φ : α → Nat} (h : φ a ≤ n) : Pot e p (pure a : LM α) n φ :=
  ⟨Nat.zero_le _, fun b hb => by cases hb; exact (Nat.zero_add _).le.trans h⟩

theorem pot_diverge {n : Nat} {φ : α → Nat} : Pot e p (LM.diverge : LM α) n φ := ⟨Nat.zero_le _, fun b hb => by cases hb⟩

theorem pot_ite {c : Prop} [Decidable c] {a b : LM α} {n : Nat} {φ : α → Nat} (ha : c → Pot e p a n φ) (hb : ¬ c → Pot e p b n φ) :
    Pot e p (LM.ite c a b) (n + e) φ := by
  refine pot_bind' ((takes_tell _).pot (n + e) (by simp [price])) fun _ _ => ?_
  have : n + e - price e p (.branch (decide c)) = n := by simp [price]
  rw [this]
  split
  · next h => exact ha h
  · next h => exact hb h

end Picnic.Leak
