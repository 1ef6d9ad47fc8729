import Verif.Proofs.RomConv

/-
C62: a signer who asks a random oracle, and a signer who chooses answers and writes them into the oracle.
-/

namespace Picnic.Rom

open Spec Spec.Zkb Spec.Rom Spec.Picnic1

variable {N M : ℕ} {I : Inst}

/-- The order in which questions are asked. -/
def rank {T : ℕ} {u : Bool} : Query T u → ℕ
  | .secrets => 0
  | .tape .. => 1
  | .com .. => 2
  | .g .. => 2
  | .digest => 3

theorem rank_lt {T : ℕ} {u : Bool} (q : Query T u) : rank q < 4 := by cases q <;> simp [rank]

/-- The string for a question of a signer. -/
def pts (I : Inst) (sk ct pt msg : Bytes) (O : Oracle N M) (a : Answers I M) (q : Query I.T I.unruh) : Bytes :=
  point I (hash O · I.digest) sk ct pt msg a (view I sk pt a) q

section

variable {sk ct pt msg : Bytes}

theorem seed_congr {a a' : Answers I M} (h : a .secrets = a' .secrets) (t j : ℕ) : seed a t j = seed a' t j := by
  unfold seed secrets
  rw [h]

theorem salt_congr {a a' : Answers I M} (h : a .secrets = a' .secrets) : salt a = salt a' := by
  unfold salt secrets
  rw [h]

theorem key_congr {a a' : Answers I M} {t : Fin I.T} (h : ∀ j, a (.tape t j) = a' (.tape t j)) : keyBits I sk a t = keyBits I sk a' t := by
  funext j
  unfold keyBits
  rw [h, h]

theorem tape_congr {a a' : Answers I M} {t : Fin I.T} (h : ∀ j, a (.tape t j) = a' (.tape t j)) : tapeBits I a t = tapeBits I a' t := by
  funext j
  unfold tapeBits
  rw [h]

theorem view_congr {a a' : Answers I M} {t : Fin I.T} (h0 : a .secrets = a' .secrets) (h : ∀ j, a (.tape t j) = a' (.tape t j)) (j : ℕ) :
    view I sk pt a t j = view I sk pt a' t j := by
  unfold view gateBits
  rw [seed_congr h0, key_congr h, tape_congr h]

/-- The string for a question depends only on the answers to earlier ones. -/
theorem pts_congr (O : Oracle N M) {a a' : Answers I M} (q : Query I.T I.unruh) (h : ∀ q', rank q' < rank q → a q' = a' q') :
    pts I sk ct pt msg O a q = pts I sk ct pt msg O a' q := by
  unfold pts
  cases q with
  | secrets => rfl
  | tape t j =>
    have h0 := h .secrets (by simp [rank])
    simp only [point]
    rw [seed_congr h0, salt_congr h0]
  | com t j =>
    have h0 := h .secrets (by simp [rank])
    simp only [point]
    rw [seed_congr h0, view_congr h0 fun j => h _ (by simp [rank])]
  | g hu t j =>
    have h0 := h .secrets (by simp [rank])
    simp only [point]
    rw [seed_congr h0, view_congr h0 fun j => h _ (by simp [rank])]
  | digest =>
    have h0 := h .secrets (by simp [rank])
    have hv : ∀ t j, view I sk pt a t j = view I sk pt a' t j := fun t j => view_congr h0 (fun j => h _ (by simp [rank])) j
    have hc : ∀ t j, a (.com t j) = a' (.com t j) := fun t j => h _ (by simp [rank])
    have hg : ∀ hu t j, a (.g hu t j) = a' (.g hu t j) := fun hu t j => h _ (by simp [rank])
    simp only [point]
    rw [salt_congr h0]
    simp only [hv, hc, hg]

variable (I sk ct pt msg) in
/-- One round of questions. -/
def asking (O : Oracle N M) (a : Answers I M) : Answers I M := fun q => ask O (pts I sk ct pt msg O a q)

theorem answers_eq (O : Oracle N M) : answers I O sk ct pt msg = (asking I sk ct pt msg O)^[4] fun _ => 0 := rfl

theorem asking_stable (O : Oracle N M) (a : Answers I M) (k : ℕ) :
    ∀ q, rank q < k → (asking I sk ct pt msg O)^[k] a q = (asking I sk ct pt msg O)^[k + 1] a q := by
  induction k with
  | zero => intro q h; omega
  | succ k ih =>
    intro q h
    rw [Function.iterate_succ_apply', Function.iterate_succ_apply' (asking I sk ct pt msg O) (k + 1)]
    exact congrArg (ask O) (pts_congr O q fun q' hq' => ih q' (by omega))

/-- The answers are those that the oracle gives. -/
theorem answers_fixed (O : Oracle N M) (q : Query I.T I.unruh) :
    answers I O sk ct pt msg q = ask O (pts I sk ct pt msg O (answers I O sk ct pt msg) q) := by
  rw [answers_eq]
  have := asking_stable (I := I) (sk := sk) (ct := ct) (pt := pt) (msg := msg) O (fun _ => 0) 4 q (rank_lt q)
  rw [Function.iterate_succ_apply'] at this
  exact this

/-- No other answers are those that the oracle gives. -/
theorem answers_unique (O : Oracle N M) (a : Answers I M) (h : ∀ q, a q = ask O (pts I sk ct pt msg O a q)) : answers I O sk ct pt msg = a := by
  have key : ∀ k, ∀ q : Query I.T I.unruh, rank q < k → answers I O sk ct pt msg q = a q := by
    intro k
    induction k with
    | zero => intro q hq; omega
    | succ k ih =>
      intro q hq
      rw [answers_fixed, h q, pts_congr O q fun q' hq' => ih q' (by omega)]
  funext q
  exact key 4 q (rank_lt q)

/-! ### Hashing of seeds and of digests -/

variable (I) in
/-- What is hashed beside the questions. -/
def Plain : Set Bytes :=
  {m | (∃ s : Bytes, s.length = I.seed ∧ (m = Use.text (T := I.T) I (.tapeSeed s) ∨ m = Use.text (T := I.T) I (.comSeed s) ∨ m = Use.text (T := I.T) I (.gSeed s))) ∨
    ∃ d : Bytes, d.length = I.digest ∧ m = Use.text (T := I.T) I (.next d)}

theorem bytes_len' (n : ℕ) (v : Val M) : (bytes n v).length = n := by
  unfold bytes Spec.Picnic1.ofBits
  simp

theorem seed_len (a : Answers I M) (t : Fin I.T) {j : ℕ} (hj : j < 3) : (seed a t j).length = I.seed := by
  unfold seed secrets Inst.seedOf
  rw [List.length_take, List.length_drop, bytes_len']
  have h1 : (3 * (t : ℕ) + j) * I.seed + I.seed ≤ 3 * I.T * I.seed := by
    rw [← Nat.succ_mul]
    exact Nat.mul_le_mul_right _ (by have := t.2; omega)
  omega

theorem salt_len (a : Answers I M) : (salt a).length = 32 := by
  unfold salt secrets Inst.saltOf
  rw [List.length_drop, bytes_len']
  omega

theorem plain_tape {s : Bytes} (h : s.length = I.seed) : Use.text (T := I.T) I (.tapeSeed s) ∈ Plain I := Or.inl ⟨s, h, Or.inl rfl⟩

theorem plain_com {s : Bytes} (h : s.length = I.seed) : Use.text (T := I.T) I (.comSeed s) ∈ Plain I := Or.inl ⟨s, h, Or.inr (Or.inl rfl)⟩

theorem plain_g {s : Bytes} (h : s.length = I.seed) : Use.text (T := I.T) I (.gSeed s) ∈ Plain I := Or.inl ⟨s, h, Or.inr (Or.inr rfl)⟩

theorem plain_next {d : Bytes} (h : d.length = I.digest) : Use.text (T := I.T) I (.next d) ∈ Plain I := Or.inr ⟨d, h, rfl⟩

/-- Two oracles that agree on these strings lead to the same questions. -/
theorem pts_plain {O O' : Oracle N M} (h : ∀ m ∈ Plain I, ask O m = ask O' m) (a : Answers I M) : pts I sk ct pt msg O a = pts I sk ct pt msg O' a := by
  have h1 : ∀ (t : Fin I.T) (j : Fin 3), hash O (Use.text (T := I.T) I (.tapeSeed (seed a t j))) I.digest =
      hash O' (Use.text (T := I.T) I (.tapeSeed (seed a t j))) I.digest := fun t j => by
    unfold Rom.hash
    rw [h _ (plain_tape (seed_len a t j.2))]
  have h2 : ∀ (t : Fin I.T) (j : Fin 3), hash O (Use.text (T := I.T) I (.comSeed (seed a t j))) I.digest =
      hash O' (Use.text (T := I.T) I (.comSeed (seed a t j))) I.digest := fun t j => by
    unfold Rom.hash
    rw [h _ (plain_com (seed_len a t j.2))]
  have h3 : ∀ (t : Fin I.T) (j : Fin 3), hash O (Use.text (T := I.T) I (.gSeed (seed a t j))) I.digest =
      hash O' (Use.text (T := I.T) I (.gSeed (seed a t j))) I.digest := fun t j => by
    unfold Rom.hash
    rw [h _ (plain_g (seed_len a t j.2))]
  refine funext fun q => ?_
  unfold pts
  cases q with
  | secrets => simp only [point]
  | tape t j => simp only [point]; rw [h1]
  | com t j => simp only [point]; rw [h2]
  | g hu t j => simp only [point]; rw [h3]
  | digest => simp only [point]

/-! ### Writing into the oracle -/

open Classical in
/-- The oracle with new answers at the given strings. -/
noncomputable def write {Q : Type} (O : Oracle N M) (p : Q → Bytes) (a : Q → Val M) : Oracle N M := fun x => if h : ∃ q, p q = x.1 then a h.choose else O x

variable {Q : Type} {p : Q → Bytes}

theorem write_at (hp : Function.Injective p) (O : Oracle N M) (a : Q → Val M) {q : Q} {x : Arg N} (h : p q = x.1) : write O p a x = a q := by
  have hx : ∃ q, p q = x.1 := ⟨q, h⟩
  unfold write
  rw [dif_pos hx]
  exact congrArg a (hp (hx.choose_spec.trans h.symm))

theorem write_off (O : Oracle N M) (a : Q → Val M) {x : Arg N} (h : ∀ q, p q ≠ x.1) : write O p a x = O x := by
  unfold write
  rw [dif_neg (by rintro ⟨q, hq⟩; exact h q hq)]

theorem ask_write (hp : Function.Injective p) (O : Oracle N M) (a : Q → Val M) {q : Q} (h : (p q).length ≤ N) : ask (write O p a) (p q) = a q := by
  unfold ask
  rw [dif_pos h]
  exact write_at hp O a rfl

theorem ask_write_off (O : Oracle N M) (a : Q → Val M) {m : Bytes} (h : ∀ q, p q ≠ m) : ask (write O p a) m = ask O m := by
  unfold ask
  split_ifs with hm
  · exact write_off O a h
  · rfl

/-- Writing back what was there. -/
theorem write_write (hp : Function.Injective p) (hN : ∀ q, (p q).length ≤ N) (O : Oracle N M) (a : Q → Val M) :
    write (write O p a) p (fun q => ask O (p q)) = O := by
  funext x
  by_cases h : ∃ q, p q = x.1
  · obtain ⟨q, hq⟩ := h
    rw [write_at hp _ _ hq]
    unfold ask
    rw [dif_pos (hN q)]
    congr 1
    exact Subtype.ext hq
  · push Not at h
    rw [write_off _ _ h, write_off _ _ h]

variable (I sk ct pt msg) in
/-- The strings of the questions are different from each other and from what is hashed beside. -/
structure Good (O : Oracle N M) (a : Answers I M) : Prop where
  inj : Function.Injective (pts I sk ct pt msg O a)
  plain : ∀ q, pts I sk ct pt msg O a q ∉ Plain I

variable (I sk ct pt msg) in
/-- The oracle into which the answers are written. -/
noncomputable def prog (O : Oracle N M) (a : Answers I M) : Oracle N M := write O (pts I sk ct pt msg O a) a

theorem ask_plain {O : Oracle N M} {a : Answers I M} (h : Good I sk ct pt msg O a) (c : Answers I M) :
    ∀ m ∈ Plain I, ask (write O (pts I sk ct pt msg O a) c) m = ask O m := fun _ hm =>
  ask_write_off O c fun q hq => h.plain q (hq ▸ hm)

theorem pts_write {O : Oracle N M} {a : Answers I M} (h : Good I sk ct pt msg O a) (c : Answers I M) :
    pts I sk ct pt msg (write O (pts I sk ct pt msg O a) c) a = pts I sk ct pt msg O a := pts_plain (ask_plain h c) a

theorem good_write {O : Oracle N M} {a : Answers I M} (h : Good I sk ct pt msg O a) (c : Answers I M) :
    Good I sk ct pt msg (write O (pts I sk ct pt msg O a) c) a := by
  have e := pts_write h c
  constructor
  · rw [e]
    exact h.inj
  · rw [e]
    exact h.plain

theorem answers_write (hN : ∀ (O : Oracle N M) (a : Answers I M) q, (pts I sk ct pt msg O a q).length ≤ N) {O : Oracle N M} {a : Answers I M}
    (h : Good I sk ct pt msg O a) : answers I (prog I sk ct pt msg O a) sk ct pt msg = a := by
  refine answers_unique _ a fun q => ?_
  unfold prog
  rw [pts_write h, ask_write h.inj O a (hN O a q)]

variable (I sk ct pt msg) in
/-- Oracle, other values ↔ oracle, answers. -/
noncomputable def swap (ω : Oracle N M × Answers I M) (a : Answers I M) : Oracle N M × Answers I M :=
  (write ω.1 (pts I sk ct pt msg ω.1 a) ω.2, a)

/-- A signer who asks an oracle can be replaced by a signer who chooses the answers and writes them into an oracle. -/
theorem prob_swap (hN : ∀ (O : Oracle N M) (a : Answers I M) q, (pts I sk ct pt msg O a q).length ≤ N) (W : Oracle N M → Answers I M → Prop) :
    prob (fun ω : Oracle N M × Answers I M => Good I sk ct pt msg ω.1 (answers I ω.1 sk ct pt msg) ∧ W ω.1 (answers I ω.1 sk ct pt msg)) =
    prob (fun ω : Oracle N M × Answers I M => Good I sk ct pt msg ω.1 ω.2 ∧ W (prog I sk ct pt msg ω.1 ω.2) ω.2) := by
  classical
  unfold prob
  congr 2
  refine Finset.card_bij' (fun ω _ => swap I sk ct pt msg ω (answers I ω.1 sk ct pt msg))
    (fun ω _ => (prog I sk ct pt msg ω.1 ω.2, fun q => ask ω.1 (pts I sk ct pt msg ω.1 ω.2 q))) ?_ ?_ ?_ ?_
  · rintro ⟨O, c⟩ h
    simp only [Finset.mem_filter, Finset.mem_univ, true_and] at h ⊢
    obtain ⟨hg, hw⟩ := h
    refine ⟨good_write hg c, ?_⟩
    have e1 := write_write hg.inj (hN O _) O c
    rw [← funext (answers_fixed (I := I) (sk := sk) (ct := ct) (pt := pt) (msg := msg) O)] at e1
    have e2 : prog I sk ct pt msg (swap I sk ct pt msg (O, c) (answers I O sk ct pt msg)).1 (answers I O sk ct pt msg) = O := by
      unfold swap prog
      dsimp only
      rw [pts_write hg]
      exact e1
    exact e2.symm ▸ hw
  · rintro ⟨O, a⟩ h
    simp only [Finset.mem_filter, Finset.mem_univ, true_and] at h ⊢
    obtain ⟨hg, hw⟩ := h
    rw [answers_write hN hg]
    exact ⟨good_write hg a, hw⟩
  · rintro ⟨O, c⟩ h
    simp only [Finset.mem_filter, Finset.mem_univ, true_and] at h
    obtain ⟨hg, -⟩ := h
    have e1 := write_write hg.inj (hN O _) O c
    rw [← funext (answers_fixed (I := I) (sk := sk) (ct := ct) (pt := pt) (msg := msg) O)] at e1
    refine Prod.ext ?_ (funext fun q => ?_)
    · unfold swap prog
      dsimp only
      rw [pts_write hg]
      exact e1
    · unfold swap
      dsimp only
      rw [pts_write hg]
      exact ask_write hg.inj O c (hN _ _ q)
  · rintro ⟨O, a⟩ h
    simp only [Finset.mem_filter, Finset.mem_univ, true_and] at h
    obtain ⟨hg, -⟩ := h
    unfold swap
    dsimp only
    rw [answers_write hN hg]
    refine Prod.ext ?_ rfl
    unfold prog
    dsimp only
    rw [pts_write hg]
    exact write_write hg.inj (hN O a) O a

end

end Picnic.Rom
