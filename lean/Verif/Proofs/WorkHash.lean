import Verif.Proofs.Work
import Verif.Proofs.Hash

/-
The work of the hash functions.  A permutation costs `q` for each byte of the rate, so that a hash of `n` bytes costs
about `q * n`: what a block costs is paid by the bytes in it.
-/

namespace Picnic.Leak

/-- what is counted: elementary steps, or permutations -/
class Kind (e q : Nat) : Prop where
  out : (e = 1 ∧ q = 0) ∨ (e = 0 ∧ q = 1)

instance : Kind 1 0 := ⟨Or.inl ⟨rfl, rfl⟩⟩
instance : Kind 0 1 := ⟨Or.inr ⟨rfl, rfl⟩⟩

variable {e q R : Nat} {E : Env} {α β : Type}

/-- compare two costs -/
local macro "kinds" : tactic =>
  `(tactic| (rcases Kind.out (e := e) (q := q) with ⟨he, hq⟩ | ⟨he, hq⟩ <;> subst he <;> subst hq <;>
      simp only [Nat.one_mul, Nat.zero_mul, Nat.zero_add, Nat.add_zero] <;> omega))

theorem pot_step {p k m n : Nat} {x : LM α} {f : α → LM β} {ψ : β → Nat} (hx : Takes e p x k)
    (h : ∀ a, x.out = .ok a → Pot e p (f a) m ψ) (hn : k + m ≤ n) : Pot e p (x >>= f) n ψ := by
  refine Pot.mono (n := k + m) (φ := ψ) (pot_bind (hx.pot (k + m) (by omega)) fun a ha => ?_) hn fun _ _ => by omega
  simpa using h a ha

theorem pot_branch {p m n : Nat} {c : Prop} [Decidable c] {a b : LM α} {φ : α → Nat} (ha : c → Pot e p a m φ)
    (hb : ¬ c → Pot e p b m φ) (hn : m + e ≤ n) : Pot e p (LM.ite c a b) n φ :=
  (pot_ite ha hb).mono hn fun _ _ => by omega

theorem Pot.le {p m n : Nat} {x : LM α} {φ : α → Nat} (h : Pot e p x m φ) (hn : m ≤ n) : Pot e p x n φ :=
  h.mono hn fun _ _ => by omega

theorem takes_permute (E : Env) (s : Buf) {p : Nat} : Takes e p (permute E s) p :=
  (takes_bind (m := 0) (takes_tell .permute) fun _ _ => takes_pure _).mono (by simp [price])

theorem takes_addByte {p : Nat} (s : Buf) (b : Byte) (o : Nat) : Takes e p (addByte s b o) (e * 3) :=
  (takes_bind (takes_assertM _) fun _ _ => takes_bind (takes_rd ..) fun _ _ => takes_wr ..).mono (by omega)

theorem takes_addBytes {p : Nat} (s d : Buf) (i o n : Nat) : Takes e p (addBytes s d i o n) (e * (3 * n + 3)) := by
  refine (takes_bind (takes_assertM _) fun _ _ => takes_bind (takes_assertM _) fun _ _ =>
    takes_loop (c := e * 3) fun i s => ?_).mono (by rw [Nat.mul_add, Nat.mul_left_comm e 3 n, Nat.mul_comm 3, Nat.mul_assoc, Nat.mul_left_comm n]; omega)
  exact (takes_bind (takes_rd ..) fun _ _ => takes_bind (takes_rd ..) fun _ _ => takes_wr ..).mono (by omega)

theorem takes_extractBytes {p : Nat} (s : Buf) (o n : Nat) : Takes e p (extractBytes s o n) (e * (n + 3)) := by
  refine (takes_bind (takes_assertM _) fun _ _ => takes_bind (takes_assertM _) fun _ _ =>
    takes_rdN ..).mono ?_
  simp only [Nat.mul_add]; omega

variable [Kind e q]

theorem pot_absorbBlocks (data : Buf) (hR : 1 ≤ R) (D n i : Nat) (st : Buf) :
    Pot e (q * R) (absorbBlocks E data R D n i st) (e * (7 * (D - i) + 1) + q * (D - i))
      fun r => e * (7 * (D - r.2)) + q * (D - r.2) := by
  induction n generalizing i st with
  | zero => exact pot_diverge
  | succ n ih =>
    refine pot_branch (m := e * (7 * (D - i)) + q * (D - i)) (fun hc => ?_) (fun _ => pot_pure (Nat.le_refl _)) (by kinds)
    refine pot_step (takes_addBytes ..) (fun s _ => ?_)
      (m := q * R + (e * (7 * (D - (i + R)) + 1) + q * (D - (i + R)))) (by kinds)
    exact pot_step (takes_permute ..) (fun s _ => ih _ _) (Nat.le_refl _)

theorem pot_absorbLoop (data : Buf) (hR : 1 ≤ R) (D n i : Nat) (inst : HashInstance) :
    Pot e (q * R) (absorbLoop E data R D n i inst) (e * (8 * n + 7 * (D - i)) + q * (D - i + inst.byteIOIndex))
      fun r => q * r.byteIOIndex := by
  induction n generalizing i inst with
  | zero => exact pot_diverge
  | succ n ih =>
    refine pot_branch (m := e * (8 * n + 7 + 7 * (D - i)) + q * (D - i + inst.byteIOIndex)) (fun hi => ?_)
      (fun _ => pot_pure (by kinds)) (by kinds)
    refine pot_step (takes_note _) (fun _ _ => ?_)
      (m := e * (8 * n + 6 + 7 * (D - i)) + q * (D - i + inst.byteIOIndex)) (by kinds)
    refine pot_branch (m := e * (8 * n + 5 + 7 * (D - i)) + q * (D - i + inst.byteIOIndex)) (fun hb => ?_) (fun hb => ?_)
      (by kinds)
    · refine pot_bind ((pot_absorbBlocks data hR D (D + 1) i inst.state).mono
        (ψ := fun r => e * (8 * n + 7 * (D - r.2)) + q * (D - r.2 + inst.byteIOIndex)) (by kinds) fun a _ => by kinds) fun a _ => ?_
      exact ih _ _
    · refine pot_step (takes_note _) (fun _ _ => ?_)
        (m := e * (8 * n + 4 + 7 * (D - i)) + q * (D - i + inst.byteIOIndex)) (by kinds)
      dsimp only
      generalize hp : (if ((D - i) % 2 ^ 32 + inst.byteIOIndex) % 2 ^ 32 > R then R - inst.byteIOIndex
        else (D - i) % 2 ^ 32) = pb
      have hpb : pb ≤ D - i ∨ pb + inst.byteIOIndex = R ∧ False := by
        left
        have := Nat.mod_le (D - i) (2 ^ 32)
        have := Nat.mod_le ((D - i) % 2 ^ 32 + inst.byteIOIndex) (2 ^ 32)
        split at hp <;> omega
      have hpb : pb ≤ D - i := by rcases hpb with h | h; exacts [h, h.2.elim]
      refine pot_step (takes_addBytes ..) (fun s _ => ?_)
        (m := e * (8 * n + 1 + 7 * (D - (i + pb))) + q * (D - (i + pb) + inst.byteIOIndex + pb)) (by kinds)
      have hm := Nat.mod_le (inst.byteIOIndex + pb) (2 ^ 32)
      refine pot_branch (m := e * (8 * n + 7 * (D - (i + pb))) + q * (D - (i + pb) + inst.byteIOIndex + pb))
        (fun hx => ?_) (fun _ => ?_) (by kinds)
      · refine pot_step (m := e * (8 * n + 7 * (D - (i + pb))) + q * (D - (i + pb))) (takes_permute ..)
          (fun s _ => (ih (i + pb) { inst with state := s, byteIOIndex := 0 }).le ?_) ?_
        · dsimp only; kinds
        · kinds
      · refine (ih _ _).le ?_
        dsimp only
        kinds

/-- a hash that is absorbing -/
structure Good (R : Nat) (c : HashInstance) : Prop where
  rate : c.rate / 8 = R
  fixed : c.fixedOutputLength = 0
  suffix : c.delimitedSuffix = 0x1F
  absorbing : c.squeezing = false

theorem post_absorbLoop (data : Buf) (D n i : Nat) (inst : HashInstance) (h : Good R inst) :
    Post (absorbLoop E data R D n i inst) (Good R) := by
  induction n generalizing i inst with
  | zero => exact post_diverge
  | succ n ih =>
    refine post_ite (fun _ => ?_) (fun _ => post_pure h)
    refine post_bind fun _ _ => post_ite (fun _ => post_bind fun _ _ => ih _ _ ⟨h.rate, h.fixed, h.suffix, h.absorbing⟩) fun _ => ?_
    refine post_bind fun _ _ => ?_
    dsimp only
    refine post_bind fun _ _ => post_ite (fun _ => post_bind fun _ _ => ih _ _ ⟨h.rate, h.fixed, h.suffix, h.absorbing⟩) fun _ => ?_
    exact ih _ _ ⟨h.rate, h.fixed, h.suffix, h.absorbing⟩

/-- `f` absorbs `l` bytes at the further cost of `k` -/
def Adds (e q R : Nat) (f : HashInstance → M HashInstance) (k l : Nat) : Prop :=
  ∀ c, Good R c → Pot e (q * R) (f c) (k + q * (l + c.byteIOIndex)) (fun c' => q * c'.byteIOIndex) ∧ Post (f c) (Good R)

theorem bits_le (n : Nat) : n * 8 % 2 ^ 64 / 8 ≤ n := by
  have := Nat.mod_le (n * 8) (2 ^ 64)
  omega

theorem adds_hashUpdate (hR : 1 ≤ R) (data : Buf) (len : Nat) :
    Adds e q R (fun c => hashUpdate E c data len) (e * (15 * len + 10)) len := by
  intro c hc
  have hl := bits_le len
  refine ⟨?_, ?_⟩
  · unfold hashUpdate
    dsimp only
    generalize len * 8 % 2 ^ 64 / 8 = D at hl
    refine pot_bind (φ := fun r => e + q * r.1.byteIOIndex) ?_ fun r _ =>
      pot_step (takes_assertM _) (fun _ _ => pot_pure (Nat.le_refl _)) (Nat.le_refl _)
    refine pot_branch (m := e * (15 * len + 9) + q * (len + c.byteIOIndex)) (fun _ => pot_pure (by dsimp only; kinds)) (fun _ => ?_)
      (by kinds)
    rw [hc.rate]
    refine pot_bind (φ := fun r => e + q * r.byteIOIndex) ((pot_absorbLoop data hR D (D + 1) 0 c).mono (by kinds) fun r _ => by kinds)
      fun r _ => pot_pure (Nat.le_refl _)
  · refine post_seq (R := fun r => Good R r.1) ?_ fun r hr => post_bind fun _ _ => post_pure hr
    refine post_ite (fun _ => post_pure hc) fun _ => ?_
    rw [hc.rate]
    exact post_seq (post_absorbLoop _ _ _ _ _ hc) fun r hr => post_pure hr

theorem Adds.le {f : HashInstance → M HashInstance} {k l k' l' : Nat} (h : Adds e q R f k l) (hk : k ≤ k') (hl : l ≤ l') :
    Adds e q R f k' l' := fun c hc =>
  ⟨(h c hc).1.le (Nat.add_le_add hk (Nat.mul_le_mul_left _ (Nat.add_le_add_right hl _))), (h c hc).2⟩

theorem adds_pure : Adds e q R (fun c => pure c) 0 0 := fun c hc => ⟨pot_pure (by simp), post_pure hc⟩

theorem adds_step {x : M α} {g : α → HashInstance → M HashInstance} {k k' l : Nat} (hx : Takes e (q * R) x k)
    (hg : ∀ a, x.out = .ok a → Adds e q R (g a) k' l) : Adds e q R (fun c => x >>= fun a => g a c) (k + k') l := fun c hc =>
  ⟨pot_step hx (fun a ha => (hg a ha c hc).1) (by omega), post_bind fun a ha => (hg a ha c hc).2⟩

theorem adds_seq {f g : HashInstance → M HashInstance} {k k' l l' : Nat} (hf : Adds e q R f k l) (hg : Adds e q R g k' l') :
    Adds e q R (fun c => f c >>= g) (k + k') (l + l') := fun c hc =>
  ⟨pot_bind (((hf c hc).1).mono (ψ := fun c => k' + q * (l' + c.byteIOIndex))
      (by simp only [Nat.mul_add]; omega) fun a _ => by simp only [Nat.mul_add]; omega) fun a ha =>
      (hg a ((hf c hc).2 a ha)).1,
    post_seq (hf c hc).2 fun a ha => (hg a ha).2⟩

theorem adds_ite {P : Prop} [Decidable P] {f g : HashInstance → M HashInstance} {k k' l l' : Nat}
    (hf : P → Adds e q R f k l) (hg : ¬ P → Adds e q R g k' l') :
    Adds e q R (fun c => ifB P then f c else g c) (e + max k k') (max l l') := fun c hc =>
  ⟨pot_branch
    (fun h => (((hf h).le (Nat.le_max_left k k') (Nat.le_max_left l l')) c hc).1)
    (fun h => (((hg h).le (Nat.le_max_right k k') (Nat.le_max_right l l')) c hc).1) (by omega),
    post_ite (fun h => (hf h c hc).2) fun h => (hg h c hc).2⟩

theorem adds_iterate {f : Nat → HashInstance → M HashInstance} {k l : Nat} (h : ∀ i, Adds e q R (f i) k l) (n : Nat) :
    Adds e q R (fun c => iterate f n c) (n * k) (n * l) := by
  induction n with
  | zero => exact (adds_pure (e := e)).le (Nat.zero_le _) (Nat.zero_le _)
  | succ n ih => rw [Nat.succ_mul, Nat.succ_mul]; exact adds_seq ih (h n)

theorem adds_loop {f : Nat → HashInstance → M HashInstance} {k l n : Nat} (h : ∀ i, Adds e q R (f i) k l) :
    Adds e q R (fun c => loop f n c) (e + n * k) (n * l) :=
  adds_step (takes_tell _) fun _ _ => adds_iterate h n

theorem adds_foldL {f : HashInstance → α → M HashInstance} {s : List α} {k l : α → Nat}
    (h : ∀ x, Adds e q R (fun c => f c x) (k x) (l x)) :
    Adds e q R (fun c => foldL s f c) ((s.map fun x => k x + e).sum + e) (s.map l).sum := by
  induction s with
  | nil =>
    exact (adds_step (takes_note _) fun _ _ => adds_pure).le (by simp) (Nat.le_refl _)
  | cons x s ih =>
    refine (adds_step (takes_note _) fun _ _ => adds_seq (h x) ih).le ?_ (by simp)
    simp only [List.map_cons, List.sum_cons]; omega

/-- a hash that is squeezing -/
structure Done (R : Nat) (c : HashInstance) : Prop where
  rate : c.rate / 8 = R
  idx : c.byteIOIndex = 0
  squeezing : c.squeezing = true

theorem pot_squeezeBlocks (hR : 1 ≤ R) (D n i : Nat) (st out : Buf) :
    Pot e (q * R) (squeezeBlocks E R D n i st out) (e * (5 * (D - i) + 1) + q * (D - i))
      fun r => e * (5 * (D - r.2.2)) + q * (D - r.2.2) := by
  induction n generalizing i st out with
  | zero => exact pot_diverge
  | succ n ih =>
    refine pot_branch (m := e * (5 * (D - i)) + q * (D - i)) (fun hc => ?_) (fun _ => pot_pure (Nat.le_refl _)) (by kinds)
    refine pot_step (takes_permute ..) (fun s _ => ?_)
      (m := e * (R + 3) + (e * (5 * (D - (i + R)) + 1) + q * (D - (i + R)))) (by kinds)
    exact pot_step (takes_extractBytes ..) (fun s _ => ih _ _ _) (Nat.le_refl _)

omit [Kind e q] in
theorem extractBytes_len {s b : Buf} {o n : Nat} (h : (extractBytes s o n).out = .ok b) : b.length = n := by
  have : Post (extractBytes s o n) fun d => d.length = n :=
    post_bind fun _ _ => post_bind fun _ _ => post_rdN
  exact this b h

omit [Kind e q] in
theorem post_squeezeBlocks (D n i : Nat) (st out : Buf) (hi : i ≤ D) (hl : out.length = i) :
    Post (squeezeBlocks E R D n i st out) fun r => r.2.2 ≤ D ∧ r.2.1.length = r.2.2 := by
  induction n generalizing i st out with
  | zero => exact post_diverge
  | succ n ih =>
    refine post_ite (fun hc => ?_) fun _ => post_pure ⟨hi, hl⟩
    refine post_bind fun _ _ => post_bind fun b hb => ?_
    by_cases h : R ≤ D - i
    · exact ih _ _ _ (by omega) (by rw [List.length_append, extractBytes_len hb]; omega)
    · exact absurd hc h

theorem pot_squeezeLoop (hR : 1 ≤ R) (D n i : Nat) (inst : HashInstance) (out : Buf) :
    Pot e (q * R) (squeezeLoop E R D n i inst out) (e * (8 * n + 5 * (D - i)) + q * (D - i + inst.byteIOIndex))
      fun _ => 0 := by
  induction n generalizing i inst out with
  | zero => exact pot_diverge
  | succ n ih =>
    refine pot_branch (m := e * (8 * n + 7 + 5 * (D - i)) + q * (D - i + inst.byteIOIndex)) (fun hi => ?_)
      (fun _ => pot_pure (Nat.zero_le _)) (by kinds)
    refine pot_step (takes_note _) (fun _ _ => ?_)
      (m := e * (8 * n + 6 + 5 * (D - i)) + q * (D - i + inst.byteIOIndex)) (by kinds)
    refine pot_branch (m := e * (8 * n + 5 + 5 * (D - i)) + q * (D - i + inst.byteIOIndex)) (fun hb => ?_) (fun hb => ?_)
      (by kinds)
    · refine pot_bind ((pot_squeezeBlocks hR D (D + 1) i inst.state out).mono
        (ψ := fun r => e * (8 * n + 5 * (D - r.2.2)) + q * (D - r.2.2 + inst.byteIOIndex)) (by kinds) fun a _ => by kinds) fun a _ => ?_
      exact ih _ _ _
    · refine pot_bind (φ := fun inst => e * (8 * n + 4 + 5 * (D - i)) + q * (D - i + inst.byteIOIndex)) ?_ fun inst _ => ?_
      · refine pot_branch (m := e * (8 * n + 4 + 5 * (D - i)) + q * (D - i + inst.byteIOIndex)) (fun hx => ?_)
          (fun _ => pot_pure (Nat.le_refl _)) (by kinds)
        exact pot_step (m := e * (8 * n + 4 + 5 * (D - i)) + q * (D - i)) (takes_permute ..)
          (fun _ _ => pot_pure (by dsimp only; kinds)) (by kinds)
      refine pot_step (takes_note _) (fun _ _ => ?_)
        (m := e * (8 * n + 3 + 5 * (D - i)) + q * (D - i + inst.byteIOIndex)) (by kinds)
      dsimp only
      generalize hp : (if ((D - i) % 2 ^ 32 + inst.byteIOIndex) % 2 ^ 32 > R then R - inst.byteIOIndex
        else (D - i) % 2 ^ 32) = pb
      have hpb : pb ≤ D - i := by
        have := Nat.mod_le (D - i) (2 ^ 32)
        have := Nat.mod_le ((D - i) % 2 ^ 32 + inst.byteIOIndex) (2 ^ 32)
        split at hp <;> omega
      have hm := Nat.mod_le (inst.byteIOIndex + pb) (2 ^ 32)
      refine pot_step (takes_extractBytes ..) (fun s _ => ih _ _ _) ?_
      dsimp only
      kinds

omit [Kind e q] in
theorem post_squeezeLoop (D n i : Nat) (inst : HashInstance) (out : Buf) (hi : i ≤ D) (hl : out.length = i) :
    Post (squeezeLoop E R D n i inst out) fun r => r.2.length ≤ D := by
  induction n generalizing i inst out with
  | zero => exact post_diverge
  | succ n ih =>
    refine post_ite (fun _ => ?_) fun _ => post_pure (by show out.length ≤ D; omega)
    refine post_bind fun _ _ => post_ite (fun _ => ?_) fun _ => ?_
    · exact post_seq (post_squeezeBlocks _ _ _ _ _ hi hl) fun r hr => ih _ _ _ hr.1 hr.2
    · refine post_bind fun inst _ => post_bind fun _ _ => ?_
      dsimp only
      generalize hp : (if ((D - i) % 2 ^ 32 + inst.byteIOIndex) % 2 ^ 32 > R then R - inst.byteIOIndex
        else (D - i) % 2 ^ 32) = pb
      have hpb : pb ≤ D - i := by
        have := Nat.mod_le (D - i) (2 ^ 32)
        have := Nat.mod_le ((D - i) % 2 ^ 32 + inst.byteIOIndex) (2 ^ 32)
        split at hp <;> omega
      refine post_bind fun b hb => ih _ _ _ (by omega) (by rw [List.length_append, extractBytes_len hb, hl])

theorem takes_hashSqueeze (hR : 1 ≤ R) {c : HashInstance} (hc : Done R c) (n : Nat) :
    Takes e (q * R) (hashSqueeze E c n) (e * (13 * n + 9) + q * n) := by
  have hl := bits_le n
  unfold hashSqueeze
  generalize n * 8 % 2 ^ 64 / 8 = D at hl
  refine (takes_bind' (n := e + max 0 0) (m := e * (8 * (D + 1) + 5 * D) + q * D)
    (takes_ite (fun _ => takes_pure _) fun h => absurd hc.squeezing h) fun c' hc' => ?_).mono (by kinds)
  have : Post (ifB c.squeezing then pure c else do
    let (inst, _) ← spongeAbsorbLastFewBits E c 0x01
    pure inst) (· = c) := post_ite (fun _ => post_pure rfl) fun h => absurd hc.squeezing h
  rw [this c' hc', hc.rate]
  refine (pot_squeezeLoop hR D (D + 1) 0 c []).takes.mono ?_
  rw [hc.idx]; kinds

omit [Kind e q] in
theorem post_hashSqueeze (c : HashInstance) (n : Nat) : Post (hashSqueeze E c n) fun r => r.2.length ≤ n :=
  post_bind fun _ _ r hr => (post_squeezeLoop _ _ _ _ _ (Nat.zero_le _) rfl r hr).trans (bits_le n)

theorem lastBits_work {c : HashInstance} (hc : Good R c) :
    Takes e (q * R) (spongeAbsorbLastFewBits E c c.delimitedSuffix) (e * 10 + q * R) ∧
      Post (spongeAbsorbLastFewBits E c c.delimitedSuffix) fun r => Done R r.1 ∧ r.1.fixedOutputLength = 0 := by
  have hs : ¬ ((0x1F : Byte).toNat ≥ 0x80) := by decide
  rw [hc.suffix]
  refine ⟨?_, ?_⟩
  · refine Takes.mono (n := e + max 0 (e + max 0 (e * 8 + q * R)))
      (takes_ite (fun h => absurd h (by decide)) fun _ => takes_ite (fun h => ?_) fun _ => ?_) (by kinds)
    · rw [hc.absorbing] at h; cases h
    · refine (takes_bind (takes_addByte ..) fun _ _ => takes_bind (takes_note _) fun _ _ =>
        takes_bind (takes_ite (n := 0) (fun h => absurd h.1 hs) fun _ => takes_pure _) fun _ _ =>
        takes_bind (takes_addByte ..) fun _ _ => takes_bind (m := 0) (takes_permute ..) fun _ _ => takes_pure _).mono (by kinds)
  · refine post_ite (fun h => absurd h (by decide)) fun _ => post_ite (fun h => ?_) fun _ => ?_
    · rw [hc.absorbing] at h; cases h
    · refine post_bind fun _ _ => post_bind fun _ _ => post_bind fun _ _ => post_bind fun _ _ => post_bind fun _ _ => ?_
      exact post_pure ⟨⟨hc.rate, rfl, rfl⟩, hc.fixed⟩

theorem hashFinal_work {c : HashInstance} (hc : Good R c) :
    Takes e (q * R) (hashFinal E c) (e * 13 + q * R) ∧ Post (hashFinal E c) (Done R) := by
  obtain ⟨h1, h2⟩ := lastBits_work (e := e) (q := q) (E := E) hc
  have key : ∀ c : HashInstance, Done R c → c.fixedOutputLength = 0 →
      Takes e (q * R) (spongeSqueeze E c (c.fixedOutputLength / 8)) (e * 2) ∧
        Post (spongeSqueeze E c (c.fixedOutputLength / 8)) fun r => Done R r.1 := by
    intro c hd hf
    have : Post (ifB c.squeezing then pure c else do
      let (inst, _) ← spongeAbsorbLastFewBits E c 0x01
      pure inst) (· = c) := post_ite (fun _ => post_pure rfl) fun h => absurd hd.squeezing h
    rw [hf]
    refine ⟨?_, ?_⟩
    · refine (takes_bind (n := e + max 0 0) (m := e + max 0 0) (takes_ite (fun _ => takes_pure _) fun h => absurd hd.squeezing h)
        fun c' hc' => takes_ite (fun h => absurd h (Nat.not_lt_zero _)) fun _ => takes_pure _).mono (by kinds)
    · refine post_bind fun c' hc' => ?_
      rw [this c' hc']
      exact post_ite (fun h => absurd h (Nat.not_lt_zero _)) fun _ => post_pure hd
  refine ⟨?_, ?_⟩
  · refine (takes_bind h1 fun r hr => takes_ite (fun _ => takes_bind (key r.1 (h2 r hr).1 (h2 r hr).2).1 fun _ _ => takes_pure _)
      fun _ => takes_pure _).mono ?_
    kinds
  · refine post_seq h2 fun r hr => post_ite (fun _ => ?_) fun _ => post_pure hr.1
    exact post_seq (key r.1 hr.1 hr.2).2 fun r hr => post_pure hr

/-- the rate of the hash function, in bytes -/
theorem rateOf_pos (P : Params) : 1 ≤ rateOf P := by unfold rateOf; split <;> omega

variable {P : Params}

theorem hashInit_work (b : Byte) :
    Pot e (q * rateOf P) (hashInit E P b) (e * 28 + q) (fun c => q * c.byteIOIndex) ∧ Post (hashInit E P b) (Good (rateOf P)) := by
  have hg : Good (rateOf P) (if P.stateSizeBits = 128 ∨ P.stateSizeBits = 129 then keccakHashInitialize 1344 0 0x1F
    else keccakHashInitialize 1088 0 0x1F) := by
    unfold rateOf; split <;> exact ⟨rfl, rfl, rfl, rfl⟩
  have hi : (if P.stateSizeBits = 128 ∨ P.stateSizeBits = 129 then keccakHashInitialize 1344 0 0x1F
    else keccakHashInitialize 1088 0 0x1F).byteIOIndex = 0 := by split <;> rfl
  unfold hashInit
  generalize (if P.stateSizeBits = 128 ∨ P.stateSizeBits = 129 then keccakHashInitialize 1344 0 0x1F
    else keccakHashInitialize 1088 0 0x1F) = c at hg hi
  have hu := adds_hashUpdate (e := e) (q := q) (E := E) (rateOf_pos P) [b] 1 c hg
  refine ⟨?_, ?_⟩
  · refine pot_step (takes_note _) (fun _ _ => pot_step (takes_note _) (fun _ _ => ?_) (Nat.le_refl _)) (m := e + (e * 26 + q)) (by kinds)
    refine pot_branch (m := e * 25 + q) (fun _ => hu.1.le ?_) (fun _ => pot_pure ?_) (by kinds) <;> rw [hi] <;> kinds
  · exact post_bind fun _ _ => post_bind fun _ _ => post_ite (fun _ => hu.2) fun _ => post_pure hg

variable {R : Nat}

/-- `g` gets a hash that is absorbing, and costs `K` besides what is left to pay for the bytes in the current block -/
def Tail (e q R : Nat) (g : HashInstance → M β) (K : Nat) : Prop :=
  ∀ c, Good R c → Takes e (q * R) (g c) (K + q * c.byteIOIndex)

theorem tail_final (hR : 1 ≤ R) {n m : Nat} {g : HashInstance × Buf → M β}
    (hg : ∀ r : HashInstance × Buf, r.2.length ≤ n → Takes e (q * R) (g r) m) :
    Tail e q R (fun c => hashFinal E c >>= fun c => hashSqueeze E c n >>= g) ((e * (13 * n + 22) + q * (n + R)) + m) := by
  intro c hc
  obtain ⟨d1, d2⟩ := hashFinal_work (e := e) (q := q) (E := E) hc
  refine (takes_bind d1 fun c hc => takes_bind (takes_hashSqueeze hR (d2 c hc) n) fun r hr =>
    hg r (post_hashSqueeze _ _ r hr)).mono (by kinds)

omit [Kind e q] in
theorem tail_seq {f : HashInstance → M HashInstance} {g : HashInstance → M β} {k l K : Nat} (hf : Adds e q R f k l)
    (hg : Tail e q R g K) : Tail e q R (fun c => f c >>= g) (k + q * l + K) := by
  intro c hc
  obtain ⟨f1, f2⟩ := hf c hc
  exact (pot_bind (ψ := fun _ => 0) (f1.mono (m := k + q * l + K + q * c.byteIOIndex) (ψ := fun c' => K + q * c'.byteIOIndex)
    (by rw [Nat.mul_add]; omega) fun c' _ => by rw [Nat.mul_add]; omega) fun c' hc' =>
      ((hg c' (f2 c' hc')).pot _ (Nat.le_refl _)).mono (Nat.le_refl _) fun _ _ => by omega).takes

omit [Kind e q] in
theorem tail_step {x : M α} {g : α → HashInstance → M β} {k K : Nat} (hx : Takes e (q * R) x k)
    (hg : ∀ a, x.out = .ok a → Tail e q R (g a) K) : Tail e q R (fun c => x >>= fun a => g a c) (k + K) := fun c hc =>
  (takes_bind hx fun a ha => hg a ha c hc).mono (by omega)

theorem takes_init {b : Byte} {g : HashInstance → M β} {K : Nat} (hg : Tail e q (rateOf P) g K) :
    Takes e (q * rateOf P) (hashInit E P b >>= g) (e * 28 + q + K) := by
  obtain ⟨i1, i2⟩ := hashInit_work (e := e) (q := q) (E := E) (P := P) b
  exact (pot_bind (ψ := fun _ => 0) (i1.mono (m := e * 28 + q + K) (ψ := fun c => K + q * c.byteIOIndex) (by omega)
    fun c _ => by omega) fun c hc => ((hg c (i2 c hc)).pot _ (Nat.le_refl _)).mono (Nat.le_refl _) fun _ _ => by omega).takes

/-- `hashAll` on parts of the given lengths -/
theorem takes_hashAll {b : Byte} {parts : List (Buf × Nat)} {n : Nat} (L : List Nat) (hL : parts.map Prod.snd = L) :
    Takes e (q * rateOf P) (hashAll E P b parts n)
      (e * 28 + q + (((L.map fun l => e * (15 * l + 10) + e).sum + e) + q * L.sum + ((e * (13 * n + 22) + q * (n + rateOf P)) + 0))) := by
  subst hL
  have := takes_init (e := e) (q := q) (E := E) (P := P) (b := b) (tail_seq
    (adds_foldL (s := parts) fun p : Buf × Nat => adds_hashUpdate (E := E) (rateOf_pos P) p.1 p.2)
    (tail_final (E := E) (rateOf_pos P) (n := n) (g := fun r => pure r.2) (m := 0) fun _ _ => takes_pure _))
  rw [List.map_map]
  exact this

omit [Kind e q] in
theorem post_hashAll {b : Byte} {parts : List (Buf × Nat)} {n : Nat} : Post (hashAll E P b parts n) fun d => d.length ≤ n :=
  post_bind fun _ _ => post_bind fun _ _ => post_bind fun _ _ => post_seq (post_hashSqueeze _ _) fun _ h => post_pure h

end Picnic.Leak
