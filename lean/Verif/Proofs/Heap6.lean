import Verif.Model.Heap

/-
What runs with failing allocations can return.
-/

namespace Picnic.Heap

/-- Whatever allocations fail, a run of `m` that ends without undefined behaviour has a result with `Q`. -/
def Res {α : Type} (m : HM α) (Q : α → Prop) : Prop := ∀ h a h', m h = Outcome.ok (a, h') → Q a

variable {α β : Type}

theorem Res.any {m : HM α} : Res m fun _ => True := fun _ _ _ _ => trivial

theorem Res.pure {a : α} {Q : α → Prop} (h : Q a) : Res (Pure.pure a) Q := fun _ _ _ e => by
  cases e
  exact h

theorem Res.bind {m : HM α} {f : α → HM β} {Q : α → Prop} {R : β → Prop} (h1 : Res m Q) (h2 : ∀ a, Q a → Res (f a) R) : Res (m >>= f) R := by
  intro h b h' e
  have e' : Outcome.bind (m h) (fun x => f x.1 x.2) = Outcome.ok (b, h') := e
  cases em : m h with
  | ok x =>
    rw [em] at e'
    exact h2 x.1 (h1 h x.1 x.2 em) x.2 b h' e'
  | ub u => rw [em] at e'; cases e'
  | diverge => rw [em] at e'; cases e'
  | abort => rw [em] at e'; cases e'

theorem Res.skip {m : HM α} {f : α → HM β} {R : β → Prop} (h : ∀ a, Res (f a) R) : Res (m >>= f) R := Res.any.bind fun a _ => h a

theorem res_touch {p : Ptr} : Res (touch p) fun _ => p ≠ .null := by
  intro h a h' e
  rintro rfl
  cases e

theorem res_whileH {f : ℕ → HM Bool} {n : ℕ} (h : ∀ i < n, Res (f i) fun b => b = true) : Res (whileH f n) fun b => b = true := by
  induction n with
  | zero => exact Res.pure rfl
  | succ n ih =>
    refine Res.bind (ih fun i hi => h i (Nat.lt_succ_of_lt hi)) fun b hb => ?_
    subst hb
    exact h n (Nat.lt_succ_self n)

theorem res_collectWhile {d : α} {f : ℕ → HM (Bool × α)} {n : ℕ} (h : ∀ i < n, Res (f i) fun b => b.1 = true) :
    Res (collectWhile d f n) fun b => b.1 = true := by
  induction n with
  | zero => exact Res.pure rfl
  | succ n ih =>
    refine Res.bind (ih fun i hi => h i (Nat.lt_succ_of_lt hi)) fun b hb => ?_
    obtain ⟨b, l⟩ := b
    subst hb
    refine Res.bind (h n (Nat.lt_succ_self n)) fun c hc => ?_
    obtain ⟨c, x⟩ := c
    exact Res.pure hc

/-- The next statement returns nothing that matters. -/
macro "skip1" : tactic => `(tactic| (with_reducible refine Res.skip fun _ => ?_))

theorem res_allocateSignature {P : Params} {p : Ptr} : Res (allocateSignature P (some p)) fun _ => p ≠ .null := by
  unfold allocateSignature
  skip1
  refine Res.bind res_touch fun _ h => ?_
  iterate 5 skip1
  exact Res.pure h

theorem res_allocateSignature2 {P : Params} {p : Ptr} : Res (allocateSignature2 P (some p)) fun _ => p ≠ .null := by
  unfold allocateSignature2
  skip1
  refine Res.bind res_touch fun _ h => ?_
  iterate 8 skip1
  exact Res.pure h

theorem res_signPicnic1 {P : Params} {c : Ptr} {sig : HSig} {simOk : ℕ → Bool} (hs : ∀ t < P.numMPCRounds, simOk t = true) :
    Res (signPicnic1 P c sig simOk) fun b => b = true := by
  unfold signPicnic1
  iterate 9 skip1
  refine Res.bind (res_whileH fun i hi => ?_) fun b hb => ?_
  · rw [hs i hi]
    iterate 9 skip1
    rw [if_pos rfl]
    iterate 2 skip1
    exact Res.pure rfl
  · subst hb
    try dsimp only [Bool.not_true]
    rw [if_neg (by decide)]
    iterate 11 skip1
    exact Res.pure rfl

theorem res_verify {P : Params} {c : Ptr} {sig : HSig} {ok : Bool} : Res (verify P c sig ok) fun b => b = ok := by
  unfold verify
  repeat skip1
  exact Res.pure rfl

theorem res_reconstructSeeds {t : HTree} {c : Option Ptr} {n : ℕ} {i s : Ptr} {ok : Bool} : Res (reconstructSeeds t c n i s ok) fun b => b = ok := by
  unfold reconstructSeeds
  iterate 4 skip1
  cases ok
  · simp only [Bool.false_eq_true, if_false]
    skip1
    exact Res.pure rfl
  · simp only [if_true]
    iterate 2 skip1
    exact Res.pure rfl

theorem res_addMerkleNodes {t : HTree} {l i : Ptr} {ok : Bool} : Res (addMerkleNodes t l i ok) fun b => b = ok := by
  unfold addMerkleNodes
  repeat skip1
  exact Res.pure rfl

theorem res_verifyMerkleTree {t : HTree} {l s : Ptr} {ok : Bool} : Res (verifyMerkleTree t l s ok) fun b => b = ok := by
  unfold verifyMerkleTree
  repeat skip1
  exact Res.pure rfl

theorem res_signPicnic3 {P : Params} {c : Ptr} {sig : HSig2} {simOk opened : ℕ → Bool} {len : Lens} (hs : ∀ t < P.numMPCRounds, simOk t = true) :
    Res (signPicnic3 P c sig simOk opened len) fun b => b.1 = true := by
  unfold signPicnic3
  iterate 16 skip1
  refine Res.bind (res_whileH fun i hi => ?_) fun b hb => ?_
  · rw [hs i hi]
    iterate 6 skip1
    exact Res.pure rfl
  · subst hb
    try dsimp only [Bool.not_true]
    rw [if_neg (by decide)]
    repeat skip1
    exact Res.pure rfl

theorem res_deserializeSignature2 {P : Params} {c : Option Ptr} {sig : HSig2} {d : Decode2} (hd : d.Ok P = true) :
    Res (deserializeSignature2 P c sig d) fun b => b.1 = true := by
  simp only [Decode2.Ok, Bool.and_eq_true, List.all_eq_true, List.mem_range] at hd
  obtain ⟨h1, h2, h3⟩ := hd
  unfold deserializeSignature2
  rw [h1, h2]
  try dsimp only [Bool.not_true]
  rw [if_neg (by decide)]
  iterate 10 skip1
  rw [if_neg (by decide)]
  iterate 6 skip1
  refine Res.bind (res_collectWhile fun i hi => ?_) fun b hb => ?_
  · skip1
    have := h3 i hi
    cases ho : d.opened i with
    | false =>
      simp only [Bool.false_eq_true, if_false]
      skip1
      exact Res.pure rfl
    | true =>
      rw [ho] at this
      simp only [if_true]
      iterate 9 skip1
      exact Res.pure (by simpa using this)
  · obtain ⟨b, l⟩ := b
    exact Res.pure hb

theorem res_verifyPicnic3 {P : Params} {c : Ptr} {sig : HSig2} {d : Verify3} (hi : d.iSeedsOk = true)
    (hs : ∀ t < P.numMPCRounds, d.opened t = true → d.seedsOk t = true) (hd : d.Ok P = true) : Res (verifyPicnic3 P c sig d) fun b => b = true := by
  simp only [Verify3.Ok, Bool.and_eq_true, List.all_eq_true, List.mem_range] at hd
  obtain ⟨h1, h2, h3, h4⟩ := hd
  unfold verifyPicnic3
  iterate 7 skip1
  refine Res.bind res_reconstructSeeds fun b hb => ?_
  rw [hi] at hb
  subst hb
  try dsimp only [Bool.not_true]
  rw [if_neg (by decide)]
  refine Res.bind (res_collectWhile fun i hi => ?_) fun b hb => ?_
  · skip1
    cases ho : d.opened i with
    | false =>
      simp only [Bool.not_false, if_true]
      iterate 3 skip1
      exact Res.pure rfl
    | true =>
      simp only [Bool.not_true, Bool.false_eq_true, if_false]
      iterate 5 skip1
      refine Res.bind res_reconstructSeeds fun b hb => Res.pure (hb.trans (hs i hi ho))
  obtain ⟨b, l⟩ := b
  dsimp only at hb
  subst hb
  try dsimp only [Bool.not_true]
  rw [if_neg (by decide)]
  iterate 6 skip1
  refine Res.bind (res_whileH fun i hi => ?_) fun b hb => ?_
  · skip1
    have := h1 i hi
    cases ho : d.opened i with
    | false =>
      simp only [Bool.false_eq_true, if_false]
      skip1
      exact Res.pure rfl
    | true =>
      rw [ho] at this
      have e : d.simOk i = true := by simpa using this
      rw [e]
      simp only [if_true, Bool.not_true, Bool.false_eq_true, if_false]
      iterate 12 skip1
      exact Res.pure rfl
  subst hb
  try dsimp only [Bool.not_true]
  rw [if_neg (by decide)]
  iterate 2 skip1
  refine Res.bind res_addMerkleNodes fun b hb => ?_
  rw [h2] at hb
  subst hb
  skip1
  try dsimp only [Bool.not_true]
  rw [if_neg (by decide)]
  refine Res.bind res_verifyMerkleTree fun b hb => ?_
  rw [h3] at hb
  subst hb
  try dsimp only [Bool.not_true]
  rw [if_neg (by decide)]
  iterate 4 skip1
  exact Res.pure h4

theorem res_picnicSign1 {P : Params} {simOk : ℕ → Bool} (hs : ∀ t < P.numMPCRounds, simOk t = true) :
    Res (picnicSign1 P simOk true) fun r => r = 0 := by
  unfold picnicSign1
  skip1
  refine Res.bind res_allocateSignature fun s h => ?_
  rw [if_neg h]
  refine Res.bind (res_signPicnic1 hs) fun b hb => ?_
  subst hb
  try dsimp only [Bool.not_true]
  rw [if_neg (by decide)]
  iterate 6 skip1
  exact Res.pure rfl

theorem res_picnicSign3 {P : Params} {simOk opened : ℕ → Bool} {len : Lens} (hs : ∀ t < P.numMPCRounds, simOk t = true) :
    Res (picnicSign3 P simOk opened len true) fun r => r = 0 := by
  unfold picnicSign3
  skip1
  refine Res.bind res_allocateSignature2 fun s h => ?_
  rw [if_neg h]
  refine Res.bind (res_signPicnic3 hs) fun b hb => ?_
  obtain ⟨b, s⟩ := b
  dsimp only at hb
  subst hb
  try dsimp only [Bool.not_true]
  rw [if_neg (by decide)]
  iterate 8 skip1
  exact Res.pure rfl

theorem res_picnicVerify1 {P : Params} : Res (picnicVerify1 P true true) fun r => r = 0 := by
  unfold picnicVerify1
  skip1
  refine Res.bind res_allocateSignature fun s h => ?_
  rw [if_neg h]
  iterate 4 skip1
  try dsimp only [Bool.not_true]
  rw [if_neg (by decide)]
  refine Res.bind res_verify fun b hb => ?_
  subst hb
  iterate 2 skip1
  exact Res.pure rfl

theorem res_picnicVerify3 {P : Params} {d : Decode2} {v : Verify3} (hd : d.Ok P = true) (hi : v.iSeedsOk = true)
    (hs : ∀ t < P.numMPCRounds, d.opened t = true → v.seedsOk t = true) (hv : Verify3.Ok P { v with opened := d.opened } = true) :
    Res (picnicVerify3 P d v) fun r => r = 0 := by
  unfold picnicVerify3
  skip1
  refine Res.bind res_allocateSignature2 fun s h => ?_
  rw [if_neg h]
  refine Res.bind (res_deserializeSignature2 hd) fun b hb => ?_
  obtain ⟨b, s⟩ := b
  dsimp only at hb
  subst hb
  try dsimp only [Bool.not_true]
  rw [if_neg (by decide)]
  refine Res.bind (res_verifyPicnic3 (d := { v with opened := d.opened }) hi hs hv) fun b hb => ?_
  subst hb
  iterate 2 skip1
  exact Res.pure rfl

end Picnic.Heap
