import Verif.Proofs.RomSim
import Verif.Props.Domains

/-
C62: when the strings of the questions can be equal.
-/

namespace Picnic.Rom

open Spec Spec.Zkb Spec.Rom Spec.Picnic1 Spec.Challenge

variable {N M : ℕ} {I : Inst} {sk ct pt msg : Bytes}

theorem rom_sizes {p : ℕ} (hI : I.Is p) : Sizes I ∧ I.blk + I.gate < 2 ^ 16 ∧ I.seed ≤ I.blk ∧ I.digest = 2 * I.seed ∧ 16 ≤ I.seed ∧ I.seed ≤ 32 ∧ I.T < 2 ^ 9 := by
  unfold Picnic1.Inst.Is Picnic1.table at hI
  have hc : (3 * I.X.m ≤ I.X.n ∧ I.X.n ≤ 8 * I.blk ∧ 3 * I.X.m * I.X.r ≤ 8 * I.gate) ∧ I.blk + I.gate < 2 ^ 16 ∧ I.seed ≤ I.blk ∧ I.digest = 2 * I.seed ∧
      16 ≤ I.seed ∧ I.seed ≤ 32 ∧ I.T < 2 ^ 9 := by
    unfold Picnic1.Inst.gate Picnic1.Inst.blk bytesFor
    split at hI <;> simp only [Option.some.injEq, Prod.mk.injEq, reduceCtorEq] at hI <;> obtain ⟨h1, h2, h3, h4, h5, h6, -, -⟩ := hI <;>
      rw [← h1, ← h2, ← h3, ← h4, ← h5, ← h6] <;> decide
  exact ⟨⟨hc.1.1, hc.1.2.1, hc.1.2.2⟩, hc.2⟩

theorem ofBits_len' (n : ℕ) (v : Bits) : (Spec.Picnic1.ofBits n v).length = n := by
  unfold Spec.Picnic1.ofBits
  simp

/-- Digest of the seed of a party. -/
def comDig (O : Oracle N M) (a : Answers I M) (t j : ℕ) : Bytes := Rom.hash O (Use.text (T := I.T) I (.comSeed (seed a t j))) I.digest
def gDig (O : Oracle N M) (a : Answers I M) (t j : ℕ) : Bytes := Rom.hash O (Use.text (T := I.T) I (.gSeed (seed a t j))) I.digest

variable (I sk ct pt msg) in
/-- What is hashed for a question; not for the seeds. -/
def useOf (O : Oracle N M) (a : Answers I M) : Query I.T I.unruh → Use I.T
  | .secrets => .next []
  | .tape t j => .tape (Rom.hash O (Use.text (T := I.T) I (.tapeSeed (seed a t j))) I.digest) (salt a) t j (tapeLen I j)
  | .com t j => .com (comDig O a t j) (view I sk pt a t j).key (view I sk pt a t j).gates (view I sk pt a t j).out
  | .g _ t j => .g (gDig O a t j) (if j = 2 then some (view I sk pt a t j).key else none) (view I sk pt a t j).gates
  | .digest => .challenge (fun t j => (view I sk pt a t j).out) (fun t j => bytes I.digest (a (.com t j)))
      (if h : I.unruh = true then some fun t j => bytes (I.gLen j) (a (.g h t j)) else none) ct pt (salt a) msg

theorem pts_use (O : Oracle N M) (a : Answers I M) {q : Query I.T I.unruh} (hq : q ≠ .secrets) :
    pts I sk ct pt msg O a q = Use.text I (useOf I sk ct pt msg O a q) := by
  unfold pts
  cases q with
  | secrets => exact absurd rfl hq
  | tape t j => simp only [point, useOf]
  | com t j => simp only [point, useOf, comDig]
  | g hu t j => simp only [point, useOf, gDig]
  | digest => simp only [point, useOf]

theorem use_wf {p : ℕ} (hI : I.Is p) (hct : ct.length = I.blk) (hpt : pt.length = I.blk) (O : Oracle N M) (a : Answers I M) {q : Query I.T I.unruh}
    (hq : q ≠ .secrets) : Use.WF I (useOf I sk ct pt msg O a q) := by
  have hs := rom_sizes hI
  cases q with
  | secrets => exact absurd rfl hq
  | tape t j =>
    simp only [useOf, Use.WF]
    refine ⟨hash_len _ _ _, salt_len a, by have := t.2; omega, by omega, ?_⟩
    unfold tapeLen
    split_ifs <;> omega
  | com t j =>
    simp only [useOf, Use.WF]
    exact ⟨hash_len _ _ _, ofBits_len' _ _, ofBits_len' _ _, ofBits_len' _ _⟩
  | g hu t j =>
    simp only [useOf, Use.WF]
    refine ⟨hu, hash_len _ _ _, fun k hk => ?_, ofBits_len' _ _⟩
    split_ifs at hk with h2
    · rw [Option.mem_def, Option.some.injEq] at hk
      rw [← hk]
      exact ofBits_len' _ _
    · simp at hk
  | digest =>
    simp only [useOf, Use.WF]
    refine ⟨fun _ _ => ofBits_len' _ _, fun _ _ => bytes_len' _ _, ?_, fun G hG => ?_, hct, hpt, salt_len a⟩
    · by_cases hu : I.unruh = true
      · rw [dif_pos hu]
        exact hu.symm
      · rw [dif_neg hu]
        simp [hu]
    · by_cases hu : I.unruh = true
      · rw [dif_pos hu, Option.mem_def, Option.some.injEq] at hG
        intro t j
        rw [← hG]
        exact bytes_len' _ _
      · rw [dif_neg hu] at hG
        simp at hG

variable (I sk ct pt msg) in
/-- What has to happen for two strings to be equal. -/
structure Apart (O : Oracle N M) (a : Answers I M) : Prop where
  seeds : ∀ (t t' : Fin I.T) (j j' : Fin 3), (t, j) ≠ (t', j') → seed a t j ≠ seed a t' j'
  coms : ∀ (t t' : Fin I.T) (j j' : Fin 3), seed a t j ≠ seed a t' j' → comDig O a t j ≠ comDig O a t' j'
  gs : ∀ (t t' : Fin I.T) (j j' : Fin 3), seed a t j ≠ seed a t' j' → gDig O a t j ≠ gDig O a t' j'
  salt : salt a ≠ ((I.secretString sk ct pt msg).drop I.digest).take 32
  com : ∀ (t : Fin I.T) (j : Fin 3), comDig O a t j ≠ ((I.secretString sk ct pt msg).drop 1).take I.digest
  g : ∀ (t : Fin I.T) (j : Fin 3), gDig O a t j ≠ (I.secretString sk ct pt msg).take I.digest

theorem secretString_len (h : sk.length = I.blk) (hct : ct.length = I.blk) (hpt : pt.length = I.blk) :
    (I.secretString sk ct pt msg).length = 3 * I.blk + msg.length + 2 := by
  unfold Inst.secretString
  simp only [List.length_append]
  rw [h, hct, hpt, int16_len]
  omega

theorem digest_len {p : ℕ} (hI : I.Is p) (hct : ct.length = I.blk) (hpt : pt.length = I.blk) (O : Oracle N M) (a : Answers I M) :
    3 * I.blk + msg.length + 2 < (Use.text I (useOf I sk ct pt msg O a .digest)).length := by
  have h := use_wf (sk := sk) (msg := msg) hI hct hpt O a (q := .digest) (by simp)
  simp only [useOf, Use.WF] at h
  have hz := zkb_sizes hI
  have h1 := join_len (x := fun (t : Fin I.T) (j : Fin 3) => (view I sk pt a t j).out) (fun t => h.1 t 0) (fun t => h.1 t 1) (fun t => h.1 t 2)
  simp only [useOf, Use.text, List.length_append]
  simp only [h1]
  have hs := rom_sizes hI
  have : I.digest ≤ (join fun (t : Fin I.T) (j : Fin 3) => bytes I.digest (a (.com t j))).length := by
    rw [join_len (n0 := I.digest) (n1 := I.digest) (n2 := I.digest) (fun _ => bytes_len' _ _) (fun _ => bytes_len' _ _) (fun _ => bytes_len' _ _)]
    have hT : 1 ≤ I.T := by
      rcases Nat.eq_zero_or_pos I.T with h | h
      · rw [h] at hz; omega
      · exact h
    nlinarith
  have := salt_len a
  omega

theorem good_of {p : ℕ} (hI : I.Is p) (hsk : sk.length = I.blk) (hct : ct.length = I.blk) (hpt : pt.length = I.blk) {O : Oracle N M} {a : Answers I M}
    (h : Apart I sk ct pt msg O a) : Good I sk ct pt msg O a := by
  have hs := rom_sizes hI
  have hsl := secretString_len (msg := msg) hsk hct hpt
  have hp0 : pts I sk ct pt msg O a .secrets = I.secretString sk ct pt msg := by
    unfold pts
    simp only [point]
  have hsec : ∀ q : Query I.T I.unruh, q ≠ .secrets → pts I sk ct pt msg O a q ≠ I.secretString sk ct pt msg := fun q hq he => by
    rw [pts_use O a hq] at he
    cases q with
    | secrets => exact absurd rfl hq
    | tape t j =>
      refine h.salt ?_
      rw [← he]
      simp only [useOf, Use.text, List.append_assoc]
      rw [List.drop_append_of_le_length (by rw [hash_len]), List.drop_of_length_le (by rw [hash_len]), List.nil_append,
        List.take_append_of_le_length (by rw [salt_len]), List.take_of_length_le (by rw [salt_len])]
    | com t j =>
      refine h.com t j ?_
      rw [← he]
      simp only [useOf, Use.text, List.append_assoc]
      rw [List.drop_append_of_le_length (by simp), List.drop_of_length_le (by simp), List.nil_append,
        List.take_append_of_le_length (by unfold comDig; rw [hash_len]), List.take_of_length_le (by unfold comDig; rw [hash_len])]
    | g hu t j =>
      refine h.g t j ?_
      rw [← he]
      simp only [useOf, Use.text, List.append_assoc]
      rw [List.take_append_of_le_length (by unfold gDig; rw [hash_len]), List.take_of_length_le (by unfold gDig; rw [hash_len])]
    | digest =>
      have := digest_len (sk := sk) (msg := msg) hI hct hpt O a
      rw [he] at this
      omega
  constructor
  · intro q q' he
    by_cases hq : q = .secrets
    · subst hq
      by_contra hne
      exact hsec q' (Ne.symm hne) (he.symm.trans hp0)
    by_cases hq' : q' = .secrets
    · subst hq'
      exact absurd (he.trans hp0) (hsec q hq)
    rw [pts_use O a hq, pts_use O a hq'] at he
    have hu := C59_zkb I p hI _ _ (use_wf hI hct hpt O a hq) (use_wf hI hct hpt O a hq') he
    cases q with
    | secrets => exact absurd rfl hq
    | tape t j =>
      cases q' with
      | tape t' j' =>
        simp only [useOf, Use.tape.injEq] at hu
        rw [Fin.ext hu.2.2.1, Fin.ext hu.2.2.2.1]
      | secrets => exact absurd rfl hq'
      | _ => simp only [useOf, reduceCtorEq] at hu
    | com t j =>
      cases q' with
      | com t' j' =>
        simp only [useOf, Use.com.injEq] at hu
        by_contra hne
        exact h.coms t t' j j' (h.seeds t t' j j' fun e => hne (by rw [Prod.mk.injEq] at e; rw [e.1, e.2])) hu.1
      | secrets => exact absurd rfl hq'
      | _ => simp only [useOf, reduceCtorEq] at hu
    | g hu' t j =>
      cases q' with
      | g hu'' t' j' =>
        simp only [useOf, Use.g.injEq] at hu
        by_contra hne
        exact h.gs t t' j j' (h.seeds t t' j j' fun e => hne (by rw [Prod.mk.injEq] at e; rw [e.1, e.2])) hu.1
      | secrets => exact absurd rfl hq'
      | _ => simp only [useOf, reduceCtorEq] at hu
    | digest =>
      cases q' with
      | digest => rfl
      | secrets => exact absurd rfl hq'
      | _ => simp only [useOf, reduceCtorEq] at hu
  · intro q hm
    by_cases hq : q = .secrets
    · subst hq
      rw [hp0] at hm
      rcases hm with ⟨s, hl, h | h | h⟩ | ⟨d, hl, h⟩ <;>
      · have := congrArg List.length h
        rw [hsl] at this
        simp only [Use.text, List.length_append, List.length_singleton, hl] at this
        omega
    · rw [pts_use O a hq] at hm
      have hw := use_wf (sk := sk) (msg := msg) hI hct hpt O a hq
      rcases hm with ⟨s, hl, h | h | h⟩ | ⟨d, hl, h⟩
      all_goals
        have hu := C59_zkb I p hI _ _ hw (by simp only [Use.WF]; exact hl) h
        cases q with
        | secrets => exact absurd rfl hq
        | _ => simp only [useOf, reduceCtorEq] at hu

end Picnic.Rom
