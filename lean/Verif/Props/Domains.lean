import Verif.Proofs.Domains
import Verif.Props.Conform1
import Verif.Props.Conform3

/-
C59: strings that are hashed for different purposes are different, and determine the data.  Not so in Picnic3.
-/

namespace Picnic

open Spec Spec.Challenge

theorem zkb_sizes {I : Picnic1.Inst} {p : ℕ} (hI : I.Is p) : I.seed < I.digest ∧ 40 ≤ I.gate ∧ 2 ≤ I.blk ∧ 2 * I.blk + I.gate + I.digest + 40 ≤ I.T * (I.blk + I.blk + I.blk) ∧
    I.T < 2 ^ 16 := by
  unfold Picnic1.Inst.Is Picnic1.table at hI
  unfold Picnic1.Inst.gate Picnic1.Inst.blk bytesFor
  split at hI <;> simp only [Option.some.injEq, Prod.mk.injEq, reduceCtorEq] at hI <;> obtain ⟨h1, h2, h3, h4, h5, h6, -, -⟩ := hI <;>
    rw [← h1, ← h2, ← h3, ← h4, ← h5, ← h6] <;> decide

theorem gLen_lt {I : Picnic1.Inst} {p : ℕ} (hI : I.Is p) (j : ℕ) : I.gLen j < 2 ^ 16 := by
  unfold Picnic1.Inst.Is Picnic1.table at hI
  unfold Picnic1.Inst.gLen Picnic1.Inst.gate Picnic1.Inst.blk bytesFor
  split at hI <;> simp only [Option.some.injEq, Prod.mk.injEq, reduceCtorEq] at hI <;> obtain ⟨h1, h2, h3, h4, h5, h6, -, -⟩ := hI <;>
    rw [← h1, ← h2, ← h3, ← h5] <;> split_ifs <;> decide

/-- **C59** for ZKB++: the string determines purpose and data. -/
theorem C59_zkb (I : Picnic1.Inst) (p : ℕ) (hI : I.Is p) (x y : Picnic1.Use I.T) (hx : Picnic1.Use.WF I x) (hy : Picnic1.Use.WF I y)
    (h : Picnic1.Use.text I x = Picnic1.Use.text I y) : x = y := by
  obtain ⟨h1, h2, h3, h4, -⟩ := zkb_sizes hI
  have hl := congrArg List.length h
  have hc : ∀ {outs coms : Fin I.T → Fin 3 → Bytes} {gs ct pt salt msg}, Picnic1.Use.WF I (Picnic1.Use.challenge outs coms gs ct pt salt msg) →
      2 * I.blk + I.gate + I.digest + 40 ≤ (Picnic1.Use.text I (T := I.T) (Picnic1.Use.challenge outs coms gs ct pt salt msg)).length := by
    intro outs coms gs ct pt salt msg hw
    have := join_len (fun t => hw.1 t 0) (fun t => hw.1 t 1) (fun t => hw.1 t 2)
    simp only [Picnic1.Use.text, List.length_append] at *
    omega
  have hg : ∀ {d key gates}, Picnic1.Use.WF I (Picnic1.Use.g d key gates) →
      (Picnic1.Use.text I (T := I.T) (Picnic1.Use.g d key gates)).length = I.digest + I.gate + 2 + if key.isSome then I.blk else 0 := by
    intro d key gates hw
    obtain ⟨-, e1, e2, e3⟩ := hw
    simp only [Picnic1.Use.text, List.length_append, int16_len]
    cases key with
    | none => simp; omega
    | some k => have := e2 k rfl; simp; omega
  cases x <;> cases y <;> first
    | (exfalso
       first
       | (have := hc hx
          first
          | (have := hg hy; rw [← hl] at this; split_ifs at this <;> omega)
          | (rw [hl] at this
             simp only [Picnic1.Use.WF] at hy
             simp only [Picnic1.Use.text, List.length_append, int16_len, List.length_cons, List.length_nil] at this
             omega))
       | (have := hc hy
          first
          | (have := hg hx; rw [hl] at this; split_ifs at this <;> omega)
          | (rw [← hl] at this
             simp only [Picnic1.Use.WF] at hx
             simp only [Picnic1.Use.text, List.length_append, int16_len, List.length_cons, List.length_nil] at this
             omega))
       | (have := hg hx
          rw [hl] at this
          simp only [Picnic1.Use.WF] at hy
          simp only [Picnic1.Use.text, List.length_append, int16_len, List.length_cons, List.length_nil] at this
          split_ifs at this <;> omega)
       | (have := hg hy
          rw [← hl] at this
          simp only [Picnic1.Use.WF] at hx
          simp only [Picnic1.Use.text, List.length_append, int16_len, List.length_cons, List.length_nil] at this
          split_ifs at this <;> omega)
       | (simp only [Picnic1.Use.WF] at hx hy
          simp only [Picnic1.Use.text, List.length_append, int16_len, List.length_cons, List.length_nil] at hl
          omega)
       | (simp [Picnic1.Use.text] at h; done))
    | skip
  case tapeSeed.tapeSeed a b => rw [show a = b from (List.append_inj h rfl).2]
  case comSeed.comSeed a b => rw [show a = b from (List.append_inj h rfl).2]
  case gSeed.gSeed a b => rw [show a = b from (List.append_inj h rfl).2]
  case next.next a b => rw [show a = b from (List.append_inj h rfl).2]
  case tape.tape d salt t j len d' salt' t' j' len' =>
    obtain ⟨e1, e2, e3, e4, e5⟩ := hx
    obtain ⟨f1, f2, f3, f4, f5⟩ := hy
    obtain ⟨h, g1⟩ := List.append_inj' h rfl
    obtain ⟨h, g2⟩ := List.append_inj' h rfl
    obtain ⟨h, g3⟩ := List.append_inj' h rfl
    obtain ⟨g4, g5⟩ := List.append_inj h (e1.trans f1.symm)
    rw [int16_inj e5 f5 g1, int16_inj e4 f4 g2, int16_inj e3 f3 g3, g4, g5]
  case com.com d key gates out d' key' gates' out' =>
    obtain ⟨e1, e2, e3, e4⟩ := hx
    obtain ⟨f1, f2, f3, f4⟩ := hy
    obtain ⟨h, g1⟩ := List.append_inj' h (e4.trans f4.symm)
    obtain ⟨h, g2⟩ := List.append_inj' h (e3.trans f3.symm)
    obtain ⟨h, g3⟩ := List.append_inj' h (e2.trans f2.symm)
    rw [g1, g2, g3, (List.append_inj h rfl).2]
  case g.g d key gates d' key' gates' =>
    have hk : key.isSome = key'.isSome := by
      have e1 := hg hx
      have e2 := hg hy
      rw [hl, e2] at e1
      by_cases k1 : key.isSome = true <;> by_cases k2 : key'.isSome = true <;> simp only [k1, k2, if_true, if_false, Bool.false_eq_true] at e1 ⊢ <;> omega
    obtain ⟨-, e1, e2, e3⟩ := hx
    obtain ⟨-, f1, f2, f3⟩ := hy
    obtain ⟨h, -⟩ := List.append_inj' h rfl
    obtain ⟨h, g1⟩ := List.append_inj' h (e3.trans f3.symm)
    obtain ⟨h, g2⟩ := List.append_inj h (e1.trans f1.symm)
    rw [g1, h]
    cases key with
    | none =>
      cases key' with
      | none => rfl
      | some k => simp at hk
    | some k =>
      cases key' with
      | none => simp at hk
      | some k' => rw [show k = k' from g2]
  case challenge.challenge outs coms gs ct pt salt msg outs' coms' gs' ct' pt' salt' msg' =>
    obtain ⟨e1, e2, e3, e4, e5, e6, e7⟩ := hx
    obtain ⟨f1, f2, f3, f4, f5, f6, f7⟩ := hy
    have hgl : ((gs.map Picnic1.join).getD []).length = ((gs'.map Picnic1.join).getD []).length := by
      cases gs with
      | none =>
        cases gs' with
        | none => rfl
        | some k => rw [← e3] at f3; simp at f3
      | some k =>
        cases gs' with
        | none => rw [← e3] at f3; simp at f3
        | some k' =>
          change (Picnic1.join k).length = (Picnic1.join k').length
          rw [join_len (fun t => e4 k rfl t 0) (fun t => e4 k rfl t 1) (fun t => e4 k rfl t 2), join_len (fun t => f4 k' rfl t 0) (fun t => f4 k' rfl t 1) (fun t => f4 k' rfl t 2)]
    have hol : (Picnic1.join outs).length = (Picnic1.join outs').length := by
      rw [join_len (fun t => e1 t 0) (fun t => e1 t 1) (fun t => e1 t 2), join_len (fun t => f1 t 0) (fun t => f1 t 1) (fun t => f1 t 2)]
    have hcl : (Picnic1.join coms).length = (Picnic1.join coms').length := by
      rw [join_len (fun t => e2 t 0) (fun t => e2 t 1) (fun t => e2 t 2), join_len (fun t => f2 t 0) (fun t => f2 t 1) (fun t => f2 t 2)]
    simp only [Picnic1.Use.text] at h
    obtain ⟨h, g1⟩ := List.append_inj h (by simp only [List.length_append, List.length_cons, List.length_nil]; omega)
    obtain ⟨h, g2⟩ := List.append_inj' h (e7.trans f7.symm)
    obtain ⟨h, g3⟩ := List.append_inj' h (e6.trans f6.symm)
    obtain ⟨h, g4⟩ := List.append_inj' h (e5.trans f5.symm)
    obtain ⟨h, g5⟩ := List.append_inj' h hgl
    obtain ⟨h, g6⟩ := List.append_inj' h hcl
    have g7 := (List.append_inj h rfl).2
    rw [g1, g2, g3, g4, join_inj (fun t j => by rw [e2, f2]) g6, join_inj (fun t j => by rw [e1, f1]) g7]
    congr 1
    cases gs with
    | none =>
      cases gs' with
      | none => rfl
      | some k => rw [← e3] at f3; simp at f3
    | some k =>
      cases gs' with
      | none => rw [← e3] at f3; simp at f3
      | some k' => rw [join_inj (fun t j => by rw [e4 k rfl, f4 k' rfl]) (show Picnic1.join k = Picnic1.join k' from g5)]

/-- The strings from which seeds and salt are derived determine key, message and public key. -/
theorem C59_zkb_secrets (I : Picnic1.Inst) (sk ct pt msg sk' ct' pt' msg' : Bytes) (h1 : sk.length = I.blk) (h1' : sk'.length = I.blk)
    (h2 : ct.length = I.blk) (h2' : ct'.length = I.blk) (h3 : pt.length = I.blk) (h3' : pt'.length = I.blk)
    (h : I.secretString sk ct pt msg = I.secretString sk' ct' pt' msg') : sk = sk' ∧ ct = ct' ∧ pt = pt' ∧ msg = msg' := by
  obtain ⟨h, -⟩ := List.append_inj' h rfl
  obtain ⟨h, g1⟩ := List.append_inj' h (h3.trans h3'.symm)
  obtain ⟨h, g2⟩ := List.append_inj' h (h2.trans h2'.symm)
  obtain ⟨g3, g4⟩ := List.append_inj h (h1.trans h1'.symm)
  exact ⟨g3, g2, g1, g4⟩

theorem all_join (I : Picnic1.Inst) (x : ℕ → ℕ → Bytes) : I.all x = Picnic1.join fun (t : Fin I.T) (j : Fin 3) => x t j := by
  unfold Picnic1.Inst.all Picnic1.join
  rw [← List.map_coe_finRange_eq_range, List.flatMap_map]
  rfl

/-- Everything that the specification (and by C37 the library) hashes is of this form. -/
theorem C59_zkb_uses (I : Picnic1.Inst) :
    (∀ seed salt t j len, I.tape seed salt t j len =
      I.hash (Picnic1.Use.text (T := I.T) I (.tape (I.hash (Picnic1.Use.text (T := I.T) I (.tapeSeed seed)) I.digest) salt t j len)) len) ∧
    (∀ v, I.commit v = I.hash (Picnic1.Use.text (T := I.T) I (.com (I.hash (Picnic1.Use.text (T := I.T) I (.comSeed v.seed)) I.digest) v.key v.gates v.out)) I.digest) ∧
    (∀ j < 3, ∀ v, I.G j v = I.hash (Picnic1.Use.text (T := I.T) I (.g (I.hash (Picnic1.Use.text (T := I.T) I (.gSeed v.seed)) I.digest)
      (if j = 2 then some v.key else none) v.gates)) (I.gLen j)) ∧
    (∀ outs coms gs ct pt salt msg, I.challengeDigest outs coms gs ct pt salt msg = I.hash (Picnic1.Use.text I (.challenge (T := I.T) (fun t j => outs t j)
      (fun t j => coms t j) (if I.unruh then some fun t j => gs t j else none) ct pt salt msg)) I.digest) ∧
    (∀ d e, I.Challenge d e ↔ IsChallenge I.T (fun d => I.hash (Picnic1.Use.text (T := I.T) I (.next d)) I.digest) d e) ∧
    (∀ sk ct pt msg, I.secrets sk ct pt msg = I.hash (I.secretString sk ct pt msg) (3 * I.T * I.seed + 32)) := by
  refine ⟨fun _ _ _ _ _ => rfl, fun _ => rfl, fun j hj v => ?_, fun outs coms gs ct pt salt msg => ?_, fun _ _ => Iff.rfl, fun _ _ _ _ => rfl⟩
  · interval_cases j <;> rfl
  · unfold Picnic1.Inst.challengeDigest Picnic1.Use.text
    simp only [all_join]
    cases I.unruh <;> rfl

theorem p3_sizes {I : Picnic3.Inst} {p : ℕ} (hI : I.Is p) : (I.seed = 16 ∧ I.digest = 32 ∧ I.gate = 65 ∧ I.blk = 17 ∨
    I.seed = 24 ∧ I.digest = 48 ∧ I.gate = 96 ∧ I.blk = 24 ∨ I.seed = 32 ∧ I.digest = 64 ∧ I.gate = 128 ∧ I.blk = 32) ∧
    3000 ≤ I.T * I.digest := by
  unfold Picnic3.Inst.Is Picnic3.table at hI
  unfold Picnic3.Inst.gate Picnic3.Inst.blk bytesFor
  split at hI <;> simp only [Option.some.injEq, Prod.mk.injEq, reduceCtorEq] at hI <;> obtain ⟨h1, h2, h3, h4, h5, h6, h7, -⟩ := hI <;>
    rw [← h1, ← h2, ← h3, ← h4, ← h6, ← h7] <;> decide

/-- **C59** is false for Picnic3: what is hashed for the tape of a party other than the last one is also hashed for the commitment to its seed. -/
theorem C59_p3_violated (I : Picnic3.Inst) (seed salt : Bytes) (t j : ℕ) :
    Picnic3.Use.text (T := I.T) (.tape seed salt t j) = Picnic3.Use.text (T := I.T) (.commit seed none salt t j) ∧
    (Picnic3.Use.tape seed salt t j : Picnic3.Use I.T) ≠ .commit seed none salt t j := by
  refine ⟨?_, by simp⟩
  simp [Picnic3.Use.text]

/-- **C59** for Picnic3: this is the only exception. -/
theorem C59_p3_partial (I : Picnic3.Inst) (p : ℕ) (hI : I.Is p) (x y : Picnic3.Use I.T) (hx : Picnic3.Use.WF I x) (hy : Picnic3.Use.WF I y)
    (h : x.text = y.text) : x = y ∨ ∃ seed salt t j, (x = .tape seed salt t j ∧ y = .commit seed none salt t j) ∨ (y = .tape seed salt t j ∧ x = .commit seed none salt t j) := by
  obtain ⟨h1, h2⟩ := p3_sizes hI
  have hl := congrArg List.length h
  have hlen : ∀ z : Picnic3.Use I.T, Picnic3.Use.WF I z → match z with
      | .node .. => z.text.length = I.seed + 37
      | .tape .. => z.text.length = I.seed + 36
      | .commit _ none .. => z.text.length = I.seed + 36
      | .commit _ (some _) .. => z.text.length = I.seed + I.gate + 36
      | .coms _ => z.text.length = 16 * I.digest
      | .msgs .. => z.text.length = I.blk + 16 * I.gate
      | .merkle _ none .. => z.text.length = I.digest + 35
      | .merkle _ (some _) .. => z.text.length = 2 * I.digest + 35
      | .challenge .. => 3000 ≤ z.text.length
      | .next .. => z.text.length = I.digest + 1 := by
    intro z hz
    cases z with
    | node s salt rep x => simp only [Picnic3.Use.WF] at hz; simp only [Picnic3.Use.text, List.length_append, int16_len, List.length_cons, List.length_nil]; omega
    | tape s salt rep x => simp only [Picnic3.Use.WF] at hz; simp only [Picnic3.Use.text, List.length_append, int16_len, List.length_cons, List.length_nil]; omega
    | commit s aux salt t j =>
      obtain ⟨e1, e2, e3, -, -⟩ := hz
      cases aux with
      | none => simp only [Picnic3.Use.text, List.length_append, int16_len, Option.getD_none, List.length_nil]; omega
      | some a =>
        have := e2 a rfl
        simp only [Picnic3.Use.text, List.length_append, int16_len, Option.getD_some]; omega
    | coms c => simp only [Picnic3.Use.text]; rw [flatMap_len _ hz, List.length_finRange]
    | msgs k m => simp only [Picnic3.Use.text, List.length_append]; rw [flatMap_len _ hz.2, List.length_finRange, hz.1]
    | merkle l r salt x =>
      obtain ⟨e1, e2, e3, -⟩ := hz
      cases r with
      | none => simp only [Picnic3.Use.text, List.length_append, int16_len, Option.getD_none, List.length_cons, List.length_nil]; omega
      | some a =>
        have := e2 a rfl
        simp only [Picnic3.Use.text, List.length_append, int16_len, Option.getD_some, List.length_cons, List.length_nil]; omega
    | challenge d root salt ct pt msg =>
      simp only [Picnic3.Use.text, List.length_append]; rw [flatMap_len _ hz.1, List.length_finRange]
      omega
    | next d => simp only [Picnic3.Use.WF] at hz; simp only [Picnic3.Use.text, List.length_append, List.length_cons, List.length_nil]; omega
  have hx' := hlen x hx
  have hy' := hlen y hy
  clear hlen
  cases x with
  | node s salt rep x =>
    cases y with
    | node s' salt' rep' x' =>
      left
      obtain ⟨e1, e2, e3, e4⟩ := hx
      obtain ⟨f1, f2, f3, f4⟩ := hy
      obtain ⟨h, g1⟩ := List.append_inj' h rfl
      obtain ⟨h, g2⟩ := List.append_inj' h rfl
      obtain ⟨h, g3⟩ := List.append_inj' h (e2.trans f2.symm)
      rw [int16_inj e4 f4 g1, int16_inj e3 f3 g2, g3, (List.append_inj h rfl).2]
    | commit _ aux => exfalso; cases aux <;> (dsimp only at hx' hy'; omega)
    | merkle _ aux => exfalso; cases aux <;> (dsimp only at hx' hy'; omega)
    | _ => exfalso; dsimp only at hx' hy'; omega
  | tape s salt t j =>
    obtain ⟨e1, e2, e3, e4⟩ := hx
    cases y with
    | tape s' salt' t' j' =>
      left
      obtain ⟨f1, f2, f3, f4⟩ := hy
      obtain ⟨h, g1⟩ := List.append_inj' h rfl
      obtain ⟨h, g2⟩ := List.append_inj' h rfl
      obtain ⟨g3, g4⟩ := List.append_inj h (e1.trans f1.symm)
      rw [int16_inj e4 f4 g1, int16_inj e3 f3 g2, g3, g4]
    | commit s' aux salt' t' j' =>
      cases aux with
      | some a => exfalso; dsimp only at hx' hy'; omega
      | none =>
        right
        obtain ⟨f1, -, f2, f3, f4⟩ := hy
        obtain ⟨h, g1⟩ := List.append_inj' h rfl
        obtain ⟨h, g2⟩ := List.append_inj' h rfl
        obtain ⟨g3, g4⟩ := List.append_inj' h (e2.trans f2.symm)
        rw [Option.getD_none, List.append_nil] at g3
        rw [int16_inj e4 f4 g1, int16_inj e3 f3 g2, g3, g4]
        exact ⟨_, _, _, _, Or.inl ⟨rfl, rfl⟩⟩
    | merkle _ aux => exfalso; cases aux <;> (dsimp only at hx' hy'; omega)
    | _ => exfalso; dsimp only at hx' hy'; omega
  | commit s aux salt t j =>
    obtain ⟨e1, e0, e2, e3, e4⟩ := hx
    cases y with
    | tape s' salt' t' j' =>
      cases aux with
      | some a => exfalso; dsimp only at hx' hy'; omega
      | none =>
        right
        obtain ⟨f1, f2, f3, f4⟩ := hy
        obtain ⟨h, g1⟩ := List.append_inj' h rfl
        obtain ⟨h, g2⟩ := List.append_inj' h rfl
        obtain ⟨g3, g4⟩ := List.append_inj' h (e2.trans f2.symm)
        rw [Option.getD_none, List.append_nil] at g3
        rw [int16_inj e4 f4 g1, int16_inj e3 f3 g2, g3, g4]
        exact ⟨_, _, _, _, Or.inr ⟨rfl, rfl⟩⟩
    | commit s' aux' salt' t' j' =>
      left
      obtain ⟨f1, -, f2, f3, f4⟩ := hy
      obtain ⟨h, g1⟩ := List.append_inj' h rfl
      obtain ⟨h, g2⟩ := List.append_inj' h rfl
      obtain ⟨h, g3⟩ := List.append_inj' h (e2.trans f2.symm)
      obtain ⟨g4, g5⟩ := List.append_inj h (e1.trans f1.symm)
      rw [int16_inj e4 f4 g1, int16_inj e3 f3 g2, g3, g4]
      cases aux with
      | none =>
        cases aux' with
        | none => rfl
        | some a => exfalso; dsimp only at hx' hy'; omega
      | some a =>
        cases aux' with
        | none => exfalso; dsimp only at hx' hy'; omega
        | some a' => rw [show a = a' from g5]
    | merkle _ aux' => exfalso; cases aux <;> cases aux' <;> (dsimp only at hx' hy'; omega)
    | _ => exfalso; cases aux <;> (dsimp only at hx' hy'; omega)
  | coms c =>
    cases y with
    | coms c' => left; rw [flatMap_fin_inj hx hy h]
    | commit _ aux => exfalso; cases aux <;> (dsimp only at hx' hy'; omega)
    | merkle _ aux => exfalso; cases aux <;> (dsimp only at hx' hy'; omega)
    | _ => exfalso; dsimp only at hx' hy'; omega
  | msgs k m =>
    cases y with
    | msgs k' m' =>
      left
      obtain ⟨g1, g2⟩ := List.append_inj h (hx.1.trans hy.1.symm)
      rw [flatMap_fin_inj hx.2 hy.2 g2, g1]
    | commit _ aux => exfalso; cases aux <;> (dsimp only at hx' hy'; omega)
    | merkle _ aux => exfalso; cases aux <;> (dsimp only at hx' hy'; omega)
    | _ => exfalso; dsimp only at hx' hy'; omega
  | merkle l r salt x =>
    cases y with
    | merkle l' r' salt' x' =>
      left
      obtain ⟨e1, -, e3, e4⟩ := hx
      obtain ⟨f1, -, f3, f4⟩ := hy
      obtain ⟨h, g1⟩ := List.append_inj' h rfl
      obtain ⟨h, g2⟩ := List.append_inj' h (e3.trans f3.symm)
      obtain ⟨g3, g4⟩ := List.append_inj h (by simp only [List.length_append]; rw [e1, f1])
      rw [int16_inj e4 f4 g1, g2, (List.append_inj g3 rfl).2]
      cases r with
      | none =>
        cases r' with
        | none => rfl
        | some a => exfalso; dsimp only at hx' hy'; omega
      | some a =>
        cases r' with
        | none => exfalso; dsimp only at hx' hy'; omega
        | some a' => rw [show a = a' from g4]
    | commit _ aux => exfalso; cases r <;> cases aux <;> (dsimp only at hx' hy'; omega)
    | _ => exfalso; cases r <;> (dsimp only at hx' hy'; omega)
  | challenge d root salt ct pt msg =>
    cases y with
    | challenge d' root' salt' ct' pt' msg' =>
      left
      obtain ⟨e1, e2, e3, e4, e5⟩ := hx
      obtain ⟨f1, f2, f3, f4, f5⟩ := hy
      simp only [Picnic3.Use.text] at h
      obtain ⟨h, g1⟩ := List.append_inj h (by simp only [List.length_append]; rw [flatMap_len _ e1, flatMap_len _ f1]; omega)
      obtain ⟨h, g2⟩ := List.append_inj' h (e5.trans f5.symm)
      obtain ⟨h, g3⟩ := List.append_inj' h (e4.trans f4.symm)
      obtain ⟨h, g4⟩ := List.append_inj' h (e3.trans f3.symm)
      obtain ⟨h, g5⟩ := List.append_inj' h (e2.trans f2.symm)
      rw [g1, g2, g3, g4, g5, flatMap_fin_inj e1 f1 h]
    | commit _ aux => exfalso; cases aux <;> (dsimp only at hx' hy'; omega)
    | merkle _ aux => exfalso; cases aux <;> (dsimp only at hx' hy'; omega)
    | _ => exfalso; dsimp only at hx' hy'; omega
  | next d =>
    cases y with
    | next d' => left; rw [(List.append_inj h rfl).2]
    | commit _ aux => exfalso; cases aux <;> (dsimp only at hx' hy'; omega)
    | merkle _ aux => exfalso; cases aux <;> (dsimp only at hx' hy'; omega)
    | _ => exfalso; dsimp only at hx' hy'; omega

theorem range_fin {n : ℕ} (f : ℕ → Bytes) : (List.range n).flatMap f = (List.finRange n).flatMap fun t : Fin n => f t.1 := by
  rw [← List.map_coe_finRange_eq_range, List.flatMap_map]

/-- Everything that the specification (and by C38 the library) hashes is of this form. -/
theorem C59_p3_uses (I : Picnic3.Inst) :
    (∀ salt rep s x, I.Child salt rep s x ↔ s x = ((I.hash (Picnic3.Use.text (T := I.T) (.node (s (x / 2)) salt rep (x / 2 - 1))) (2 * I.seed)).drop
      (x % 2 * I.seed)).take I.seed) ∧
    (∀ salt t j v, I.tape salt t j v = Picnic1.toBits (I.hash (Picnic3.Use.text (T := I.T) (.tape (v.seed j) salt t j)) (2 * I.gate))) ∧
    (∀ salt t v j, I.commit salt t v j = I.hash (Picnic3.Use.text (T := I.T) (.commit (v.seed j) (if j = 15 then some v.aux else none) salt t j)) I.digest) ∧
    (∀ v, I.comDigest v = I.hash (Picnic3.Use.text (T := I.T) (.coms fun j => v.com j)) I.digest) ∧
    (∀ v, I.msgDigest v = I.hash (Picnic3.Use.text (T := I.T) (.msgs v.key fun j => v.msgs j)) I.digest) ∧
    (∀ salt h x, I.MerkleNode salt h x ↔ h x = I.hash (Picnic3.Use.text (T := I.T) (.merkle (h (2 * x))
      (if 2 * x + 1 < 2 ^ I.depth + I.T then some (h (2 * x + 1)) else none) salt (x - 1))) I.digest) ∧
    (∀ v h ct pt salt msg, I.challengeDigest v h ct pt salt msg =
      I.hash (Picnic3.Use.text (T := I.T) (.challenge (fun t => I.comDigest (v t)) (h 1) salt ct pt msg)) I.digest) ∧
    (∀ d C Q, I.Challenge d C Q ↔ IsChallenge3 I.T 16 I.u (fun d => I.hash (Picnic3.Use.text (T := I.T) (.next d)) I.digest) d C Q) := by
  refine ⟨fun _ _ _ _ => Iff.rfl, fun _ _ _ _ => rfl, fun salt t v j => ?_, fun v => ?_, fun v => ?_, fun salt h x => ?_, fun v h ct pt salt msg => ?_,
    fun _ _ _ => Iff.rfl⟩
  · unfold Picnic3.Inst.commit Picnic3.Use.text
    split_ifs <;> rfl
  · unfold Picnic3.Inst.comDigest Picnic3.Use.text
    rw [range_fin]
  · unfold Picnic3.Inst.msgDigest Picnic3.Use.text
    rw [range_fin]
  · unfold Picnic3.Inst.MerkleNode Picnic3.Use.text
    split_ifs <;> rfl
  · unfold Picnic3.Inst.challengeDigest Picnic3.Use.text
    rw [range_fin]

/-- Data that meet the hypotheses: in ZKB++ a seed hashed for a tape and for a commitment; in Picnic3 the exception. -/
theorem C59_example (I : Picnic1.Inst) (J : Picnic3.Inst) :
    (Picnic1.Use.WF I (.tapeSeed (List.replicate I.seed 0)) ∧ Picnic1.Use.WF I (.comSeed (List.replicate I.seed 0))) ∧
    ∃ x y : Picnic3.Use J.T, Picnic3.Use.WF J x ∧ Picnic3.Use.WF J y ∧ x.text = y.text ∧ x ≠ y := by
  refine ⟨⟨List.length_replicate, List.length_replicate⟩, .tape (List.replicate J.seed 7) (List.replicate 32 1) 2 3,
    .commit (List.replicate J.seed 7) none (List.replicate 32 1) 2 3, ⟨List.length_replicate, rfl, by decide, by decide⟩,
    ⟨List.length_replicate, by simp, rfl, by decide, by decide⟩, C59_p3_violated J _ _ _ _⟩

end Picnic
