import Verif.Proofs.RomMany

/-
C62: a signer and the simulator after some values of the oracle have become known.
-/

namespace Picnic.Rom

open Spec Spec.Zkb Spec.Rom Spec.Picnic1 Spec.Challenge

variable {N M : ℕ} {I : Inst} {sk ct pt msg : Bytes}

/-! ### Known values -/

/-- The oracle with known values. -/
def patch (π : Arg N → Option (Val M)) (O : Oracle N M) : Oracle N M := fun x => (π x).getD (O x)

variable (I) in
/-- The values are known only for the strings of a list and for the chain of digests. -/
def Covers (D : List Bytes) (π : Arg N → Option (Val M)) : Prop :=
  ∀ x : Arg N, π x ≠ none → x.1 ∈ D ∨ ∃ d : Bytes, d.length = I.digest ∧ x.1 = Use.text (T := I.T) I (.next d)

variable {D : List Bytes} {π : Arg N → Option (Val M)}

theorem patch_none {x : Arg N} (h : π x = none) (O : Oracle N M) : patch π O x = O x := by
  unfold patch
  rw [h]
  rfl

theorem covers_none (hD : Covers I D π) {x : Arg N} (h : x.1 ∉ D) (h' : ∀ d : Bytes, d.length = I.digest → x.1 ≠ Use.text (T := I.T) I (.next d)) : π x = none := by
  by_contra hn
  rcases hD x hn with h1 | ⟨d, h1, h2⟩
  · exact h h1
  · exact h' d h1 h2

theorem ask_patch (hD : Covers I D π) (O : Oracle N M) {m : Bytes} (h : m ∉ D) (h' : ∀ d : Bytes, d.length = I.digest → m ≠ Use.text (T := I.T) I (.next d)) :
    ask (patch π O) m = ask O m := by
  unfold ask
  split_ifs with hl
  · exact patch_none (covers_none hD (x := ⟨m, hl⟩) h h') O
  · rfl

theorem patch_congr {O O' : Oracle N M} {x : Arg N} (h : O x = O' x) : patch π O x = patch π O' x := by
  unfold patch
  rw [h]

theorem patch_write {Q : Type} {p : Q → Bytes} (hp : ∀ q (x : Arg N), p q = x.1 → π x = none) (O : Oracle N M) (c : Q → Val M) :
    patch π (write O p c) = write (patch π O) p c := by
  funext x
  by_cases hx : ∃ q, p q = x.1
  · obtain ⟨q, hq⟩ := hx
    rw [patch_none (hp q x hq)]
    unfold write
    have hx : ∃ q, p q = x.1 := ⟨q, hq⟩
    rw [dif_pos hx, dif_pos hx]
  · push Not at hx
    rw [write_off _ _ hx]
    unfold patch
    rw [write_off _ _ hx]

variable (I sk ct pt msg D π) in
/-- The strings of the questions are different from each other, from what is hashed beside, and from the known strings. -/
structure GoodD (O : Oracle N M) (a : Answers I M) : Prop where
  good : Good I sk ct pt msg (patch π O) a
  off : ∀ q, pts I sk ct pt msg (patch π O) a q ∉ D

theorem goodD_none (hD : Covers I D π) {O : Oracle N M} {a : Answers I M} (h : GoodD I sk ct pt msg D π O a) (q : Query I.T I.unruh) (x : Arg N)
    (hx : pts I sk ct pt msg (patch π O) a q = x.1) : π x = none :=
  covers_none hD (hx ▸ h.off q) fun d hd he => h.good.plain q (by rw [hx, he]; exact plain_next hd)

theorem goodD_patch (hD : Covers I D π) {O : Oracle N M} {a : Answers I M} (h : GoodD I sk ct pt msg D π O a) (c : Answers I M) :
    patch π (write O (pts I sk ct pt msg (patch π O) a) c) = write (patch π O) (pts I sk ct pt msg (patch π O) a) c :=
  patch_write (goodD_none hD h) O c

theorem goodD_pts (hD : Covers I D π) {O : Oracle N M} {a : Answers I M} (h : GoodD I sk ct pt msg D π O a) (c : Answers I M) :
    pts I sk ct pt msg (patch π (write O (pts I sk ct pt msg (patch π O) a) c)) a = pts I sk ct pt msg (patch π O) a := by
  rw [goodD_patch hD h, pts_write h.good]

theorem goodD_write (hD : Covers I D π) {O : Oracle N M} {a : Answers I M} (h : GoodD I sk ct pt msg D π O a) (c : Answers I M) :
    GoodD I sk ct pt msg D π (write O (pts I sk ct pt msg (patch π O) a) c) a := by
  constructor
  · rw [goodD_patch hD h]
    exact good_write h.good c
  · rw [goodD_pts hD h]
    exact h.off

theorem goodD_ask (hD : Covers I D π) {O : Oracle N M} {a : Answers I M} (h : GoodD I sk ct pt msg D π O a) (q : Query I.T I.unruh) :
    ask (patch π O) (pts I sk ct pt msg (patch π O) a q) = ask O (pts I sk ct pt msg (patch π O) a q) := by
  unfold ask
  split_ifs with hl
  · exact patch_none (goodD_none hD h q ⟨_, hl⟩ rfl) O
  · rfl

/-- As `prob_swap`, with known values. -/
theorem prob_swapD (hD : Covers I D π) (hN : ∀ (O : Oracle N M) (a : Answers I M) q, (pts I sk ct pt msg O a q).length ≤ N) (W : Oracle N M → Answers I M → Prop) :
    prob (fun ω : Oracle N M × Answers I M => GoodD I sk ct pt msg D π ω.1 (answers I (patch π ω.1) sk ct pt msg) ∧
      W (patch π ω.1) (answers I (patch π ω.1) sk ct pt msg)) =
    prob (fun ω : Oracle N M × Answers I M => GoodD I sk ct pt msg D π ω.1 ω.2 ∧ W (prog I sk ct pt msg (patch π ω.1) ω.2) ω.2) := by
  classical
  have key : ∀ (O : Oracle N M) (a c : Answers I M), GoodD I sk ct pt msg D π O a →
      write (write O (pts I sk ct pt msg (patch π O) a) c) (pts I sk ct pt msg (patch π O) a) (fun q => ask O (pts I sk ct pt msg (patch π O) a q)) = O := fun O a c h =>
    write_write h.good.inj (hN _ a) O c
  have fix : ∀ (O : Oracle N M), GoodD I sk ct pt msg D π O (answers I (patch π O) sk ct pt msg) →
      (fun q => ask O (pts I sk ct pt msg (patch π O) (answers I (patch π O) sk ct pt msg) q)) = answers I (patch π O) sk ct pt msg := fun O h => by
    funext q
    rw [← goodD_ask hD h, ← answers_fixed]
  unfold prob
  congr 2
  refine Finset.card_bij' (fun ω _ => (write ω.1 (pts I sk ct pt msg (patch π ω.1) (answers I (patch π ω.1) sk ct pt msg)) ω.2, answers I (patch π ω.1) sk ct pt msg))
    (fun ω _ => (write ω.1 (pts I sk ct pt msg (patch π ω.1) ω.2) ω.2, fun q => ask ω.1 (pts I sk ct pt msg (patch π ω.1) ω.2 q))) ?_ ?_ ?_ ?_
  · rintro ⟨O, c⟩ h
    simp only [Finset.mem_filter, Finset.mem_univ, true_and] at h ⊢
    obtain ⟨hg, hw⟩ := h
    refine ⟨goodD_write hD hg c, ?_⟩
    have e1 := key O _ c hg
    rw [fix O hg] at e1
    have e2 : prog I sk ct pt msg (patch π (write O (pts I sk ct pt msg (patch π O) (answers I (patch π O) sk ct pt msg)) c)) (answers I (patch π O) sk ct pt msg) =
        patch π O := by
      unfold prog
      rw [goodD_pts hD hg, ← patch_write (goodD_none hD hg), e1]
    rw [e2]
    exact hw
  · rintro ⟨O, a⟩ h
    simp only [Finset.mem_filter, Finset.mem_univ, true_and] at h ⊢
    obtain ⟨hg, hw⟩ := h
    have e : patch π (write O (pts I sk ct pt msg (patch π O) a) a) = prog I sk ct pt msg (patch π O) a := goodD_patch hD hg a
    rw [e, answers_write hN hg.good]
    exact ⟨goodD_write hD hg a, hw⟩
  · rintro ⟨O, c⟩ h
    simp only [Finset.mem_filter, Finset.mem_univ, true_and] at h
    obtain ⟨hg, -⟩ := h
    have e1 := key O _ c hg
    rw [fix O hg] at e1
    refine Prod.ext ?_ (funext fun q => ?_)
    · dsimp only
      rw [goodD_pts hD hg]
      exact e1
    · dsimp only
      rw [goodD_pts hD hg]
      exact ask_write hg.good.inj O c (hN _ _ q)
  · rintro ⟨O, a⟩ h
    simp only [Finset.mem_filter, Finset.mem_univ, true_and] at h
    obtain ⟨hg, -⟩ := h
    have e : patch π (write O (pts I sk ct pt msg (patch π O) a) a) = prog I sk ct pt msg (patch π O) a := goodD_patch hD hg a
    dsimp only
    rw [e, answers_write hN hg.good]
    refine Prod.ext ?_ rfl
    dsimp only
    have e2 : pts I sk ct pt msg (prog I sk ct pt msg (patch π O) a) a = pts I sk ct pt msg (patch π O) a := pts_write hg.good a
    rw [e2]
    exact key O a a hg

/-! ### Probabilities -/

theorem seedText_not_next (k : Fin 3) (s : Bytes) : ∀ d : Bytes, d.length = I.digest → seedText I k s ≠ Use.text (T := I.T) I (.next d) := fun d _ => seedText_next k s d

/-- A string made of a seed is known. -/
def SeedIn (D : List Bytes) (a : Answers I M) : Prop := ∃ (t : Fin I.T) (j k : Fin 3), seedText I k (seed a t j) ∈ D

theorem prob_seedIn (hM : 3 * I.T * I.seed + 32 ≤ M) (D : List Bytes) :
    prob (fun ω : Oracle N M × Answers I M => SeedIn D ω.2) ≤ 3 * I.T * D.length / 2 ^ (8 * I.seed) := by
  have h := prob_exists (ι := Fin I.T × Fin 3 × Fin D.length) (Q := fun u (ω : Oracle N M × Answers I M) => ∃ k, D[u.2.2] = seedText I k (seed ω.2 u.1 u.2.1))
    (c := 1 / 2 ^ (8 * I.seed)) fun u => by
      have h1 := seed_pos u.1 u.2.1
      refine prob_secrets (o := 8 * ((3 * u.1 + u.2.1) * I.seed)) (by omega) fun O a a' hE hE' hoff i hi hi' => ?_
      obtain ⟨k, he⟩ := hE
      obtain ⟨k', he'⟩ := hE'
      dsimp only at he he'
      have hse := seedText_inj (he.symm.trans he')
      obtain ⟨y, rfl⟩ := Nat.exists_eq_add_of_le hi
      have hy : y < 8 * I.seed := by omega
      rw [← seed_bits a u.1 _ hy, ← seed_bits a' u.1 _ hy, hse]
  refine le_trans (prob_mono fun ω hω => ?_) (le_trans h (le_of_eq ?_))
  · obtain ⟨t, j, k, hm⟩ := hω
    obtain ⟨i, hi, he⟩ := List.getElem_of_mem hm
    exact ⟨(t, j, ⟨i, hi⟩), k, he⟩
  · simp only [Fintype.card_prod, Fintype.card_fin]
    push_cast
    ring

theorem patch_seed (hD : Covers I D π) {a : Answers I M} (h : ¬ SeedIn D a) (O : Oracle N M) (t : Fin I.T) (j k : Fin 3) :
    ask (patch π O) (seedText I k (seed a t j)) = ask O (seedText I k (seed a t j)) :=
  ask_patch hD O (fun hm => h ⟨t, j, k, hm⟩) (seedText_not_next k _)

theorem patch_hash (hD : Covers I D π) {a : Answers I M} (h : ¬ SeedIn D a) (O : Oracle N M) (t : Fin I.T) (j k : Fin 3) (n : ℕ) :
    Rom.hash (patch π O) (seedText I k (seed a t j)) n = Rom.hash O (seedText I k (seed a t j)) n := by
  unfold Rom.hash
  rw [patch_seed hD h]

theorem patch_apart (hD : Covers I D π) {O : Oracle N M} {a : Answers I M} (h : ¬ SeedIn D a) (ha : Apart I sk ct pt msg O a) :
    Apart I sk ct pt msg (patch π O) a := by
  have hc : ∀ (t : Fin I.T) (j : Fin 3), comDig (patch π O) a t j = comDig O a t j := fun t j => by
    unfold comDig
    rw [text_comSeed, patch_hash hD h]
  have hg : ∀ (t : Fin I.T) (j : Fin 3), gDig (patch π O) a t j = gDig O a t j := fun t j => by
    unfold gDig
    rw [text_gSeed, patch_hash hD h]
  refine ⟨ha.seeds, fun t t' j j' hne => ?_, fun t t' j j' hne => ?_, ha.salt, fun t j => ?_, fun t j => ?_⟩
  · rw [hc, hc]
    exact ha.coms t t' j j' hne
  · rw [hg, hg]
    exact ha.gs t t' j j' hne
  · rw [hc]
    exact ha.com t j
  · rw [hg]
    exact ha.g t j

theorem patch_pts (hD : Covers I D π) {a : Answers I M} (h : ¬ SeedIn D a) (O : Oracle N M) : pts I sk ct pt msg (patch π O) a = pts I sk ct pt msg O a :=
  pts_agree fun t j k => patch_seed hD h O t j k

/-- With a high probability the strings of the questions are new. -/
theorem prob_badD {p : ℕ} (hI : I.Is p) (hsk : sk.length = I.blk) (hct : ct.length = I.blk) (hpt : pt.length = I.blk) (hM : 3 * I.T * I.seed + 32 ≤ M)
    (hM' : I.digest ≤ M) (hN : I.seed + 1 ≤ N) (hD : Covers I D π) (hsec : I.secretString sk ct pt msg ∉ D) :
    prob (fun ω : Oracle N M × Answers I M => ¬ GoodD I sk ct pt msg D π ω.1 ω.2) ≤ (18 * I.T ^ 2 + (9 * I.T + 2) * D.length) / 2 ^ (8 * I.seed) := by
  have h1 := prob_seedIn (N := N) (I := I) hM D
  have h2 := prob_apart (N := N) (M := M) (sk := sk) (ct := ct) (pt := pt) (msg := msg) hI hM hM' hN
  have h3 := prob_exists (ι := Fin D.length) (Q := fun i (ω : Oracle N M × Answers I M) => ∃ q, pts I sk ct pt msg ω.1 ω.2 q = D.get i)
    (c := (6 * I.T + 2) / 2 ^ (8 * I.seed)) fun i => prob_pts_eq hI hct hpt hM hM' hN fun he => hsec (by rw [he]; exact List.get_mem D i)
  have hcov : ∀ ω : Oracle N M × Answers I M, ¬ GoodD I sk ct pt msg D π ω.1 ω.2 → SeedIn D ω.2 ∨ (¬ Apart I sk ct pt msg ω.1 ω.2 ∨
      ∃ i : Fin D.length, ∃ q, pts I sk ct pt msg ω.1 ω.2 q = D.get i) := fun ω h => by
    by_contra hn
    push Not at hn
    obtain ⟨n1, n2, n3⟩ := hn
    refine h ⟨good_of hI hsk hct hpt (patch_apart hD n1 n2), fun q hq => ?_⟩
    rw [patch_pts hD n1] at hq
    obtain ⟨i, hi, he⟩ := List.getElem_of_mem hq
    exact n3 ⟨i, hi⟩ q he.symm
  have h4 := le_trans (prob_mono hcov) (le_trans (prob_or _ _) (add_le_add h1 (le_trans (prob_or _ _) (add_le_add h2 h3))))
  refine le_trans h4 (le_of_eq ?_)
  rw [Fintype.card_fin]
  generalize (2 : ℝ) ^ (8 * I.seed) = b
  ring

end Picnic.Rom
