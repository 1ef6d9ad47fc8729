import Mathlib.Tactic.Ring
import Verif.Proofs.Heap4

/-
Runs that end in undefined behaviour, and the size of leaks.
-/

namespace Picnic.Heap

/-- Without failing allocations, `m` ends in undefined behaviour on every heap with the blocks `F`. -/
def Ub {α : Type} (m : HM α) (F : Multiset ℕ) : Prop := ∀ h : Heap, (∀ n, h.fail n = false) → h.live = F → ∃ u, m h = Outcome.ub u

theorem Ub.bind {α β : Type} {m : HM α} {f : α → HM β} {F : Multiset ℕ} (h : Ub m F) : Ub (m >>= f) F := fun h' hf hl => by
  obtain ⟨u, hu⟩ := h h' hf hl
  exact ⟨u, by show Outcome.bind (m h') _ = _; rw [hu]; rfl⟩

theorem Tr.ub {α β : Type} {m : HM α} {f : α → HM β} {F : Multiset ℕ} {Q : α → Multiset ℕ → Prop} (h : Tr m F Q)
    (h2 : ∀ a L, Q a L → Ub (f a) L) : Ub (m >>= f) F := fun h' hf hl => by
  obtain ⟨a, h'', e, hf', hq⟩ := h h' hf hl
  obtain ⟨u, hu⟩ := h2 a _ hq h'' hf' rfl
  exact ⟨u, by show Outcome.bind (m h') _ = _; rw [e]; exact hu⟩

theorem ub_forH {f : ℕ → HM Unit} {F : Multiset ℕ} (h : Ub (f 0) F) : ∀ n, 0 < n → Ub (forH f n) F
  | 0, h0 => absurd h0 (by simp)
  | 1, _ => Tr.ub (Q := fun _ L => L = F) (Tr.pure rfl) (by rintro _ LL hh; subst LL; exact h)
  | n + 2, _ => Ub.bind (ub_forH h (n + 1) (by omega))

theorem ub_touch_undef {F : Multiset ℕ} : Ub (touch .undef) F := fun _ _ _ => ⟨_, rfl⟩

/-- The code after `Exit` with tapes that have not been set up. -/
theorem ub_verify3Exit {P : Params} {C msgs : HArr} {seeds tapes : Ptr} {treeCv iSeedsTree : HTree} {seed : List HTree} {F G : Multiset ℕ}
    (h1 : C.Good) (h4 : msgs.Good) (h5 : treeCv.Good) (h6 : iSeedsTree.Good) (h8 : tapes.IsBlk) (hP : 0 < P.numMPCRounds)
    (e : F = C.own + (msgs.own + (treeCv.own + (iSeedsTree.own + (tapes.own + G))))) :
    Ub (verify3Exit P C .null .null msgs treeCv iSeedsTree seeds seed tapes (List.replicate P.numMPCRounds ⟨.undef, .undef⟩)) F := by
  subst e
  unfold verify3Exit
  refine Tr.ub (tr_freeCommitments h1 rfl) ?_
  rintro _ LL hh; subst LL
  refine Tr.ub (tr_freeCommitments2 (.inl rfl) (zero_add _).symm) ?_
  rintro _ LL hh; subst LL
  refine Tr.ub (tr_freeCommitments2 (.inl rfl) (zero_add _).symm) ?_
  rintro _ LL hh; subst LL
  refine Tr.ub (tr_freeMsgs h4 rfl) ?_
  rintro _ LL hh; subst LL
  refine Tr.ub (tr_freeTree (.inl h5) rfl) ?_
  rintro _ LL hh; subst LL
  refine Tr.ub (tr_freeTree (.inl h6) rfl) ?_
  rintro _ LL hh; subst LL
  refine Ub.bind (ub_forH ?_ _ hP)
  refine Tr.ub (tr_getH_eq (by simpa using hP)) ?_
  rintro _ LL ⟨rfl, hh⟩; subst LL
  rw [List.getElem_replicate]
  refine Ub.bind ?_
  unfold freeRandomTape
  refine Tr.ub (tr_touchC (by innC)) ?_
  rintro _ LL hh; subst LL
  exact Ub.bind ub_touch_undef

theorem ub_verifyPicnic3 {P : Params} {c : Ptr} {sig : HSig2} {d : Verify3} {F : Multiset ℕ} (hc : c.In F) (hs : sig.Acc P d.opened F) (hP : 0 < P.numMPCRounds)
    (hi : d.iSeedsOk = false ∨ ∃ t, t < P.numMPCRounds ∧ d.opened t = true ∧ d.seedsOk t = false) : Ub (verifyPicnic3 P c sig d) F := by
  obtain ⟨s1, s2, s3, s4, s5, s6, s7, s8, s9, s10⟩ := hs
  unfold verifyPicnic3
  refine Tr.ub tr_allocateCommitments ?_
  rintro C _ ⟨hC, rfl⟩
  refine Tr.ub tr_allocateMsgs ?_
  rintro msgs _ ⟨hmsgs, rfl⟩
  refine Tr.ub tr_createTree ?_
  rintro treeCv _ ⟨htreeCv, rfl⟩
  refine Tr.ub tr_malloc ?_
  rintro seeds _ ⟨hseeds, rfl⟩
  refine Tr.ub tr_malloc ?_
  rintro tapes _ ⟨htapes, rfl⟩
  refine Tr.ub tr_createTree ?_
  rintro iSeedsTree _ ⟨hiS, rfl⟩
  refine Tr.ub (tr_touch (by inn)) ?_
  rintro _ LL hh; subst LL
  have t2 : iSeedsTree.slab.In iSeedsTree.own := ⟨hiS.3, by unfold HTree.own; le_sum⟩
  refine Tr.ub (tr_reconstructSeeds hiS (by le_sum) (by innC) (by inn) (by inn)) ?_
  rintro ok _ ⟨hok, rfl⟩
  cases hk : d.iSeedsOk with
  | false =>
    rw [hk] at hok
    subst hok
    rw [if_pos (by decide)]
    exact Ub.bind (ub_verify3Exit (G := seeds.own + F) hC hmsgs htreeCv hiS htapes hP (by abel))
  | true =>
    rw [hk] at hok
    subst hok
    obtain ⟨t, ht, ho, hr⟩ := hi.resolve_left (by rw [hk]; decide)
    rw [if_neg (by decide)]
    refine Tr.ub (tr_collectWhile_full (own := HTree.own) (good := fun _ _ => True) (full := fun _ _ => True) (b := fun t => !d.opened t || d.seedsOk t)
      HTree.own_null (fun _ => trivial) fun i hi G hG => ?_) ?_
    · have uF : F ≤ G := le_trans (by le_sum) hG
      have u1 := s4.mono uF
      have u2 := s5.mono uF
      have u3 := s7.mono uF
      have u4 := s1.mono uF
      have u5 : seeds.In G := ⟨hseeds, le_trans (by le_sum) hG⟩
      have u6 : iSeedsTree.own ≤ G := le_trans (by le_sum) hG
      have u7 := t2.mono u6
      hstep
      cases ho : d.opened i with
      | false =>
        rw [if_pos (by decide)]
        hstep; hstep; hstep
        exact Tr.pure ⟨⟨rfl, trivial, trivial⟩, rfl⟩
      | true =>
        rw [if_neg (by decide)]
        hstep; hstep; hstep; hstep
        refine Tr.bind (tr_getH_eq (by omega)) ?_
        rintro _ LL ⟨rfl, hh⟩; subst LL
        have w : (sig.proof[i]'(by omega)).seedInfo.In G :=
          ⟨(s9 i (by omega) ho).1, le_trans (HProof2.seedInfo_le _) ((s10 i (by omega)).trans uF)⟩
        refine Tr.bind (tr_reconstructSeeds (by assumption) (by le_sum) (by innC) (by inn) (by inn)) ?_
        rintro b LL ⟨rfl, hh⟩; subst LL
        exact Tr.pure ⟨⟨rfl, trivial, trivial⟩, rfl⟩
    · rintro ⟨ok, seed⟩ _ ⟨⟨hok, -, -, -⟩, rfl⟩
      dsimp only at hok ⊢
      have : ok = false := by
        rw [hok, List.all_eq_false]
        exact ⟨t, by simpa using ht, by simp [ho, hr]⟩
      subst this
      rw [if_pos (by decide)]
      exact Ub.bind (ub_verify3Exit (G := ownL HTree.own seed + (seeds.own + F)) hC hmsgs htreeCv hiS htapes hP (by abel))

theorem ub_picnicVerify3 {P : Params} {d : Decode2} {v : Verify3} {F : Multiset ℕ} (hP : 0 < P.numMPCRounds) (hd : d.Ok P = true)
    (hi : v.iSeedsOk = false ∨ ∃ t, t < P.numMPCRounds ∧ d.opened t = true ∧ v.seedsOk t = false) : Ub (picnicVerify3 P d v) F := by
  unfold picnicVerify3
  refine Tr.ub tr_malloc ?_
  rintro p _ ⟨hp, rfl⟩
  refine Tr.ub (tr_allocateSignature2 (by innC)) ?_
  rintro s _ ⟨⟨hs, hs'⟩, rfl⟩
  rw [if_neg (by obtain ⟨i, rfl⟩ := hp; simp)]
  refine Tr.ub (tr_deserializeSignature2 (by innC) hs hs' (by le_sum)) ?_
  rintro ⟨b, s'⟩ L ⟨hb, g, hL, h1⟩
  dsimp only at hb g hL h1 ⊢
  rw [hd] at hb
  subst hb
  have e : L = s'.own + (p.own + F) := by
    refine add_right_cancel (hL.trans ?_) (b := s.own)
    abel
  subst e
  rw [if_neg (by decide)]
  obtain ⟨i1, i2, i3⟩ := h1 rfl
  have acc : s'.Acc P d.opened (s'.own + (p.own + F)) :=
    ⟨⟨g.salt, le_left (by unfold HSig2.own; le_sum)⟩, ⟨i1, le_left (by unfold HSig2.own; le_sum)⟩, ⟨i2, le_left (by unfold HSig2.own; le_sum)⟩,
     ⟨g.challengeC, le_left (by unfold HSig2.own; le_sum)⟩, ⟨g.challengeP, le_left (by unfold HSig2.own; le_sum)⟩,
     ⟨g.challengeHash, le_left (by unfold HSig2.own; le_sum)⟩, ⟨g.proofs, le_left (by unfold HSig2.own; le_sum)⟩, g.len, i3,
     fun i hi => le_trans (own_le (own := HProof2.own) (List.getElem_mem hi)) (le_left (by unfold HSig2.own; le_sum))⟩
  exact Ub.bind (ub_verifyPicnic3 (by inn) acc hP hi)

/-! ### Counting -/

theorem Ptr.IsBlk.card {p : Ptr} (h : p.IsBlk) : p.own.card = 1 := by
  obtain ⟨i, rfl⟩ := h
  rfl

theorem card_ownL {α : Type} {own : α → Multiset ℕ} {k : ℕ} {l : List α} (h : ∀ i, ∀ hi : i < l.length, (own l[i]).card = k) :
    (ownL own l).card = l.length * k := by
  induction l with
  | nil => simp [ownL_nil]
  | cons x l ih =>
    have h0 : (own x).card = k := h 0 (by simp)
    have := ih fun i hi => h (i + 1) (by simpa using hi)
    simp only [ownL, List.map_cons, List.sum_cons, Multiset.card_add, List.length_cons] at this ⊢
    rw [this, h0]
    ring

theorem HView.Good.card {v : HView} (h : v.Good) : v.own.card = 3 := by
  simp only [HView.own, Multiset.card_add, h.1.card, h.2.card, h.3.card]

theorem HRow.Good.card {r : HRow} (h : r.Good) : r.own.card = 10 := by
  simp only [HRow.own, Multiset.card_add, h.1.card, card_ownL fun i hi => (h.3 i hi).card, h.2]

theorem HViews.Good.card {P : Params} {v : HViews} (h : v.Good P) : v.own.card = 1 + P.numMPCRounds * 10 := by
  simp only [HViews.own, Multiset.card_add, h.1.card, card_ownL fun i hi => (h.3 i hi).card, h.2]

theorem HArr.Good.card {a : HArr} (h : a.Good) : a.own.card = 2 := by
  simp only [HArr.own, Multiset.card_add, h.1.card, h.2.card]

theorem GGood.card {P : Params} {a : HArr} (h : GGood P a) : a.own.card = if P.transform = .UR then 2 else 0 := by
  by_cases hp : P.transform = .UR
  · rw [if_pos hp, (h.1 hp).card]
  · rw [if_neg hp, (h.2 hp).2]; rfl

theorem HSeeds.Good.card {s : HSeeds} (h : s.Good) : s.own.card = 4 := by
  simp only [HSeeds.own, Multiset.card_add, h.1.card, h.2.card, h.3.card, h.4.card]

theorem HTape.Good.card {s : HTape} (h : s.Good) : s.own.card = 2 := by
  simp only [HTape.own, Multiset.card_add, h.1.card, h.2.card]

theorem Leak1.Good.card {P : Params} {l : Leak1} (h : l.Good P) :
    l.own.card = 10 * P.numMPCRounds + 10 + if P.transform = .UR then 2 else 0 := by
  simp only [Leak1.own, Multiset.card_add, h.views.card, h.as.card, h.gs.card, h.seeds.card, h.tp.card, h.tmp.card]
  ring

theorem HProof.Good.card_le {P : Params} {p : HProof} (h : p.Good P) : 5 ≤ p.own.card := by
  simp only [HProof.own, Multiset.card_add, h.1.card, h.2.card, h.3.card, h.4.card, h.5.card]
  omega

theorem HSig.Good.card {P : Params} {s : HSig} (h : s.Good P) : 3 ≤ s.own.card := by
  simp only [HSig.own, Multiset.card_add, h.proofs.card, h.challengeBits.card, h.salt.card]
  omega

theorem HSig2.Good.card {P : Params} {s : HSig2} (h : s.Good P) : 5 ≤ s.own.card := by
  simp only [HSig2.own, Multiset.card_add, h.salt.card, h.challengeC.card, h.challengeP.card, h.challengeHash.card, h.proofs.card]
  omega

end Picnic.Heap
