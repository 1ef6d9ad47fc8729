import Verif.Proofs.Heap3

/-
The functions of picnic.c: triples for the ordinary runs, and rules for runs that end in undefined behaviour.
-/

namespace Picnic.Heap

/-- A loop over the proofs of a signature. -/
theorem tr_useProofs {P : Params} {s : HSig} {F : Multiset ℕ} (h : s.Acc P F) : Tr (forH (fun i => do
        let p ← getH s.proof i
        useProof P s.proofs p) P.numMPCRounds) F fun _ L => L = F := by
  obtain ⟨s1, s2, s3, s4, s5, s6⟩ := h
  refine tr_forH fun i hi => ?_
  refine Tr.bind (tr_getH_eq (by omega)) ?_
  rintro _ LL ⟨rfl, hh⟩; subst LL
  exact tr_useProof (s3 i (by omega)) s1 (s4 i (by omega))

theorem tr_picnicSign1 {P : Params} {simOk : ℕ → Bool} {serOk : Bool} {F : Multiset ℕ} : Tr (picnicSign1 P simOk serOk) F fun r L =>
    r = (if (List.range P.numMPCRounds).all simOk && serOk then 0 else -1) ∧
    if (List.range P.numMPCRounds).all simOk then L = F else ∃ l : Leak1, l.Good P ∧ L = l.own + F := by
  unfold picnicSign1
  hstep
  rename_i p hp
  refine Tr.bind (tr_allocateSignature (by innC)) ?_
  rintro s _ ⟨hs, rfl⟩
  rw [if_neg (by obtain ⟨i, rfl⟩ := hp; simp)]
  refine Tr.bind (tr_signPicnic1 (by inn) (hs.acc (by le_sum))) ?_
  rintro b L ⟨hb, hL⟩
  cases b with
  | false =>
    rw [if_neg (by decide)] at hL
    obtain ⟨l, hl, rfl⟩ := hL
    rw [if_pos (by decide)]
    refine Tr.bind (tr_freeSignature (G := l.own + (p.own + F)) hs (by innC) (by abel)) ?_
    rintro _ LL hh; subst LL
    hstep
    rw [← hb]
    exact Tr.pure ⟨rfl, by rw [if_neg (by decide)]; exact ⟨l, hl, rfl⟩⟩
  | true =>
    rw [if_pos rfl] at hL
    subst hL
    rw [if_neg (by decide)]
    obtain ⟨s1, s2, s3, s4, s5, s6⟩ := hs.acc (F := s.own + (p.own + F)) (by le_sum)
    hstep; hstep; hstep
    refine Tr.bind (tr_useProofs ⟨s1, s2, s3, s4, s5, s6⟩) ?_
    rintro _ LL hh; subst LL
    refine Tr.bind (tr_freeSignature (G := p.own + F) hs (by innC) (by abel)) ?_
    rintro _ LL hh; subst LL
    hstep
    rw [← hb, Bool.true_and]
    exact Tr.pure ⟨rfl, by rw [if_pos rfl]⟩

theorem tr_picnicSign3 {P : Params} {simOk opened : ℕ → Bool} {len : Lens} {serOk : Bool} {F : Multiset ℕ} : Tr (picnicSign3 P simOk opened len serOk) F fun r L =>
    r = (if (List.range P.numMPCRounds).all simOk && serOk then 0 else -1) ∧ L = F := by
  unfold picnicSign3
  hstep
  rename_i p hp
  refine Tr.bind (tr_allocateSignature2 (by innC)) ?_
  rintro s _ ⟨⟨hs, hs'⟩, rfl⟩
  rw [if_neg (by obtain ⟨i, rfl⟩ := hp; simp)]
  refine Tr.bind (tr_signPicnic3 (by inn) hs hs' (by le_sum)) ?_
  rintro ⟨b, s'⟩ L ⟨hb, g, hL, h1, h2, h3, h4⟩
  dsimp only at hb g hL h1 h2 h3 h4 ⊢
  have e : L = s'.own + (p.own + F) := by
    refine add_right_cancel (hL.trans ?_) (b := s.own)
    abel
  subst e
  cases b with
  | false =>
    rw [if_pos (by decide)]
    refine Tr.bind (tr_freeSignature2 (G := p.own + F) g (by innC) rfl) ?_
    rintro _ LL hh; subst LL
    hstep
    rw [← hb]
    exact Tr.pure ⟨rfl, rfl⟩
  | true =>
    rw [if_neg (by decide)]
    obtain ⟨i1, i2⟩ := h1 rfl
    have o1 : s'.challengeHash.In s'.own := ⟨g.challengeHash, by unfold HSig2.own; le_sum⟩
    have o2 : s'.salt.In s'.own := ⟨g.salt, by unfold HSig2.own; le_sum⟩
    have o3 : s'.iSeedInfo.In s'.own := ⟨i1, by unfold HSig2.own; le_sum⟩
    have o4 : s'.cvInfo.In s'.own := ⟨i2, by unfold HSig2.own; le_sum⟩
    have o5 : s'.proofs.In s'.own := ⟨g.proofs, by unfold HSig2.own; le_sum⟩
    hstep; hstep; hstep; hstep; hstep; hstep
    refine Tr.bind (tr_freeSignature2 (G := p.own + F) g (by innC) rfl) ?_
    rintro _ LL hh; subst LL
    hstep
    rw [← hb, Bool.true_and]
    exact Tr.pure ⟨rfl, rfl⟩

theorem tr_picnicVerify1 {P : Params} {decOk ok : Bool} {F : Multiset ℕ} : Tr (picnicVerify1 P decOk ok) F fun r L =>
    r = (if decOk && ok then 0 else -1) ∧ L = F := by
  unfold picnicVerify1
  hstep
  rename_i p hp
  refine Tr.bind (tr_allocateSignature (by innC)) ?_
  rintro s _ ⟨hs, rfl⟩
  rw [if_neg (by obtain ⟨i, rfl⟩ := hp; simp)]
  obtain ⟨s1, s2, s3, s4, s5, s6⟩ := hs.acc (F := s.own + (p.own + F)) (by le_sum)
  hstep; hstep; hstep
  refine Tr.bind (tr_useProofs ⟨s1, s2, s3, s4, s5, s6⟩) ?_
  rintro _ LL hh; subst LL
  cases decOk with
  | false =>
    rw [if_pos (by decide)]
    refine Tr.bind (tr_freeSignature (G := p.own + F) hs (by innC) rfl) ?_
    rintro _ LL hh; subst LL
    hstep
    exact Tr.pure ⟨rfl, rfl⟩
  | true =>
    rw [if_neg (by decide)]
    refine Tr.bind (tr_verify (by inn) ⟨s1, s2, s3, s4, s5, s6⟩) ?_
    rintro b LL ⟨rfl, hh⟩; subst LL
    refine Tr.bind (tr_freeSignature (G := p.own + F) hs (by innC) rfl) ?_
    rintro _ LL hh; subst LL
    hstep
    exact Tr.pure ⟨by rw [Bool.true_and], rfl⟩

theorem tr_picnicVerify3 {P : Params} {d : Decode2} {v : Verify3} {F : Multiset ℕ} (hi : v.iSeedsOk = true)
    (hr : ∀ t, d.opened t = true → v.seedsOk t = true) : Tr (picnicVerify3 P d v) F fun r L =>
      r = (if d.Ok P && Verify3.Ok P { v with opened := d.opened } then 0 else -1) ∧ L = F := by
  unfold picnicVerify3
  hstep
  rename_i p hp
  refine Tr.bind (tr_allocateSignature2 (by innC)) ?_
  rintro s _ ⟨⟨hs, hs'⟩, rfl⟩
  rw [if_neg (by obtain ⟨i, rfl⟩ := hp; simp)]
  refine Tr.bind (tr_deserializeSignature2 (by innC) hs hs' (by le_sum)) ?_
  rintro ⟨b, s'⟩ L ⟨hb, g, hL, h1⟩
  dsimp only at hb g hL h1 ⊢
  rw [← hb]
  have e : L = s'.own + (p.own + F) := by
    refine add_right_cancel (hL.trans ?_) (b := s.own)
    abel
  subst e
  cases b with
  | false =>
    rw [if_pos (by decide)]
    refine Tr.bind (tr_freeSignature2 (G := p.own + F) g (by innC) rfl) ?_
    rintro _ LL hh; subst LL
    hstep
    exact Tr.pure ⟨rfl, rfl⟩
  | true =>
    rw [if_neg (by decide)]
    obtain ⟨i1, i2, i3⟩ := h1 rfl
    have acc : s'.Acc P d.opened (s'.own + (p.own + F)) :=
      ⟨⟨g.salt, le_left (by unfold HSig2.own; le_sum)⟩, ⟨i1, le_left (by unfold HSig2.own; le_sum)⟩, ⟨i2, le_left (by unfold HSig2.own; le_sum)⟩,
       ⟨g.challengeC, le_left (by unfold HSig2.own; le_sum)⟩, ⟨g.challengeP, le_left (by unfold HSig2.own; le_sum)⟩,
       ⟨g.challengeHash, le_left (by unfold HSig2.own; le_sum)⟩, ⟨g.proofs, le_left (by unfold HSig2.own; le_sum)⟩, g.len, i3,
       fun i hi => le_trans (own_le (own := HProof2.own) (List.getElem_mem hi)) (le_left (by unfold HSig2.own; le_sum))⟩
    refine Tr.bind (tr_verifyPicnic3 (by inn) acc hi hr) ?_
    rintro b LL ⟨rfl, hh⟩; subst LL
    refine Tr.bind (tr_freeSignature2 (G := p.own + F) g (by innC) rfl) ?_
    rintro _ LL hh; subst LL
    hstep
    exact Tr.pure ⟨by rw [Bool.true_and], rfl⟩

theorem tr_printSignature1 {P : Params} {decOk : Bool} {F : Multiset ℕ} : Tr (printSignature1 P decOk) F fun _ L =>
    if decOk then L = F else ∃ s : HSig, s.Good P ∧ L = s.own + F := by
  unfold printSignature1
  refine Tr.bind (tr_allocateSignature InC.none) ?_
  rintro s _ ⟨hs, rfl⟩
  obtain ⟨s1, s2, s3, s4, s5, s6⟩ := hs.acc (F := s.own + F) (by le_sum)
  hstep; hstep
  refine Tr.bind (tr_useProofs ⟨s1, s2, s3, s4, s5, s6⟩) ?_
  rintro _ LL hh; subst LL
  cases decOk with
  | false =>
    rw [if_pos (by decide)]
    exact Tr.pure ⟨s, hs, rfl⟩
  | true =>
    rw [if_neg (by decide)]
    exact tr_freeSignature hs InC.none rfl

theorem tr_printSignature2 {P : Params} {d : Decode2} {F : Multiset ℕ} : Tr (printSignature2 P d) F fun _ L =>
    if d.Ok P then L = F else ∃ s : HSig2, s.Good P ∧ L = s.own + F := by
  unfold printSignature2
  refine Tr.bind (tr_allocateSignature2 InC.none) ?_
  rintro s _ ⟨⟨hs, hs'⟩, rfl⟩
  refine Tr.bind (tr_deserializeSignature2 InC.none hs hs' (by le_sum)) ?_
  rintro ⟨b, s'⟩ L ⟨hb, g, hL, h1⟩
  dsimp only at hb g hL h1 ⊢
  rw [← hb]
  have e : L = s'.own + F := by
    refine add_right_cancel (hL.trans ?_) (b := s.own)
    abel
  subst e
  cases b with
  | false =>
    rw [if_pos (by decide)]
    exact Tr.pure ⟨s', g, rfl⟩
  | true =>
    rw [if_neg (by decide)]
    obtain ⟨i1, i2, i3⟩ := h1 rfl
    have o0 : s'.challengeC.In s'.own := ⟨g.challengeC, by unfold HSig2.own; le_sum⟩
    have o1 : s'.challengeP.In s'.own := ⟨g.challengeP, by unfold HSig2.own; le_sum⟩
    have o2 : s'.salt.In s'.own := ⟨g.salt, by unfold HSig2.own; le_sum⟩
    have o3 : s'.iSeedInfo.In s'.own := ⟨i1, by unfold HSig2.own; le_sum⟩
    have o4 : s'.cvInfo.In s'.own := ⟨i2, by unfold HSig2.own; le_sum⟩
    hstep; hstep; hstep; hstep; hstep
    refine (tr_freeSignature2 g InC.none rfl).mono ?_
    rintro _ LL hh; subst LL
    rw [if_pos rfl]

end Picnic.Heap
