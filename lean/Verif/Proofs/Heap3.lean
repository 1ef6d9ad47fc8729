import Verif.Proofs.Heap2

/-
Triples for the functions of picnic_impl.c, picnic3_impl.c and picnic.c.
-/

namespace Picnic.Heap

/-- The result of `allocateGCommitments`. -/
def GGood (P : Params) (s : HArr) : Prop := (P.transform = .UR → s.Good) ∧ (P.transform ≠ .UR → s.self = .null ∧ s.own = 0)

theorem tr_useG {P : Params} {s : HArr} {F : Multiset ℕ} (h : GGood P s) (hF : s.own ≤ F) :
    Tr (useG P s) F fun _ L => L = F := by
  unfold useG
  by_cases hp : P.transform = .UR
  · rw [if_pos hp]; exact tr_useArr (h.1 hp) hF
  · rw [if_neg hp]; exact Tr.pure rfl

macro_rules | `(tactic| hstep) => `(tactic| (hd useG; with_reducible refine Tr.bind (tr_useG (by assumption) (by le_sum)) ?_; intro _ LL hh; subst LL))
macro_rules | `(tactic| hstep) => `(tactic| (hd allocateCommitments; with_reducible refine Tr.bind tr_allocateCommitments ?_; intro _ LL hh; obtain ⟨_, hh⟩ := hh; subst LL))
macro_rules | `(tactic| hstep) => `(tactic| (hd allocateCommitments2; with_reducible refine Tr.bind tr_allocateCommitments2 ?_; intro _ LL hh; obtain ⟨_, hh⟩ := hh; subst LL))
macro_rules | `(tactic| hstep) => `(tactic| (hd allocateInputs; with_reducible refine Tr.bind tr_allocateInputs ?_; intro _ LL hh; obtain ⟨_, hh⟩ := hh; subst LL))
macro_rules | `(tactic| hstep) => `(tactic| (hd allocateMsgs; with_reducible refine Tr.bind tr_allocateMsgs ?_; intro _ LL hh; obtain ⟨_, hh⟩ := hh; subst LL))
macro_rules | `(tactic| hstep) => `(tactic| (hd allocateShares; with_reducible refine Tr.bind tr_allocateShares ?_; intro _ LL hh; obtain ⟨_, hh⟩ := hh; subst LL))
macro_rules | `(tactic| hstep) => `(tactic| (hd allocateSeeds; with_reducible refine Tr.bind tr_allocateSeeds ?_; intro _ LL hh; obtain ⟨_, hh⟩ := hh; subst LL))
macro_rules | `(tactic| hstep) => `(tactic| (hd allocateViews; with_reducible refine Tr.bind tr_allocateViews ?_; intro _ LL hh; obtain ⟨_, hh⟩ := hh; subst LL))
macro_rules | `(tactic| hstep) => `(tactic| (hd allocateView; with_reducible refine Tr.bind (tr_allocateView (by inn)) ?_; intro _ LL hh; obtain ⟨_, hh⟩ := hh; subst LL))
macro_rules | `(tactic| hstep) => `(tactic| (hd allocateRandomTape; with_reducible refine Tr.bind (tr_allocateRandomTape (by innC)) ?_; intro _ LL hh; obtain ⟨_, hh⟩ := hh; subst LL))
macro_rules | `(tactic| hstep) => `(tactic| (hd generateSeeds; with_reducible refine Tr.bind (tr_generateSeeds (by inn) (by inn)) ?_; intro _ LL hh; obtain ⟨_, hh⟩ := hh; subst LL))
macro_rules | `(tactic| hstep) => `(tactic| (hd freeCommitments; with_reducible refine Tr.bind (tr_freeCommitments (by assumption) (by rest)) ?_; intro _ LL hh; subst LL))
macro_rules | `(tactic| hstep) => `(tactic| (hd freeCommitments2; with_reducible refine Tr.bind (tr_freeCommitments2 (by okp) (by rest)) ?_; intro _ LL hh; subst LL))
macro_rules | `(tactic| hstep) => `(tactic| (hd freeInputs; with_reducible refine Tr.bind (tr_freeInputs (by assumption) (by rest)) ?_; intro _ LL hh; subst LL))
macro_rules | `(tactic| hstep) => `(tactic| (hd freeMsgs; with_reducible refine Tr.bind (tr_freeMsgs (by assumption) (by rest)) ?_; intro _ LL hh; subst LL))
macro_rules | `(tactic| hstep) => `(tactic| (hd freeShares; with_reducible refine Tr.bind (tr_freeShares (by assumption) (by rest)) ?_; intro _ LL hh; subst LL))
macro_rules | `(tactic| hstep) => `(tactic| (hd freeSeeds; with_reducible refine Tr.bind (tr_freeSeeds (by assumption) (by rest)) ?_; intro _ LL hh; subst LL))
macro_rules | `(tactic| hstep) => `(tactic| (hd freeViews; with_reducible refine Tr.bind (tr_freeViews (by assumption) (by rest)) ?_; intro _ LL hh; subst LL))
macro_rules | `(tactic| hstep) => `(tactic| (hd freeGCommitments; with_reducible refine Tr.bind (tr_freeGCommitments (by assumption) (by rest)) ?_; intro _ LL hh; subst LL))
macro_rules | `(tactic| hstep) => `(tactic| (hd freeRandomTape; with_reducible refine Tr.bind (tr_freeRandomTape (by assumption) (by rest) (by innC)) ?_; intro _ LL hh; subst LL))
macro_rules | `(tactic| hstep) => `(tactic| (hd useProof; with_reducible refine Tr.bind (tr_useProof (by assumption) (by inn) (by le_sum)) ?_; intro _ LL hh; subst LL))

theorem tr_H3 {P : Params} {vo c s : Ptr} {as gs : HArr} {F : Multiset ℕ} (h1 : vo.In F) (h2 : c.In F) (h3 : s.In F) (h4 : as.Good) (h5 : as.own ≤ F)
    (h6 : GGood P gs) (h7 : gs.own ≤ F) : Tr (H3 P vo as c s gs) F fun _ L => L = F := by
  unfold H3
  hstep; hstep; hstep; hstep; hstep; hstep; hstep; hlast

macro_rules | `(tactic| hstep) => `(tactic| (hd H3; with_reducible refine Tr.bind (tr_H3 (by inn) (by inn) (by inn) (by assumption) (by le_sum) (by assumption) (by le_sum)) ?_; intro _ LL hh; subst LL))

/-- The blocks of a signature are live in `F`. -/
structure HSig.Acc (P : Params) (s : HSig) (F : Multiset ℕ) : Prop where
  proofs : s.proofs.In F
  len : s.proof.length = P.numMPCRounds
  good : ∀ i, ∀ hi : i < s.proof.length, s.proof[i].Good P
  own : ∀ i, ∀ hi : i < s.proof.length, s.proof[i].own ≤ F
  challengeBits : s.challengeBits.In F
  salt : s.salt.In F

theorem HSig.Good.acc {P : Params} {s : HSig} {F : Multiset ℕ} (h : s.Good P) (hF : s.own ≤ F) : s.Acc P F :=
  ⟨⟨h.1, le_trans (by unfold HSig.own; le_sum) hF⟩, h.2, h.3,
   fun i hi => le_trans (own_le (own := HProof.own) (List.getElem_mem hi)) (le_trans (by unfold HSig.own; le_sum) hF),
   ⟨h.4, le_trans (by unfold HSig.own; le_sum) hF⟩, ⟨h.5, le_trans (by unfold HSig.own; le_sum) hF⟩⟩

/-- A pair of views in two arrays. -/
def own2 (v : HView × HView) : Multiset ℕ := v.1.own + v.2.own

theorem tr_verify {P : Params} {c : Ptr} {sig : HSig} {ok : Bool} {F : Multiset ℕ} (hc : c.In F) (hs : sig.Acc P F) :
    Tr (verify P c sig ok) F fun b L => b = ok ∧ L = F := by
  obtain ⟨s1, s2, s3, s4, s5, s6⟩ := hs
  unfold verify
  hstep
  refine Tr.bind tr_allocateGCommitments ?_
  rintro gs _ ⟨hgs, rfl⟩
  have hgs' : GGood P gs := hgs
  hstep; hstep; hstep; hstep; hstep; hstep; hstep; hstep
  rename_i as has vo hvo _ tmp htmp tape htape tp htp v1s hv1 v2s hv2 v3s hv3
  generalize hK : v3s.own + (v2s.own + (v1s.own + (tp.own + (tape.own + (tmp.own + (vo.own + (gs.own + (as.own + F)))))))) = K
  have q3 : v3s.In K := ⟨hv3, by rw [← hK]; le_sum⟩
  have q2 : v2s.In K := ⟨hv2, by rw [← hK]; le_sum⟩
  have q1 : v1s.In K := ⟨hv1, by rw [← hK]; le_sum⟩
  have q4 : tp.own ≤ K := by rw [← hK]; le_sum
  have q5 : tape.In K := ⟨htape, by rw [← hK]; le_sum⟩
  have q6 : tmp.In K := ⟨htmp, by rw [← hK]; le_sum⟩
  have q7 : vo.In K := ⟨hvo, by rw [← hK]; le_sum⟩
  have q8 : gs.own ≤ K := by rw [← hK]; le_sum
  have q9 : as.own ≤ K := by rw [← hK]; le_sum
  have qF : F ≤ K := by rw [← hK]; le_sum
  have qs := hc.mono qF
  have r1 := s1.mono qF
  have r5 := s5.mono qF
  have r6 := s6.mono qF
  refine Tr.bind (tr_collectH (own := own2) (good := fun _ v => v.1.Good ∧ v.2.Good) fun i hi G hG => ?_) ?_
  · have u2 := q2.mono hG
    have u1 := q1.mono hG
    have u3 := q3.mono hG
    have u4 := q4.trans hG
    have u5 := q5.mono hG
    have u6 := q6.mono hG
    have u7 := q7.mono hG
    have u8 := q8.trans hG
    have u9 := q9.trans hG
    have us := qs.mono hG
    have t1 := r1.mono hG
    have t5 := r5.mono hG
    have t6 := r6.mono hG
    hstep; hstep; hstep; hstep; hstep
    refine Tr.bind (tr_getH_eq (by omega)) ?_
    rintro _ LL ⟨rfl, hh⟩; subst LL
    have p1 := s3 i (by omega)
    have p2 := ((s4 i (by omega)).trans qF).trans hG
    refine Tr.bind (tr_useProof p1 (by inn) (le_trans p2 (by le_sum))) ?_
    rintro _ LL hh; subst LL
    hstep; hstep; hstep; hstep; hstep; hstep; hstep; hstep
    exact Tr.pure ⟨⟨by assumption, by assumption⟩, by unfold own2; abel⟩
  · rintro vs _ ⟨l1, l2, rfl⟩
    hstep; hstep
    refine Tr.bind (tr_forH fun i hi => ?_) ?_
    · refine Tr.bind (tr_getH_eq (by omega)) ?_
      rintro _ LL ⟨rfl, hh⟩; subst LL
      have p := l2 i (by omega)
      have p' := own_le (own := own2) (List.getElem_mem (show i < vs.length by omega))
      have p1 := p.1
      have p2 := p.2
      have o1 : vs[i].1.own ≤ ownL own2 vs := le_trans (by unfold own2; le_sum) p'
      have o2 : vs[i].2.own ≤ ownL own2 vs := le_trans (by unfold own2; le_sum) p'
      refine Tr.bind (tr_useView p1 (by inn) (le_trans o1 (by le_sum))) ?_
      rintro _ LL hh; subst LL
      exact tr_useView p2 (by inn) (le_trans o2 (by le_sum))
    · rintro _ LL hh; subst LL
      hstep; hstep; hstep; hstep
      rw [← hK]
      hstep; hstep
      refine Tr.bind (tr_forH_free (own := own2) (l := vs) (fun i hi G hG => ?_) _ l1.symm) ?_
      · have u1 : v1s.In G := ⟨hv1, le_trans (by le_sum) hG⟩
        have u2 : v2s.In G := ⟨hv2, le_trans (by le_sum) hG⟩
        refine Tr.bind (tr_getH_eq (by omega)) ?_
        rintro _ LL ⟨rfl, hh⟩; subst LL
        unfold own2
        refine Tr.bind (tr_freeView (G := vs[i].2.own + G) (l2 i hi).1 (by inn) (by abel)) ?_
        rintro _ LL hh; subst LL
        exact tr_freeView (l2 i hi).2 (by inn) rfl
      · rintro _ LL hh; subst LL
        hstep; hstep; hstep; hstep; hstep; hstep; hstep
        exact Tr.pure ⟨rfl, rfl⟩

theorem tr_expandChallengeHash {P : Params} {h c p : Ptr} {F : Multiset ℕ} (h1 : h.In F) (h2 : c.In F) (h3 : p.In F) :
    Tr (expandChallengeHash P h c p) F fun _ L => L = F := by
  unfold expandChallengeHash
  hstep; hstep; hstep; hstep; hstep; hlast

theorem tr_getMissingLeavesList {P : Params} {c : Ptr} {F : Multiset ℕ} (h2 : c.In F) : Tr (getMissingLeavesList P c) F fun p L => p.IsBlk ∧ L = p.own + F := by
  unfold getMissingLeavesList
  hstep; hstep; hstep
  exact Tr.pure ⟨by assumption, rfl⟩

macro_rules | `(tactic| hstep) => `(tactic| (hd expandChallengeHash; with_reducible refine Tr.bind (tr_expandChallengeHash (by inn) (by inn) (by inn)) ?_; intro _ LL hh; subst LL))
macro_rules | `(tactic| hstep) => `(tactic| (hd revealSeedsSize; with_reducible refine Tr.bind (tr_revealSeedsSize (by innC)) ?_; intro _ LL hh; subst LL))
macro_rules | `(tactic| hstep) => `(tactic| (hd openMerkleTreeSize; with_reducible refine Tr.bind (tr_openMerkleTreeSize (by inn)) ?_; intro _ LL hh; subst LL))
macro_rules | `(tactic| hstep) => `(tactic| (hd getMissingLeavesList; with_reducible refine Tr.bind (tr_getMissingLeavesList (by inn)) ?_; intro _ LL hh; obtain ⟨_, hh⟩ := hh; subst LL))

/-- The loop `use every view of row r`. -/
theorem tr_useRow {r : HRow} {F : Multiset ℕ} (h : r.Good) (hF : r.own ≤ F) : Tr (forH (fun j => do
      let v ← getH r.view j
      useView r.self v) 3) F fun _ L => L = F := by
  obtain ⟨h1, h2, h3⟩ := h
  refine tr_forH fun j hj => ?_
  refine Tr.bind (tr_getH_eq (by omega)) ?_
  rintro _ LL ⟨rfl, hh⟩; subst LL
  exact tr_useView (h3 j (by omega)) ⟨h1, le_trans (by unfold HRow.own; le_sum) hF⟩
    (le_trans (own_le (own := HView.own) (List.getElem_mem (show j < r.view.length by omega))) (le_trans (by unfold HRow.own; le_sum) hF))

/-- The blocks `sign_picnic1` loses when the key pair is inconsistent. -/
structure Leak1 where
  views : HViews
  as : HArr
  gs : HArr
  seeds : HSeeds
  tp : HTape
  tmp : Ptr

def Leak1.own (l : Leak1) : Multiset ℕ := l.tmp.own + (l.tp.own + (l.seeds.own + (l.gs.own + (l.as.own + l.views.own))))
structure Leak1.Good (P : Params) (l : Leak1) : Prop where
  views : l.views.Good P
  as : l.as.Good
  gs : GGood P l.gs
  seeds : l.seeds.Good
  tp : l.tp.Good
  tmp : l.tmp.IsBlk

theorem tr_whileH_val {f : ℕ → HM Bool} {n : ℕ} {F : Multiset ℕ} {b : ℕ → Bool} (h : ∀ i < n, Tr (f i) F fun x L => x = b i ∧ L = F) :
    Tr (whileH f n) F fun x L => x = (List.range n).all b ∧ L = F := by
  induction n with
  | zero => exact Tr.pure ⟨rfl, rfl⟩
  | succ n ih =>
    refine Tr.bind (ih fun i hi => h i (by omega)) ?_
    rintro x _ ⟨hx, rfl⟩
    rw [List.range_succ, List.all_append, ← hx]
    cases x with
    | false => exact Tr.pure ⟨rfl, rfl⟩
    | true =>
      refine (h n (by omega)).mono ?_
      rintro y LL ⟨rfl, hh⟩; subst LL
      exact ⟨by simp, rfl⟩

theorem tr_signPicnic1 {P : Params} {c : Ptr} {sig : HSig} {simOk : ℕ → Bool} {F : Multiset ℕ} (hc : c.In F) (hs : sig.Acc P F) :
    Tr (signPicnic1 P c sig simOk) F fun b L => b = (List.range P.numMPCRounds).all simOk ∧
      if b then L = F else ∃ l : Leak1, l.Good P ∧ L = l.own + F := by
  obtain ⟨s1, s2, s3, s4, s5, s6⟩ := hs
  unfold signPicnic1
  hstep; hstep
  refine Tr.bind tr_allocateGCommitments ?_
  rintro gs _ ⟨hgs, rfl⟩
  have hgs' : GGood P gs := hgs
  hstep
  rename_i views hviews as has seeds hseeds
  have d1 : seeds.slab1.own ≤ seeds.own := by unfold HSeeds.own; le_sum
  have d2 : seeds.slab2.own ≤ seeds.own := by unfold HSeeds.own; le_sum
  have d3 : seeds.self.own ≤ seeds.own := by unfold HSeeds.own; le_sum
  have e1 : seeds.slab1.In seeds.own := ⟨hseeds.2, d1⟩
  have e2 : seeds.slab2.In seeds.own := ⟨hseeds.3, d2⟩
  have e3 : seeds.self.In seeds.own := ⟨hseeds.1, d3⟩
  have e4 : views.self.In views.own := ⟨hviews.1, by unfold HViews.own; le_sum⟩
  have hrow : ∀ i, ∀ hi : i < views.row.length, views.row[i].own ≤ views.own := fun i hi =>
    le_trans (own_le (own := HRow.own) (List.getElem_mem hi)) (by unfold HViews.own; le_sum)
  have hlen := hviews.2
  have hrg := hviews.3
  hstep; hstep; hstep; hstep; hstep
  refine Tr.bind (tr_whileH_val (b := simOk) fun k hk => ?_) ?_
  · hstep; hstep; hstep; hstep; hstep; hstep; hstep
    refine Tr.bind (tr_getH_eq (by omega)) ?_
    rintro _ LL ⟨rfl, hh⟩; subst LL
    refine Tr.bind (tr_useRow (hrg k (by omega)) (le_trans (hrow k (by omega)) (by le_sum))) ?_
    rintro _ LL hh; subst LL
    cases hk : simOk k with
    | true =>
      rw [if_pos rfl]
      hstep; hstep
      exact Tr.pure ⟨rfl, rfl⟩
    | false =>
      rw [if_neg (by decide)]
      exact Tr.pure ⟨rfl, rfl⟩
  · rintro b _ ⟨hb, rfl⟩
    cases b with
    | false =>
      rw [if_pos (by decide)]
      rename_i tp htp tmp htmp
      exact Tr.pure ⟨hb, ⟨⟨views, as, gs, seeds, tp, tmp⟩, ⟨hviews, has, hgs, hseeds, htp, htmp⟩, by simp only [Leak1.own]; abel⟩⟩
    | true =>
      rw [if_neg (by decide)]
      hstep; hstep; hstep
      refine Tr.bind (tr_forH fun i hi => ?_) ?_
      · hstep
        refine Tr.bind (tr_getH_eq (by omega)) ?_
        rintro _ LL ⟨rfl, hh⟩; subst LL
        have p1 := s3 i (by omega)
        have p2 := s4 i (by omega)
        refine Tr.bind (tr_useProof p1 (by inn) (le_trans p2 (by le_sum))) ?_
        rintro _ LL hh; subst LL
        hstep; hstep
        refine Tr.bind (tr_getH_eq (by omega)) ?_
        rintro _ LL ⟨rfl, hh⟩; subst LL
        refine Tr.bind (tr_useRow (hrg i (by omega)) (le_trans (hrow i (by omega)) (by le_sum))) ?_
        rintro _ LL hh; subst LL
        exact tr_useArr (by assumption) (by le_sum)
      · rintro _ LL hh; subst LL
        hstep; hstep; hstep; hstep; hstep; hstep; hstep
        exact Tr.pure ⟨hb, rfl⟩

/-! ### Picnic3 -/

theorem tr_whileH_val2 {f : ℕ → HM Bool} {n : ℕ} {F G : Multiset ℕ} {b : ℕ → Bool} (h : ∀ i < n, Tr (f i) F fun x L => x = b i ∧ L = if x then F else G) :
    Tr (whileH f n) F fun x L => x = (List.range n).all b ∧ L = if x then F else G := by
  induction n with
  | zero => exact Tr.pure ⟨rfl, rfl⟩
  | succ n ih =>
    refine Tr.bind (ih fun i hi => h i (by omega)) ?_
    rintro x _ ⟨hx, rfl⟩
    rw [List.range_succ, List.all_append, ← hx]
    cases x with
    | false => exact Tr.pure ⟨rfl, rfl⟩
    | true =>
      refine (h n (by omega)).mono ?_
      rintro y LL ⟨rfl, hh⟩; subst LL
      exact ⟨by simp, rfl⟩

/-- The blocks of a signature are live in `F`; the proofs of the opened repetitions are complete. -/
structure HSig2.Acc (P : Params) (s : HSig2) (opened : ℕ → Bool) (F : Multiset ℕ) : Prop where
  salt : s.salt.In F
  iSeedInfo : s.iSeedInfo.In F
  cvInfo : s.cvInfo.In F
  challengeC : s.challengeC.In F
  challengeP : s.challengeP.In F
  challengeHash : s.challengeHash.In F
  proofs : s.proofs.In F
  len : s.proof.length = P.numMPCRounds
  full : ∀ i, ∀ hi : i < s.proof.length, opened i = true → s.proof[i].Full
  own : ∀ i, ∀ hi : i < s.proof.length, s.proof[i].own ≤ F

macro_rules | `(tactic| hstep) => `(tactic| (hd revealSeeds; with_reducible refine Tr.bind (tr_revealSeeds (by assumption) (by le_sum) (by innC) (by inn)) ?_; intro _ LL hh; subst LL))
macro_rules | `(tactic| hstep) => `(tactic| (hd buildMerkleTree; with_reducible refine Tr.bind (tr_buildMerkleTree (by assumption) (by le_sum) (by inn) (by inn)) ?_; intro _ LL hh; subst LL))
macro_rules | `(tactic| hstep) => `(tactic| (hd openMerkleTree; with_reducible refine Tr.bind (tr_openMerkleTree (by assumption) (by le_sum) (by inn)) ?_; intro _ LL hh; obtain ⟨_, hh⟩ := hh; subst LL))
macro_rules | `(tactic| hstep) => `(tactic| (hd realloc; with_reducible refine Tr.bind (tr_realloc (by assumption) (by rest)) ?_; intro _ LL hh; obtain ⟨_, hh⟩ := hh; subst LL))
macro_rules | `(tactic| hstep) => `(tactic| (hd allocateProof2; with_reducible refine Tr.bind (tr_allocateProof2 (by inn)) ?_; intro _ LL hh; obtain ⟨hp2, hh⟩ := hh; obtain ⟨_, _, _, _, _⟩ := hp2; subst LL))

theorem HProof2.seedInfo_le (p : HProof2) : p.seedInfo.own ≤ p.own := by unfold HProof2.own; le_sum
theorem HProof2.aux_le (p : HProof2) : p.aux.own ≤ p.own := by unfold HProof2.own; le_sum
theorem HProof2.C_le (p : HProof2) : p.C.own ≤ p.own := by unfold HProof2.own; le_sum
theorem HProof2.msgs_le (p : HProof2) : p.msgs.own ≤ p.own := by unfold HProof2.own; le_sum
theorem HProof2.input_le (p : HProof2) : p.input.own ≤ p.own := by unfold HProof2.own; le_sum

/-- A seed tree and a tape. -/
def ownST (x : HTree × HTape) : Multiset ℕ := x.1.own + x.2.own

theorem tr_sign3Exit {P : Params} {tapes seeds Ch Cv inputs : Ptr} {st : List (HTree × HTape)} {iSeedsTree treeCv : HTree} {C msgs : HArr} {F G : Multiset ℕ}
    (h1 : tapes.IsBlk) (h2 : seeds.IsBlk) (h3 : st.length = P.numMPCRounds) (h4 : ∀ i, ∀ hi : i < st.length, st[i].1.Good ∧ st[i].2.Good)
    (h5 : iSeedsTree.Good) (h6 : treeCv.Good ∨ treeCv = HTree.null) (h7 : C.Good) (h8 : Ch.Ok) (h9 : Cv.Ok) (h10 : inputs.IsBlk) (h11 : msgs.Good)
    (e : F = ownL ownST st + (tapes.own + (seeds.own + (iSeedsTree.own + (treeCv.own + (C.own + (Ch.own + (Cv.own + (inputs.own + (msgs.own + G)))))))))) :
    Tr (sign3Exit P tapes seeds st iSeedsTree treeCv C Ch Cv inputs msgs) F fun _ L => L = G := by
  subst e
  unfold sign3Exit
  refine Tr.bind (tr_forH_free (own := ownST) (l := st) (fun i hi G' hG => ?_) _ h3.symm) ?_
  · refine Tr.bind (tr_getH_eq (by omega)) ?_
    rintro _ LL ⟨rfl, hh⟩; subst LL
    have u1 : tapes.In G' := ⟨h1, le_trans (by le_sum) hG⟩
    have u2 : seeds.In G' := ⟨h2, le_trans (by le_sum) hG⟩
    have g1 := (h4 i hi).1
    have g2 := (h4 i hi).2
    unfold ownST
    hstep; hstep
    exact tr_freeTree (.inl g1) (by rw [add_zero])
  · rintro _ LL hh; subst LL
    hstep; hstep; hstep
    refine Tr.bind (tr_freeTree h6 rfl) ?_
    rintro _ LL hh; subst LL
    hstep; hstep; hstep; hstep
    exact tr_freeMsgs h11 rfl

theorem tr_signPicnic3 {P : Params} {c : Ptr} {sig : HSig2} {simOk opened : ℕ → Bool} {len : Lens} {F : Multiset ℕ} (hc : c.In F) (hs : sig.Good P) (hf : sig.Fresh P)
    (hF : sig.own ≤ F) : Tr (signPicnic3 P c sig simOk opened len) F fun x L => x.1 = (List.range P.numMPCRounds).all simOk ∧ x.2.Good P ∧
      L + sig.own = F + x.2.own ∧ (x.1 = true → x.2.iSeedInfo.IsBlk ∧ x.2.cvInfo.IsBlk) ∧ x.2.salt = sig.salt ∧ x.2.challengeHash = sig.challengeHash ∧
      x.2.proofs = sig.proofs := by
  have hs0 := hs
  obtain ⟨g1, -, -, g4, g5, g6, g7, g8, g9⟩ := hs
  obtain ⟨f1, f2, f3⟩ := hf
  have s1 : sig.salt.In F := ⟨g1, le_trans (by unfold HSig2.own; le_sum) hF⟩
  have s4 : sig.challengeC.In F := ⟨g4, le_trans (by unfold HSig2.own; le_sum) hF⟩
  have s5 : sig.challengeP.In F := ⟨g5, le_trans (by unfold HSig2.own; le_sum) hF⟩
  have s6 : sig.challengeHash.In F := ⟨g6, le_trans (by unfold HSig2.own; le_sum) hF⟩
  have s7 : sig.proofs.In F := ⟨g7, le_trans (by unfold HSig2.own; le_sum) hF⟩
  clear g1 g4 g5 g6 g7
  unfold signPicnic3
  hstep; hstep; hstep; hstep; hstep
  rename_i tree htree
  have t1 : tree.self.In tree.own := ⟨htree.1, by unfold HTree.own; le_sum⟩
  have t2 : tree.slab.In tree.own := ⟨htree.3, by unfold HTree.own; le_sum⟩
  hstep; hstep
  hstep; hstep
  rename_i tapes htapes seeds hseeds
  refine Tr.bind (tr_collectH (own := ownST) (good := fun _ x => x.1.Good ∧ x.2.Good) fun i hi G hG => ?_) ?_
  · have u1 : tapes.In G := ⟨htapes, le_trans (by le_sum) hG⟩
    have u2 : seeds.In G := ⟨hseeds, le_trans (by le_sum) hG⟩
    have u3 : tree.own ≤ G := le_trans (by le_sum) hG
    have u4 := t2.mono u3
    have u5 : sig.salt.In G := s1.mono (le_trans (by le_sum) hG)
    hstep; hstep
    rename_i s hs'
    have v1 : s.self.In s.own := ⟨hs'.1, by unfold HTree.own; le_sum⟩
    hstep; hstep; hstep; hstep; hstep
    exact Tr.pure ⟨⟨by assumption, by assumption⟩, by unfold ownST; abel⟩
  · rintro st _ ⟨l1, l2, rfl⟩
    have lo : ∀ i, ∀ hi : i < st.length, st[i].1.own ≤ ownL ownST st ∧ st[i].2.own ≤ ownL ownST st := fun i hi =>
      ⟨le_trans (by unfold ownST; le_sum) (own_le (own := ownST) (List.getElem_mem hi)), le_trans (by unfold ownST; le_sum) (own_le (own := ownST) (List.getElem_mem hi))⟩
    hstep
    rename_i inputs hinputs
    refine Tr.bind (tr_forH fun i hi => ?_) ?_
    · refine Tr.bind (tr_getH_eq (by omega)) ?_
      rintro _ LL ⟨rfl, hh⟩; subst LL
      refine Tr.bind (tr_useTape (l2 i (by omega)).2 (by innC) (le_trans (lo i (by omega)).2 (by le_sum))) ?_
      rintro _ LL hh; subst LL
      hlast
    rintro _ LL hh; subst LL
    hstep
    rename_i C hC
    refine Tr.bind (tr_forH fun i hi => ?_) ?_
    · refine Tr.bind (tr_getH_eq (by omega)) ?_
      rintro _ LL ⟨rfl, hh⟩; subst LL
      refine Tr.bind (tr_useTree (l2 i (by omega)).1 (le_trans (lo i (by omega)).1 (by le_sum))) ?_
      rintro _ LL hh; subst LL
      refine Tr.bind (tr_useTape (l2 i (by omega)).2 (by innC) (le_trans (lo i (by omega)).2 (by le_sum))) ?_
      rintro _ LL hh; subst LL
      exact tr_useArr hC (by le_sum)
    rintro _ LL hh; subst LL
    hstep; hstep
    rename_i msgs hmsgs tmp htmp
    have m1 : tmp.self.In tmp.own := ⟨htmp.1, by unfold HShares.own; le_sum⟩
    have m2 : tmp.shares.In tmp.own := ⟨htmp.2, by unfold HShares.own; le_sum⟩
    refine Tr.bind (tr_whileH_val2 (b := simOk)
      (G := msgs.own + (C.own + (inputs.own + (ownL ownST st + (seeds.own + (tapes.own + (tree.own + F))))))) fun i hi => ?_) ?_
    · hstep
      refine Tr.bind (tr_getH_eq (by omega)) ?_
      rintro _ LL ⟨rfl, hh⟩; subst LL
      refine Tr.bind (tr_useTape (l2 i (by omega)).2 (by innC) (le_trans (lo i (by omega)).2 (by le_sum))) ?_
      rintro _ LL hh; subst LL
      hstep; hstep; hstep
      cases hsi : simOk i with
      | false =>
        rw [if_pos (by decide)]
        hstep
        exact Tr.pure ⟨rfl, rfl⟩
      | true =>
        rw [if_neg (by decide)]
        exact Tr.pure ⟨rfl, rfl⟩
    · rintro b _ ⟨hb, rfl⟩
      cases b with
      | false =>
        rw [if_pos (show (!false) = true from rfl), if_neg (by decide)]
        refine Tr.bind (tr_sign3Exit (G := F) htapes hseeds l1 l2 htree (.inr rfl) hC (.inl rfl) (.inl rfl) hinputs hmsgs ?_) ?_
        · rw [HTree.own_null, show Ptr.own .null = 0 from rfl]; abel
        · rintro _ LL hh; subst LL
          exact Tr.pure ⟨hb, hs0, by rw [add_comm], fun h => absurd h (by simp), rfl, rfl, rfl⟩
      | true =>
        rw [if_neg (show ¬ (!true) = true from by decide), if_pos rfl]
        hstep; hstep; hstep; hstep; hstep; hstep; hstep; hstep; hstep
        rename_i Ch hCh Cv hCv _ _ _ _ _ treeCv htreeCv
        hstep; hstep; hstep; hstep; hstep
        hstep; hstep; hstep; hstep; hstep; hstep; hstep
        refine Tr.bind (tr_collectH (own := HProof2.own) (good := fun _ x => x.Good) fun i hi G hG => ?_) ?_
        · have u1 : tapes.In G := ⟨htapes, le_trans (by le_sum) hG⟩
          have u2 : seeds.In G := ⟨hseeds, le_trans (by le_sum) hG⟩
          have u3 : inputs.In G := ⟨hinputs, le_trans (by le_sum) hG⟩
          have u4 : msgs.own ≤ G := le_trans (by le_sum) hG
          have u5 : C.own ≤ G := le_trans (by le_sum) hG
          have uF : F ≤ G := le_trans (by le_sum) hG
          have u6 := s4.mono uF
          have u7 := s5.mono uF
          have u8 := s7.mono uF
          have o1 : st[i].1.own ≤ G := le_trans (lo i (by omega)).1 (le_trans (by le_sum) hG)
          have o2 : st[i].2.own ≤ G := le_trans (lo i (by omega)).2 (le_trans (by le_sum) hG)
          have p1 := (l2 i (by omega)).1
          have p2 := (l2 i (by omega)).2
          hstep
          cases ho : opened i with
          | true =>
            rw [if_pos rfl]
            hstep
            rename_i pf e1 e2 e3 e4 e5
            have w2 : pf.C.In pf.own := ⟨e2, by unfold HProof2.own; le_sum⟩
            have w3 : pf.input.In pf.own := ⟨e3, by unfold HProof2.own; le_sum⟩
            have w4 : pf.aux.In pf.own := ⟨e4, by unfold HProof2.own; le_sum⟩
            have w5 : pf.msgs.In pf.own := ⟨e5, by unfold HProof2.own; le_sum⟩
            hstep; hstep; hstep
            refine Tr.bind (tr_getH_eq (by omega)) ?_
            rintro _ LL ⟨rfl, hh⟩; subst LL
            refine Tr.bind (tr_revealSeeds p1 (le_trans o1 (by le_sum)) (by innC) (by inn)) ?_
            rintro _ LL hh; subst LL
            hstep; hstep; hstep
            refine Tr.bind (tr_useTape p2 (by innC) (le_trans o2 (by le_sum))) ?_
            rintro _ LL hh; subst LL
            hstep; hstep; hstep; hstep; hstep; hstep
            rename_i si hsi _ _ _ _ _ _ _ _ _
            refine Tr.pure ⟨⟨hsi.ok, e2.ok, e3.ok, e4.ok, e5.ok⟩, ?_⟩
            simp only [HProof2.own, e1, show Ptr.own .null = 0 from rfl]
            abel
          | false =>
            rw [if_neg (by decide)]
            refine (tr_getH_eq (by omega)).mono ?_
            rintro _ LL ⟨rfl, hh⟩; subst LL
            have : sig.proof[i]'(by omega) = HProof2.zero := by simp only [f3, List.getElem_replicate]
            rw [this]
            exact ⟨HProof2.good_zero, by rw [HProof2.own_zero, zero_add]⟩
        · rintro pfs _ ⟨k1, k2, rfl⟩
          rename_i cv hcv _ _ is0 his0 _ _ is his _
          refine Tr.bind (tr_sign3Exit (G := ownL HProof2.own pfs + (is.own + (cv.own + F))) htapes hseeds l1 l2 htree (.inl htreeCv) hC hCh.ok hCv.ok hinputs hmsgs ?_) ?_
          · abel
          · rintro _ LL hh; subst LL
            refine Tr.pure ⟨hb, ⟨hs0.1, his.ok, hcv.ok, hs0.4, hs0.5, hs0.6, hs0.7, k1, k2⟩, ?_, fun _ => ⟨his, hcv⟩, rfl, rfl, rfl⟩
            simp only [HSig2.own, f1, f2, f3, ownL_replicate_zero HProof2.own_zero, show Ptr.own .null = 0 from rfl]
            abel

theorem tr_collectWhile_full {α : Type} {own : α → Multiset ℕ} {good full : ℕ → α → Prop} {d : α} {f : ℕ → HM (Bool × α)} {n : ℕ} {F : Multiset ℕ} {b : ℕ → Bool}
    (hd : own d = 0) (hgd : ∀ i, good i d) (h : ∀ i < n, ∀ G, F ≤ G → Tr (f i) G fun x L => (x.1 = b i ∧ good i x.2 ∧ full i x.2) ∧ L = own x.2 + G) :
    Tr (collectWhile d f n) F fun l L => (l.1 = (List.range n).all b ∧ l.2.length = n ∧ (∀ i, ∀ hi : i < l.2.length, good i l.2[i]) ∧
      (l.1 = true → ∀ i, ∀ hi : i < l.2.length, full i l.2[i])) ∧ L = ownL own l.2 + F := by
  induction n with
  | zero => exact Tr.pure ⟨⟨rfl, rfl, fun i hi => absurd hi (by simp), fun _ i hi => absurd hi (by simp)⟩, by rw [ownL_nil, zero_add]⟩
  | succ n ih =>
    refine Tr.bind (ih fun i hi => h i (by omega)) ?_
    rintro ⟨ok, l⟩ _ ⟨⟨hb, hl, hg, hfu⟩, rfl⟩
    dsimp only at hb hl hg hfu ⊢
    rw [List.range_succ, List.all_append, ← hb]
    have key : ∀ (q : ℕ → α → Prop) (x : α), (∀ i, ∀ hi : i < l.length, q i l[i]) → q n x → ∀ i, ∀ hi : i < (l ++ [x]).length, q i (l ++ [x])[i] :=
      fun q x hq hx i hi => by
        by_cases hi' : i < l.length
        · rw [List.getElem_append_left hi']; exact hq i hi'
        · have : i = l.length := by simp at hi; omega
          subst this
          rw [List.getElem_concat_length rfl, hl]
          exact hx
    cases ok with
    | false => exact Tr.pure ⟨⟨rfl, by simp [hl], key good d hg (hgd n), fun h => absurd h (by simp)⟩, by rw [ownL_snoc, hd, add_zero]⟩
    | true =>
      refine Tr.bind (h n (by omega) _ (Multiset.le_add_left _ _)) ?_
      rintro ⟨ok, x⟩ _ ⟨⟨hok, hx, hx'⟩, rfl⟩
      exact Tr.pure ⟨⟨by simpa using hok, by simp [hl], key good x hg hx, fun _ => key full x (hfu rfl) hx'⟩, by rw [ownL_snoc]; abel⟩

theorem tr_deserializeSignature2 {P : Params} {c : Option Ptr} {sig : HSig2} {d : Decode2} {F : Multiset ℕ} (hc : InC c F) (hs : sig.Good P) (hf : sig.Fresh P)
    (hF : sig.own ≤ F) : Tr (deserializeSignature2 P c sig d) F fun x L => x.1 = d.Ok P ∧ x.2.Good P ∧ L + sig.own = F + x.2.own ∧
      (x.1 = true → x.2.iSeedInfo.IsBlk ∧ x.2.cvInfo.IsBlk ∧ ∀ i, ∀ hi : i < x.2.proof.length, d.opened i = true → x.2.proof[i].Full) := by
  have hs0 := hs
  obtain ⟨g1, -, -, g4, g5, g6, g7, g8, g9⟩ := hs
  obtain ⟨f1, f2, f3⟩ := hf
  have s1 : sig.salt.In F := ⟨g1, le_trans (by unfold HSig2.own; le_sum) hF⟩
  have s4 : sig.challengeC.In F := ⟨g4, le_trans (by unfold HSig2.own; le_sum) hF⟩
  have s5 : sig.challengeP.In F := ⟨g5, le_trans (by unfold HSig2.own; le_sum) hF⟩
  have s6 : sig.challengeHash.In F := ⟨g6, le_trans (by unfold HSig2.own; le_sum) hF⟩
  have s7 : sig.proofs.In F := ⟨g7, le_trans (by unfold HSig2.own; le_sum) hF⟩
  clear g1 g4 g5 g6 g7
  unfold deserializeSignature2
  cases h1 : d.longEnough with
  | false =>
    rw [if_pos (by decide)]
    exact Tr.pure ⟨by rw [Decode2.Ok, h1]; rfl, hs0, by rw [add_comm], fun h => absurd h (by simp)⟩
  | true =>
    rw [if_neg (by decide)]
    hstep; hstep; hstep; hstep; hstep; hstep; hstep; hstep; hstep; hstep
    cases h2 : d.sizeOk with
    | false =>
      rw [if_pos (by decide)]
      exact Tr.pure ⟨by rw [Decode2.Ok, h1, h2]; rfl, hs0, by rw [add_comm], fun h => absurd h (by simp)⟩
    | true =>
      rw [if_neg (by decide)]
      hstep
      rename_i is his
      hstep; hstep; hstep
      rename_i cv hcv
      hstep; hstep
      refine Tr.bind (tr_collectWhile_full (own := HProof2.own) (good := fun _ x => x.Good) (full := fun i x => d.opened i = true → x.Full) (b := fun t => !d.opened t || d.paddingOk t)
        HProof2.own_zero (fun _ => HProof2.good_zero) fun i hi G hG => ?_) ?_
      · have uF : F ≤ G := le_trans (by le_sum) hG
        have u6 := s4.mono uF
        have u7 := s5.mono uF
        have u8 := s7.mono uF
        hstep
        cases ho : d.opened i with
        | true =>
          rw [if_pos rfl]
          hstep
          rename_i pf e1 e2 e3 e4 e5
          have w2 : pf.C.In pf.own := ⟨e2, by unfold HProof2.own; le_sum⟩
          have w3 : pf.input.In pf.own := ⟨e3, by unfold HProof2.own; le_sum⟩
          have w4 : pf.aux.In pf.own := ⟨e4, by unfold HProof2.own; le_sum⟩
          have w5 : pf.msgs.In pf.own := ⟨e5, by unfold HProof2.own; le_sum⟩
          hstep
          rename_i si hsi
          hstep; hstep; hstep; hstep; hstep; hstep; hstep
          refine Tr.pure ⟨⟨by simp [ho], ⟨hsi.ok, e2.ok, e3.ok, e4.ok, e5.ok⟩, fun _ => ⟨hsi, e2, e3, e4, e5⟩⟩, ?_⟩
          simp only [HProof2.own, e1, show Ptr.own .null = 0 from rfl]
          abel
        | false =>
          rw [if_neg (by decide)]
          refine Tr.bind (tr_getH_eq (by omega)) ?_
          rintro _ LL ⟨rfl, hh⟩; subst LL
          have : sig.proof[i]'(by omega) = HProof2.zero := by simp only [f3, List.getElem_replicate]
          rw [this]
          exact Tr.pure ⟨⟨by simp [ho], HProof2.good_zero, fun h => absurd h (by simp)⟩, by rw [HProof2.own_zero, zero_add]⟩
      · rintro ⟨ok, pfs⟩ _ ⟨⟨k0, k1, k2, k3⟩, rfl⟩
        refine Tr.pure ⟨by rw [Decode2.Ok, h1, h2]; exact k0, ⟨hs0.1, his.ok, hcv.ok, hs0.4, hs0.5, hs0.6, hs0.7, k1, k2⟩, ?_, fun h => ⟨his, hcv, k3 h⟩⟩
        simp only [HSig2.own, f1, f2, f3, ownL_replicate_zero HProof2.own_zero, show Ptr.own .null = 0 from rfl]
        abel

theorem tr_verify3Exit {P : Params} {C msgs : HArr} {Ch Cv seeds tapes : Ptr} {treeCv iSeedsTree : HTree} {seed : List HTree} {tape : List HTape} {F G : Multiset ℕ}
    (h1 : C.Good) (h2 : Ch.Ok) (h3 : Cv.Ok) (h4 : msgs.Good) (h5 : treeCv.Good) (h6 : iSeedsTree.Good) (h7 : seeds.IsBlk) (h8 : tapes.IsBlk)
    (l1 : seed.length = P.numMPCRounds) (l2 : ∀ i, ∀ hi : i < seed.length, seed[i].Good) (l3 : tape.length = P.numMPCRounds)
    (l4 : ∀ i, ∀ hi : i < tape.length, tape[i].Good)
    (e : F = C.own + (Ch.own + (Cv.own + (msgs.own + (treeCv.own + (iSeedsTree.own + (ownL HTree.own seed + (ownL HTape.own tape + (seeds.own + (tapes.own + G)))))))))) :
    Tr (verify3Exit P C Ch Cv msgs treeCv iSeedsTree seeds seed tapes tape) F fun _ L => L = G := by
  subst e
  unfold verify3Exit
  hstep; hstep; hstep; hstep; hstep; hstep
  have e : ownL HTree.own seed + (ownL HTape.own tape + (seeds.own + (tapes.own + G))) = ownL ownST (seed.zip tape) + (seeds.own + (tapes.own + G)) := by
    rw [← add_assoc]
    congr 1
    have : ∀ (a : List HTree) (b : List HTape), a.length = b.length → ownL HTree.own a + ownL HTape.own b = ownL ownST (a.zip b) := by
      intro a
      induction a with
      | nil => intro b hb; cases b with
        | nil => rfl
        | cons _ _ => simp at hb
      | cons x a ih => intro b hb; cases b with
        | nil => simp at hb
        | cons y b =>
          have := ih b (by simpa using hb)
          simp only [ownL, List.zip_cons_cons, List.map_cons, List.sum_cons, ownST] at this ⊢
          rw [← this]
          abel
    exact this _ _ (by omega)
  rw [e]
  refine Tr.bind (tr_forH_free (own := ownST) (l := seed.zip tape) (fun i hi G' hG => ?_) _ (by simp; omega)) ?_
  · have hi' : i < seed.length ∧ i < tape.length := by simp at hi; omega
    refine Tr.bind (tr_getH_eq hi'.2) ?_
    rintro _ LL ⟨rfl, hh⟩; subst LL
    have u1 : tapes.In G' := ⟨h8, le_trans (by le_sum) hG⟩
    have u2 : seeds.In G' := ⟨h7, le_trans (by le_sum) hG⟩
    have g1 := l2 i hi'.1
    have g2 := l4 i hi'.2
    rw [List.getElem_zip, ownST]
    dsimp only
    hstep; hstep
    refine Tr.bind (tr_getH_eq hi'.1) ?_
    rintro _ LL ⟨rfl, hh⟩; subst LL
    exact tr_freeTree (.inl g1) (by rw [add_zero])
  · rintro _ LL hh; subst LL
    hstep; hlast

theorem tr_verifyPicnic3 {P : Params} {c : Ptr} {sig : HSig2} {d : Verify3} {F : Multiset ℕ} (hc : c.In F) (hs : sig.Acc P d.opened F)
    (hi : d.iSeedsOk = true) (hr : ∀ t, d.opened t = true → d.seedsOk t = true) : Tr (verifyPicnic3 P c sig d) F fun b L => b = d.Ok P ∧ L = F := by
  obtain ⟨s1, s2, s3, s4, s5, s6, s7, s8, s9, s10⟩ := hs
  unfold verifyPicnic3
  hstep; hstep; hstep; hstep; hstep; hstep; hstep
  rename_i C hC msgs hmsgs treeCv htreeCv seeds hseeds tapes htapes iSeedsTree hiS _
  have t2 : iSeedsTree.slab.In iSeedsTree.own := ⟨hiS.3, by unfold HTree.own; le_sum⟩
  refine Tr.bind (tr_reconstructSeeds hiS (by le_sum) (by innC) (by inn) (by inn)) ?_
  rintro ok _ ⟨hok, rfl⟩
  rw [hi] at hok
  subst hok
  rw [if_neg (by decide)]
  refine Tr.bind (tr_collectWhile_true (own := HTree.own) (good := fun _ x => x.Good) fun i hi G hG => ?_) ?_
  · have uF : F ≤ G := le_trans (by le_sum) hG
    have u1 := s4.mono uF
    have u2 := s5.mono uF
    have u3 := s7.mono uF
    have u4 := s1.mono uF
    have u5 : seeds.In G := ⟨hseeds, le_trans (by le_sum) hG⟩
    have u6 : iSeedsTree.own ≤ G := le_trans (by le_sum) hG
    have u7 := t2.mono u6
    hstep
    cases ho : d.opened i with
    | false =>
      rw [if_pos (by decide)]
      hstep; hstep; hstep
      exact Tr.pure ⟨rfl, by assumption, rfl⟩
    | true =>
      rw [if_neg (by decide)]
      hstep; hstep; hstep; hstep
      refine Tr.bind (tr_getH_eq (by omega)) ?_
      rintro _ LL ⟨rfl, hh⟩; subst LL
      have w : (sig.proof[i]'(by omega)).seedInfo.In G :=
        ⟨(s9 i (by omega) ho).1, le_trans (HProof2.seedInfo_le _) ((s10 i (by omega)).trans uF)⟩
      refine Tr.bind (tr_reconstructSeeds (by assumption) (by le_sum) (by innC) (by inn) (by inn)) ?_
      rintro b LL ⟨rfl, hh⟩; subst LL
      exact Tr.pure ⟨hr i ho, by assumption, rfl⟩
  rintro ⟨ok, seed⟩ _ ⟨hok, l1, l2, rfl⟩
  dsimp only at hok l1 l2 ⊢
  subst hok
  rw [if_neg (by decide)]
  refine Tr.bind (tr_collectH (own := HTape.own) (good := fun _ x => x.Good) fun i hi G hG => ?_) ?_
  · have uF : F ≤ G := le_trans (by le_sum) hG
    have u1 := s4.mono uF
    have u2 := s5.mono uF
    have u3 := s7.mono uF
    have u4 : seeds.In G := ⟨hseeds, le_trans (by le_sum) hG⟩
    have u5 : tapes.In G := ⟨htapes, le_trans (by le_sum) hG⟩
    have u6 : C.own ≤ G := le_trans (by le_sum) hG
    hstep
    refine Tr.bind (tr_getH_eq (by omega)) ?_
    rintro _ LL ⟨rfl, hh⟩; subst LL
    refine Tr.bind (tr_useTree (l2 i (by omega)) (le_trans (own_le (own := HTree.own) (List.getElem_mem (show i < seed.length by omega))) (le_trans (by le_sum) hG))) ?_
    rintro _ LL hh; subst LL
    hstep; hstep; hstep; hstep
    cases ho : d.opened i with
    | false =>
      rw [if_pos (by decide)]
      exact Tr.pure ⟨by assumption, rfl⟩
    | true =>
      rw [if_neg (by decide)]
      hstep; hstep
      refine Tr.bind (tr_getH_eq (by omega)) ?_
      rintro _ LL ⟨rfl, hh⟩; subst LL
      have w1 : (sig.proof[i]'(by omega)).aux.In G :=
        ⟨(s9 i (by omega) ho).4, le_trans (HProof2.aux_le _) ((s10 i (by omega)).trans uF)⟩
      have w2 : (sig.proof[i]'(by omega)).C.In G :=
        ⟨(s9 i (by omega) ho).2, le_trans (HProof2.C_le _) ((s10 i (by omega)).trans uF)⟩
      hstep; hstep
      exact Tr.pure ⟨by assumption, rfl⟩
  rintro tape _ ⟨l3, l4, rfl⟩
  hstep
  rename_i Ch hCh
  hstep; hstep; hstep
  rename_i Cv hCv
  hstep
  rename_i tmp htmp
  have m1 : tmp.self.In tmp.own := ⟨htmp.1, by unfold HShares.own; le_sum⟩
  have m2 : tmp.shares.In tmp.own := ⟨htmp.2, by unfold HShares.own; le_sum⟩
  refine Tr.bind (tr_whileH_val2 (b := fun t => !d.opened t || d.simOk t)
    (G := Cv.own + (Ch.own + (ownL HTape.own tape + (ownL HTree.own seed + (iSeedsTree.own + (tapes.own + (seeds.own + (treeCv.own + (msgs.own + (C.own + F)))))))))) fun i hi => ?_) ?_
  · hstep
    cases ho : d.opened i with
    | false =>
      rw [if_neg (by decide)]
      hstep
      exact Tr.pure ⟨rfl, rfl⟩
    | true =>
      rw [if_pos rfl]
      hstep; hstep
      refine Tr.bind (tr_getH_eq (by omega)) ?_
      rintro _ LL ⟨rfl, hh⟩; subst LL
      have w1 : (sig.proof[i]'(by omega)).aux.In F := ⟨(s9 i (by omega) ho).4, le_trans (HProof2.aux_le _) (s10 i (by omega))⟩
      have w2 : (sig.proof[i]'(by omega)).msgs.In F := ⟨(s9 i (by omega) ho).5, le_trans (HProof2.msgs_le _) (s10 i (by omega))⟩
      have w3 : (sig.proof[i]'(by omega)).input.In F := ⟨(s9 i (by omega) ho).3, le_trans (HProof2.input_le _) (s10 i (by omega))⟩
      hstep; hstep; hstep
      refine Tr.bind (tr_getH_eq (by omega)) ?_
      rintro _ LL ⟨rfl, hh⟩; subst LL
      refine Tr.bind (tr_useTape (l4 i (by omega)) (by innC) (le_trans (own_le (own := HTape.own) (List.getElem_mem (show i < tape.length by omega))) (by le_sum))) ?_
      rintro _ LL hh; subst LL
      hstep; hstep; hstep
      cases hsi : d.simOk i with
      | false =>
        rw [if_pos (by decide)]
        hstep
        exact Tr.pure ⟨rfl, rfl⟩
      | true =>
        rw [if_neg (by decide)]
        hstep
        exact Tr.pure ⟨rfl, rfl⟩
  rintro b _ ⟨hb, rfl⟩
  rw [Verify3.Ok, ← hb]
  cases b with
  | false =>
    rw [if_pos (show (!false) = true from rfl), if_neg (by decide)]
    refine Tr.bind (tr_verify3Exit (G := F) hC hCh.ok hCv.ok hmsgs htreeCv hiS hseeds htapes l1 l2 l3 l4 (by abel)) ?_
    rintro _ LL hh; subst LL
    exact Tr.pure ⟨rfl, rfl⟩
  | true =>
    rw [if_neg (show ¬ (!true) = true from by decide), if_pos rfl]
    hstep; hstep
    refine Tr.bind (tr_addMerkleNodes (by assumption) (by le_sum) (by inn) (by inn)) ?_
    rintro b LL ⟨rfl, hh⟩; subst LL
    hstep
    rw [Bool.true_and]
    cases h1 : d.merkleOk with
    | false =>
      rw [if_pos (by decide)]
      refine Tr.bind (tr_verify3Exit (G := F) hC hCh.ok hCv.ok hmsgs htreeCv hiS hseeds htapes l1 l2 l3 l4 (by abel)) ?_
      rintro _ LL hh; subst LL
      exact Tr.pure ⟨rfl, rfl⟩
    | true =>
      rw [if_neg (by decide)]
      refine Tr.bind (tr_verifyMerkleTree (by assumption) (by le_sum) (by inn) (by inn)) ?_
      rintro b LL ⟨rfl, hh⟩; subst LL
      rw [Bool.true_and]
      cases h1 : d.leavesOk with
      | false =>
        rw [if_pos (by decide)]
        refine Tr.bind (tr_verify3Exit (G := F) hC hCh.ok hCv.ok hmsgs htreeCv hiS hseeds htapes l1 l2 l3 l4 (by abel)) ?_
        rintro _ LL hh; subst LL
        exact Tr.pure ⟨rfl, rfl⟩
      | true =>
        rw [if_neg (by decide)]
        hstep; hstep; hstep
        refine Tr.bind (tr_verify3Exit (G := F) hC hCh.ok hCv.ok hmsgs htreeCv hiS hseeds htapes l1 l2 l3 l4 (by abel)) ?_
        rintro _ LL hh; subst LL
        exact Tr.pure ⟨rfl, rfl⟩

end Picnic.Heap
