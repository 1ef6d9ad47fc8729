import Verif.Proofs.TreeSpec
import Verif.Proofs.ZkbRound
import Verif.Model.Tree

/-
/repo/tree.c: tree construction and seed trees.
-/

namespace Picnic

open Spec.Tree

/-! ### construction -/

theorem ceilLog2_spec {n : ℕ} (h1 : 1 ≤ n) (h2 : n < 2 ^ 32) (k : ℕ) : ceilLog2 n ≤ k ↔ n ≤ 2 ^ k := by
  unfold ceilLog2
  have e : (BitVec.ofNat 32 n).toNat = n := by rw [BitVec.toNat_ofNat]; exact Nat.mod_eq_of_lt h2
  rw [ceilLog2U32_spec _ (fun h => by rw [h] at e; simp at e; omega), e]

theorem ceilLog2_le {n : ℕ} (h1 : 1 ≤ n) (h2 : n < 2 ^ 32) : n ≤ 2 ^ ceilLog2 n := (ceilLog2_spec h1 h2 _).1 le_rfl

open Classical in
/-- `exists` of node i (0-based) -/
noncomputable def exb (D n i : ℕ) : Bool := decide (Node D n (i + 1))

/-- A tree with `n` leaves at depth D, with flags `hv` and contents `vl`. -/
noncomputable abbrev mkTree (D n ds : ℕ) (hv : ℕ → Bool) (vl : ℕ → Buf) : Tree :=
  { depth := D + 1, nodes := arrN (2 ^ D - 1 + n) vl, dataSize := ds, haveNode := arrN (2 ^ D - 1 + n) hv
    existsNode := arrN (2 ^ D - 1 + n) (exb D n), numNodes := 2 ^ D - 1 + n, numLeaves := n }

theorem exb_iff {D n i : ℕ} : exb D n i = true ↔ Node D n (i + 1) := by simp [exb]

theorem exb_lt {D n i : ℕ} (h : exb D n i = true) : i < 2 ^ D - 1 + n := by
  have := node_lt (exb_iff.1 h)
  have : 1 ≤ 2 ^ D := Nat.one_le_two_pow
  omega

theorem exb_leaf {D n i : ℕ} (hn : n ≤ 2 ^ D) (h1 : 2 ^ D - 1 ≤ i) (h2 : i < 2 ^ D - 1 + n) : exb D n i = true := by
  have : 1 ≤ 2 ^ D := Nat.one_le_two_pow
  rw [exb_iff, Node, up_leaf (leaf_atDepth hn) (by omega)]
  exact ⟨by omega, by omega⟩

theorem exb_inner {D n i : ℕ} (hn : n ≤ 2 ^ D) (hi : i < 2 ^ D - 1) :
    exb D n i = (exb D n (2 * i + 1) || exb D n (2 * i + 2)) := by
  rw [Bool.eq_iff_iff, Bool.or_eq_true, exb_iff, exb_iff, exb_iff, Node, up_inner (leaf_atDepth hn) (by omega) (by omega),
    show 2 * (i + 1) = 2 * i + 1 + 1 by ring]
  rfl

theorem exb_root {D n : ℕ} (h1 : 1 ≤ n) (hn : n ≤ 2 ^ D) : exb D n 0 = true := by
  rw [exb_iff, Node, Nat.zero_add, up_root (leaf_atDepth hn)]
  exact ⟨2 ^ D, le_rfl, by omega⟩

theorem exb_child {D n i : ℕ} (hn : n ≤ 2 ^ D) (hi : i < 2 ^ D - 1) (h : exb D n i = true) : exb D n (2 * i + 1) = true := by
  rw [exb_iff] at h ⊢
  have := node_child hn h (by omega)
  rwa [show 2 * (i + 1) = 2 * i + 1 + 1 by ring] at this

theorem exb_parent {D n i : ℕ} (hn : n ≤ 2 ^ D) (hi : i ≠ 0) (h : exb D n i = true) : exb D n ((i - 1) / 2) = true := by
  rw [exb_iff] at h ⊢
  have := up_parent (leaf_atDepth hn) h (by omega)
  rwa [show (i + 1) / 2 = (i - 1) / 2 + 1 by omega] at this

theorem treeExists_mk {D n ds : ℕ} {hv : ℕ → Bool} {vl : ℕ → Buf} (i : ℕ) :
    treeExists (mkTree D n ds hv vl) i = Outcome.ok (exb D n i) := by
  unfold treeExists
  simp only [mkTree]
  by_cases h : i ≥ 2 ^ D - 1 + n
  · rw [if_pos h, pure_eq_ok]
    congr 1
    by_contra hne
    have h2 : exb D n i = true := by cases h3 : exb D n i <;> simp_all
    have := exb_lt h2
    omega
  · rw [if_neg h]
    have hlt : i < 2 ^ D - 1 + n := by omega
    exact rd_arrN hlt

theorem arrN_const {α : Type} (N : ℕ) (x : α) : List.replicate N x = arrN N fun _ => x := by
  simp [arrN]

theorem arrN_append {α : Type} (a b : ℕ) (f : ℕ → α) : arrN a f ++ arrN b (fun i => f (a + i)) = arrN (a + b) f := by
  simp [arrN, List.range_add, Function.comp_def]

theorem createTree_ok {n ds : ℕ} (h1 : 1 ≤ n) (h2 : n < 2 ^ 32) :
    createTree n ds = Outcome.ok (mkTree (ceilLog2 n) n ds (fun _ => false) fun _ => zeros ds) := by
  set D := ceilLog2 n with hD
  have hn : n ≤ 2 ^ D := ceilLog2_le h1 h2
  have hp : 1 ≤ 2 ^ D := Nat.one_le_two_pow
  unfold createTree
  simp only [Nat.add_sub_cancel, ← hD]
  rw [show 2 ^ (D + 1) - 1 - (2 ^ D - n) = 2 ^ D - 1 + n by rw [pow_succ]; omega, Nat.add_sub_cancel]
  have key := loopDown_inv (fun j (t : Tree) => t = { mkTree D n ds (fun _ => false) (fun _ => zeros ds) with
      existsNode := arrN (2 ^ D - 1 + n) fun i => if j < i then exb D n i else decide (2 ^ D - 1 ≤ i) })
    (f := fun i tree => do
      let l ← treeExists tree (2 * i + 1)
      let r ← treeExists tree (2 * i + 2)
      if l || r then do
        let e ← wr tree.existsNode i true
        pure { tree with existsNode := e }
      else pure tree) (n := 2 ^ D - 1)
    (s := { depth := D + 1, numNodes := 2 ^ D - 1 + n, numLeaves := n, dataSize := ds
            nodes := List.replicate (2 ^ D - 1 + n) (zeros ds), haveNode := List.replicate (2 ^ D - 1 + n) false
            existsNode := List.replicate (2 ^ D - 1) false ++ List.replicate n true }) ?_ ?_
  · obtain ⟨t, e, ht⟩ := key
    rw [e, ok_bind]
    subst ht
    simp only
    rw [wr_arrN (by omega), ok_bind, pure_eq_ok]
    simp only [mkTree]
    congr 2
    refine arrN_congr fun i hi => ?_
    rw [Function.update_apply]
    split_ifs with h3 h4
    · rw [h3, exb_root h1 hn]
    · rfl
    · omega
  · simp only [mkTree, arrN_const]
    congr 1
    rw [← arrN_append]
    congr 1
    · exact arrN_congr fun i hi => by rw [if_neg (by omega), decide_eq_false (by omega)]
    · refine arrN_congr fun i hi => ?_
      split_ifs
      · exact (exb_leaf hn (by omega) (by omega)).symm
      · rw [decide_eq_true (by omega)]
  · rintro j hj t rfl
    have hex : ∀ k, j + 1 < k → treeExists { mkTree D n ds (fun _ => false) (fun _ => zeros ds) with
        existsNode := arrN (2 ^ D - 1 + n) fun i => if j + 1 < i then exb D n i else decide (2 ^ D - 1 ≤ i) } k = Outcome.ok (exb D n k) := by
      intro k hk
      unfold treeExists
      simp only [mkTree]
      split_ifs with h
      · rw [pure_eq_ok]
        congr 1
        by_contra hne
        have h2 : exb D n k = true := by cases h3 : exb D n k <;> simp_all
        have := exb_lt h2
        omega
      · rw [rd_arrN (by omega), if_pos hk]
    refine ⟨_, ?_, rfl⟩
    rw [hex _ (by omega), ok_bind, hex _ (by omega), ok_bind]
    by_cases hl : j + 1 = 2 ^ D - 1
    · have e1 : ∀ k, 2 * (j + 1) + 1 ≤ k → exb D n k = false := by
        intro k hk
        by_contra hne
        have h2 : exb D n k = true := by cases h3 : exb D n k <;> simp_all
        have := exb_lt h2
        omega
      rw [e1 _ (by omega), e1 _ (by omega), Bool.or_self, if_neg (by simp), pure_eq_ok]
      simp only [mkTree]
      congr 2
      refine arrN_congr fun i hi => ?_
      split_ifs with h3 h4 h4
      · rfl
      · omega
      · rw [show i = j + 1 by omega, decide_eq_true (by omega), exb_leaf hn (by omega) (by omega)]
      · rfl
    · have hin := exb_inner (i := j + 1) hn (by omega)
      rw [← hin]
      simp only [mkTree]
      split_ifs with h5
      · rw [wr_arrN (by omega), ok_bind, pure_eq_ok]
        congr 2
        refine arrN_congr fun i hi => ?_
        rw [Function.update_apply]
        split_ifs with h6 h7 h8 h9
        · rw [h6, h5]
        · omega
        · rfl
        · omega
        · omega
        · rfl
      · rw [pure_eq_ok]
        congr 2
        refine arrN_congr fun i hi => ?_
        split_ifs with h6 h7 h8
        · rfl
        · omega
        · rw [show i = j + 1 by omega, decide_eq_false (by omega)]
          simpa using h5
        · rfl

theorem setNode_ok {D n ds i off : ℕ} {hv : ℕ → Bool} {vl : ℕ → Buf} {data : Buf} (hi : i < 2 ^ D - 1 + n)
    (hl : (vl i).length = ds) (hd : off + ds ≤ data.length) :
    setNode (mkTree D n ds hv vl) i data off ds = Outcome.ok (mkTree D n ds (Function.update hv i true)
      (Function.update vl i ((data.drop off).take ds))) := by
  unfold setNode
  simp only [mkTree]
  rw [rd_arrN hi, ok_bind, memcpy_ok hd (by omega), ok_bind, wr_arrN hi, ok_bind, wr_arrN hi, ok_bind, pure_eq_ok]
  have e : ((data.drop off).take ds).length = ds := by rw [List.length_take, List.length_drop]; omega
  have h0 : List.drop ds (vl i) = [] := List.drop_eq_nil_of_le hl.le
  simp [h0]

theorem getParent_ok {i : ℕ} (h : i ≠ 0) : getParent i = Outcome.ok ((i - 1) / 2) := by
  unfold getParent isLeftChild assertM
  rw [if_pos (by simpa using h)]
  simp only [ok_bind, pure_eq_ok]
  split_ifs with h1
  · rfl
  · congr 1
    have : ¬ i % 2 = 1 := by simpa using h1
    omega

/-! ### expansion of seeds -/

/-- The seeds of the children of node i. -/
def childSeeds (E : Env) (P : Params) (salt : Buf) (rep i : ℕ) (seed : Buf) : Buf :=
  H E P HASH_PREFIX_1 (seed ++ salt ++ le16 rep ++ le16 i) (2 * P.seedSizeBytes)

/-- The seed that node i receives from its parent's seed. -/
def fromParent (E : Env) (P : Params) (salt : Buf) (rep i : ℕ) (seed : Buf) : Buf :=
  if i % 2 = 1 then (childSeeds E P salt rep ((i - 1) / 2) seed).take P.seedSizeBytes
  else ((childSeeds E P salt rep ((i - 1) / 2) seed).drop P.seedSizeBytes).take P.seedSizeBytes

theorem fromParent_length (E : Env) (P : Params) (salt : Buf) (rep i : ℕ) (seed : Buf) :
    (fromParent E P salt rep i seed).length = P.seedSizeBytes := by
  unfold fromParent childSeeds
  split_ifs <;> simp <;> omega

/-- The nodes that have a seed after the expansion. -/
def hvX (ex : ℕ → Bool) (hv : ℕ → Bool) (i : ℕ) : Bool :=
  if h : i = 0 then hv 0 else hv i || (ex i && hvX ex hv ((i - 1) / 2))
termination_by i
decreasing_by omega

/-- The contents after the expansion. -/
def vlX (E : Env) (P : Params) (salt : Buf) (rep : ℕ) (ex hv : ℕ → Bool) (vl : ℕ → Buf) (i : ℕ) : Buf :=
  if h : i = 0 then vl 0
  else if hv i then vl i
  else if ex i && hvX ex hv ((i - 1) / 2) then fromParent E P salt rep i (vlX E P salt rep ex hv vl ((i - 1) / 2))
  else vl i
termination_by i
decreasing_by omega

theorem hvX_zero (ex hv : ℕ → Bool) : hvX ex hv 0 = hv 0 := by rw [hvX]; simp

theorem hvX_pos (ex hv : ℕ → Bool) {i : ℕ} (h : i ≠ 0) : hvX ex hv i = (hv i || (ex i && hvX ex hv ((i - 1) / 2))) := by
  conv_lhs => rw [hvX]
  rw [dif_neg h]

theorem vlX_zero (E : Env) (P : Params) (salt : Buf) (rep : ℕ) (ex hv : ℕ → Bool) (vl : ℕ → Buf) :
    vlX E P salt rep ex hv vl 0 = vl 0 := by rw [vlX]; simp

theorem vlX_pos (E : Env) (P : Params) (salt : Buf) (rep : ℕ) (ex hv : ℕ → Bool) (vl : ℕ → Buf) {i : ℕ} (h : i ≠ 0) :
    vlX E P salt rep ex hv vl i = if hv i then vl i
      else if ex i && hvX ex hv ((i - 1) / 2) then fromParent E P salt rep i (vlX E P salt rep ex hv vl ((i - 1) / 2)) else vl i := by
  conv_lhs => rw [vlX]
  rw [dif_neg h]

theorem hvX_ex {ex hv : ℕ → Bool} (h : ∀ i, hv i = true → ex i = true) {i : ℕ} (hi : hvX ex hv i = true) : ex i = true := by
  by_cases h0 : i = 0
  · subst h0; rw [hvX_zero] at hi; exact h _ hi
  · rw [hvX_pos _ _ h0, Bool.or_eq_true, Bool.and_eq_true] at hi
    rcases hi with hi | hi
    · exact h _ hi
    · exact hi.1

theorem vlX_length {E : Env} {P : Params} {salt : Buf} {rep : ℕ} {ex hv : ℕ → Bool} {vl : ℕ → Buf}
    (h : ∀ i, (vl i).length = P.seedSizeBytes) (i : ℕ) : (vlX E P salt rep ex hv vl i).length = P.seedSizeBytes := by
  by_cases h0 : i = 0
  · subst h0; rw [vlX_zero]; exact h _
  · rw [vlX_pos _ _ _ _ _ _ _ h0]
    split_ifs
    · exact h _
    · exact fromParent_length ..
    · exact h _

/-- Sizes of seeds and salts. -/
structure SeedWF (P : Params) : Prop where
  seed : P.seedSizeBytes ≤ 32
  salt : P.saltSizeBytes = 32

theorem seedWF_of {p : ℕ} {P : Params} (h : getParamSet p = some P) : SeedWF P := by
  obtain ⟨h1, h2⟩ := getParamSet_bounds h
  interval_cases p <;> (injection h with h; subst h; constructor <;> decide)

theorem hashSeed_ok {E : Env} {P : Params} {seed salt : Buf} {rep i : ℕ} (hE : PermWF E) (hP : SeedWF P)
    (hs : seed.length = P.seedSizeBytes) (hsalt : salt.length = P.saltSizeBytes) :
    hashSeed E P seed salt HASH_PREFIX_1 rep i = Outcome.ok (childSeeds E P salt rep i seed) := by
  have := hP.seed
  have := hP.salt
  unfold hashSeed
  rw [hashAll_ok hE (by simp [intLE_eq]; omega) (by omega)]
  congr 1
  simp only [List.flatMap_cons, List.flatMap_nil, intLE_eq, List.append_nil]
  rw [List.take_of_length_le hs.le, List.take_of_length_le hsalt.le, List.take_of_length_le (by simp), List.take_of_length_le (by simp)]
  simp [childSeeds]

theorem expandSeeds_ok {E : Env} {P : Params} {D n rep : ℕ} {salt : Buf} {hv : ℕ → Bool} {vl : ℕ → Buf} (hE : PermWF E) (hP : SeedWF P)
    (h2 : 2 ≤ n) (hn : n ≤ 2 ^ D) (hsalt : salt.length = P.saltSizeBytes) (hvl : ∀ i, (vl i).length = P.seedSizeBytes)
    (hvx : ∀ i, hv i = true → exb D n i = true) :
    expandSeeds E P (mkTree D n P.seedSizeBytes hv vl) salt rep =
      Outcome.ok (mkTree D n P.seedSizeBytes (hvX (exb D n) hv) (vlX E P salt rep (exb D n) hv vl)) := by
  have hp : 1 ≤ 2 ^ D := Nat.one_le_two_pow
  have hseed := hP.seed
  unfold expandSeeds
  rw [show (mkTree D n P.seedSizeBytes hv vl).numNodes = 2 ^ D - 1 + n from rfl, getParent_ok (by omega), ok_bind]
  set N := 2 ^ D - 1 + n with hN
  set hvF := hvX (exb D n) hv with hhvF
  set vlF := vlX E P salt rep (exb D n) hv vl with hvlF
  have key := loop_seq (fun k => mkTree D n P.seedSizeBytes (fun i => if i < 2 * k + 1 then hvF i else hv i)
      (fun i => if i < 2 * k + 1 then vlF i else vl i))
    (f := fun i tree => expandSeedsStep E P salt rep i tree) (n := (N - 1 - 1) / 2 + 1) (s := mkTree D n P.seedSizeBytes hv vl) ?_ ?_
  · rw [key]
    unfold mkTree
    congr 2
    · exact arrN_congr fun i hi => by rw [if_pos (by omega)]
    · exact arrN_congr fun i hi => by rw [if_pos (by omega)]
  · unfold mkTree
    congr 1
    · refine arrN_congr fun i hi => ?_
      split_ifs with h
      · rw [show i = 0 by omega, hvlF, vlX_zero]
      · rfl
    · refine arrN_congr fun i hi => ?_
      split_ifs with h
      · rw [show i = 0 by omega, hhvF, hvX_zero]
      · rfl
  · intro k hk
    have hkF : k < 2 ^ D - 1 := by omega
    have hvlen : ∀ i, (if i < 2 * k + 1 then vlF i else vl i).length = P.seedSizeBytes := by
      intro i
      split_ifs
      · exact vlX_length hvl i
      · exact hvl i
    have hk1 : 2 * k + 1 ≠ 0 := by omega
    have hk2 : 2 * k + 2 ≠ 0 := by omega
    have p1 : (2 * k + 1 - 1) / 2 = k := by omega
    have p2 : (2 * k + 2 - 1) / 2 = k := by omega
    have fin : ∀ (hv' : ℕ → Bool) (vl' : ℕ → Buf), (∀ i < N, hv' i = if i < 2 * (k + 1) + 1 then hvF i else hv i) →
        (∀ i < N, vl' i = if i < 2 * (k + 1) + 1 then vlF i else vl i) →
        mkTree D n P.seedSizeBytes hv' vl' = mkTree D n P.seedSizeBytes (fun i => if i < 2 * (k + 1) + 1 then hvF i else hv i)
          (fun i => if i < 2 * (k + 1) + 1 then vlF i else vl i) := by
      intro hv' vl' a b
      unfold mkTree
      rw [arrN_congr a, arrN_congr b]
    unfold expandSeedsStep
    rw [show (mkTree D n P.seedSizeBytes (fun i => if i < 2 * k + 1 then hvF i else hv i) (fun i => if i < 2 * k + 1 then vlF i else vl i)).haveNode =
      arrN N (fun i => if i < 2 * k + 1 then hvF i else hv i) from rfl, rd_arrN (by omega), ok_bind, if_pos (by omega : k < 2 * k + 1)]
    by_cases hh : hvF k = true
    · have hex1 : exb D n (2 * k + 1) = true := exb_child hn hkF (hvX_ex hvx hh)
      have hF1 : hvF (2 * k + 1) = true := by
        rw [hhvF, hvX_pos _ _ hk1, p1, hex1, ← hhvF, hh]; simp
      have hv1 : vlF (2 * k + 1) = if hv (2 * k + 1) then vl (2 * k + 1) else (childSeeds E P salt rep k (vlF k)).take P.seedSizeBytes := by
        rw [hvlF, vlX_pos _ _ _ _ _ _ _ hk1, p1, hex1, ← hhvF, hh, ← hvlF]
        simp only [Bool.and_self, if_true, fromParent]
        rw [if_pos (by omega : (2 * k + 1) % 2 = 1), p1]
      have hF2 : hvF (2 * k + 2) = (hv (2 * k + 2) || exb D n (2 * k + 2)) := by
        rw [hhvF, hvX_pos _ _ hk2, p2, ← hhvF, hh, Bool.and_true]
      have hv2 : vlF (2 * k + 2) = if hv (2 * k + 2) then vl (2 * k + 2) else if exb D n (2 * k + 2) then
          ((childSeeds E P salt rep k (vlF k)).drop P.seedSizeBytes).take P.seedSizeBytes else vl (2 * k + 2) := by
        rw [hvlF, vlX_pos _ _ _ _ _ _ _ hk2, p2, ← hhvF, hh, ← hvlF, Bool.and_true]
        simp only [fromParent]
        rw [if_neg (by omega : ¬ (2 * k + 2) % 2 = 1), p2]
      rw [hh, Bool.not_true, if_neg (by simp),
        show (mkTree D n P.seedSizeBytes (fun i => if i < 2 * k + 1 then hvF i else hv i) (fun i => if i < 2 * k + 1 then vlF i else vl i)).nodes =
          arrN N (fun i => if i < 2 * k + 1 then vlF i else vl i) from rfl, rd_arrN (by omega), ok_bind, if_pos (by omega : k < 2 * k + 1),
        hashSeed_ok hE hP (vlX_length hvl k) hsalt, ok_bind]
      have hcl : (childSeeds E P salt rep k (vlF k)).length = 2 * P.seedSizeBytes := by simp [childSeeds]
      rw [wrN_zero (by rw [hcl]; simp [MAX_SEED_SIZE_BYTES]; omega), ok_bind]
      set tmp := childSeeds E P salt rep k (vlF k) ++ (E.junkBuf siteTree k (2 * MAX_SEED_SIZE_BYTES)).drop
        (childSeeds E P salt rep k (vlF k)).length with htmp
      have ht1 : (tmp.drop 0).take P.seedSizeBytes = (childSeeds E P salt rep k (vlF k)).take P.seedSizeBytes := by
        rw [List.drop_zero, htmp, List.take_append_of_le_length (by omega)]
      have ht2 : (tmp.drop P.seedSizeBytes).take P.seedSizeBytes = ((childSeeds E P salt rep k (vlF k)).drop P.seedSizeBytes).take P.seedSizeBytes := by
        rw [htmp, List.drop_append_of_le_length (by omega), List.take_append_of_le_length (by rw [List.length_drop]; omega)]
      have htl : 2 * P.seedSizeBytes ≤ tmp.length := by rw [htmp, List.length_append]; omega
      rw [rd_arrN (by omega), ok_bind, if_neg (by omega : ¬ 2 * k + 1 < 2 * k + 1)]
      have step1 : (if (!hv (2 * k + 1)) = true then setNode (mkTree D n P.seedSizeBytes (fun i => if i < 2 * k + 1 then hvF i else hv i)
            (fun i => if i < 2 * k + 1 then vlF i else vl i)) (2 * k + 1) tmp 0 P.seedSizeBytes
          else pure (mkTree D n P.seedSizeBytes (fun i => if i < 2 * k + 1 then hvF i else hv i) (fun i => if i < 2 * k + 1 then vlF i else vl i))) =
          Outcome.ok (mkTree D n P.seedSizeBytes (fun i => if i < 2 * k + 2 then hvF i else hv i) (fun i => if i < 2 * k + 2 then vlF i else vl i)) := by
        by_cases h : hv (2 * k + 1) = true
        · rw [h, Bool.not_true, if_neg (by simp), pure_eq_ok]
          unfold mkTree
          congr 2
          · refine arrN_congr fun i hi => ?_
            by_cases hik : i = 2 * k + 1
            · rw [hik, if_neg (by omega), if_pos (by omega), hv1, if_pos h]
            · by_cases hi2 : i < 2 * k + 1
              · rw [if_pos hi2, if_pos (by omega)]
              · rw [if_neg hi2, if_neg (by omega)]
          · refine arrN_congr fun i hi => ?_
            by_cases hik : i = 2 * k + 1
            · rw [hik, if_neg (by omega), if_pos (by omega), hF1, h]
            · by_cases hi2 : i < 2 * k + 1
              · rw [if_pos hi2, if_pos (by omega)]
              · rw [if_neg hi2, if_neg (by omega)]
        · rw [Bool.not_eq_true] at h
          rw [h, Bool.not_false, if_pos rfl, setNode_ok (by omega) (hvlen _) (by omega), ht1]
          unfold mkTree
          congr 2
          · refine arrN_congr fun i hi => ?_
            rw [Function.update_apply]
            by_cases hik : i = 2 * k + 1
            · rw [if_pos hik, hik, if_pos (by omega), hv1, if_neg (by simp [h])]
            · rw [if_neg hik]
              by_cases hi2 : i < 2 * k + 1
              · rw [if_pos hi2, if_pos (by omega)]
              · rw [if_neg hi2, if_neg (by omega)]
          · refine arrN_congr fun i hi => ?_
            rw [Function.update_apply]
            by_cases hik : i = 2 * k + 1
            · rw [if_pos hik, hik, if_pos (by omega), hF1]
            · rw [if_neg hik]
              by_cases hi2 : i < 2 * k + 1
              · rw [if_pos hi2, if_pos (by omega)]
              · rw [if_neg hi2, if_neg (by omega)]
      have step2 : (do
          let er ← treeExists (mkTree D n P.seedSizeBytes (fun i => if i < 2 * k + 2 then hvF i else hv i) (fun i => if i < 2 * k + 2 then vlF i else vl i)) (2 * k + 2)
          if er then do
            let hr ← rd (mkTree D n P.seedSizeBytes (fun i => if i < 2 * k + 2 then hvF i else hv i) (fun i => if i < 2 * k + 2 then vlF i else vl i)).haveNode (2 * k + 2)
            if !hr then setNode (mkTree D n P.seedSizeBytes (fun i => if i < 2 * k + 2 then hvF i else hv i) (fun i => if i < 2 * k + 2 then vlF i else vl i)) (2 * k + 2) tmp P.seedSizeBytes P.seedSizeBytes else pure (mkTree D n P.seedSizeBytes (fun i => if i < 2 * k + 2 then hvF i else hv i) (fun i => if i < 2 * k + 2 then vlF i else vl i))
          else pure (mkTree D n P.seedSizeBytes (fun i => if i < 2 * k + 2 then hvF i else hv i) (fun i => if i < 2 * k + 2 then vlF i else vl i))) = Outcome.ok (mkTree D n P.seedSizeBytes (fun i => if i < 2 * (k + 1) + 1 then hvF i else hv i)
            (fun i => if i < 2 * (k + 1) + 1 then vlF i else vl i)) := by
        rw [treeExists_mk, ok_bind]
        have split2 : ∀ i, i ≠ 2 * k + 2 → ((if i < 2 * k + 2 then hvF i else hv i) = if i < 2 * (k + 1) + 1 then hvF i else hv i) ∧
            ((if i < 2 * k + 2 then vlF i else vl i) = if i < 2 * (k + 1) + 1 then vlF i else vl i) := by
          intro i hik
          by_cases hi2 : i < 2 * k + 2
          · rw [if_pos hi2, if_pos (by omega), if_pos hi2, if_pos (by omega)]; exact ⟨rfl, rfl⟩
          · rw [if_neg hi2, if_neg (by omega), if_neg hi2, if_neg (by omega)]; exact ⟨rfl, rfl⟩
        have q0 : ¬ 2 * k + 2 < 2 * k + 2 := by omega
        have q1 : 2 * k + 2 < 2 * (k + 1) + 1 := by omega
        by_cases he : exb D n (2 * k + 2) = true
        · have hlt := exb_lt he
          rw [he, if_pos rfl, show (mkTree D n P.seedSizeBytes (fun i => if i < 2 * k + 2 then hvF i else hv i)
            (fun i => if i < 2 * k + 2 then vlF i else vl i)).haveNode = arrN N (fun i => if i < 2 * k + 2 then hvF i else hv i) from rfl,
            rd_arrN (by omega), ok_bind, if_neg q0]
          by_cases h : hv (2 * k + 2) = true
          · rw [h, Bool.not_true, if_neg (by simp), pure_eq_ok]
            congr 1
            refine fin _ _ (fun i hi => ?_) (fun i hi => ?_)
            · by_cases hik : i = 2 * k + 2
              · rw [hik, if_neg q0, if_pos q1, hF2, h, Bool.true_or]
              · exact (split2 i hik).1
            · by_cases hik : i = 2 * k + 2
              · rw [hik, if_neg q0, if_pos q1, hv2, if_pos h]
              · exact (split2 i hik).2
          · rw [Bool.not_eq_true] at h
            rw [h, Bool.not_false, if_pos rfl, setNode_ok (by omega) (by rw [if_neg q0]; exact hvl _) (by omega), ht2]
            congr 1
            refine fin _ _ (fun i hi => ?_) (fun i hi => ?_)
            · rw [Function.update_apply]
              by_cases hik : i = 2 * k + 2
              · rw [if_pos hik, hik, if_pos q1, hF2, he, Bool.or_true]
              · rw [if_neg hik]; exact (split2 i hik).1
            · rw [Function.update_apply]
              by_cases hik : i = 2 * k + 2
              · rw [if_pos hik, hik, if_pos q1, hv2, if_neg (by simp [h]), if_pos he]
              · rw [if_neg hik]; exact (split2 i hik).2
        · have he' : exb D n (2 * k + 2) = false := by simpa using he
          have hh2 : hv (2 * k + 2) = false := by
            by_contra hne
            exact he (hvx _ (by simpa using hne))
          rw [he', if_neg (by simp), pure_eq_ok]
          congr 1
          refine fin _ _ (fun i hi => ?_) (fun i hi => ?_)
          · by_cases hik : i = 2 * k + 2
            · rw [hik, if_neg q0, if_pos q1, hF2, hh2, he']; rfl
            · exact (split2 i hik).1
          · by_cases hik : i = 2 * k + 2
            · rw [hik, if_neg q0, if_pos q1, hv2, hh2, he']; simp
            · exact (split2 i hik).2
      by_cases hc1 : (!hv (2 * k + 1)) = true
      · rw [if_pos hc1] at step1
        rw [if_pos hc1]
        exact bind_of step1 step2
      · rw [if_neg hc1, pure_eq_ok, Outcome.ok.injEq] at step1
        rw [if_neg hc1]
        refine Eq.trans ?_ step2
        rw [← step1]
        rfl
    · have hh' : hvF k = false := by simpa using hh
      rw [hh', Bool.not_false, if_pos rfl, pure_eq_ok]
      congr 1
      have hc : ∀ i, (i - 1) / 2 = k → i ≠ 0 → hvF i = hv i ∧ vlF i = vl i := by
        intro i hik hi0
        rw [hhvF, hvlF, hvX_pos _ _ hi0, vlX_pos _ _ _ _ _ _ _ hi0, hik, ← hhvF, hh', Bool.and_false, Bool.or_false]
        simp
      refine fin _ _ (fun i hi => ?_) (fun i hi => ?_)
      · by_cases hi1 : i < 2 * k + 1
        · rw [if_pos hi1, if_pos (by omega)]
        · rw [if_neg hi1]
          split_ifs with hi2
          · exact (hc i (by omega) (by omega)).1.symm
          · rfl
      · by_cases hi1 : i < 2 * k + 1
        · rw [if_pos hi1, if_pos (by omega)]
        · rw [if_neg hi1]
          split_ifs with hi2
          · exact (hc i (by omega) (by omega)).2.symm
          · rfl

end Picnic
