import Verif.Proofs.SeedTree2
import Verif.Props.Example
import Mathlib.Data.Nat.Log

/-
C26: seed trees.  Trees are described with the node numbering of `Spec/Tree.lean` (root 1, children 2x and 2x+1, leaf j is
2^D + j where D is the depth); node x is element x - 1 of the library's arrays.
-/

namespace Picnic

open Spec.Tree

/-- The depth of a tree is the least D with n ≤ 2^D. -/
theorem ceilLog2_eq_clog {n : ℕ} (h1 : 1 ≤ n) (h2 : n < 2 ^ 32) : ceilLog2 n = Nat.clog 2 n := by
  refine le_antisymm ?_ ?_
  · rw [ceilLog2_spec h1 h2]; exact Nat.le_pow_clog (by omega) _
  · rw [Nat.clog_le_iff_le_pow (by omega)]; exact ceilLog2_le h1 h2

theorem getElem?_arrN {α : Type} {n i : ℕ} {f : ℕ → α} (h : i < n) : (arrN n f)[i]? = some (f i) := by
  simp [arrN, h]

theorem mkTree_have {D n ds i : ℕ} {hv : ℕ → Bool} {vl : ℕ → Buf} :
    (mkTree D n ds hv vl).haveNode[i]? = if i < 2 ^ D - 1 + n then some (hv i) else none := by
  change (arrN _ _)[i]? = _
  split_ifs with h
  · exact getElem?_arrN h
  · exact List.getElem?_eq_none (by simp [arrN]; omega)

theorem mkTree_nodes {D n ds i : ℕ} {hv : ℕ → Bool} {vl : ℕ → Buf} :
    (mkTree D n ds hv vl).nodes[i]? = if i < 2 ^ D - 1 + n then some (vl i) else none := by
  change (arrN _ _)[i]? = _
  split_ifs with h
  · exact getElem?_arrN h
  · exact List.getElem?_eq_none (by simp [arrN]; omega)

/-- The seed tree grown from `root`: the root node holds `root`, and the two children of every inner node hold the two
halves of `H_1(seed || salt || repetition || node)`. -/
theorem C26_tree {E : Env} {p n rep : ℕ} {P : Params} {root salt : Buf} (hE : PermWF E) (hp : getParamSet p = some P)
    (h2 : 2 ≤ n) (h3 : n < 2 ^ 32) (hr : root.length = P.seedSizeBytes) (hsalt : salt.length = P.saltSizeBytes) :
    ∃ T, generateSeeds E P n root salt rep = Outcome.ok T ∧ T.nodes[0]? = some root ∧
      (∀ j < n, getLeaf T j = Outcome.ok (T.nodes.getD (2 ^ Nat.clog 2 n + j - 1) [])) ∧
      ∀ x, 1 ≤ x → Node (Nat.clog 2 n) n x → x < 2 ^ Nat.clog 2 n →
        ∃ s l, T.nodes[x - 1]? = some s ∧ T.nodes[2 * x - 1]? = some l ∧
          (∀ r, H E P HASH_PREFIX_1 (s ++ salt ++ le16 rep ++ le16 (x - 1)) (2 * P.seedSizeBytes) = l ++ r →
            Node (Nat.clog 2 n) n (2 * x + 1) → T.nodes[2 * x]? = some r) ∧
          l.length = P.seedSizeBytes ∧
          l <+: H E P HASH_PREFIX_1 (s ++ salt ++ le16 rep ++ le16 (x - 1)) (2 * P.seedSizeBytes) := by
  rw [← ceilLog2_eq_clog (by omega) h3]
  have hn := ceilLog2_le (by omega : 1 ≤ n) h3
  set D := ceilLog2 n with hD
  have hpw : 1 ≤ 2 ^ D := Nat.one_le_two_pow
  refine ⟨_, generateSeeds_ok hE (seedWF_of hp) h2 h3 hr hsalt, ?_, ?_, ?_⟩
  · change (arrN _ _)[0]? = _
    rw [← hD, getElem?_arrN (by omega), seedVl, if_pos (exb_root (by omega) hn), seedAt_zero]
  · intro j hj
    unfold getLeaf assertM
    rw [if_pos (by simpa using hj)]
    simp only [pure_eq_ok, ok_bind]
    rw [← hD, Nat.add_sub_cancel, rd_arrN (by omega), List.getD_eq_getElem?_getD, getElem?_arrN (by omega),
      show 2 ^ D + j - 1 = 2 ^ D - 1 + j by omega]
    rfl
  · intro x hx1 hx hxl
    rw [← hD]
    have ex0 : exb D n (x - 1) = true := by rw [exb_iff, Nat.sub_add_cancel hx1]; exact hx
    have ex1 : exb D n (2 * x - 1) = true := by
      rw [exb_iff, show 2 * x - 1 + 1 = 2 * x by omega]; exact node_child hn hx hxl
    have hlen : (childSeeds E P salt rep (x - 1) (seedAt E P salt rep root (x - 1))).length = 2 * P.seedSizeBytes := by simp [childSeeds]
    refine ⟨seedAt E P salt rep root (x - 1), seedAt E P salt rep root (2 * x - 1), ?_, ?_, ?_, seedAt_length hr _, ?_⟩
    · rw [getElem?_arrN (exb_lt ex0), seedVl, if_pos ex0]
    · rw [getElem?_arrN (exb_lt ex1), seedVl, if_pos ex1]
    · intro r hr2 hx2
      have ex2 : exb D n (2 * x) = true := exb_iff.2 hx2
      rw [getElem?_arrN (exb_lt ex2), seedVl, if_pos ex2, seedAt_pos _ _ _ _ _ (by omega), show (2 * x - 1) / 2 = x - 1 by omega, fromParent,
        if_neg (by omega), show (2 * x - 1) / 2 = x - 1 by omega]
      have hr3 : childSeeds E P salt rep (x - 1) (seedAt E P salt rep root (x - 1)) = seedAt E P salt rep root (2 * x - 1) ++ r := hr2
      rw [hr3] at hlen ⊢
      have hl := seedAt_length (E := E) (P := P) (salt := salt) (rep := rep) hr (2 * x - 1)
      rw [List.length_append, hl] at hlen
      rw [← hl, List.drop_left, hl, List.take_of_length_le (by omega)]
    · rw [seedAt_pos _ _ _ _ _ (by omega), show (2 * x - 1 - 1) / 2 = x - 1 by omega, fromParent, if_pos (by omega),
        show (2 * x - 1 - 1) / 2 = x - 1 by omega]
      exact List.take_prefix ..

/-- C26.  For a tree with n ≥ 2 leaves and a non-empty list `l` of hidden leaves: the number of bytes output is the number
the receiver computes from `l` alone; the output is the list of the seeds of some nodes `rv`, none of which is an
ancestor-or-self of a hidden leaf; from these bytes the receiver obtains a tree `T'` in which every leaf that is not hidden has
its original seed, no ancestor-or-self of a hidden leaf is marked present, and nodes not marked present are zero. -/
theorem C26_seed_tree {E : Env} {p n rep : ℕ} {P : Params} {root salt : Buf} {l : List ℕ} (hE : PermWF E) (hp : getParamSet p = some P)
    (h2 : 2 ≤ n) (h3 : n * P.seedSizeBytes ≤ INT_MAX) (hr : root.length = P.seedSizeBytes) (hsalt : salt.length = P.saltSizeBytes)
    (hl : ∀ h ∈ l, h < n) (hne : l ≠ []) :
    ∃ (T : Tree) (rv : List ℕ) (data : Buf) (fresh T' : Tree), generateSeeds E P n root salt rep = Outcome.ok T ∧
      createTree n P.seedSizeBytes = Outcome.ok fresh ∧
      revealSeedsSize P n l l.length = Outcome.ok data.length ∧
      data.length ≤ n * P.seedSizeBytes ∧
      (∀ out cap, data.length ≤ cap → cap ≤ out.length → cap ≤ INT_MAX →
        revealSeeds P T l l.length out cap = Outcome.ok (data.length, data ++ out.drop data.length)) ∧
      data = rv.flatMap (fun i => T.nodes.getD i []) ∧
      (∀ i ∈ rv, Node (Nat.clog 2 n) n (i + 1) ∧ ¬ Up (Nat.clog 2 n) (Picked (Nat.clog 2 n) l) (i + 1)) ∧
      reconstructSeeds E P fresh l l.length data data.length salt rep = Outcome.ok (true, T') ∧
      (∀ j < n, j ∉ l → ∃ s, getLeaf T j = Outcome.ok s ∧ getLeaf T' j = Outcome.ok s ∧
        T'.haveNode[2 ^ Nat.clog 2 n + j - 1]? = some true) ∧
      (∀ i : ℕ, T'.haveNode[i]? = some true → ¬ Up (Nat.clog 2 n) (Picked (Nat.clog 2 n) l) (i + 1) ∧ T'.nodes[i]? = T.nodes[i]?) ∧
      (∀ i : ℕ, T'.haveNode[i]? = some false → T'.nodes[i]? = some (zeros P.seedSizeBytes)) := by
  have hseed : 16 ≤ P.seedSizeBytes := by
    obtain ⟨h1, h2⟩ := getParamSet_bounds hp
    clear * - hp h1 h2
    interval_cases p <;> (injection hp with h; subst h; decide)
  have h4 : n < 2 ^ 32 := by
    have : n * 16 ≤ n * P.seedSizeBytes := Nat.mul_le_mul_left _ hseed
    unfold INT_MAX at h3
    omega
  rw [← ceilLog2_eq_clog (by omega) h4]
  have hn := ceilLog2_le (by omega : 1 ≤ n) h4
  have hwf := seedWF_of hp
  obtain ⟨D, hD⟩ : ∃ D, D = ceilLog2 n := ⟨_, rfl⟩
  have hg := generateSeeds_ok (E := E) (rep := rep) hE hwf h2 h4 hr hsalt
  have hcr := createTree_ok (ds := P.seedSizeBytes) (by omega : 1 ≤ n) h4
  have hrs := fun l rv => revealSeedsSize_ok (P := P) (n := n) (l := l) (rv := rv) (by omega) h4
  rw [← hD] at hn hg hcr hrs ⊢
  have hpw : 1 ≤ 2 ^ D := Nat.one_le_two_pow
  have hD1 : 1 ≤ D := by
    by_contra h
    rw [show D = 0 by omega] at hn
    omega
  have hS := picked_atDepth hn hl
  have hSne : ∃ y, Picked D l y := by
    obtain ⟨a, l', rfl⟩ := List.exists_cons_of_ne_nil hne
    exact ⟨_, a, by simp, rfl⟩
  obtain ⟨rv, hrun, hnd, hrv⟩ := getRevealedNodes_ok hD1 (by omega) hn hl
  have hex : ∀ r ∈ rv, exb D n r = true := fun r hr' => exb_iff.2 (rev_node (by omega) hn hS ((hrv r).1 hr')).1
  have hrl : ∀ r ∈ rv, (seedVl E P salt rep root D n r).length = P.seedSizeBytes := fun r _ => seedVl_length hr ..
  have hdl := flatMap_blocks_length hrl
  have hcard : rv.length ≤ n := by
    have := rev_card (by omega) hn hS (rv.toFinset.image (· + 1)) (by
      intro y hy
      rw [Finset.mem_image] at hy
      obtain ⟨r, hr', rfl⟩ := hy
      exact (hrv r).1 (List.mem_toFinset.1 hr'))
    rwa [Finset.card_image_of_injective _ (add_left_injective 1), List.toFinset_card_of_nodup hnd] at this
  have hsz : rv.length * P.seedSizeBytes ≤ n * P.seedSizeBytes := Nat.mul_le_mul_right _ hcard
  have h0 : 0 ∉ rv := fun h => by have := (rev_node (by omega) hn hS ((hrv 0).1 h)).2.1; omega
  set data := rv.flatMap (seedVl E P salt rep root D n) with hdata
  set hvF := hvX (exb D n) (fun i => decide (i ∈ rv)) with hhvF
  set vl1 : ℕ → Buf := fun i => if i ∈ rv then (data.drop (rv.idxOf i * P.seedSizeBytes)).take P.seedSizeBytes else zeros P.seedSizeBytes with hvl1
  have hvl : ∀ r ∈ rv, vl1 r = seedAt E P salt rep root r := by
    intro r hr'
    have := flatMap_block hrl hr' []
    rw [List.append_nil] at this
    rw [hvl1]
    simp only [if_pos hr']
    rw [hdata, this, seedVl, if_pos (hex r hr')]
  have hval : ∀ i, hvF i = true → vlX E P salt rep (exb D n) (fun i => decide (i ∈ rv)) vl1 i = seedVl E P salt rep root D n i := by
    intro i hi
    rw [vlX_orig h0 hvl i hi, seedVl, if_pos (hvX_ex (fun i h => hex i (by simpa using h)) hi)]
  have getLeaf_mk : ∀ (hv : ℕ → Bool) (vl : ℕ → Buf) (j : ℕ), j < n → getLeaf (mkTree D n P.seedSizeBytes hv vl) j = Outcome.ok (vl (2 ^ D - 1 + j)) := by
    intro hv vl j hj
    unfold getLeaf assertM
    rw [if_pos (by simpa using hj)]
    simp only [pure_eq_ok, ok_bind]
    rw [Nat.add_sub_cancel, rd_arrN (by omega)]
  have hleaf : ∀ j < n, j ∉ l → hvF (2 ^ D - 1 + j) = true := by
    intro j hj hjl
    obtain ⟨k, hk, hrev⟩ := rev_cover (by omega) hn hS hSne (y := 2 ^ D + j) ⟨by omega, by omega⟩ (fun ⟨h, hh, e⟩ => hjl (by
      rwa [show j = h by omega]))
    have hpos := (rev_node (by omega) hn hS hrev).2.1
    refine hvX_below hn k _ (exb_leaf hn (by omega) (by omega)) ?_ ?_
    · rw [show 2 ^ D - 1 + j + 1 = 2 ^ D + j by omega]; omega
    · rw [show 2 ^ D - 1 + j + 1 = 2 ^ D + j by omega, hrv, Nat.sub_add_cancel (by omega)]; exact hrev
  refine ⟨_, rv, data, _, _, hg, hcr, ?_, ?_, ?_, ?_, ?_,
    reconstructSeeds_ok hE hwf h2 hn hsalt (hrun ..) hnd hex (by rw [hdl]) (by rw [hdl]) (by rw [hdl]; omega), ?_, ?_, ?_⟩
  · rw [hrs _ _ hrun, hdl]
  · rw [hdl]; exact hsz
  · intro out cap hc1 hc2 hc3
    rw [hdl] at hc1 ⊢
    exact revealSeeds_ok (hrun ..) (fun r hr' => exb_lt (hex r hr')) hrl hc1 hc2 hc3
  · rw [hdata, List.flatMap_def, List.flatMap_def]
    congr 1
    refine List.map_congr_left fun r hr' => ?_
    rw [List.getD_eq_getElem?_getD]
    change _ = (arrN _ _)[r]?.getD []
    rw [getElem?_arrN (exb_lt (hex r hr'))]
    rfl
  · intro i hi
    have := rev_node (by omega) hn hS ((hrv i).1 hi)
    exact ⟨this.1, this.2.2⟩
  · intro j hj hjl
    have hh := hleaf j hj hjl
    refine ⟨_, getLeaf_mk _ _ j hj, ?_, ?_⟩
    · rw [getLeaf_mk _ _ j hj, hval _ hh]
    · rw [mkTree_have, show 2 ^ D + j - 1 = 2 ^ D - 1 + j by omega, if_pos (by omega)]
      exact congrArg some hh
  · intro i hi
    have hlt : i < 2 ^ D - 1 + n := by
      by_contra h
      rw [mkTree_have, if_neg h] at hi
      simp at hi
    rw [mkTree_have, if_pos hlt, Option.some.injEq] at hi
    refine ⟨hvX_hidden (by omega) hn hS hrv i hi, ?_⟩
    rw [mkTree_nodes, mkTree_nodes, if_pos hlt, if_pos hlt, hval i hi]
  · intro i hi
    have hlt : i < 2 ^ D - 1 + n := by
      by_contra h
      rw [mkTree_have, if_neg h] at hi
      simp at hi
    rw [mkTree_have, if_pos hlt, Option.some.injEq] at hi
    rw [mkTree_nodes, if_pos hlt]
    congr 1
    have hni : i ∉ rv := by
      intro h
      have : hvF i = true := by
        by_cases h0 : i = 0
        · subst h0; rw [hhvF, hvX_zero]; simpa using h
        · rw [hhvF, hvX_pos _ _ h0]; simp [h]
      rw [hhvF, hi] at this
      simp at this
    by_cases h0 : i = 0
    · subst h0
      rw [vlX_zero]
      simp only [if_neg hni]
    · have hi2 := hi
      rw [hvX_pos _ _ h0, decide_eq_false hni, Bool.false_or] at hi2
      rw [vlX_pos _ _ _ _ _ _ _ h0, hi2, if_neg (by simpa using hni), if_neg (by simp)]
      simp only [if_neg hni]

/-- Non-vacuity: Picnic3_L1 with 16 leaves, hiding leaves 3 and 9. -/
theorem C26_example : ∃ P, getParamSet 7 = some P ∧ ∃ T, generateSeeds exEnv P 16 (zeros 16) (zeros 32) 5 = Outcome.ok T ∧
    ∃ size, revealSeedsSize P 16 [3, 9] 2 = Outcome.ok size := by
  obtain ⟨P, hP⟩ : ∃ P, getParamSet 7 = some P := ⟨_, rfl⟩
  have e1 : P.seedSizeBytes = 16 := by injection hP with h; subst h; rfl
  have e2 : P.saltSizeBytes = 32 := by injection hP with h; subst h; rfl
  obtain ⟨T, _, d, _, _, h, _, h2, _⟩ := C26_seed_tree (E := exEnv) (p := 7) (n := 16) (rep := 5) (root := zeros 16) (salt := zeros 32)
    (l := [3, 9]) exEnv_wf.perm hP (by decide) (by rw [e1]; decide) (by rw [e1]; simp) (by rw [e2]; simp) (by decide) (by decide)
  exact ⟨P, hP, T, h, _, h2⟩

end Picnic
