import Verif.Proofs.Merkle4
import Verif.Props.Tree

/-
C27, C28, C29: Merkle trees and opening sizes.  Node x of `Spec/Tree.lean` (root 1) is element x - 1 of the library's arrays.
-/

namespace Picnic

open Spec.Tree

/-- The hash input of inner node x: its two children (the second one may be outside of the array), the salt, the number. -/
def merkleInput (T : Tree) (salt : Buf) (x : ℕ) : Buf :=
  T.nodes.getD (2 * x - 1) [] ++ T.nodes.getD (2 * x) [] ++ salt ++ le16 (x - 1)

theorem merkleInput_mk {D n ds i : ℕ} {hv : ℕ → Bool} {vl : ℕ → Buf} {salt : Buf} (h : 2 * i + 1 < 2 ^ D - 1 + n) :
    merkleInput (mkTree D n ds hv vl) salt (i + 1) = nodeInput D n salt i (vl (2 * i + 1)) (vl (2 * i + 2)) := by
  unfold merkleInput nodeInput
  rw [List.getD_eq_getElem?_getD, List.getD_eq_getElem?_getD, mkTree_nodes, mkTree_nodes, show 2 * (i + 1) - 1 = 2 * i + 1 by omega,
    show 2 * (i + 1) = 2 * i + 2 by ring, if_pos h]
  split_ifs <;> simp

theorem list_eq_arrN {α : Type} {l : List α} {n : ℕ} {f : ℕ → α} (h : l.length = n) (hf : ∀ i < n, l[i]? = some (f i)) : l = arrN n f := by
  apply List.ext_getElem?
  intro i
  by_cases hi : i < n
  · rw [hf i hi, getElem?_arrN hi]
  · rw [List.getElem?_eq_none (by omega), List.getElem?_eq_none (by simp [arrN]; omega)]

theorem exists_not_mem {n : ℕ} {l : List ℕ} (h : l.length < n) : ∃ j < n, j ∉ l := by
  by_contra hc
  push Not at hc
  have h1 : Finset.range n ⊆ l.toFinset := fun j hj => List.mem_toFinset.2 (hc j (Finset.mem_range.1 hj))
  have := Finset.card_le_card h1
  rw [Finset.card_range] at this
  have := List.toFinset_card_le l
  omega

/-- The Merkle tree over `leaves`: the leaves are stored, and every inner node is `H_3` of its children, the salt and its
number. -/
theorem C27_tree {E : Env} {p n : ℕ} {P : Params} {salt : Buf} {leaves : List Buf} (hE : PermWF E) (hp : getParamSet p = some P)
    (h1 : 1 ≤ n) (h2 : n < 2 ^ 32) (hsalt : salt.length = P.saltSizeBytes) (hl : leaves.length = n)
    (hll : ∀ d ∈ leaves, d.length = P.digestSizeBytes) :
    ∃ fresh T : Tree, createTree n P.digestSizeBytes = Outcome.ok fresh ∧ buildMerkleTree E P fresh (leaves.map some) salt = Outcome.ok T ∧
      (∀ j < n, T.nodes[2 ^ Nat.clog 2 n + j - 1]? = leaves[j]?) ∧
      ∀ x, 1 ≤ x → x < 2 ^ Nat.clog 2 n → Node (Nat.clog 2 n) n x →
        T.nodes[x - 1]? = some (H E P HASH_PREFIX_3 (merkleInput T salt x) P.digestSizeBytes) := by
  have hn := ceilLog2_le h1 h2
  have hcr := createTree_ok (ds := P.digestSizeBytes) h1 h2
  rw [← ceilLog2_eq_clog h1 h2]
  obtain ⟨D, hD⟩ : ∃ D, D = ceilLog2 n := ⟨_, rfl⟩
  rw [← hD] at hn hcr ⊢
  have hpw : 1 ≤ 2 ^ D := Nat.one_le_two_pow
  have hwf := merkleWF_of hp
  have hld : ∀ j < n, ∃ d, leaves[j]? = some d ∧ P.digestSizeBytes ≤ d.length := fun j hj =>
    ⟨leaves[j], List.getElem?_eq_getElem (by omega), (hll _ (List.getElem_mem _)).ge⟩
  have hlds : ∀ j < n, (leaves[j]?).isSome = true := fun j hj => by obtain ⟨d, e, _⟩ := hld j hj; rw [e]; rfl
  have hmap : leaves.map some = arrN n fun j => leaves[j]? := list_eq_arrN (by simpa using hl) fun i hi => by
    rw [List.getElem?_map]
    obtain ⟨d, e, _⟩ := hld i hi
    rw [e]; rfl
  have hldl : ∀ j < n, ∀ d, leaves[j]? = some d → P.digestSizeBytes ≤ d.length := fun j hj d hd => by
    obtain ⟨d', e, h⟩ := hld j hj
    rw [hd] at e; injection e with e; rw [e]; exact h
  refine ⟨_, _, hcr, by rw [hmap]; exact buildMerkleTree_ok hE hwf hn hsalt hldl, ?_, ?_⟩
  · intro j hj
    obtain ⟨d, e, _⟩ := hld j hj
    have hdl := hll d (List.mem_of_getElem? e)
    rw [mkTree_nodes, if_pos (by omega), bVl, mvl_leaf (by omega), leafVl, if_pos (by omega), show 2 ^ D + j - 1 - (2 ^ D - 1) = j by omega, e]
    simp [List.take_of_length_le hdl.le]
  · intro x hx1 hx2 hx
    have hex : exb D n (x - 1) = true := exb_iff.2 (by rwa [Nat.sub_add_cancel hx1])
    have hch := exb_lt (exb_child hn (by omega : x - 1 < 2 ^ D - 1) hex)
    rw [mkTree_nodes, if_pos (exb_lt hex), bVl_inner hn hlds (by omega) hex]
    have e := merkleInput_mk (D := D) (n := n) (ds := P.digestSizeBytes) (i := x - 1) (hv := bHv D n fun j => leaves[j]?)
      (vl := bVl E P salt D n fun j => leaves[j]?) (salt := salt) hch
    rw [Nat.sub_add_cancel hx1] at e
    rw [← e]

/-- C27.  Opening a Merkle tree for a list `ml` of missing leaves and verifying with the other leaves recomputes the root. -/
theorem C27_merkle_complete {E : Env} {p n : ℕ} {P : Params} {salt : Buf} {leaves : List Buf} {ml : List ℕ} (hE : PermWF E)
    (hp : getParamSet p = some P) (h2 : 2 ≤ n) (h3 : n * P.digestSizeBytes ≤ INT_MAX) (hsalt : salt.length = P.saltSizeBytes)
    (hl : leaves.length = n) (hll : ∀ d ∈ leaves, d.length = P.digestSizeBytes) (hml : ∀ h ∈ ml, h < n) (hlen : ml.length < n) :
    ∃ (fresh T : Tree) (data : Buf) (T1 T' : Tree), createTree n P.digestSizeBytes = Outcome.ok fresh ∧
      buildMerkleTree E P fresh (leaves.map some) salt = Outcome.ok T ∧
      openMerkleTreeSize P n ml ml.length = Outcome.ok data.length ∧
      openMerkleTree E T ml ml.length = Outcome.ok (data, data.length) ∧
      addMerkleNodes fresh ml ml.length data data.length = Outcome.ok (true, T1) ∧
      verifyMerkleTree E P T1 ((List.range n).map fun j => if j ∈ ml then none else leaves[j]?) salt = Outcome.ok (true, T') ∧
      ∃ root, T.nodes[0]? = some root ∧ T'.nodes[0]? = some root := by
  have hdig : 32 ≤ P.digestSizeBytes := by
    obtain ⟨h1, h2⟩ := getParamSet_bounds hp
    clear * - hp h1 h2
    interval_cases p <;> (injection hp with h; subst h; decide)
  have h4 : n < 2 ^ 32 := by
    have : n * 32 ≤ n * P.digestSizeBytes := Nat.mul_le_mul_left _ hdig
    unfold INT_MAX at h3
    omega
  have hn := ceilLog2_le (by omega : 1 ≤ n) h4
  have hcr := createTree_ok (ds := P.digestSizeBytes) (by omega : 1 ≤ n) h4
  have hos := fun l rv => openMerkleTreeSize_ok (P := P) (n := n) (l := l) (rv := rv) (by omega) h4
  obtain ⟨D, hD⟩ : ∃ D, D = ceilLog2 n := ⟨_, rfl⟩
  rw [← hD] at hn hcr hos
  have hpw : 1 ≤ 2 ^ D := Nat.one_le_two_pow
  have hwf := merkleWF_of hp
  have hne : ∃ y, Present D n ml y := by
    obtain ⟨j, hj, hjl⟩ := exists_not_mem hlen
    exact ⟨2 ^ D + j, ⟨by omega, by omega⟩, fun ⟨h, hh, e⟩ => hjl (by rwa [show j = h by omega])⟩
  obtain ⟨rv, hrun, hnd, hrv⟩ := getRevealedMerkleNodes_ok h2 hn hml hne
  have hex : ∀ r ∈ rv, exb D n r = true := fun r hr => exb_iff.2 ((hrv r).1 hr).1
  have h0 : 0 ∉ rv := fun h => by have := ((hrv 0).1 h).2.1; omega
  have hld : ∀ j < n, ∃ d, leaves[j]? = some d ∧ P.digestSizeBytes ≤ d.length := fun j hj =>
    ⟨leaves[j], List.getElem?_eq_getElem (by omega), (hll _ (List.getElem_mem _)).ge⟩
  have hldl : ∀ j < n, ∀ d, leaves[j]? = some d → P.digestSizeBytes ≤ d.length := fun j hj d hd => by
    obtain ⟨d', e, h⟩ := hld j hj
    rw [hd] at e; injection e with e; rw [e]; exact h
  have hmap : leaves.map some = arrN n fun j => leaves[j]? := list_eq_arrN (by simpa using hl) fun i hi => by
    rw [List.getElem?_map]
    obtain ⟨d, e, _⟩ := hld i hi
    rw [e]; rfl
  have hbl : ∀ r ∈ rv, (bVl E P salt D n (fun j => leaves[j]?) r).length = P.digestSizeBytes := fun r _ =>
    mvl_length (fun i => leafVl_length (by simp) hldl) r
  have hdl := flatMap_blocks_length hbl
  have hcard : rv.length ≤ n := by
    classical
    have hS := present_atDepth (l := ml) hn
    have := antichain_card (D := D) (n := n) (rv.toFinset.image (· + 1)) (by
      intro y hy
      rw [Finset.mem_image] at hy
      obtain ⟨r, hr', rfl⟩ := hy
      exact ((hrv r).1 (List.mem_toFinset.1 hr')).1) (by
      intro x hx x' hx' y a b e e'
      rw [Finset.mem_image] at hx hx'
      obtain ⟨x, hx, rfl⟩ := hx
      obtain ⟨x', hx', rfl⟩ := hx'
      have hx := (hrv x).1 (List.mem_toFinset.1 hx)
      have hx' := (hrv x').1 (List.mem_toFinset.1 hx')
      rw [← e] at hx
      rw [← e'] at hx'
      rw [← e, ← e', top_unique hS hx hx'])
    rwa [Finset.card_image_of_injective _ (add_left_injective 1), List.toFinset_card_of_nodup hnd] at this
  have hsz : rv.length * P.digestSizeBytes ≤ n * P.digestSizeBytes := Nat.mul_le_mul_right _ hcard
  have hroot := exb_root (by omega : 1 ≤ n) hn
  have hcomp := verify_complete (E := E) (salt := salt) (ld := fun j => leaves[j]?) (ld' := fun j => if j ∈ ml then none else leaves[j]?) h2 hn hld
    (fun j hj => rfl) hrv 0 hroot (Or.inl ((up_root (present_atDepth hn)).2 hne))
  have hop : openMerkleTree E (mkTree D n P.digestSizeBytes (bHv D n fun j => leaves[j]?) (bVl E P salt D n fun j => leaves[j]?)) ml ml.length =
      Outcome.ok (rv.flatMap (bVl E P salt D n fun j => leaves[j]?), rv.length * P.digestSizeBytes) :=
    openMerkleTree_ok (hrun ..) (fun r hr => exb_lt (hex r hr)) hbl
  have hadd := addMerkleNodes_ok (D := D) (n := n) (ds := P.digestSizeBytes) (input := rv.flatMap (bVl E P salt D n fun j => leaves[j]?))
    hlen (hrun ..) hnd hex h0 hdl (by omega)
  have hver := verifyMerkleTree_ok (E := E) (P := P) (D := D) (n := n) (salt := salt) (rv := rv)
    (input := rv.flatMap (bVl E P salt D n fun j => leaves[j]?)) (ld := fun j => if j ∈ ml then none else leaves[j]?) hE hwf (by omega) hn hsalt (by
      intro j hj d hd
      split_ifs at hd with hjm
      refine ⟨hldl j hj d hd, fun hr => ?_⟩
      refine ((hrv _).1 hr).2.2.1 (up_self ⟨⟨by omega, by omega⟩, ?_⟩)
      rintro ⟨h, hh, e⟩
      exact hjm (by rwa [show j = h by omega])) hdl
  rw [hcomp.1] at hver
  refine ⟨mkTree D n P.digestSizeBytes (fun _ => false) fun _ => zeros P.digestSizeBytes,
    mkTree D n P.digestSizeBytes (bHv D n fun j => leaves[j]?) (bVl E P salt D n fun j => leaves[j]?),
    rv.flatMap (bVl E P salt D n fun j => leaves[j]?), _, _, hcr, by rw [hmap]; exact buildMerkleTree_ok hE hwf hn hsalt hldl,
    by rw [hos _ _ hrun, hdl], by rw [hop, hdl], by rw [hdl]; exact hadd, hver, bVl E P salt D n (fun j => leaves[j]?) 0, ?_, ?_⟩
  · rw [mkTree_nodes, if_pos (by omega)]
  · rw [mkTree_nodes, if_pos (by omega), hcomp.2]

/-- C28.  `T` is an honestly built tree; `input` is any opening for the missing leaves `ml` that is accepted together with any
leaf data `leaves'` for the other leaves, giving a tree `T'` with the same root.  If one of the leaves differs, the hash inputs
of some inner node of the two trees differ but have the same digest. -/
theorem C28_merkle_binding {E : Env} {p n size : ℕ} {P : Params} {salt salt' input : Buf} {leaves : List Buf} {leaves' : List (Option Buf)}
    {ml : List ℕ} {fresh T T1 T' : Tree} {j : ℕ} {d d' : Buf} (hE : PermWF E)
    (hp : getParamSet p = some P) (h2 : 2 ≤ n) (h3 : n < 2 ^ 32) (hsalt : salt.length = P.saltSizeBytes) (hsalt' : salt'.length = P.saltSizeBytes)
    (hl : leaves.length = n) (hll : ∀ d ∈ leaves, d.length = P.digestSizeBytes) (hml : ∀ h ∈ ml, h < n) (hlen : ml.length < n)
    (hl' : leaves'.length = n) (hll' : ∀ (j : ℕ) (d : Buf), leaves'[j]? = some (some d) → d.length = P.digestSizeBytes ∧ j ∉ ml)
    (hfresh : createTree n P.digestSizeBytes = Outcome.ok fresh)
    (hT : buildMerkleTree E P fresh (leaves.map some) salt = Outcome.ok T)
    (hsize : size ≤ input.length)
    (hT1 : addMerkleNodes fresh ml ml.length input size = Outcome.ok (true, T1))
    (hT' : verifyMerkleTree E P T1 leaves' salt' = Outcome.ok (true, T'))
    (hroot : T'.nodes[0]? = T.nodes[0]?)
    (hj : leaves[j]? = some d) (hj' : leaves'[j]? = some (some d')) (hne : d ≠ d') :
    ∃ x, 1 ≤ x ∧ x < 2 ^ Nat.clog 2 n ∧ merkleInput T' salt' x ≠ merkleInput T salt x ∧
      H E P HASH_PREFIX_3 (merkleInput T' salt' x) P.digestSizeBytes = H E P HASH_PREFIX_3 (merkleInput T salt x) P.digestSizeBytes := by
  have hn := ceilLog2_le (by omega : 1 ≤ n) h3
  have hcr := createTree_ok (ds := P.digestSizeBytes) (by omega : 1 ≤ n) h3
  rw [← ceilLog2_eq_clog (by omega) h3]
  obtain ⟨D, hD⟩ : ∃ D, D = ceilLog2 n := ⟨_, rfl⟩
  rw [← hD] at hn hcr ⊢
  have hpw : 1 ≤ 2 ^ D := Nat.one_le_two_pow
  have hwf := merkleWF_of hp
  have hD1 : 1 ≤ D := by
    by_contra h
    rw [show D = 0 by omega] at hn
    omega
  have hD2 : 2 ^ 1 ≤ 2 ^ D := Nat.pow_le_pow_right (by omega) hD1
  rw [hcr] at hfresh
  obtain rfl := Outcome.ok.inj hfresh
  have hnem : ∃ y, Present D n ml y := by
    obtain ⟨j, hj, hjl⟩ := exists_not_mem hlen
    exact ⟨2 ^ D + j, ⟨by omega, by omega⟩, fun ⟨h, hh, e⟩ => hjl (by rwa [show j = h by omega])⟩
  obtain ⟨rv, hrun, hnd, hrv⟩ := getRevealedMerkleNodes_ok h2 hn hml hnem
  have hex : ∀ r ∈ rv, exb D n r = true := fun r hr => exb_iff.2 ((hrv r).1 hr).1
  have h0 : 0 ∉ rv := fun h => by have := ((hrv 0).1 h).2.1; omega
  have hld : ∀ j < n, ∃ d, leaves[j]? = some d ∧ P.digestSizeBytes ≤ d.length := fun j hj =>
    ⟨leaves[j], List.getElem?_eq_getElem (by omega), (hll _ (List.getElem_mem _)).ge⟩
  have hlds : ∀ j < n, (leaves[j]?).isSome = true := fun j hj => by obtain ⟨d, e, _⟩ := hld j hj; rw [e]; rfl
  have hldl : ∀ j < n, ∀ d, leaves[j]? = some d → P.digestSizeBytes ≤ d.length := fun j hj d hd => by
    obtain ⟨d', e, h⟩ := hld j hj
    rw [hd] at e; injection e with e; rw [e]; exact h
  have hmap : leaves.map some = arrN n fun j => leaves[j]? := list_eq_arrN (by simpa using hl) fun i hi => by
    rw [List.getElem?_map]
    obtain ⟨d, e, _⟩ := hld i hi
    rw [e]; rfl
  have hmap' : leaves' = arrN n fun j => (leaves'[j]?).join := list_eq_arrN hl' fun i hi => by
    rw [List.getElem?_eq_getElem (by omega)]; rfl
  have hjoin : ∀ (j : ℕ) (d : Buf), (leaves'[j]?).join = some d → leaves'[j]? = some (some d) := by
    intro j d h
    cases h2 : leaves'[j]? with
    | none => rw [h2] at h; simp at h
    | some o => rw [h2] at h; rw [Option.join_some] at h; rw [h]
  rw [hmap, buildMerkleTree_ok hE hwf hn hsalt hldl] at hT
  obtain rfl := Outcome.ok.inj hT
  -- the size of the opening
  have hsz : size = rv.length * P.digestSizeBytes := by
    by_contra hs
    obtain ⟨t, e⟩ := addMerkleNodes_size (input := input) hlen (hrun P.digestSizeBytes _ _) hnd hex h0 hsize hs
    rw [e] at hT1
    simp at hT1
  have hsm : size ≤ INT_MAX := by
    by_contra hs
    unfold addMerkleNodes assertM at hT1
    rw [if_pos (by simpa using hlen), pure_eq_ok, ok_bind, if_pos (by omega)] at hT1
    simp [pure_eq_ok] at hT1
  -- only the first `size` bytes of the input matter
  obtain ⟨inp, hinp⟩ : ∃ inp, inp = input.take size := ⟨_, rfl⟩
  have hinl : inp.length = rv.length * P.digestSizeBytes := by rw [hinp, List.length_take]; omega
  have hT1' : T1 = mkTree D n P.digestSizeBytes (fun i => decide (i ∈ rv)) (inVl P.digestSizeBytes rv inp) := by
    have e : addMerkleNodes (mkTree D n P.digestSizeBytes (fun _ => false) fun _ => zeros P.digestSizeBytes) ml ml.length input size =
        Outcome.ok (true, mkTree D n P.digestSizeBytes (fun i => decide (i ∈ rv)) (inVl P.digestSizeBytes rv inp)) := by
      unfold addMerkleNodes assertM
      rw [if_pos (by simpa using hlen), pure_eq_ok, ok_bind, if_neg (by omega), hrun, ok_bind, if_pos (by simp [containsNode]; intro x hx h; exact h0 (h ▸ hx)), ok_bind]
      refine bind_of (foldlM_set (ds := P.digestSizeBytes) rv (size : ℕ) 0 _ _ hnd (fun r hr => exb_lt (hex r hr)) (by simp) (by rw [hsz]) (by omega)) ?_
      dsimp only
      rw [if_neg (by simp), hsz, sub_self, if_neg (by simp), pure_eq_ok]
      congr 2
      refine mkTree_congr (fun i _ => by simp) fun i _ => ?_
      unfold inVl
      split_ifs with hi
      · have h5 := List.idxOf_lt_length_iff.2 hi
        have h6 : (rv.idxOf i + 1) * P.digestSizeBytes ≤ rv.length * P.digestSizeBytes := Nat.mul_le_mul_right _ h5
        rw [Nat.add_mul, Nat.one_mul] at h6
        rw [Nat.zero_add, hinp, List.drop_take, List.take_take]
        congr 1
        omega
      · rfl
    rw [e] at hT1
    injection hT1 with hT1
    exact (Prod.mk.inj hT1).2.symm
  subst hT1'
  have hldv : ∀ j < n, ∀ d, (leaves'[j]?).join = some d → P.digestSizeBytes ≤ d.length ∧ 2 ^ D - 1 + j ∉ rv := by
    intro j hj d hd
    obtain ⟨h1, h2⟩ := hll' j d (hjoin j d hd)
    refine ⟨h1.ge, fun hr => ((hrv _).1 hr).2.2.1 (up_self ⟨⟨by omega, by omega⟩, ?_⟩)⟩
    rintro ⟨h, hh, e⟩
    exact h2 (by rwa [show j = h by omega])
  rw [hmap', verifyMerkleTree_ok hE hwf (by omega) hn hsalt' hldv hinl] at hT'
  injection hT' with hT'
  obtain ⟨hhave, rfl⟩ := Prod.mk.inj hT'
  rw [mkTree_nodes, mkTree_nodes, if_pos (by omega), if_pos (by omega), Option.some.injEq] at hroot
  have hbl : ∀ r, (bVl E P salt D n (fun j => leaves[j]?) r).length = P.digestSizeBytes := fun r =>
    mvl_length (fun i => leafVl_length (by simp) hldl) r
  have hvl : ∀ r, (vVl E P salt' D n rv inp (fun j => (leaves'[j]?).join) r).length = P.digestSizeBytes := fun r =>
    mvl_length (fun i => leafVl_length (fun i => inVl_length hinl.ge i) fun j hj d hd => (hldv j hj d hd).1) r
  have hrx := exb_root (by omega : 1 ≤ n) hn
  have hchild : ∀ i, i < 2 ^ D - 1 → exb D n i = true → 2 * i + 1 < 2 ^ D - 1 + n := fun i h1 h2 => exb_lt (exb_child hn h1 h2)
  by_cases hss : salt' = salt
  · subst hss
    have hjn : j < n := by
      by_contra h
      rw [List.getElem?_eq_none (by omega)] at hj
      simp at hj
    have hjl := (hll' j d' hj').2
    have e0 : (2 ^ D + j) / 2 ^ D - 1 = 0 := by
      have hr := div_pow_range (D := D) (k := D) (y := 2 ^ D + j) le_rfl (by omega) (by rw [pow_succ]; omega)
      rw [Nat.sub_self] at hr
      omega
    have hb := verify_binding (E := E) (P := P) (salt := salt') hn hld (fun j hj d hd => (hldv j hj d hd).1) hrv hinl hjn hjl D le_rfl
      (by rw [e0]; exact hhave) (by rw [e0]; exact hroot)
    rcases hb with hb | ⟨i, hi, hix, hne2, heq⟩
    · exfalso
      rw [vVl, bVl, mvl_leaf (by omega), mvl_leaf (by omega), leafVl, leafVl, if_pos (by omega), if_pos (by omega),
        show 2 ^ D + j - 1 - (2 ^ D - 1) = j by omega, hj', hj] at hb
      simp only [Option.join_some, Option.map_some, Option.getD_some] at hb
      rw [List.take_of_length_le (hll' j d' hj').1.le, List.take_of_length_le (hll d (List.mem_of_getElem? hj)).le] at hb
      exact hne hb.symm
    · refine ⟨i + 1, by omega, by omega, ?_, ?_⟩
      · rw [merkleInput_mk (hchild i hi hix), merkleInput_mk (hchild i hi hix)]; exact hne2
      · rw [merkleInput_mk (hchild i hi hix), merkleInput_mk (hchild i hi hix)]; exact heq
  · -- different salts: collision at the root
    have hin0 : 0 < 2 ^ D - 1 := by omega
    have hleafHv : leafHv D (fun i => decide (i ∈ rv)) (fun j => (leaves'[j]?).join) n 0 = false := by
      unfold leafHv
      beta_reduce
      rw [decide_eq_false h0, decide_eq_false (by omega)]; rfl
    have hv2 := hhave
    unfold vHv at hv2
    rw [mhv_inner hin0, hleafHv, hrx, Bool.false_or, Bool.true_and] at hv2
    have hve : vVl E P salt' D n rv inp (fun j => (leaves'[j]?).join) 0 = H E P HASH_PREFIX_3 (nodeInput D n salt' 0
        (vVl E P salt' D n rv inp (fun j => (leaves'[j]?).join) (2 * 0 + 1)) (vVl E P salt' D n rv inp (fun j => (leaves'[j]?).join) (2 * 0 + 2))) P.digestSizeBytes := by
      conv_lhs => rw [vVl, mvl_inner hin0]
      rw [hleafHv, if_neg (by simp), hrx, hv2, if_pos (by simp)]
      rfl
    rw [hve, bVl_inner hn hlds hin0 hrx] at hroot
    refine ⟨0 + 1, by omega, by omega, ?_, ?_⟩
    · rw [merkleInput_mk (hchild 0 hin0 hrx), merkleInput_mk (hchild 0 hin0 hrx)]
      intro h
      unfold nodeInput at h
      have h5 := (List.append_inj h (by
        have := congrArg List.length h
        simp only [List.length_append, le16_length] at this ⊢
        omega)).1
      have h6 := (List.append_inj' h5 (by rw [hsalt, hsalt'])).2
      exact hss h6
    · rw [merkleInput_mk (hchild 0 hin0 hrx), merkleInput_mk (hchild 0 hin0 hrx)]; exact hroot

/-- Non-vacuity of C27 and C28: Picnic3_L1, a tree with 5 leaves of which 1 and 3 are missing. -/
theorem C27_example : ∃ P T root, getParamSet 7 = some P ∧ createTree 5 P.digestSizeBytes >>= (fun fresh => buildMerkleTree exEnv P fresh
    (List.replicate 5 (some (zeros 32))) (zeros 32)) = Outcome.ok T ∧ T.nodes[0]? = some root ∧ root.length = 32 := by
  obtain ⟨P, hP⟩ : ∃ P, getParamSet 7 = some P := ⟨_, rfl⟩
  have e1 : P.digestSizeBytes = 32 := by injection hP with h; subst h; rfl
  have e2 : P.saltSizeBytes = 32 := by injection hP with h; subst h; rfl
  obtain ⟨fresh, T, h1, h2, _, h4⟩ := C27_tree (E := exEnv) (p := 7) (n := 5) (salt := zeros 32) (leaves := List.replicate 5 (zeros 32))
    exEnv_wf.perm hP (by decide) (by decide) (by rw [e2]; simp) (by simp) (by intro d hd; rw [e1, List.eq_of_mem_replicate hd]; simp)
  refine ⟨P, T, _, hP, ?_, h4 1 le_rfl (by decide) ?_, by simp [e1]⟩
  · rw [h1, ok_bind, ← h2, List.map_replicate]
  · exact (up_root (leaf_atDepth (by decide))).2 ⟨8, by decide, by decide⟩

/-- Non-vacuity of C28: with a hash function that always returns zeros, a wrong second leaf is accepted with the same root. -/
theorem C28_example : ((getParamSet 7).map fun P => (do
    let fresh ← createTree 2 P.digestSizeBytes
    let T ← buildMerkleTree zeroEnv P fresh [some (zeros 32), some (zeros 32)] (zeros 32)
    let (data, size) ← openMerkleTree zeroEnv T [0] 1
    let (b1, T1) ← addMerkleNodes fresh [0] 1 data size
    let (b2, T') ← verifyMerkleTree zeroEnv P T1 [none, some (List.replicate 32 1)] (zeros 32)
    pure (b1 && b2 && T'.nodes[0]? == T.nodes[0]?) : M Bool)) = some (Outcome.ok true) := by
  decide +kernel

/-! ### C29 -/

/-- Sizes of openings, for every tree: hiding the leaves `l` of a seed tree with n leaves takes at most
1 - |l| + Σ_ℓ min(2^ℓ, |l|) seeds, and so does opening exactly the leaves `l` of a Merkle tree in digests. -/
theorem C29_general {P : Params} {n : ℕ} {l ml : List ℕ} (h2 : 2 ≤ n) (h3 : n < 2 ^ 32) (hl : ∀ h ∈ l, h < n) (hnd : l.Nodup) (hne : l ≠ [])
    (hml : ∀ j < n, j ∈ ml ↔ j ∉ l) (hmln : ∀ h ∈ ml, h < n) :
    (∃ k, revealSeedsSize P n l l.length = Outcome.ok (k * P.seedSizeBytes) ∧
      k + l.length ≤ 1 + ∑ ℓ ∈ Finset.range (Nat.clog 2 n), min (2 ^ ℓ) l.length) ∧
    ∃ k, openMerkleTreeSize P n ml ml.length = Outcome.ok (k * P.digestSizeBytes) ∧
      k + l.length ≤ 1 + ∑ ℓ ∈ Finset.range (Nat.clog 2 n), min (2 ^ ℓ) l.length := by
  have hn := ceilLog2_le (by omega : 1 ≤ n) h3
  rw [← ceilLog2_eq_clog (by omega) h3]
  have hD1 : 1 ≤ ceilLog2 n := by
    by_contra h
    rw [show ceilLog2 n = 0 by omega] at hn
    omega
  obtain ⟨rv, hrun, hrnd, hrv⟩ := getRevealedNodes_ok hD1 (by omega) hn hl
  have hpp := present_picked (D := ceilLog2 n) hl hml
  have hpre : ∃ y, Present (ceilLog2 n) n ml y := by
    obtain ⟨a, l', rfl⟩ := List.exists_cons_of_ne_nil hne
    rw [hpp]
    exact ⟨_, a, by simp, rfl⟩
  obtain ⟨rv', hrun', hrnd', hrv'⟩ := getRevealedMerkleNodes_ok h2 hn hmln hpre
  rw [hpp] at hrv'
  exact ⟨⟨_, revealSeedsSize_ok (by omega) h3 hrun, rev_bound (by omega) hn hl hnd hne hrnd hrv⟩,
    ⟨_, openMerkleTreeSize_ok (by omega) h3 hrun', top_bound hn hl hnd hne hrnd' hrv'⟩⟩

/-- C29.  For the Picnic3 parameter sets: hiding any u of the T leaves of the seed tree, or opening any u of the T leaves of the
Merkle tree, takes at most u·⌈log2⌈T/u⌉⌉ nodes; hiding one of 16 leaves takes exactly 4 nodes. -/
theorem C29_opening_sizes {p : ℕ} {P : Params} {l ml : List ℕ} (hp : getParamSet p = some P) (h7 : 7 ≤ p ∧ p ≤ 9)
    (hl : ∀ h ∈ l, h < P.numMPCRounds) (hnd : l.Nodup) (hu : l.length = P.numOpenedRounds)
    (hml : ∀ j < P.numMPCRounds, j ∈ ml ↔ j ∉ l) (hmln : ∀ h ∈ ml, h < P.numMPCRounds) :
    (∃ k, revealSeedsSize P P.numMPCRounds l l.length = Outcome.ok (k * P.seedSizeBytes) ∧
      k ≤ P.numOpenedRounds * Nat.clog 2 ((P.numMPCRounds + P.numOpenedRounds - 1) / P.numOpenedRounds)) ∧
    (∃ k, openMerkleTreeSize P P.numMPCRounds ml ml.length = Outcome.ok (k * P.digestSizeBytes) ∧
      k ≤ P.numOpenedRounds * Nat.clog 2 ((P.numMPCRounds + P.numOpenedRounds - 1) / P.numOpenedRounds)) ∧
    ∀ h < P.numMPCParties, revealSeedsSize P P.numMPCParties [h] 1 = Outcome.ok (4 * P.seedSizeBytes) := by
  have hb : 2 ≤ P.numMPCRounds ∧ P.numMPCRounds < 2 ^ 32 ∧ 1 ≤ P.numOpenedRounds ∧ P.numMPCParties = 16 ∧
      1 + ∑ ℓ ∈ Finset.range (Nat.clog 2 P.numMPCRounds), min (2 ^ ℓ) P.numOpenedRounds ≤
      P.numOpenedRounds * Nat.clog 2 ((P.numMPCRounds + P.numOpenedRounds - 1) / P.numOpenedRounds) + P.numOpenedRounds := by
    clear * - hp h7
    obtain ⟨h1, h2⟩ := h7
    interval_cases p <;> (injection hp with h; subst h; decide)
  obtain ⟨hT, hT2, hu1, h16, hsum⟩ := hb
  obtain ⟨⟨k, hk, hkb⟩, ⟨k', hk', hkb'⟩⟩ := C29_general (P := P) hT hT2 hl hnd (by intro h; rw [h] at hu; simp at hu; omega) hml hmln
  rw [hu] at hkb hkb'
  refine ⟨⟨k, hk, by omega⟩, ⟨k', hk', by omega⟩, fun h hh => ?_⟩
  rw [h16] at hh ⊢
  clear * - hh
  obtain ⟨rv, hrun, hrnd, hrv⟩ := getRevealedNodes_ok (D := 4) (n := 16) (l := [h]) (by decide) (by decide) (by decide) (by simpa using hh)
  have hlen : rv.length = 4 := by
    have key : ∀ h < 16, (match (createTree 16 0 >>= fun t => getRevealedNodes t [h] 1) with
        | Outcome.ok rv => rv.length
        | _ => 0) = 4 := by decide +kernel
    have := key h hh
    rw [createTree_ok (by decide) (by decide), ok_bind] at this
    have h4 : getRevealedNodes (mkTree (ceilLog2 16) 16 0 (fun _ => false) fun _ => zeros 0) [h] 1 = Outcome.ok rv := hrun 0 _ _
    rwa [h4] at this
  have := revealSeedsSize_ok (P := P) (n := 16) (l := [h]) (rv := rv) (by decide) (by decide) hrun
  rwa [hlen] at this

/-- Non-vacuity of C29: hiding the first 36 of the 250 leaves. -/
theorem C29_example : ∃ P : Params, ∃ l ml : List ℕ, getParamSet 7 = some P ∧ (∀ h ∈ l, h < P.numMPCRounds) ∧ l.Nodup ∧
    l.length = P.numOpenedRounds ∧ (∀ j < P.numMPCRounds, j ∈ ml ↔ j ∉ l) ∧ ∀ h ∈ ml, h < P.numMPCRounds := by
  refine ⟨_, List.range 36, (List.range 214).map (· + 36), rfl, ?_, List.nodup_range, rfl, ?_, ?_⟩
  · intro h hh; rw [List.mem_range] at hh; change h < 250; omega
  · intro j hj
    change j < 250 at hj
    simp only [List.mem_map, List.mem_range]
    exact ⟨fun ⟨a, ha, e⟩ => by omega, fun h => ⟨j - 36, by omega, by omega⟩⟩
  · intro h hh
    simp only [List.mem_map, List.mem_range] at hh
    obtain ⟨a, ha, rfl⟩ := hh
    change a + 36 < 250
    omega

end Picnic
