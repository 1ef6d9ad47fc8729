import Verif.Proofs.Conf3

/-
The trees of Picnic3 in terms of Verif/Spec/Picnic3.lean.
-/

namespace Picnic

open Spec Spec.Challenge Spec.Tree Spec.Picnic3 Finset
open Spec.Picnic1 (toBits int16)

variable {E : Env} {P : Params} {salt root input : Buf} {rep D n : ℕ} {l : List ℕ} {s : ℕ → Buf}

/-! ### seed trees -/

theorem child_iff {x : ℕ} (hx : 2 ≤ x) : (inst3 E P).Child salt rep s x ↔ s x = fromParent E P salt rep (x - 1) (s (x / 2)) := by
  have e : (inst3 E P).hash ([1] ++ s (x / 2) ++ salt ++ int16 rep ++ int16 (x / 2 - 1)) (2 * (inst3 E P).seed) =
      childSeeds E P salt rep (x / 2 - 1) (s (x / 2)) := by
    rw [childSeeds, ← inst3_hash1 (by decide), int16_eq, int16_eq]
    simp only [List.append_assoc]
    rfl
  unfold Picnic3.Inst.Child fromParent
  rw [e, show (x - 1 - 1) / 2 = x / 2 - 1 by omega]
  by_cases h : (x - 1) % 2 = 1
  · rw [if_pos h, show x % 2 = 0 by omega, Nat.zero_mul, List.drop_zero]; rfl
  · rw [if_neg h, show x % 2 = 1 by omega, Nat.one_mul]; rfl

theorem seedTree_val (hn : n ≤ 2 ^ D) (h : (inst3 E P).SeedTree salt rep D n root s) :
    ∀ x, Node D n x → s x = seedVl E P salt rep root D n (x - 1) := by
  intro x
  induction x using Nat.strong_induction_on with
  | _ x ih =>
    intro hx
    have h1 := up_pos (leaf_atDepth hn) hx
    rw [seedVl, if_pos (exb_iff.2 (by rwa [Nat.sub_add_cancel h1]))]
    by_cases hx2 : 2 ≤ x
    · have hp := up_parent (leaf_atDepth hn) hx hx2
      have hp1 := up_pos (leaf_atDepth hn) hp
      rw [(child_iff hx2).1 (h.2 x hx2 hx), ih _ (by omega) hp, seedAt_pos _ _ _ _ _ (by omega : x - 1 ≠ 0), seedVl,
        if_pos (exb_iff.2 (by rwa [Nat.sub_add_cancel hp1])), show (x - 1 - 1) / 2 = x / 2 - 1 by omega]
    · rw [show x = 1 by omega, h.1, seedAt_zero]

theorem seedTree_mk (hn1 : 1 ≤ n) (hn : n ≤ 2 ^ D) : (inst3 E P).SeedTree salt rep D n root fun x => seedVl E P salt rep root D n (x - 1) := by
  refine ⟨by
    change seedVl E P salt rep root D n 0 = root
    rw [seedVl, if_pos (exb_root hn1 hn), seedAt_zero], fun x hx2 hx => (child_iff hx2).2 ?_⟩
  have h1 := up_pos (leaf_atDepth hn) hx
  have hp := up_parent (leaf_atDepth hn) hx hx2
  have hp1 := up_pos (leaf_atDepth hn) hp
  rw [seedVl, if_pos (exb_iff.2 (by rwa [Nat.sub_add_cancel h1])), seedAt_pos _ _ _ _ _ (by omega : x - 1 ≠ 0), seedVl,
    if_pos (exb_iff.2 (by rwa [Nat.sub_add_cancel hp1])), show (x - 1 - 1) / 2 = x / 2 - 1 by omega]

theorem inVl_flatMap {ds : ℕ} {vl : ℕ → Buf} {rv : List ℕ} (h : ∀ r ∈ rv, (vl r).length = ds) {i : ℕ} (hi : i ∈ rv) : inVl ds rv (rv.flatMap vl) i = vl i := by
  have := flatMap_block h hi []
  rw [List.append_nil] at this
  rw [inVl, if_pos hi, this]

theorem flatMap_inVl {ds : ℕ} : ∀ {rv : List ℕ} {input : Buf}, rv.Nodup → input.length = rv.length * ds → rv.flatMap (inVl ds rv input) = input := by
  have key : ∀ {rv : List ℕ} {input : Buf}, rv.Nodup → input.length = rv.length * ds →
      (rv.flatMap fun r => (input.drop (rv.idxOf r * ds)).take ds) = input := by
    intro rv
    induction rv with
    | nil => intro input _ h; simp at h; simp [h]
    | cons a rv ih =>
      intro input hnd h
      rw [List.nodup_cons] at hnd
      rw [List.length_cons, Nat.add_mul, Nat.one_mul] at h
      have hi := ih (input := input.drop ds) hnd.2 (by rw [List.length_drop]; omega)
      rw [List.flatMap_cons, List.idxOf_cons_self, Nat.zero_mul, List.drop_zero]
      conv_rhs => rw [← List.take_append_drop ds input, ← hi]
      refine congrArg _ (List.flatMap_congr fun r hr => ?_)
      have hne : a ≠ r := fun e => hnd.1 (e ▸ hr)
      rw [List.idxOf_cons_ne _ hne, List.drop_drop, Nat.succ_mul, Nat.add_comm]
  intro rv input hnd h
  conv_rhs => rw [← key hnd h]
  exact List.flatMap_congr fun r hr => by rw [inVl, if_pos hr]

/-- Facts about the revealed nodes. -/
theorem revealed_facts (hD : 1 ≤ D) (hn1 : 1 ≤ n) (hn : n ≤ 2 ^ D) (hl : ∀ h ∈ l, h < n) {x : ℕ} (hx : x ∈ revealed D n l) :
    2 ≤ x ∧ Node D n x ∧ x - 1 ∈ revN D n l ∧ Rev D n (Picked D l) x := by
  obtain ⟨-, hnd, hrv⟩ := revN_spec hD hn1 hn hl
  have h := (revealed_mem hD hn1 hn hl).1 hx
  have hr := (hrv _).1 h.2
  rw [Nat.sub_add_cancel h.1] at hr
  have := rev_node hn1 hn (picked_atDepth hn hl) hr
  exact ⟨this.2.1, this.1, h.2, hr⟩

theorem revealed_flatMap (hD : 1 ≤ D) (hn1 : 1 ≤ n) (hn : n ≤ 2 ^ D) (hl : ∀ h ∈ l, h < n) :
    (revealed D n l).flatMap s = (revN D n l).flatMap fun r => s (r + 1) := by
  rw [revN_eq hD hn1 hn hl, List.flatMap_map]
  refine List.flatMap_congr fun x hx => ?_
  have := (revealed_facts hD hn1 hn hl hx).1
  rw [Nat.sub_add_cancel (by omega)]

theorem revN_mem (hD : 1 ≤ D) (hn1 : 1 ≤ n) (hn : n ≤ 2 ^ D) (hl : ∀ h ∈ l, h < n) {r : ℕ} : r ∈ revN D n l ↔ r + 1 ∈ revealed D n l := by
  rw [revealed_mem hD hn1 hn hl, Nat.add_sub_cancel]
  exact ⟨fun h => ⟨by omega, h⟩, fun h => h.2⟩

theorem partial_val (hD : 1 ≤ D) (hn1 : 1 ≤ n) (hn : n ≤ 2 ^ D) (hl : ∀ h ∈ l, h < n) (h : (inst3 E P).PartialTree salt rep D n l s)
    (hi : input = (revealed D n l).flatMap s) : ∀ x k, Node D n x → x / 2 ^ k ∈ revealed D n l → s x = recS E P salt rep D n l input (x - 1) := by
  have hlen : ∀ r ∈ revN D n l, (s (r + 1)).length = P.seedSizeBytes := fun r hr => h.1 _ ((revN_mem hD hn1 hn hl).1 hr)
  intro x
  induction x using Nat.strong_induction_on with
  | _ x ih =>
    intro k hx hk
    have h1 := up_pos (leaf_atDepth hn) hx
    unfold recS
    by_cases hr : x ∈ revealed D n l
    · have hf := revealed_facts hD hn1 hn hl hr
      rw [vlX_pos _ _ _ _ _ _ _ (by omega), if_pos (decide_eq_true hf.2.2.1), hi, revealed_flatMap hD hn1 hn hl, inVl_flatMap hlen hf.2.2.1,
        Nat.sub_add_cancel h1]
    · have hk0 : k ≠ 0 := by rintro rfl; rw [pow_zero, Nat.div_one] at hk; exact hr hk
      obtain ⟨k, rfl⟩ : ∃ k', k = k' + 1 := ⟨k - 1, by omega⟩
      have e : x / 2 ^ (k + 1) = x / 2 / 2 ^ k := by rw [pow_succ', Nat.div_div_eq_div_mul]
      have hf := revealed_facts hD hn1 hn hl hk
      rw [e] at hk hf
      have hx2 : 2 ≤ x := by
        have := Nat.div_le_self (x / 2) (2 ^ k)
        omega
      have hp := up_parent (leaf_atDepth hn) hx hx2
      have hp1 := up_pos (leaf_atDepth hn) hp
      have hex : exb D n (x - 1) = true := exb_iff.2 (by rwa [Nat.sub_add_cancel h1])
      have hexp : exb D n (x / 2 - 1) = true := exb_iff.2 (by rwa [Nat.sub_add_cancel hp1])
      have hb := hvX_below (rv := revN D n l) hn k (x / 2 - 1) hexp (by rw [Nat.sub_add_cancel hp1]; omega) (by rw [Nat.sub_add_cancel hp1]; exact hf.2.2.1)
      have hnr : x - 1 ∉ revN D n l := fun hh => hr (by have := (revN_mem hD hn1 hn hl).1 hh; rwa [Nat.sub_add_cancel h1] at this)
      rw [vlX_pos _ _ _ _ _ _ _ (by omega), if_neg (by simpa using hnr), show (x - 1 - 1) / 2 = x / 2 - 1 by omega, hex, hb, if_pos (by rfl),
        (child_iff hx2).1 (h.2 x hx ⟨k + 1, by omega, by rwa [e]⟩), ih _ (by omega) k hp hk]
      rfl

theorem partial_mk (hD : 1 ≤ D) (hn1 : 1 ≤ n) (hn : n ≤ 2 ^ D) (hl : ∀ h ∈ l, h < n) (hi : input.length = (revN D n l).length * P.seedSizeBytes) :
    (inst3 E P).PartialTree salt rep D n l (fun x => recS E P salt rep D n l input (x - 1)) ∧
      ((revealed D n l).flatMap fun x => recS E P salt rep D n l input (x - 1)) = input := by
  obtain ⟨-, hnd, hrv⟩ := revN_spec hD hn1 hn hl
  refine ⟨⟨fun x _ => recS_length hi.ge _, ?_⟩, ?_⟩
  · rintro x hx ⟨k, hk0, hk⟩
    obtain ⟨k, rfl⟩ : ∃ k', k = k' + 1 := ⟨k - 1, by omega⟩
    have e : x / 2 ^ (k + 1) = x / 2 / 2 ^ k := by rw [pow_succ', Nat.div_div_eq_div_mul]
    have hf := revealed_facts hD hn1 hn hl hk
    have hx2 : 2 ≤ x := by
      have := Nat.div_le_self x (2 ^ (k + 1))
      omega
    have hnr' : x ∉ revealed D n l := fun hr => by
      have hf2 := revealed_facts hD hn1 hn hl hr
      have := rev_anti (picked_atDepth hn hl) hf2.2.2.2 hf.2.2.2 (y := x) (a := 0) (b := k + 1) (by simp) rfl
      have h3 : x / 2 / 2 ^ k ≤ x / 2 := Nat.div_le_self _ _
      rw [← e, ← this] at h3
      omega
    have h1 : 1 ≤ x := by omega
    have hnr : x - 1 ∉ revN D n l := fun hh => hnr' (by have := (revN_mem hD hn1 hn hl).1 hh; rwa [Nat.sub_add_cancel h1] at this)
    rw [e] at hk hf
    have hp := up_parent (leaf_atDepth hn) hx hx2
    have hp1 := up_pos (leaf_atDepth hn) hp
    have hex : exb D n (x - 1) = true := exb_iff.2 (by rwa [Nat.sub_add_cancel h1])
    have hexp : exb D n (x / 2 - 1) = true := exb_iff.2 (by rwa [Nat.sub_add_cancel hp1])
    have hb := hvX_below (rv := revN D n l) hn k (x / 2 - 1) hexp (by rw [Nat.sub_add_cancel hp1]; omega) (by rw [Nat.sub_add_cancel hp1]; exact hf.2.2.1)
    refine (child_iff hx2).2 ?_
    conv_lhs => rw [recS, vlX_pos _ _ _ _ _ _ _ (show x - 1 ≠ 0 by omega)]
    rw [if_neg (by simpa using hnr), show (x - 1 - 1) / 2 = x / 2 - 1 by omega, hex, hb, if_pos (by rfl)]
    rfl
  · rw [revealed_flatMap hD hn1 hn hl]
    conv_rhs => rw [← flatMap_inVl hnd hi]
    refine List.flatMap_congr fun r hr => ?_
    have hf := revealed_facts hD hn1 hn hl ((revN_mem hD hn1 hn hl).1 hr)
    rw [Nat.add_sub_cancel, recS, vlX_pos _ _ _ _ _ _ _ (show r ≠ 0 by omega), if_pos (decide_eq_true hr)]

/-- Every leaf that is not hidden lies below a revealed node. -/
theorem revealed_cover (hD : 1 ≤ D) (hn1 : 1 ≤ n) (hn : n ≤ 2 ^ D) (hl : ∀ h ∈ l, h < n) (hne : l ≠ []) {j : ℕ} (hj : j < n) (hjl : j ∉ l) :
    ∃ k, (2 ^ D + j) / 2 ^ k ∈ revealed D n l := by
  obtain ⟨-, hnd, hrv⟩ := revN_spec hD hn1 hn hl
  obtain ⟨k, hk, hkr⟩ := rev_cover hn1 hn (picked_atDepth hn hl) (by
    obtain ⟨a, l', rfl⟩ := List.exists_cons_of_ne_nil hne
    exact ⟨_, a, by simp, rfl⟩) (show Leaf D n (2 ^ D + j) from ⟨by omega, by omega⟩) (fun ⟨h, hh, e⟩ => hjl (by rwa [show j = h by omega]))
  have h2 := (rev_node hn1 hn (picked_atDepth hn hl) hkr).2.1
  exact ⟨k, (revealed_mem hD hn1 hn hl).2 ⟨by omega, (hrv _).2 (by rwa [Nat.sub_add_cancel (by omega)])⟩⟩

/-! ### Merkle trees -/

theorem vVl_path {ld : ℕ → Option Buf} {rv : List ℕ} (hn : n ≤ 2 ^ D) (hld : ∀ j < n, j ∉ l → (ld j).isSome = true)
    (hrv : ∀ r, r ∈ rv ↔ Top D n (Present D n l) (r + 1)) (i : ℕ) (h : Up D (Present D n l) (i + 1)) :
    vHv D n rv ld i = true ∧ (i < 2 ^ D - 1 → vVl E P salt D n rv input ld i =
      H E P HASH_PREFIX_3 (nodeInput D n salt i (vVl E P salt D n rv input ld (2 * i + 1)) (vVl E P salt D n rv input ld (2 * i + 2))) P.digestSizeBytes) := by
  have hS := present_atDepth (l := l) hn
  induction hk : 2 ^ D - 1 - i using Nat.strong_induction_on generalizing i with
  | _ k ih =>
    have hi : exb D n i = true := exb_iff.2 (up_mono (fun y h => h.1) h)
    have hr : i ∉ rv := fun hr => ((hrv i).1 hr).2.2.1 h
    by_cases hin2 : i < 2 ^ D - 1
    · have hleafHv : leafHv D (fun i => decide (i ∈ rv)) ld n i = false := by
        unfold leafHv
        beta_reduce
        rw [decide_eq_false hr, decide_eq_false (by omega)]; rfl
      have child : ∀ c, 2 ^ D - 1 - c < k → (c + 1) / 2 = i + 1 → exb D n c = true → vHv D n rv ld c = true := by
        intro c hck hc hx
        by_cases hcu : Up D (Present D n l) (c + 1)
        · exact (ih _ hck c hcu rfl).1
        · have hcr : c ∈ rv := (hrv c).2 ⟨exb_iff.1 hx, by omega, hcu, by rw [hc]; exact h⟩
          have : leafHv D (fun i => decide (i ∈ rv)) ld n c = true := by unfold leafHv; simp [hcr]
          unfold vHv
          by_cases hci : c < 2 ^ D - 1
          · rw [mhv_inner hci, this]; rfl
          · rw [mhv_leaf hci, this]
      have hl := child _ (by omega) (by omega) (exb_child hn hin2 hi)
      have hcond : (exb D n i && (mhv D n (leafHv D (fun i => decide (i ∈ rv)) ld n) (2 * i + 1) &&
          (!exb D n (2 * i + 2) || mhv D n (leafHv D (fun i => decide (i ∈ rv)) ld n) (2 * i + 2)))) = true := by
        unfold vHv at hl
        rw [hi, hl]
        by_cases hr2 : exb D n (2 * i + 2) = true
        · have := child _ (by omega) (by omega) hr2
          unfold vHv at this
          rw [this]; simp
        · simp [hr2]
      refine ⟨?_, fun _ => ?_⟩
      · unfold vHv
        rw [mhv_inner hin2, hcond, Bool.or_true]
      · conv_lhs => rw [vVl, mvl_inner hin2]
        rw [hleafHv, hcond, if_neg (by simp), if_pos rfl]
        rfl
    · refine ⟨?_, fun h => absurd h hin2⟩
      rw [up_leaf hS (by omega)] at h
      have hlt := exb_lt hi
      have hp : 1 ≤ 2 ^ D := Nat.one_le_two_pow
      have hnl : i - (2 ^ D - 1) ∉ l := fun hl => h.2 ⟨_, hl, by omega⟩
      unfold vHv
      rw [mhv_leaf hin2, leafHv, hld _ (by omega) hnl, decide_eq_true (show 2 ^ D - 1 ≤ i ∧ i < 2 ^ D - 1 + n by omega)]; simp

theorem vVl_opened {ld : ℕ → Option Buf} {rv : List ℕ} (hn : n ≤ 2 ^ D) (hld : ∀ j < n, j ∈ l → ld j = none)
    (hrv : ∀ r, r ∈ rv ↔ Top D n (Present D n l) (r + 1)) {i : ℕ} (h : i ∈ rv) :
    vVl E P salt D n rv input ld i = inVl P.digestSizeBytes rv input i := by
  have ht := (hrv i).1 h
  have hlt := exb_lt (exb_iff.2 ht.1)
  have hp : 1 ≤ 2 ^ D := Nat.one_le_two_pow
  unfold vVl
  by_cases hin2 : i < 2 ^ D - 1
  · rw [mvl_inner hin2, if_pos (by unfold leafHv; simp [h]), leafVl, if_neg (by omega)]
  · rw [mvl_leaf hin2, leafVl, if_pos (by omega), hld _ (by omega)]
    · rfl
    · by_contra hnl
      exact ht.2.2.1 (up_self ⟨⟨by omega, by omega⟩, fun ⟨h, hh, e⟩ => hnl (by rwa [show i - (2 ^ D - 1) = h by omega])⟩)

theorem vVl_leaf {ld : ℕ → Option Buf} {rv : List ℕ} {j : ℕ} {d : Buf} (hj : j < n) (hd : ld j = some d) (hdl : d.length = P.digestSizeBytes) :
    vVl E P salt D n rv input ld (2 ^ D - 1 + j) = d := by
  unfold vVl
  rw [mvl_leaf (by omega), leafVl, if_pos (by omega), Nat.add_sub_cancel_left, hd, Option.map_some, Option.getD_some, List.take_of_length_le hdl.le]

theorem vVl_absent {ld : ℕ → Option Buf} {rv : List ℕ} (hn : n ≤ 2 ^ D) (hrv : ∀ r, r ∈ rv ↔ Top D n (Present D n l) (r + 1)) {i : ℕ}
    (h : ¬ Node D n (i + 1)) : vVl E P salt D n rv input ld i = zeros P.digestSizeBytes := by
  have he : exb D n i = false := by rw [← Bool.not_eq_true, exb_iff]; exact h
  rw [vVl, mvl_out he, leafVl_out hn he, inVl, if_neg fun hr => h ((hrv i).1 hr).1]

theorem msgDigest_length {v : Round} : ((inst3 E P).msgDigest v).length = P.digestSizeBytes := by
  unfold Picnic3.Inst.msgDigest
  rw [inst3_hash]
  exact H_length _ _ _ _ _

theorem merkleNode_iff (hT : D = (inst3 E P).depth) {h : ℕ → Buf} {x : ℕ} (hx : 1 ≤ x) : (inst3 E P).MerkleNode salt h x ↔
    h x = H E P HASH_PREFIX_3 (nodeInput D P.numMPCRounds salt (x - 1) (h (2 * x)) (h (2 * x + 1))) P.digestSizeBytes := by
  have hp : 1 ≤ 2 ^ D := Nat.one_le_two_pow
  unfold Picnic3.Inst.MerkleNode nodeInput
  rw [← inst3_hash1 (by decide), int16_eq, ← hT]
  have e : (2 * (x - 1) + 2 < 2 ^ D - 1 + P.numMPCRounds) ↔ (2 * x + 1 < 2 ^ D + (inst3 E P).T) := by
    change _ ↔ 2 * x + 1 < 2 ^ D + P.numMPCRounds
    omega
  rw [if_congr e rfl rfl]
  simp only [List.append_assoc]
  rfl

theorem up_spec (hn : n ≤ 2 ^ D) {S : ℕ → Prop} {l : List ℕ} (hS : ∀ t < n, S t ↔ t ∉ l) {x : ℕ} (hx : 1 ≤ x) :
    (∃ t < n, S t ∧ ∃ k, (2 ^ D + t) / 2 ^ k = x) ↔ Up D (Present D n l) x := by
  constructor
  · rintro ⟨t, ht, hS', k, e⟩
    refine ⟨2 ^ D + t, k, ⟨⟨by omega, by omega⟩, fun ⟨h, hh, e⟩ => (hS t ht).1 hS' (by rwa [show t = h by omega])⟩, ?_, e⟩
    by_contra hk
    have : 2 ^ (D + 1) ≤ 2 ^ k := Nat.pow_le_pow_right (by omega) (by omega)
    rw [pow_succ] at this
    rw [Nat.div_eq_of_lt (by omega)] at e
    omega
  · rintro ⟨y, k, ⟨⟨h1, h2⟩, h3⟩, -, e⟩
    have hy : 2 ^ D + (y - 2 ^ D) = y := by omega
    exact ⟨y - 2 ^ D, by omega, (hS _ (by omega)).2 fun h => h3 ⟨_, h, by omega⟩, k, by rw [hy]; exact e⟩

/-- A Merkle tree of the specification is the one that verification computes. -/
theorem merkle_val {S : ℕ → Prop} {h : ℕ → Buf} {v : ℕ → Round} {ld : ℕ → Option Buf} {rv : List ℕ} (hT : D = (inst3 E P).depth)
    (hn : P.numMPCRounds ≤ 2 ^ D) (hS : ∀ t < P.numMPCRounds, S t ↔ t ∉ l) (hld : ∀ t < P.numMPCRounds, t ∉ l → ld t = some ((inst3 E P).msgDigest (v t)))
    (hld2 : ∀ t < P.numMPCRounds, t ∈ l → ld t = none)
    (hrv : ∀ r, r ∈ rv ↔ Top D P.numMPCRounds (Present D P.numMPCRounds l) (r + 1)) (hlen : ∀ r ∈ rv, (h (r + 1)).length = P.digestSizeBytes)
    (hm : (inst3 E P).Merkle salt v S h) (hi : input = rv.flatMap fun r => h (r + 1)) (i : ℕ)
    (hu : Up D (Present D P.numMPCRounds l) (i + 1)) : h (i + 1) = vVl E P salt D P.numMPCRounds rv input ld i := by
  obtain ⟨m1, m2, m3⟩ := hm
  rw [← hT] at m1 m2 m3
  have hSd := present_atDepth (n := P.numMPCRounds) (l := l) hn
  have hp : 1 ≤ 2 ^ D := Nat.one_le_two_pow
  induction hk : 2 ^ D - 1 - i using Nat.strong_induction_on generalizing i with
  | _ k ih =>
    by_cases hin : i < 2 ^ D - 1
    · have hnode := m2 (i + 1) (by omega) ((up_spec hn hS (by omega)).2 hu) (by omega)
      rw [merkleNode_iff hT (by omega)] at hnode
      rw [hnode, ((vVl_path hn (fun j hj hjl => by rw [hld j hj hjl]; rfl) hrv i hu).2 hin), Nat.add_sub_cancel]
      have child : ∀ c, (c + 1) / 2 = i + 1 → 2 ^ D - 1 - c < k → c + 1 < 2 ^ D + P.numMPCRounds → h (c + 1) = vVl E P salt D P.numMPCRounds rv input ld c := by
        intro c hc hck hlt
        by_cases hx : Node D P.numMPCRounds (c + 1)
        · by_cases hcu : Up D (Present D P.numMPCRounds l) (c + 1)
          · exact ih _ hck c hcu rfl
          · have hcr : c ∈ rv := (hrv c).2 ⟨hx, by omega, hcu, by rw [hc]; exact hu⟩
            rw [vVl_opened hn hld2 hrv hcr, hi, inVl_flatMap hlen hcr]
        · rw [vVl_absent hn hrv hx]
          refine m3 _ ?_ hx
          by_contra hge
          exact hx (up_self ⟨by omega, hlt⟩)
      have hexl := node_child hn (up_mono (fun y h => h.1) hu) (by omega)
      have e1 := child (2 * i + 1) (by omega) (by omega) (by have := node_lt hexl; omega)
      rw [show 2 * (i + 1) = 2 * i + 1 + 1 by ring, e1]
      unfold nodeInput
      by_cases hlt : 2 * i + 2 < 2 ^ D - 1 + P.numMPCRounds
      · rw [if_pos hlt, if_pos hlt]
        have e2 := child (2 * i + 2) (by omega) (by omega) (by omega)
        rw [← e2]
      · rw [if_neg hlt, if_neg hlt]
    · rw [up_leaf hSd (by omega)] at hu
      obtain ⟨t, ht⟩ : ∃ t, i = 2 ^ D - 1 + t := ⟨i - (2 ^ D - 1), by omega⟩
      have htn : t < P.numMPCRounds := by have := hu.1.2; omega
      have htl : t ∉ l := fun hl => hu.2 ⟨t, hl, by omega⟩
      rw [ht, vVl_leaf htn (hld t htn htl) msgDigest_length, show 2 ^ D - 1 + t + 1 = 2 ^ D + t by omega]
      exact m1 t htn ((hS t htn).2 htl)

/-- The tree that verification computes is a Merkle tree of the specification. -/
theorem merkle_mk {S : ℕ → Prop} {v : ℕ → Round} {ld : ℕ → Option Buf} {rv : List ℕ} (hT : D = (inst3 E P).depth)
    (hn : P.numMPCRounds ≤ 2 ^ D) (hS : ∀ t < P.numMPCRounds, S t ↔ t ∉ l) (hld : ∀ t < P.numMPCRounds, t ∉ l → ld t = some ((inst3 E P).msgDigest (v t)))
    (hrv : ∀ r, r ∈ rv ↔ Top D P.numMPCRounds (Present D P.numMPCRounds l) (r + 1)) :
    (inst3 E P).Merkle salt v S fun x => if x = 0 then zeros P.digestSizeBytes else vVl E P salt D P.numMPCRounds rv input ld (x - 1) := by
  have hp : 1 ≤ 2 ^ D := Nat.one_le_two_pow
  constructor
  · rw [← hT]
    intro t ht hSt
    rw [if_neg (by omega), show 2 ^ D + t - 1 = 2 ^ D - 1 + t by omega, vVl_leaf (n := P.numMPCRounds) ht (hld t ht ((hS t ht).1 hSt)) msgDigest_length]
  · rw [← hT]
    intro x hx hex h1
    rw [merkleNode_iff hT h1]
    have hu := (up_spec hn hS h1).1 hex
    rw [← Nat.sub_add_cancel h1] at hu
    rw [if_neg (by omega), if_neg (by omega), if_neg (by omega), (vVl_path hn (fun j hj hjl => by rw [hld j hj hjl]; rfl) hrv (x - 1) hu).2 (by omega),
      show 2 * (x - 1) + 1 = 2 * x - 1 by omega, show 2 * (x - 1) + 2 = 2 * x + 1 - 1 by omega]
  · rw [← hT]
    intro x hx hN
    by_cases h0 : x = 0
    · rw [if_pos h0]; rfl
    · rw [if_neg h0, vVl_absent hn hrv (by rwa [Nat.sub_add_cancel (by omega)])]; rfl

end Picnic
