import Verif.Model.Tests
import Verif.Proofs.P3Tree
import Verif.Props.Merkle
import Verif.Proofs.ZkbOob2
import Verif.Props.Hash

/-
Lemmas for the test programs.
-/

namespace Picnic

open Spec Spec.Tree

/-! ### random lists -/

theorem drawNew_spec {rand : ℕ → ℕ} {n : ℕ} {l : List ℕ} (hn : 0 < n) : ∀ f k v k', drawNew rand n l f k = Outcome.ok (v, k') → v < n ∧ v ∉ l := by
  intro f
  induction f with
  | zero => intro k v k' h; simp [drawNew] at h
  | succ f ih =>
    intro k v k' h
    rw [drawNew, containsU16_ok, ok_bind] at h
    by_cases hm : rand k % 2 ^ 16 % n ∈ l
    · rw [decide_eq_true hm] at h
      exact ih _ _ _ h
    · rw [decide_eq_false hm] at h
      have := Outcome.ok.inj h
      rw [Prod.mk.injEq] at this
      rw [← this.1]
      exact ⟨Nat.mod_lt _ hn, hm⟩

theorem drawList_spec {E : Env} {rand : ℕ → ℕ} {n : ℕ} (hn : 0 < n) : ∀ size l k, drawList E rand size n = Outcome.ok (l, k) →
    l.length = size ∧ l.Nodup ∧ ∀ h ∈ l, h < n := by
  intro size
  unfold drawList
  induction size with
  | zero => intro l k h; have := Outcome.ok.inj h; rw [Prod.mk.injEq] at this; rw [← this.1]; simp
  | succ s ih =>
    intro l k h
    rw [loop_succ] at h
    obtain ⟨⟨l', k'⟩, e, h⟩ := bind_ok_inv h
    obtain ⟨h1, h2, h3⟩ := ih l' k' e
    obtain ⟨⟨v, k''⟩, e', h⟩ := bind_ok_inv h
    obtain ⟨a, b⟩ := drawNew_spec hn _ _ _ _ e'
    have := Outcome.ok.inj h
    rw [Prod.mk.injEq] at this
    rw [← this.1]
    refine ⟨by simp [h1], ?_, ?_⟩
    · rw [List.nodup_append]; exact ⟨h2, by simp, by simpa using fun x hx => by rintro rfl; exact b hx⟩
    · intro x hx
      rw [List.mem_append, List.mem_singleton] at hx
      rcases hx with hx | rfl
      · exact h3 x hx
      · exact a

theorem drawNew_cases {rand : ℕ → ℕ} {n : ℕ} {l : List ℕ} : ∀ f k, drawNew rand n l f k = Outcome.diverge ∨ ∃ r, drawNew rand n l f k = Outcome.ok r := by
  intro f
  induction f with
  | zero => intro k; exact Or.inl rfl
  | succ f ih =>
    intro k
    rw [drawNew, containsU16_ok, ok_bind]
    by_cases hm : rand k % 2 ^ 16 % n ∈ l
    · rw [decide_eq_true hm]; exact ih _
    · rw [decide_eq_false hm]; exact Or.inr ⟨_, rfl⟩

theorem drawList_cases {E : Env} {rand : ℕ → ℕ} {n size : ℕ} : drawList E rand size n = Outcome.diverge ∨ ∃ r, drawList E rand size n = Outcome.ok r := by
  unfold drawList
  induction size with
  | zero => exact Or.inr ⟨_, rfl⟩
  | succ s ih =>
    rw [loop_succ]
    rcases ih with h | ⟨r, h⟩
    · rw [h]; exact Or.inl rfl
    · rw [h, ok_bind]
      rcases drawNew_cases (rand := rand) (n := n) (l := r.1) E.fuel r.2 with h | ⟨r, h⟩
      · rw [h]; exact Or.inl rfl
      · rw [h]; exact Or.inr ⟨_, rfl⟩

/-- Drawing a list succeeds, or does not end. -/
theorem listOr_none {E : Env} {rand : ℕ → ℕ} {n size : ℕ} (hn : 0 < n) : listOr E rand none size n = Outcome.diverge ∨
    ∃ l, listOr E rand none size n = Outcome.ok l ∧ l.length = size ∧ l.Nodup ∧ ∀ h ∈ l, h < n := by
  unfold listOr
  rcases drawList_cases (E := E) (rand := rand) (n := n) (size := size) with h | ⟨⟨l, k⟩, h⟩
  · dsimp only; rw [h]; exact Or.inl rfl
  · dsimp only; rw [h]; exact Or.inr ⟨l, rfl, drawList_spec hn _ _ _ h⟩

/-! ### a salt that is too short -/

theorem addBytes_short {state data : Buf} {doff offset length : ℕ} (h1 : offset < 200) (hs : state.length = 200) (h2 : offset + length ≤ 200)
    (h3 : doff ≤ data.length) (hd : data.length < doff + length) : addBytes state data doff offset length = Outcome.ub UB.oobRead := by
  unfold addBytes
  rw [assertM_true (by simpa using h1), ok_bind, assertM_true (by rw [Nat.mod_eq_of_lt (by omega)]; simpa using h2), ok_bind]
  refine loop_ub (n := (data.length - doff) + 1) ?_ (by omega)
  rw [loop_succ]
  obtain ⟨s, e, hl⟩ := loop_inv (fun _ (s : Buf) => s.length = 200) (f := fun i state => do
      let s ← rd state (offset + i)
      let d ← rd data (doff + i)
      wr state (offset + i) (s ^^^ d)) (n := data.length - doff) (s := state) hs (by
    intro i hi s hl
    rw [rd_ok (by omega), ok_bind, rd_ok (by omega), ok_bind, wr_ok (by omega)]
    exact ⟨_, rfl, by simpa using hl⟩)
  rw [e, ok_bind, rd_ok (by omega), ok_bind]
  simp only [rd]
  rw [List.getElem?_eq_none (by omega)]
  rfl

theorem absorbLoop_short {E : Env} {data : Buf} {rate len : ℕ} (hr : RateOK rate) (hlen : data.length < len) (hlr : len < rate)
    (hE : PermWF E) : ∀ (n i : ℕ) (inst : HashInstance), inst.state.length = 200 → inst.byteIOIndex < rate → i ≤ data.length → len - i < n →
    absorbLoop E data rate len n i inst = Outcome.ub UB.oobRead := by
  intro n
  induction n with
  | zero => omega
  | succ n ih =>
    intro i inst hs hp hi hn
    have hr1 := hr.le
    simp only [absorbLoop]
    rw [if_pos (by omega), if_neg (by omega)]
    have e4 : (len - i) % 2 ^ 32 = len - i := Nat.mod_eq_of_lt (by omega)
    have e5 : (len - i + inst.byteIOIndex) % 2 ^ 32 = len - i + inst.byteIOIndex := Nat.mod_eq_of_lt (by omega)
    rw [e4, e5]
    obtain ⟨k, hk⟩ : ∃ k, (if len - i + inst.byteIOIndex > rate then rate - inst.byteIOIndex else len - i) = k := ⟨_, rfl⟩
    rw [hk]
    have hk1 : 1 ≤ k ∧ inst.byteIOIndex + k ≤ rate ∧ k ≤ len - i := by rw [← hk]; split_ifs <;> omega
    by_cases hsh : data.length < i + k
    · rw [addBytes_short (by omega) hs (by omega) hi hsh]; rfl
    · have hsh : i + k ≤ data.length := by omega
      rw [addBytes_ok (by omega) (by omega) hs hsh, ok_bind]
      split_ifs
      · exact ih _ _ (hE _ (by simp [hs])) (by show 0 < rate; omega) (by omega) (by omega)
      · refine ih _ _ (by simp [hs]) ?_ (by omega) (by omega)
        change (inst.byteIOIndex + k) % 2 ^ 32 < rate
        rw [Nat.mod_eq_of_lt (by omega)] at *
        omega

theorem hashUpdate_short {E : Env} {rate : ℕ} {m data : Buf} {inst : HashInstance} {len : ℕ} (hE : PermWF E)
    (hr : RateOK rate) (h : Absorbed E rate m inst) (hlen : data.length < len) (hlr : len < rate) :
    hashUpdate E inst data len = Outcome.ub UB.oobRead := by
  have hr1 := hr.le
  unfold hashUpdate spongeAbsorb
  have e1 : len * 8 % 2 ^ 64 = len * 8 := Nat.mod_eq_of_lt (by omega)
  have e2 : len * 8 / 8 = len := by omega
  have e3 : inst.rate / 8 = rate := by rw [h.rateBits]; omega
  simp only [e1, e2, h.notSq, e3, Bool.false_eq_true, if_false]
  rw [absorbLoop_short hr hlen hlr hE _ _ _ h.len h.pos (by omega) (by omega)]
  rfl

theorem rateOf_gt (P : Params) : 64 < rateOf P := by unfold rateOf; split_ifs <;> decide

theorem hashAll_short {E : Env} {P : Params} {p : Byte} {pre post : List (Buf × ℕ)} {b : Buf} {k n : ℕ} (hE : PermWF E)
    (hp : ∀ p ∈ pre, p.2 ≤ p.1.length ∧ p.2 + 200 ≤ 2 ^ 32) (hb : b.length < k) (hk : k ≤ 64) :
    hashAll E P p (pre ++ (b, k) :: post) n = Outcome.ub UB.oobRead := by
  unfold hashAll
  obtain ⟨i0, h0, h0'⟩ := hashInit_ok hE P p
  obtain ⟨i1, h1, h1'⟩ := hashUpdates_ok hE (rateOf_ok P) pre _ i0 h0' hp
  have := rateOf_gt P
  rw [h0, ok_bind, List.foldlM_append, h1]
  rw [ok_bind, List.foldlM_cons, hashUpdate_short hE (rateOf_ok P) h1' hb (by omega)]
  rfl

theorem generateSeeds_short {E : Env} {p n rep : ℕ} {P : Params} {seed salt : Buf} (hE : PermWF E) (hp : getParamSet p = some P) (h2 : 2 ≤ n)
    (h4 : n < 2 ^ 32) (hs : salt.length < P.saltSizeBytes) : generateSeeds E P n seed salt rep = Outcome.ub UB.oobRead := by
  have hwf := seedWF_of hp
  have hn := ceilLog2_le (by omega : 1 ≤ n) h4
  have hD1 := clog_pos h2 h4
  unfold generateSeeds
  rw [createTree_ok (by omega) h4, ok_bind]
  obtain ⟨D, hD⟩ : ∃ D, D = ceilLog2 n := ⟨_, rfl⟩
  rw [← hD] at hn hD1 ⊢
  have hpw : 2 ≤ 2 ^ D := le_trans (by norm_num) (Nat.pow_le_pow_right (by norm_num) hD1)
  by_cases hsd : P.seedSizeBytes ≤ seed.length
  · rw [setNode_ok (by omega) (by simp) (by omega), ok_bind]
    unfold expandSeeds
    change (getParent (2 ^ D - 1 + n - 1) >>= _) = _
    rw [getParent_ok (by omega), ok_bind]
    refine loop_ub (n := 1) ?_ (by omega)
    rw [loop_succ, loop_zero, ok_bind]
    unfold expandSeedsStep
    change (rd (arrN _ _) 0 >>= _) = _
    rw [rd_arrN (by omega), ok_bind, Function.update_self]
    simp only [Bool.not_true, Bool.false_eq_true, if_false]
    change (rd (arrN _ _) 0 >>= _) = _
    rw [rd_arrN (by omega), ok_bind, Function.update_self]
    unfold hashSeed
    have h32 := hwf.seed
    exact bind_of_ub (hashAll_short (pre := [((seed.drop 0).take P.seedSizeBytes, P.seedSizeBytes)]) hE (by simp; omega) hs (by rw [hwf.salt]; omega))
  · refine bind_of_ub ?_
    unfold setNode
    change (rd (arrN _ _) 0 >>= _) = _
    rw [rd_arrN (by omega), ok_bind, memcpy_oob (by omega)]
    rfl

/-! ### the seed tree test -/

theorem seedTest_ok {E : Env} {p n : ℕ} {P : Params} {l : List ℕ} {rand : ℕ → ℕ} {hide : Option (List ℕ)} (hE : PermWF E)
    (hp : getParamSet p = some P) (h2 : 2 ≤ n) (h16 : n ≤ 2 ^ 16) (hl : ∀ h ∈ l, h < n) (hne : l ≠ []) (hle : l.length ≤ n + 1)
    (hrest : ∃ j < n, j ∉ l) (hlist : listOr E rand hide l.length n = Outcome.ok l) :
    ∃ k, revealSeedsSize P n l l.length = Outcome.ok (k * P.seedSizeBytes) ∧
      runSeedTestSized E rand P.seedSizeBytes P.saltSizeBytes hide l.length n P =
        Outcome.ok (if P.numOpenedRounds * ceilLog2 (P.numMPCRounds / P.numOpenedRounds) < k then 0 else 1) := by
  have hsd : 1 ≤ P.seedSizeBytes ∧ P.seedSizeBytes ≤ 32 := by
    obtain ⟨h1, h2⟩ := getParamSet_bounds hp
    clear * - hp h1 h2
    interval_cases p <;> (injection hp with h; subst h; decide)
  have hmul : n * P.seedSizeBytes ≤ INT_MAX := by
    have : n * P.seedSizeBytes ≤ 2 ^ 16 * 32 := Nat.mul_le_mul h16 hsd.2
    unfold INT_MAX; omega
  have hr : (List.replicate P.seedSizeBytes (0x07 : Byte)).length = P.seedSizeBytes := by simp
  have hs : (List.replicate P.saltSizeBytes (0x09 : Byte)).length = P.saltSizeBytes := by simp
  have hn := ceilLog2_le (by omega : 1 ≤ n) (by omega)
  have hD1 := clog_pos h2 (by omega)
  obtain ⟨hrun, hnd, hrv⟩ := revN_spec hD1 (by omega) hn hl
  obtain ⟨T, rv, data, fresh, T', hg, hcr, hsz, hdl, hrs, -, -, hrec, hleaf, hhave, -⟩ := C26_seed_tree (rep := 19) hE hp h2 hmul hr hs hl hne
  have hg' := generateSeeds_ok (E := E) (rep := 19) hE (seedWF_of hp) h2 (by omega) hr hs
  have hcr' := createTree_ok (ds := P.seedSizeBytes) (by omega : 1 ≤ n) (by omega)
  rw [← ceilLog2_eq_clog (by omega) (by omega)] at hleaf hhave
  have hsz' := revealSeedsSize_ok (P := P) (by omega : 1 ≤ n) (by omega) hrun
  obtain ⟨D, hD⟩ : ∃ D, D = ceilLog2 n := ⟨_, rfl⟩
  rw [← hD] at hn hD1 hrun hnd hrv hleaf hhave hg' hcr' hsz'
  rw [hg'] at hg
  rw [hcr'] at hcr
  obtain rfl := Outcome.ok.inj hg
  obtain rfl := Outcome.ok.inj hcr
  rw [hsz'] at hsz
  have hdlen : (revN D n l).length * P.seedSizeBytes = data.length := Outcome.ok.inj hsz
  have hS := picked_atDepth hn hl
  have hSne : ∃ y, Picked D l y := by
    obtain ⟨a, l', rfl⟩ := List.exists_cons_of_ne_nil hne
    exact ⟨_, a, by simp, rfl⟩
  have hpw : 1 ≤ 2 ^ D := Nat.one_le_two_pow
  have hk1 : 1 ≤ (revN D n l).length := by
    obtain ⟨j, hj, hjl⟩ := hrest
    obtain ⟨k, hk, hrev⟩ := rev_cover (by omega) hn hS hSne (y := 2 ^ D + j) ⟨by omega, by omega⟩ (fun ⟨h, hh, e⟩ => hjl (by
      rwa [show j = h by omega]))
    have hpos := (rev_node (by omega) hn hS hrev).2.1
    have : (2 ^ D + j) / 2 ^ k - 1 ∈ revN D n l := by rw [hrv, Nat.sub_add_cancel (by omega)]; exact hrev
    exact List.length_pos_of_mem this
  have hex : ∀ r ∈ revN D n l, exb D n r = true := fun r hr' => exb_iff.2 (rev_node (by omega) hn hS ((hrv r).1 hr')).1
  have hrec1 := fun rest : Buf => reconstructSeeds_ok (E := E) (rep := 19) (size := data.length) (input := data ++ rest) hE (seedWF_of hp) h2 hn hs (hrun ..) hnd hex
    (by rw [hdlen]) (by simp) (by omega)
  have hrec2 : ∀ rest : Buf, reconstructSeeds E P (mkTree D n P.seedSizeBytes (fun _ => false) fun _ => zeros P.seedSizeBytes) l l.length (data ++ rest) data.length
      (List.replicate P.saltSizeBytes 0x09) 19 = Outcome.ok (true, T') := by
    intro rest
    have h0 := hrec1 []
    rw [List.append_nil] at h0
    rw [← hrec, h0, hrec1 rest]
    have : (fun i => if i ∈ revN D n l then List.take P.seedSizeBytes (List.drop (List.idxOf i (revN D n l) * P.seedSizeBytes) (data ++ rest)) else zeros P.seedSizeBytes) =
        fun i => if i ∈ revN D n l then List.take P.seedSizeBytes (List.drop (List.idxOf i (revN D n l) * P.seedSizeBytes) data) else zeros P.seedSizeBytes := by
      funext i
      split_ifs with h
      · have h5 := List.idxOf_lt_length_iff.2 h
        have h6 : (List.idxOf i (revN D n l) + 1) * P.seedSizeBytes ≤ (revN D n l).length * P.seedSizeBytes := Nat.mul_le_mul_right _ h5
        rw [Nat.add_mul, Nat.one_mul] at h6
        rw [List.drop_append_of_le_length (by omega), List.take_append_of_le_length (by rw [List.length_drop]; omega)]
      · rfl
    rw [this]
  have hT' : ∃ hv vl, T' = mkTree D n P.seedSizeBytes hv vl := by
    have h0 := hrec1 []
    rw [hrec2] at h0
    exact ⟨_, _, (Prod.mk.inj (Outcome.ok.inj h0)).2⟩
  obtain ⟨hv', vl', rfl⟩ := hT'
  refine ⟨_, hsz', ?_⟩
  unfold runSeedTestSized
  have hl0 : l.length ≠ 0 := by simpa using hne
  rw [if_neg (by omega), hlist, ok_bind]
  change (generateSeeds E P n (List.replicate P.seedSizeBytes 0x07) (List.replicate P.saltSizeBytes 0x09) 19 >>= _) = _
  rw [hg', ok_bind, hcr', ok_bind]
  change (revealSeedsSize P n l l.length >>= _) = _
  rw [hsz', ok_bind]
  have hpos : 0 < (revN D n l).length * P.seedSizeBytes := Nat.mul_pos (by omega) (by omega)
  rw [if_neg (by omega), if_neg (by simp)]
  change (revealSeeds P _ l l.length (E.junkBuf siteTree 0 (n * P.seedSizeBytes)) (n * P.seedSizeBytes) >>= _) = _
  rw [hrs _ _ hdl (by simp) hmul, ok_bind]
  dsimp only
  rw [if_neg (by omega), if_neg (by omega)]
  change (if _ < data.length / P.seedSizeBytes then _ else _) = _
  rw [← hdlen, Nat.mul_div_cancel _ (by omega)]
  split_ifs with hb
  · rfl
  rw [hdlen, hrec2, ok_bind, if_neg (by simp)]
  change loopFrom (2 ^ D - 1 + n - n) (2 ^ D - 1 + n) _ 1 = _
  rw [Nat.add_sub_cancel]
  have hstep : ∀ i, 2 ^ D - 1 ≤ i → i < 2 ^ D - 1 + n → ∀ r : Int, r = 1 → ∃ r' : Int, (if r = 0 then pure 0 else seedTestLeaf P (mkTree D n P.seedSizeBytes (exb D n)
      (seedVl E P (List.replicate P.saltSizeBytes 0x09) 19 (List.replicate P.seedSizeBytes 0x07) D n)) (mkTree D n P.seedSizeBytes hv' vl') l l.length (2 ^ D - 1) i) =
        Outcome.ok r' ∧ r' = 1 := by
    intro i h1 h2 r hr1
    refine ⟨1, ?_, rfl⟩
    rw [hr1, if_neg (by decide)]
    unfold seedTestLeaf
    obtain ⟨j, rfl⟩ : ∃ j, i = 2 ^ D - 1 + j := ⟨i - (2 ^ D - 1), by omega⟩
    rw [Nat.add_sub_cancel_left, Nat.mod_eq_of_lt (by omega), containsU16_ok, ok_bind]
    have hrd : ∀ hv vl, rd (mkTree D n P.seedSizeBytes hv vl).haveNode (2 ^ D - 1 + j) = Outcome.ok (hv (2 ^ D - 1 + j)) := fun hv vl => rd_arrN h2
    have hrn : ∀ hv vl, rd (mkTree D n P.seedSizeBytes hv vl).nodes (2 ^ D - 1 + j) = Outcome.ok (vl (2 ^ D - 1 + j)) := fun hv vl => rd_arrN h2
    rw [hrd, ok_bind]
    by_cases hj : j ∈ l
    · rw [decide_eq_true hj, if_pos rfl]
      have : hv' (2 ^ D - 1 + j) = false := by
        by_contra hc
        rw [Bool.not_eq_false] at hc
        refine (hhave (2 ^ D - 1 + j) ?_).1 (up_self ⟨j, hj, by omega⟩)
        rw [mkTree_have, if_pos h2, hc]
      rw [this]
      rfl
    · rw [decide_eq_false hj]
      obtain ⟨s, hs1, hs2, hs3⟩ := hleaf j (by omega) hj
      rw [mkTree_have, if_pos (by omega), show 2 ^ D + j - 1 = 2 ^ D - 1 + j by omega, Option.some.injEq] at hs3
      rw [hs3]
      simp only [Bool.false_eq_true, if_false, Bool.not_true]
      rw [hrd _ (fun _ => []), ok_bind, exb_leaf hn (by omega) h2]
      simp only [Bool.not_true, Bool.false_eq_true, if_false]
      have getLeaf_mk : ∀ (hv : ℕ → Bool) (vl : ℕ → Buf), getLeaf (mkTree D n P.seedSizeBytes hv vl) j = Outcome.ok (vl (2 ^ D - 1 + j)) := by
        intro hv vl
        unfold getLeaf assertM
        rw [if_pos (by simpa [mkTree] using (by omega : j < n))]
        simp only [pure_eq_ok, ok_bind]
        change rd _ (2 ^ D - 1 + n - n + j) = _
        rw [Nat.add_sub_cancel]
        exact hrn hv vl
      rw [getLeaf_mk] at hs1 hs2
      rw [hrn (fun _ => true), ok_bind, hrn (fun _ => true), ok_bind, Outcome.ok.inj hs2, ← Outcome.ok.inj hs1]
      have hlen : (seedVl E P (List.replicate P.saltSizeBytes 0x09) 19 (List.replicate P.seedSizeBytes 0x07) D n (2 ^ D - 1 + j)).length = P.seedSizeBytes := seedVl_length hr ..
      rw [memeq_ok (by omega) (by omega), ok_bind]
      simp
  obtain ⟨r, e, hr1⟩ := loopFrom_inv (fun _ (r : Int) => r = 1) (lo := 2 ^ D - 1) (hi := 2 ^ D - 1 + n) (s := (1 : Int)) (by omega) rfl hstep
  rw [hr1] at e
  exact e

/-! ### the Merkle tree test -/

theorem loopDown_succ {σ : Type} (f : ℕ → σ → M σ) (n : ℕ) (s : σ) : loopDown f (n + 1) s = (f (n + 1) s >>= fun s => loopDown f n s) := rfl

theorem buildMerkleTree_short {E : Env} {p n : ℕ} {P : Params} {salt : Buf} {leaves : List Buf} (hE : PermWF E)
    (hp : getParamSet p = some P) (h2 : 2 ≤ n) (h4 : n < 2 ^ 32) (hs : salt.length < P.saltSizeBytes)
    (hl : leaves.length = n) (hll : ∀ d ∈ leaves, d.length = P.digestSizeBytes) :
    (createTree n P.digestSizeBytes >>= fun t => buildMerkleTree E P t (leaves.map some) salt) = Outcome.ub UB.oobRead := by
  have hwf := merkleWF_of hp
  have hn := ceilLog2_le (by omega : 1 ≤ n) h4
  have hD1 := clog_pos h2 h4
  rw [createTree_ok (by omega) h4, ok_bind]
  obtain ⟨D, hD⟩ : ∃ D, D = ceilLog2 n := ⟨_, rfl⟩
  rw [← hD] at hn hD1 ⊢
  have hpw : 2 ≤ 2 ^ D := le_trans (by norm_num) (Nat.pow_le_pow_right (by norm_num) hD1)
  have hld : ∀ j < n, ∃ d, leaves[j]? = some d ∧ P.digestSizeBytes ≤ d.length := fun j hj =>
    ⟨leaves[j], List.getElem?_eq_getElem (by omega), (hll _ (List.getElem_mem _)).ge⟩
  have hmap : leaves.map some = arrN n fun j => leaves[j]? := list_eq_arrN (by simpa using hl) fun i hi => by
    rw [List.getElem?_map]
    obtain ⟨d, e, _⟩ := hld i hi
    rw [e]; rfl
  have hldl : ∀ j < n, ∀ d, leaves[j]? = some d → P.digestSizeBytes ≤ d.length := fun j hj d hd => by
    obtain ⟨d', e, h⟩ := hld j hj
    rw [hd] at e; injection e with e; rw [e]; exact h
  unfold buildMerkleTree
  rw [hmap, setLeaves_ok (by simp) (fun j hj d hd => ⟨hldl j hj d hd, by simp⟩), ok_bind]
  dsimp only
  obtain ⟨hv, hhv⟩ : ∃ hv, hv = leafHv D (fun _ => false) (fun j => leaves[j]?) n := ⟨_, rfl⟩
  obtain ⟨vl, hvl⟩ : ∃ vl, vl = leafVl D P.digestSizeBytes (fun _ => zeros P.digestSizeBytes) (fun j => leaves[j]?) n := ⟨_, rfl⟩
  rw [← hhv, ← hvl]
  have hvll : ∀ i, (vl i).length = P.digestSizeBytes := fun i => by rw [hvl]; exact leafVl_length (by simp) hldl
  have hleaf : ∀ i, 2 ^ D - 1 ≤ i → i < 2 ^ D - 1 + n → hv i = true := by
    intro i h1 h3
    obtain ⟨d, e, _⟩ := hld (i - (2 ^ D - 1)) (by omega)
    rw [hhv, leafHv, e]
    simp
    omega
  have hinn : ∀ i, i < 2 ^ D - 1 → hv i = false := by
    intro i h1
    rw [hhv, leafHv]
    simp
    omega
  unfold hashUp
  change loopDown _ (2 ^ D - 1 + n) _ = _
  obtain ⟨N, hN⟩ : ∃ N, 2 ^ D - 1 + n = N + 2 := ⟨2 ^ D - 1 + n - 2, by omega⟩
  rw [hN, loopDown_succ]
  have e1 : computeParentHash E P (mkTree D n P.digestSizeBytes hv vl) (N + 1 + 1) salt = Outcome.ok (mkTree D n P.digestSizeBytes hv vl) := by
    unfold computeParentHash
    have : exb D n (N + 1 + 1) = false := by
      by_contra h
      rw [Bool.not_eq_false] at h
      have := exb_lt h
      omega
    rw [treeExists_mk, ok_bind, this]
    rfl
  rw [e1, ok_bind, loopDown_succ]
  refine bind_of_ub ?_
  unfold computeParentHash
  have hx : exb D n (N + 1) = true := exb_leaf hn (by omega) (by omega)
  obtain ⟨q, hq⟩ : ∃ q, q = (N + 1 - 1) / 2 := ⟨_, rfl⟩
  have hxp := exb_parent hn (by omega : N + 1 ≠ 0) hx
  rw [← hq] at hxp
  have hq2 : q < 2 ^ D - 1 := by omega
  have hq3 : 2 ^ D - 1 ≤ 2 * q + 1 := by omega
  rw [treeExists_mk, ok_bind, hx]
  simp only [Bool.not_true, Bool.false_eq_true, if_false]
  rw [getParent_ok (by omega), ok_bind, ← hq]
  change (rd (arrN _ _) _ >>= _) = _
  rw [rd_arrN (by omega), ok_bind, hinn q hq2]
  simp only [Bool.false_eq_true, if_false]
  change (rd (arrN _ _) _ >>= _) = _
  rw [rd_arrN (by omega), ok_bind, hleaf _ hq3 (by omega)]
  simp only [Bool.not_true, Bool.false_eq_true, if_false]
  rw [treeExists_mk, ok_bind]
  have hd := hwf.digest
  have fin : ∀ right : List (Buf × ℕ), (∀ x ∈ right, x.2 ≤ x.1.length ∧ x.2 + 200 ≤ 2 ^ 32) →
      hashAll E P HASH_PREFIX_3 ([(vl (2 * q + 1), P.digestSizeBytes)] ++ right ++ [(salt, P.saltSizeBytes), intLE q]) P.digestSizeBytes = Outcome.ub UB.oobRead := by
    intro right hr2
    refine hashAll_short (pre := (vl (2 * q + 1), P.digestSizeBytes) :: right) hE ?_ hs (by rw [hwf.salt]; omega)
    intro x hx
    rw [List.mem_cons] at hx
    rcases hx with rfl | hx
    · exact ⟨(hvll _).ge, by dsimp only; omega⟩
    · exact hr2 x hx
  have h1 : rd (mkTree D n P.digestSizeBytes hv vl).nodes (2 * q + 1) = Outcome.ok (vl (2 * q + 1)) := rd_arrN (by omega)
  by_cases h : exb D n (2 * q + 2) = true
  · have h' := exb_lt h
    have h2 : rd (mkTree D n P.digestSizeBytes hv vl).nodes (2 * q + 2) = Outcome.ok (vl (2 * q + 2)) := rd_arrN h'
    rw [if_pos h]
    change (rd (arrN _ _) _ >>= _) = _
    rw [rd_arrN h', ok_bind, hleaf _ (by omega) h', pure_eq_ok, ok_bind, if_neg (by decide)]
    refine bind_of h1 ?_
    rw [hasRightChild_ok, ok_bind, if_pos (by simp [hxp]; omega)]
    refine bind_of h2 ?_
    rw [pure_eq_ok, ok_bind]
    exact bind_of_ub (fin _ (by simp [hvll]; omega))
  · rw [if_neg h, pure_eq_ok, ok_bind, if_neg (by decide)]
    have h' : ¬ 2 * q + 2 < 2 ^ D - 1 + n := fun h' => h (exb_leaf hn (by omega) h')
    refine bind_of h1 ?_
    rw [hasRightChild_ok, ok_bind, if_neg (by simpa using fun h2 => absurd h2 h'), pure_eq_ok, ok_bind]
    exact bind_of_ub (fin _ (by simp))

theorem addRevealed_length {T : Tree} {l l' : List ℕ} {x : ℕ} (h : addRevealed T l x = Outcome.ok l') : l'.length ≤ l.length + 1 := by
  unfold addRevealed at h
  split_ifs at h <;> (have := Outcome.ok.inj h; subst this; simp)

theorem merkle_count {T : Tree} {ml rv : List ℕ} {size : ℕ} (h : getRevealedMerkleNodes T ml size = Outcome.ok rv) : rv.length ≤ size := by
  unfold getRevealedMerkleNodes at h
  obtain ⟨ms, -, h⟩ := bind_ok_inv h
  clear * - h
  dsimp only at h
  revert rv
  induction size with
  | zero => intro rv h; rw [← Outcome.ok.inj h]; simp
  | succ k ih =>
    intro rv h
    rw [loop_succ] at h
    obtain ⟨l', e, h⟩ := bind_ok_inv h
    have := ih e
    obtain ⟨m, -, h⟩ := bind_ok_inv h
    obtain ⟨r, -, h⟩ := bind_ok_inv h
    cases r with
    | none => rw [← Outcome.ok.inj h]; omega
    | some r => have := addRevealed_length h; omega

theorem merkleTest_ok {E : Env} {p n : ℕ} {P : Params} {ml : List ℕ} {rand : ℕ → ℕ} {miss : Option (List ℕ)} (hE : PermWF E)
    (hp : getParamSet p = some P) (h2 : 2 ≤ n) (h16 : n ≤ 2 ^ 16) (hl : ∀ h ∈ ml, h < n) (hne : ml ≠ []) (hle : ml.length < n)
    (hlist : listOr E rand miss ml.length n = Outcome.ok ml) :
    ∃ k, openMerkleTreeSize P n ml ml.length = Outcome.ok (k * P.digestSizeBytes) ∧ k ≤ ml.length ∧
      runMerkleTestSized E rand P.saltSizeBytes miss ml.length n P =
        Outcome.ok (if P.numOpenedRounds * ceilLog2 (P.numMPCRounds / P.numOpenedRounds) < k then 0 else 1) := by
  have hds : 32 ≤ P.digestSizeBytes ∧ P.digestSizeBytes ≤ 64 := by
    obtain ⟨h1, h2⟩ := getParamSet_bounds hp
    clear * - hp h1 h2
    interval_cases p <;> (injection hp with h; subst h; decide)
  have hmul : n * P.digestSizeBytes ≤ INT_MAX := by
    have : n * P.digestSizeBytes ≤ 2 ^ 16 * 64 := Nat.mul_le_mul h16 hds.2
    unfold INT_MAX; omega
  obtain ⟨leaves, hlv⟩ : ∃ leaves : List Buf, leaves = (List.range n).map fun i => List.replicate P.digestSizeBytes (BitVec.ofNat 8 (i + 1)) := ⟨_, rfl⟩
  have hll : ∀ d ∈ leaves, d.length = P.digestSizeBytes := by rw [hlv]; simp only [List.mem_map]; rintro d ⟨i, -, rfl⟩; simp
  have hlen : leaves.length = n := by rw [hlv]; simp
  have hs : (List.replicate P.saltSizeBytes (0x09 : Byte)).length = P.saltSizeBytes := by simp
  obtain ⟨fresh, T, data, T1, T', hcr, hb, hsz, hop, hadd, hver, root, hr1, hr2⟩ := C27_merkle_complete hE hp h2 hmul hs hlen hll hl hle
  have hn := ceilLog2_le (by omega : 1 ≤ n) (by omega)
  have hcr' := createTree_ok (ds := P.digestSizeBytes) (by omega : 1 ≤ n) (by omega)
  obtain ⟨D, hD⟩ : ∃ D, D = ceilLog2 n := ⟨_, rfl⟩
  rw [← hD] at hn hcr'
  rw [hcr'] at hcr
  obtain rfl := Outcome.ok.inj hcr
  have hld : ∀ j < n, ∃ d, leaves[j]? = some d ∧ P.digestSizeBytes ≤ d.length := fun j hj =>
    ⟨leaves[j], List.getElem?_eq_getElem (by omega), (hll _ (List.getElem_mem _)).ge⟩
  have hmap : leaves.map some = arrN n fun j => leaves[j]? := list_eq_arrN (by simpa using hlen) fun i hi => by
    rw [List.getElem?_map]
    obtain ⟨d, e, _⟩ := hld i hi
    rw [e]; rfl
  have hldl : ∀ j < n, ∀ d, leaves[j]? = some d → P.digestSizeBytes ≤ d.length := fun j hj d hd => by
    obtain ⟨d', e, h⟩ := hld j hj
    rw [hd] at e; injection e with e; rw [e]; exact h
  have hb' := hb
  rw [hmap, buildMerkleTree_ok hE (merkleWF_of hp) hn hs hldl] at hb'
  obtain rfl := Outcome.ok.inj hb'
  have hrl : root.length = P.digestSizeBytes := by
    rw [mkTree_nodes, if_pos (by have := Nat.one_le_two_pow (n := D); omega), Option.some.injEq] at hr1
    rw [← hr1]
    exact mvl_length (fun i => leafVl_length (by simp) hldl) _
  obtain ⟨k, hk, hkl⟩ : ∃ k, data.length = k * P.digestSizeBytes ∧ k ≤ ml.length := by
    unfold openMerkleTreeSize at hsz
    obtain ⟨t, -, hsz⟩ := bind_ok_inv hsz
    obtain ⟨rv, e, hsz⟩ := bind_ok_inv hsz
    exact ⟨rv.length, (Outcome.ok.inj hsz).symm, merkle_count e⟩
  rw [hk] at hsz
  refine ⟨k, hsz, hkl, ?_⟩
  unfold runMerkleTestSized
  have hl0 : ml.length ≠ 0 := by simpa using hne
  rw [if_neg (by omega), hlist, ok_bind, hcr', ok_bind]
  have hmap2 : ((List.range n).map fun i => some (List.replicate P.digestSizeBytes (BitVec.ofNat 8 (i + 1)))) = leaves.map some := by
    rw [hlv, List.map_map]; rfl
  change (buildMerkleTree E P _ ((List.range n).map fun i => some (List.replicate P.digestSizeBytes (BitVec.ofNat 8 (i + 1)))) (List.replicate P.saltSizeBytes 0x09) >>= _) = _
  rw [hmap2, hb, ok_bind, hop, ok_bind]
  change (if _ < data.length / P.digestSizeBytes then _ else _) = _
  rw [hk, Nat.mul_div_cancel _ (by omega)]
  split_ifs with hbd
  · rfl
  rw [← hk]
  have hloop : loop (fun i leafData => do
      let m ← rd ml i
      wr leafData m none) ml.length (leaves.map some) = Outcome.ok ((List.range n).map fun j => if j ∈ ml then none else leaves[j]?) := by
    obtain ⟨s, e, hI⟩ := loop_inv (fun i (s : List (Option Buf)) => s = (List.range n).map fun j => if j ∈ ml.take i then none else leaves[j]?)
      (f := fun i leafData => do
        let m ← rd ml i
        wr leafData m none) (n := ml.length) (s := leaves.map some) (by
        rw [hmap]
        simp [arrN]) (by
        intro i hi s hI
        have hm := hl ml[i] (List.getElem_mem _)
        refine ⟨_, by rw [rd_ok hi, ok_bind, wr_ok (by rw [hI]; simpa using hm)], ?_⟩
        rw [hI]
        refine List.ext_getElem (by simp) fun j h1 h2 => ?_
        simp only [List.length_set, List.length_map, List.length_range] at h1
        rw [List.getElem_set]
        simp only [List.getElem_map, List.getElem_range, List.take_succ_eq_append_getElem hi, List.mem_append, List.mem_singleton]
        by_cases e : ml[i] = j
        · rw [if_pos e, if_pos (Or.inr e.symm)]
        · rw [if_neg e]
          congr 1
          simp [Ne.symm e])
    rw [List.take_length] at hI
    rw [e, hI]
  rw [ok_bind, hloop, ok_bind, hadd, ok_bind]
  dsimp only
  rw [if_neg (by decide), hver, ok_bind]
  dsimp only
  rw [if_neg (by decide)]
  have hrd : ∀ {t : Tree}, t.nodes[0]? = some root → rd t.nodes 0 = Outcome.ok root := by
    intro t h; unfold rd; rw [h]
  rw [hrd hr1, ok_bind, hrd hr2, ok_bind]
  change (memeq root root P.digestSizeBytes >>= _) = _
  rw [memeq_ok (by omega) (by omega), ok_bind]
  simp

/-! ### a lower bound for the number of revealed seeds -/

/-- `(x, k)`: node x has height k, lies in the tree, contains no leaf of `l`, and its parent contains one. -/
def topB (D n : ℕ) (l : List ℕ) (x k : ℕ) : Bool :=
  decide (2 ^ D ≤ x * 2 ^ k) && decide (x * 2 ^ k < 2 ^ D + n) && decide (k < D) && l.all (fun h => (2 ^ D + h) / 2 ^ k != x) &&
    l.any (fun h => (2 ^ D + h) / 2 ^ (k + 1) == x / 2)

theorem topB_top {D n x k : ℕ} {l : List ℕ} (hn : n ≤ 2 ^ D) (hl : ∀ h ∈ l, h < n) (h : topB D n l x k = true) : Top D n (Picked D l) x := by
  simp only [topB, Bool.and_eq_true, decide_eq_true_eq, List.all_eq_true, List.any_eq_true, bne_iff_ne, beq_iff_eq] at h
  obtain ⟨⟨⟨⟨h1, h2⟩, h3⟩, h4⟩, h', h5, h6⟩ := h
  have hk : 0 < 2 ^ k := by positivity
  have hD : 2 ^ D = 2 ^ (D - k) * 2 ^ k := by rw [← pow_add]; congr 1; omega
  have hx1 : 2 ^ (D - k) ≤ x := by
    rw [hD] at h1
    exact Nat.le_of_mul_le_mul_right h1 hk
  have hx2 : x < 2 * 2 ^ (D - k) := by
    have : x * 2 ^ k < (2 * 2 ^ (D - k)) * 2 ^ k := by rw [Nat.mul_assoc, ← hD]; omega
    exact Nat.lt_of_mul_lt_mul_right this
  refine ⟨⟨x * 2 ^ k, k, ⟨h1, h2⟩, by omega, Nat.mul_div_cancel _ hk⟩, ?_, ?_, ⟨_, k + 1, ⟨h', h5, rfl⟩, by omega, h6⟩⟩
  · exact le_trans (le_trans (by norm_num) (Nat.pow_le_pow_right (n := 2) (by norm_num) (by omega : 1 ≤ D - k))) hx1
  · rintro ⟨y, k', ⟨g, hg, rfl⟩, hk', e⟩
    have hgn := hl g hg
    have hp' : 0 < 2 ^ k' := by positivity
    have e1 : x * 2 ^ k' ≤ 2 ^ D + g := by rw [← e]; exact Nat.div_mul_le_self _ _
    have e2 : 2 ^ D + g < (x + 1) * 2 ^ k' := by rw [← e, Nat.add_mul, Nat.one_mul]; exact Nat.lt_div_mul_add hp'
    rcases Nat.lt_trichotomy k k' with hlt | heq | hgt
    · have : 2 ^ D * 2 ≤ x * 2 ^ k' := by
        have : 2 ^ (k + 1) ≤ 2 ^ k' := Nat.pow_le_pow_right (by norm_num) hlt
        calc 2 ^ D * 2 ≤ x * 2 ^ k * 2 := Nat.mul_le_mul_right _ h1
          _ = x * 2 ^ (k + 1) := by rw [pow_succ, Nat.mul_assoc]
          _ ≤ _ := Nat.mul_le_mul_left _ this
      omega
    · exact h4 g hg (by rw [heq]; exact e)
    · have h7 : (x + 1) * 2 ^ k' ≤ (2 * 2 ^ (D - k)) * 2 ^ k' := Nat.mul_le_mul_right _ hx2
      have h8 : 2 ^ (k' + 1) ≤ 2 ^ k := Nat.pow_le_pow_right (by norm_num) hgt
      have h9 : (2 * 2 ^ (D - k)) * 2 ^ k' ≤ 2 ^ D := by
        rw [hD]
        calc (2 * 2 ^ (D - k)) * 2 ^ k' = 2 ^ (D - k) * 2 ^ (k' + 1) := by rw [pow_succ]; ring
          _ ≤ _ := Nat.mul_le_mul_left _ h8
      omega

theorem rev_lower {D n : ℕ} {l : List ℕ} {R : List (ℕ × ℕ)} (hD1 : 1 ≤ D) (h1 : 1 ≤ n) (hn : n ≤ 2 ^ D) (hl : ∀ h ∈ l, h < n)
    (hR : (R.map Prod.fst).Nodup) (hT : R.all (fun p => topB D n l p.1 p.2) = true) : R.length ≤ (revN D n l).length := by
  obtain ⟨-, hnd, hrv⟩ := revN_spec hD1 h1 hn hl
  rw [List.all_eq_true] at hT
  have hS := picked_atDepth hn hl
  have htop : ∀ x ∈ R.map Prod.fst, Top D n (Picked D l) x := by
    intro x hx
    rw [List.mem_map] at hx
    obtain ⟨q, hq, rfl⟩ := hx
    exact topB_top hn hl (hT q hq)
  have hpos : ∀ x, 2 ≤ x → 2 ≤ dsc D n x := by intro x hx; unfold dsc; split_ifs <;> omega
  have hmap : ((R.map Prod.fst).map fun x => dsc D n x - 1).Nodup := by
    refine List.Nodup.map_on ?_ hR
    intro x hx y hy e
    have a := hpos x (htop x hx).2.1
    have b := hpos y (htop y hy).2.1
    exact dsc_inj hS (htop x hx) (htop y hy) (by omega)
  have hsub : ((R.map Prod.fst).map fun x => dsc D n x - 1) ⊆ revN D n l := by
    intro r hr
    rw [List.mem_map] at hr
    obtain ⟨x, hx, rfl⟩ := hr
    rw [hrv, Nat.sub_add_cancel (by have := hpos x (htop x hx).2.1; omega)]
    exact ⟨x, htop x hx, rfl⟩
  have := (hmap.subperm hsub).length_le
  simpa using this

end Picnic
