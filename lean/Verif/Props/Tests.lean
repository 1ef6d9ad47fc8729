import Verif.Proofs.Tests
import Verif.Props.Cycle
import Verif.Props.LowMC
import Verif.Props.P3Example
import Verif.Props.ZkbVerify
import Verif.Props.P3Verify

/-
Property C60: the test programs of the project, run with the library, neither read outside their objects nor fail.
-/

namespace Picnic

open Spec Spec.Tree Spec.Challenge

/-! ### The tree tests -/

/-- **C60**, violated: `runSeedTest` passes a salt of 16 bytes (for levels 3 and 5 also a root seed of 16 bytes) to functions that read
`saltSizeBytes` = 32 (and `seedSizeBytes` = 24, 32) bytes.  Every call that reaches the tree reads outside these arrays: for every parameter set,
every list of hidden leaves and every number of leaves. -/
theorem C60_seed_violated (E : Env) (hE : PermWF E) (rand : ℕ → ℕ) (p : ℕ) (P : Params) (hp : getParamSet p = some P) (hide : Option (List ℕ))
    (size n : ℕ) (h0 : size ≠ 0) (h1 : size ≤ n + 1) (h2 : 2 ≤ n) (h4 : n < 2 ^ 32) :
    runSeedTest E rand hide size n P = Outcome.ub UB.oobRead ∨ (hide = none ∧ runSeedTest E rand hide size n P = Outcome.diverge) := by
  have hs : (List.replicate 16 (0x09 : Byte)).length < P.saltSizeBytes := by rw [(seedWF_of hp).salt]; simp
  have key : ∀ l, listOr E rand hide size n = Outcome.ok l → runSeedTest E rand hide size n P = Outcome.ub UB.oobRead := by
    intro l hl
    unfold runSeedTest runSeedTestSized
    rw [if_neg (by omega), hl, ok_bind]
    exact bind_of_ub (generateSeeds_short hE hp h2 h4 hs)
  rcases hide with _ | l
  · rcases listOr_none (E := E) (rand := rand) (size := size) (by omega : 0 < n) with hd | ⟨l, hd, -⟩
    · refine Or.inr ⟨rfl, ?_⟩
      unfold runSeedTest runSeedTestSized
      rw [if_neg (by omega), hd]
      rfl
    · exact Or.inl (key l hd)
  · exact Or.inl (key l rfl)

/-- **C60**, violated: likewise `runMerkleTest`. -/
theorem C60_merkle_violated (E : Env) (hE : PermWF E) (rand : ℕ → ℕ) (p : ℕ) (P : Params) (hp : getParamSet p = some P) (miss : Option (List ℕ))
    (size n : ℕ) (h0 : size ≠ 0) (h1 : size ≤ n + 1) (h2 : 2 ≤ n) (h4 : n < 2 ^ 32) :
    runMerkleTest E rand miss size n P = Outcome.ub UB.oobRead ∨ (miss = none ∧ runMerkleTest E rand miss size n P = Outcome.diverge) := by
  have hs : (List.replicate 16 (0x09 : Byte)).length < P.saltSizeBytes := by rw [(seedWF_of hp).salt]; simp
  have key : ∀ l, listOr E rand miss size n = Outcome.ok l → runMerkleTest E rand miss size n P = Outcome.ub UB.oobRead := by
    intro l hl
    unfold runMerkleTest runMerkleTestSized
    rw [if_neg (by omega), hl, ok_bind]
    have := buildMerkleTree_short (leaves := (List.range n).map fun i => List.replicate P.digestSizeBytes (BitVec.ofNat 8 (i + 1))) hE hp h2 h4 hs
      (by simp) (by simp only [List.mem_map]; rintro d ⟨i, -, rfl⟩; simp)
    rw [List.map_map] at this
    rw [createTree_ok (by omega) h4, ok_bind] at this ⊢
    exact bind_of_ub this
  rcases miss with _ | l
  · rcases listOr_none (E := E) (rand := rand) (size := size) (by omega : 0 < n) with hd | ⟨l, hd, -⟩
    · refine Or.inr ⟨rfl, ?_⟩
      unfold runMerkleTest runMerkleTestSized
      rw [if_neg (by omega), hd]
      rfl
    · exact Or.inl (key l hd)
  · exact Or.inl (key l rfl)

/-- **C60**, the seed test with arrays of the right sizes: for every list of distinct hidden leaves that leaves some leaf visible, the test gives 1
if the number of revealed seeds is at most the bound of the test, and 0 otherwise.  (The bound `u·⌈log2 ⌊T/u⌋⌋` of the test is not the bound of the
library, `u·⌈log2 ⌈T/u⌉⌉`.) -/
theorem C60_seed_partial (E : Env) (hE : PermWF E) (rand : ℕ → ℕ) (p : ℕ) (P : Params) (hp : getParamSet p = some P) (n : ℕ) (l : List ℕ)
    (h2 : 2 ≤ n) (h16 : n ≤ 2 ^ 16) (hl : ∀ h ∈ l, h < n) (hnd : l.Nodup) (hne : l ≠ []) (hlt : l.length < n) :
    ∃ k, revealSeedsSize P n l l.length = Outcome.ok (k * P.seedSizeBytes) ∧
      runSeedTestSized E rand P.seedSizeBytes P.saltSizeBytes (some l) l.length n P =
        Outcome.ok (if P.numOpenedRounds * ceilLog2 (P.numMPCRounds / P.numOpenedRounds) < k then 0 else 1) ∧
      k + l.length ≤ 1 + ∑ ℓ ∈ Finset.range (Nat.clog 2 n), min (2 ^ ℓ) l.length := by
  obtain ⟨k, hk, h⟩ := seedTest_ok (rand := rand) (hide := some l) hE hp h2 h16 hl hne (by omega) (exists_not_mem hlt) rfl
  refine ⟨k, hk, h, ?_⟩
  obtain ⟨⟨k', hk', hb⟩, -⟩ := C29_general (P := P) (l := l) (ml := (List.range n).filter fun j => j ∉ l) h2 (by omega) hl hnd hne
    (fun j hj => by simp [hj]) (fun h hh => by simpa using (List.mem_filter.1 hh).1)
  have hs : P.seedSizeBytes ≠ 0 := by
    obtain ⟨h1, h2⟩ := getParamSet_bounds hp
    clear * - hp h1 h2
    interval_cases p <;> (injection hp with h; subst h; decide)
  rw [hk] at hk'
  rwa [Nat.eq_of_mul_eq_mul_right (Nat.pos_of_ne_zero hs) (Outcome.ok.inj hk')]

theorem seedTest_drawn (E : Env) (rand : ℕ → ℕ) (P : Params) (size n : ℕ) (hn : 0 < n) (h0 : size ≠ 0) (h1 : size ≤ n + 1)
    (h : ∀ l : List ℕ, l.length = size → l.Nodup → (∀ h ∈ l, h < n) →
      runSeedTestSized E rand P.seedSizeBytes P.saltSizeBytes (some l) size n P = Outcome.ok 1) :
    runSeedTestSized E rand P.seedSizeBytes P.saltSizeBytes none size n P = Outcome.ok 1 ∨
      runSeedTestSized E rand P.seedSizeBytes P.saltSizeBytes none size n P = Outcome.diverge := by
  rcases listOr_none (E := E) (rand := rand) (size := size) hn with hd | ⟨l, hd, a, b, c⟩
  · refine Or.inr ?_
    unfold runSeedTestSized
    rw [if_neg (by omega), hd]
    rfl
  · refine Or.inl ?_
    have := h l a b c
    unfold runSeedTestSized at this ⊢
    rw [if_neg (by omega)] at this ⊢
    rw [hd]
    exact this

/-- **C60**, the seed tests of level 1, and those of small trees (the other calls in the program have at most 8 leaves): with arrays of the right
sizes, every list of distinct leaves passes, also a drawn one. -/
theorem C60_seed_pass (E : Env) (hE : PermWF E) (rand : ℕ → ℕ) (p : ℕ) (P : Params) (hp : getParamSet p = some P) (h7 : 7 ≤ p ∧ p ≤ 9) (size n : ℕ)
    (hsz : (p = 7 ∧ size = 36 ∧ n = 250) ∨ (2 ≤ n ∧ n ≤ 64 ∧ 1 ≤ size ∧ size < n)) :
    (∀ l : List ℕ, l.length = size → l.Nodup → (∀ h ∈ l, h < n) →
      runSeedTestSized E rand P.seedSizeBytes P.saltSizeBytes (some l) size n P = Outcome.ok 1) ∧
    (runSeedTestSized E rand P.seedSizeBytes P.saltSizeBytes none size n P = Outcome.ok 1 ∨
      runSeedTestSized E rand P.seedSizeBytes P.saltSizeBytes none size n P = Outcome.diverge) := by
  have key : ∀ l : List ℕ, l.length = size → l.Nodup → (∀ h ∈ l, h < n) →
      runSeedTestSized E rand P.seedSizeBytes P.saltSizeBytes (some l) size n P = Outcome.ok 1 := by
    intro l hll hnd hl
    have hb : 2 ≤ n ∧ n ≤ 2 ^ 16 ∧ 1 ≤ size ∧ size < n := by rcases hsz with ⟨-, rfl, rfl⟩ | h <;> [decide; omega]
    obtain ⟨k, -, h, hk⟩ := C60_seed_partial E hE rand p P hp n l hb.1 hb.2.1 hl hnd (by rintro rfl; simp at hll; omega) (by omega)
    rw [hll] at h hk
    rw [h, if_neg]
    have hkb : k ≤ 108 := by
      rcases hsz with ⟨-, rfl, rfl⟩ | ⟨h2, h64, h1, -⟩
      · have : 1 + ∑ ℓ ∈ Finset.range (Nat.clog 2 250), min (2 ^ ℓ) 36 = 136 := by decide
        omega
      · have h6 : Nat.clog 2 n ≤ 6 := Nat.clog_le_of_le_pow (by simpa using h64)
        have : ∑ ℓ ∈ Finset.range (Nat.clog 2 n), min (2 ^ ℓ) size ≤ ∑ ℓ ∈ Finset.range 6, 2 ^ ℓ :=
          le_trans (Finset.sum_le_sum fun i _ => min_le_left _ _) (Finset.sum_le_sum_of_subset (by simpa using h6))
        have h63 : ∑ ℓ ∈ Finset.range 6, 2 ^ ℓ = 63 := by decide
        omega
    have h108 : 108 ≤ P.numOpenedRounds * ceilLog2 (P.numMPCRounds / P.numOpenedRounds) := by
      obtain ⟨h1, h2⟩ := h7
      clear * - hp h1 h2
      interval_cases p <;> (injection hp with h; subst h; decide)
    omega
  have hb : 2 ≤ n ∧ 1 ≤ size ∧ size < n := by rcases hsz with ⟨-, rfl, rfl⟩ | h <;> [decide; omega]
  exact ⟨key, seedTest_drawn E rand P size n (by omega) (by omega) (by omega) key⟩

/-- 52 of 419 leaves whose hiding takes 157 seeds. -/
def worst3 : List ℕ := (List.range 52).map fun i => 8 * i + 7

/-- 68 of 601 leaves whose hiding takes 212 seeds. -/
def worst5 : List ℕ := (List.range 7).map (fun i => 16 * i + 15) ++ (List.range 61).map fun i => 8 * i + 119

theorem drawList_given {E : Env} {l : List ℕ} {n : ℕ} (hf : E.fuel ≠ 0) (hnd : l.Nodup) (hl : ∀ h ∈ l, h < n) (hn : n ≤ 2 ^ 16) :
    ∀ s ≤ l.length, drawList E (fun k => l.getD k 0) s n = Outcome.ok (l.take s, s) := by
  intro s
  unfold drawList
  induction s with
  | zero => intro _; rfl
  | succ s ih =>
    intro hs
    rw [loop_succ, ih (by omega), ok_bind]
    dsimp only
    obtain ⟨f, hf'⟩ : ∃ f, E.fuel = f + 1 := ⟨E.fuel - 1, by omega⟩
    have hg : l.getD s 0 = l[s] := List.getD_eq_getElem _ _ (by omega)
    have hlt := hl l[s] (List.getElem_mem _)
    have hni : l[s] ∉ l.take s := by
      intro hm
      obtain ⟨i, hi, e⟩ := List.getElem_of_mem hm
      rw [List.getElem_take] at e
      rw [List.length_take] at hi
      have := (List.Nodup.getElem_inj_iff hnd).1 e
      omega
    rw [hf', drawNew, hg, Nat.mod_eq_of_lt (by omega : l[s] < 2 ^ 16), Nat.mod_eq_of_lt hlt, containsU16_ok, ok_bind, decide_eq_false hni]
    simp only [Bool.false_eq_true, if_false, pure_eq_ok, ok_bind]
    rw [List.take_succ_eq_append_getElem (by omega)]

/-- **C60**, violated: with arrays of the right sizes, the seed tests of levels 3 and 5 fail for some lists although the library is correct: for
these lists, and for the outputs of `rand` that lead to them, the result is 0. -/
theorem C60_seed_bound_violated (E : Env) (hE : PermWF E) (hf : E.fuel ≠ 0) (p : ℕ) (P : Params) (hp : getParamSet p = some P) (h8 : p = 8 ∨ p = 9) :
    ∃ l : List ℕ, l.length = P.numOpenedRounds ∧ l.Nodup ∧ (∀ h ∈ l, h < P.numMPCRounds) ∧
      (∀ rand, runSeedTestSized E rand P.seedSizeBytes P.saltSizeBytes (some l) P.numOpenedRounds P.numMPCRounds P = Outcome.ok 0) ∧
      ∃ rand, runSeedTestSized E rand P.seedSizeBytes P.saltSizeBytes none P.numOpenedRounds P.numMPCRounds P = Outcome.ok 0 := by
  have main : ∀ l : List ℕ, l.length = P.numOpenedRounds → l.Nodup → (∀ h ∈ l, h < P.numMPCRounds) → 2 ≤ P.numMPCRounds → P.numMPCRounds ≤ 2 ^ 16 →
      P.numOpenedRounds < P.numMPCRounds → l ≠ [] →
      P.numOpenedRounds * ceilLog2 (P.numMPCRounds / P.numOpenedRounds) < (revN (ceilLog2 P.numMPCRounds) P.numMPCRounds l).length →
      (∀ rand, runSeedTestSized E rand P.seedSizeBytes P.saltSizeBytes (some l) P.numOpenedRounds P.numMPCRounds P = Outcome.ok 0) ∧
      ∃ rand, runSeedTestSized E rand P.seedSizeBytes P.saltSizeBytes none P.numOpenedRounds P.numMPCRounds P = Outcome.ok 0 := by
    intro l hll hnd hl h2 h16 hlt hne hb
    have key : ∀ rand hide, listOr E rand hide l.length P.numMPCRounds = Outcome.ok l →
        runSeedTestSized E rand P.seedSizeBytes P.saltSizeBytes hide P.numOpenedRounds P.numMPCRounds P = Outcome.ok 0 := by
      intro rand hide hd
      obtain ⟨k, hk, h⟩ := seedTest_ok (rand := rand) (hide := hide) hE hp h2 h16 hl hne (by omega) (exists_not_mem (by omega)) hd
      have hs : 0 < P.seedSizeBytes := by
        obtain ⟨h1, h2⟩ := getParamSet_bounds hp
        clear * - hp h1 h2
        interval_cases p <;> (injection hp with h; subst h; decide)
      have hD1 := clog_pos h2 (by omega)
      have hn := ceilLog2_le (by omega : 1 ≤ P.numMPCRounds) (by omega)
      rw [revealSeedsSize_ok (by omega) (by omega) (revN_spec hD1 (by omega) hn hl).1] at hk
      rw [← Nat.eq_of_mul_eq_mul_right hs (Outcome.ok.inj hk), if_pos hb, hll] at h
      exact h
    refine ⟨fun rand => key rand (some l) rfl, fun k => l.getD k 0, key _ none ?_⟩
    unfold listOr
    dsimp only
    rw [drawList_given hf hnd hl h16 _ le_rfl, List.take_length]
    rfl
  rcases h8 with rfl | rfl
  · injection hp with hp
    subst hp
    have a : worst3.Nodup := by decide +kernel
    have b : ∀ h ∈ worst3, h < 419 := by decide +kernel
    refine ⟨worst3, by decide, a, b, main worst3 (by decide) a b (by decide) (by decide) (by decide) (by decide) ?_⟩
    have := rev_lower (D := 9) (n := 419) (l := worst3)
      (R := (worst3.flatMap fun h => (List.range 3).map fun d => ((512 + h) / 2 ^ d - 1, d)) ++ [(29, 5)]) (by decide) (by decide) (by decide) b
      (by decide +kernel) (by decide +kernel)
    refine lt_of_lt_of_le ?_ this
    decide +kernel
  · injection hp with hp
    subst hp
    have a : worst5.Nodup := by decide +kernel
    have b : ∀ h ∈ worst5, h < 601 := by decide +kernel
    refine ⟨worst5, by decide, a, b, main worst5 (by decide) a b (by decide) (by decide) (by decide) (by decide) ?_⟩
    have := rev_lower (D := 10) (n := 601) (l := worst5)
      (R := (worst5.flatMap fun h => (List.range 3).map fun d => ((1024 + h) / 2 ^ d - 1, d)) ++
        ((worst5.take 7).map fun h => ((1024 + h) / 8 - 1, 3))) (by decide) (by decide) (by decide) b
      (by decide +kernel) (by decide +kernel)
    refine lt_of_lt_of_le ?_ this
    decide +kernel

/-- **C60**, the Merkle test with a salt of the right size: it passes for every list of distinct missing leaves no longer than the bound of the test,
in particular for `numOpenedRounds` of `numMPCRounds` leaves and for the small trees of the program. -/
theorem C60_merkle_pass (E : Env) (hE : PermWF E) (rand : ℕ → ℕ) (p : ℕ) (P : Params) (hp : getParamSet p = some P) (h7 : 7 ≤ p ∧ p ≤ 9) (size n : ℕ)
    (h2 : 2 ≤ n) (h16 : n ≤ 2 ^ 16) (h1 : 1 ≤ size) (hlt : size < n) (hsz : size ≤ P.numOpenedRounds) :
    (∀ ml : List ℕ, ml.length = size → (∀ h ∈ ml, h < n) → runMerkleTestSized E rand P.saltSizeBytes (some ml) size n P = Outcome.ok 1) ∧
    (runMerkleTestSized E rand P.saltSizeBytes none size n P = Outcome.ok 1 ∨ runMerkleTestSized E rand P.saltSizeBytes none size n P = Outcome.diverge) := by
  have hb : P.numOpenedRounds ≤ P.numOpenedRounds * ceilLog2 (P.numMPCRounds / P.numOpenedRounds) := by
    obtain ⟨h1, h2⟩ := h7
    clear * - hp h1 h2
    interval_cases p <;> (injection hp with h; subst h; decide)
  have key : ∀ miss ml, listOr E rand miss size n = Outcome.ok ml → ml.length = size → (∀ h ∈ ml, h < n) →
      runMerkleTestSized E rand P.saltSizeBytes miss size n P = Outcome.ok 1 := by
    rintro miss ml hd rfl hl
    obtain ⟨k, -, hk, h⟩ := merkleTest_ok (rand := rand) (miss := miss) hE hp h2 h16 hl (by rintro rfl; simp at h1) hlt hd
    rw [h, if_neg (by omega)]
  refine ⟨fun ml hll hl => key (some ml) ml rfl hll hl, ?_⟩
  rcases listOr_none (E := E) (rand := rand) (size := size) (by omega : 0 < n) with hd | ⟨l, hd, a, b, c⟩
  · refine Or.inr ?_
    unfold runMerkleTestSized
    rw [if_neg (by omega), hd]
    rfl
  · exact Or.inl (key none l hd a c)

/-- Instances: `runSeedTest` and `runMerkleTest` as the program calls them, a hidden list that passes, and the lists that do not. -/
example : ∃ P, getParamSet 7 = some P ∧ runSeedTest exEnv (fun k => k) (some [0]) 1 4 P = Outcome.ub UB.oobRead ∧
    runMerkleTest exEnv (fun k => k) (some [0]) 1 4 P = Outcome.ub UB.oobRead ∧
    runSeedTestSized exEnv (fun k => k) P.seedSizeBytes P.saltSizeBytes (some [0]) 1 4 P = Outcome.ok 1 ∧
    runMerkleTestSized exEnv (fun k => k) P.saltSizeBytes (some [0]) 1 4 P = Outcome.ok 1 := by
  refine ⟨_, rfl, ?_, ?_, ?_, ?_⟩
  · exact (C60_seed_violated exEnv exEnv_wf.perm _ 7 _ rfl _ 1 4 (by decide) (by decide) (by decide) (by decide)).resolve_right (by simp)
  · exact (C60_merkle_violated exEnv exEnv_wf.perm _ 7 _ rfl _ 1 4 (by decide) (by decide) (by decide) (by decide)).resolve_right (by simp)
  · exact (C60_seed_pass exEnv exEnv_wf.perm _ 7 _ rfl (by decide) 1 4 (Or.inr (by decide))).1 [0] rfl (by decide) (by decide)
  · exact (C60_merkle_pass exEnv exEnv_wf.perm _ 7 _ rfl (by decide) 1 4 (by decide) (by decide) (by decide) (by decide) (by decide)).1 [0] rfl (by decide)

example : ∃ P l, getParamSet 8 = some P ∧ l.length = 52 ∧
    runSeedTestSized exEnv (fun _ => 0) P.seedSizeBytes P.saltSizeBytes (some l) 52 419 P = Outcome.ok 0 := by
  obtain ⟨l, h1, -, -, h2, -⟩ := C60_seed_bound_violated exEnv exEnv_wf.perm (by decide) 8 _ rfl (Or.inl rfl)
  exact ⟨_, l, rfl, h1, h2 _⟩

/-! ### The LowMC tests -/

/-- **C60**, violated: the LowMC tests for 129 bits pass arrays of 17 bytes to `LowMCEnc`, which copies 20 bytes. -/
theorem C60_lowmc_violated (E : Env) (p : ℕ) (hp : blockBits p = some 129) (key plaintext expected : Buf) (h : plaintext.length = 17) :
    runLowmcEncTest E p key plaintext expected = Outcome.ub UB.oobRead := by
  obtain ⟨P, hP, hn⟩ := getParamSet_of hp
  have hw : P.stateSizeWords = 5 := by
    obtain ⟨h1, h2⟩ := getParamSet_bounds hP
    clear * - hP h1 h2 hn
    interval_cases p <;> (injection hP with h; subst h; first | rfl | exact absurd hn (by decide))
  unfold runLowmcEncTest
  rw [hP]
  dsimp only
  refine bind_of_ub ?_
  unfold lowMCEnc
  refine bind_of_ub (memcpy_oob ?_)
  rw [hw]
  omega

/-- **C60**, the LowMC tests with arrays of whole words: the result is 1 exactly if the expected ciphertext is that of the LowMC specification. -/
theorem C60_lowmc_partial (E : Env) (hE : EnvWF E) (p : ℕ) (P : Params) (hp : getParamSet p = some P) (key plaintext expected : Buf)
    (hk : 4 * P.stateSizeWords ≤ key.length) (hpt : 4 * P.stateSizeWords ≤ plaintext.length) (he : P.stateSizeBytes ≤ expected.length) :
    ∃ r : Int, runLowmcEncTest E p key plaintext expected = Outcome.ok r ∧ (r = 0 ∨ r = 1) ∧
      (r = 1 ↔ ∀ i < 8 * P.stateSizeBytes, bitsOf expected i = (lowmcOf P (E.lowmc P)).enc (bitsOf key) (bitsOf plaintext) i) := by
  have hP := paramsWF_of hp
  have hw := hP.words
  have hby := hP.bytes
  have hn := hP.nMax
  unfold runLowmcEncTest
  rw [hp]
  dsimp only
  rw [lowMCEnc_ok hP (hE.lowmc p P hp) hpt (by simp; omega) (by omega), ok_bind, memeq_ok he (by simp; omega), ok_bind]
  refine ⟨_, rfl, by split_ifs <;> simp, ?_⟩
  have hl : (ofBits ((lowmcOf P (E.lowmc P)).enc (bitsOf key) (bitsOf plaintext)) (4 * P.stateSizeWords)).length = 4 * P.stateSizeWords := by simp
  have : (∀ i < 8 * P.stateSizeBytes, bitsOf expected i = (lowmcOf P (E.lowmc P)).enc (bitsOf key) (bitsOf plaintext) i) ↔
      expected.take P.stateSizeBytes = (ofBits ((lowmcOf P (E.lowmc P)).enc (bitsOf key) (bitsOf plaintext)) (4 * P.stateSizeWords) ++
        (zeros 32).drop (4 * P.stateSizeWords)).take P.stateSizeBytes := by
    rw [take_eq_iff he (by simp; omega)]
    refine forall_congr' fun i => forall_congr' fun hi => ?_
    rw [bitsOf_append_left (by rw [hl]; omega), bitsOf_ofBits _ (by omega)]
  rw [this, beq_eq_decide]
  split_ifs with h <;> simpa using h

/-- Instances: the arrays of the program, and arrays of whole words. -/
example : runLowmcEncTest exEnv 7 (zeros 17) (zeros 17) (zeros 17) = Outcome.ub UB.oobRead ∧
    runLowmcEncTest exEnv 10 (zeros 17) (zeros 17) (zeros 17) = Outcome.ub UB.oobRead ∧
    ∃ r : Int, runLowmcEncTest exEnv 8 (zeros 24) (zeros 24) (zeros 24) = Outcome.ok r := by
  refine ⟨C60_lowmc_violated exEnv 7 rfl _ _ _ (by simp), C60_lowmc_violated exEnv 10 rfl _ _ _ (by simp), ?_⟩
  obtain ⟨r, h, -⟩ := C60_lowmc_partial exEnv exEnv_wf 8 _ rfl (zeros 24) (zeros 24) (zeros 24) (by decide) (by decide) (by decide)
  exact ⟨r, h⟩

/-! ### The serialisation tests -/

/-- Writing and reading back generated keys. -/
theorem keys_roundtrip (J : CycleJunk) (p n : ℕ) (hn : blockBits p = some n)
    (pk pk2 : PublicKey) (sk sk2 : PrivateKey) (hpk2 : pk2.Arrays) (hpp : pk.params = p) (hsp : sk.params = p) (hskpk : sk.pk = pk) (hpa : pk.Arrays)
    (hsa : sk.Arrays) (hz0 : ZeroPad n sk.data) (hz1 : ZeroPad n pk.ciphertext) (hz2 : ZeroPad n pk.plaintext) :
    ∃ out out2 pk' sk', picnicWritePublicKey (some pk) (some ((List.range PICNIC_MAX_PUBLICKEY_SIZE).map J.pkBuf)) PICNIC_MAX_PUBLICKEY_SIZE =
        Outcome.ok (((1 + 2 * bytesFor n : ℕ) : Int), some out) ∧
      picnicWritePrivateKey (some sk) (some ((List.range PICNIC_MAX_PRIVATEKEY_SIZE).map J.skBuf)) PICNIC_MAX_PRIVATEKEY_SIZE =
        Outcome.ok (((1 + 3 * bytesFor n : ℕ) : Int), some out2) ∧
      picnicReadPublicKey (some pk2) (some out) PICNIC_MAX_PUBLICKEY_SIZE = Outcome.ok (0, some pk') ∧
      picnicReadPrivateKey (some sk2) (some out2) PICNIC_MAX_PRIVATEKEY_SIZE = Outcome.ok (0, some sk') ∧
      pk'.Arrays ∧ sk'.Arrays ∧ pk'.params = p ∧ sk'.params = p ∧ pk'.ciphertext.take (bytesFor n) = pk.ciphertext.take (bytesFor n) ∧
      pk'.plaintext.take (bytesFor n) = pk.plaintext.take (bytesFor n) ∧ sk'.data.take (bytesFor n) = sk.data.take (bytesFor n) := by
  obtain ⟨P, hP, hPn⟩ := getParamSet_of hn
  have hWF := paramsWF_of hP
  have hmax := (C04_max_sizes.2.1) p n hn
  have hb : bytesFor n ≤ 32 := by have := hWF.nMax; rw [hPn] at this; unfold bytesFor; omega
  obtain ⟨out, hw, hrd⟩ := C10_write_read pk pk2 hpa hpk2 n
    (hpp ▸ hn) hz1 hz2 ((List.range PICNIC_MAX_PUBLICKEY_SIZE).map J.pkBuf) PICNIC_MAX_PUBLICKEY_SIZE (by simp) hmax.1
  have hol : out.length = PICNIC_MAX_PUBLICKEY_SIZE := by
    have h12 := C12_write_public_key pk hpa ((List.range PICNIC_MAX_PUBLICKEY_SIZE).map J.pkBuf) PICNIC_MAX_PUBLICKEY_SIZE (by simp)
    rw [hw, hpp, hn] at h12
    simp only [] at h12
    rw [if_neg (by have := hmax.1; simp only [PICNIC_MAX_PUBLICKEY_SIZE, PICNIC_MAX_LOWMC_BLOCK_SIZE]; omega)] at h12
    have h13 : out = _ := Option.some.inj (Prod.mk.inj (Outcome.ok.inj h12)).2
    have h1 := hpa.ct
    have h2 := hpa.pt
    have hm : 1 + 2 * bytesFor n ≤ PICNIC_MAX_PUBLICKEY_SIZE := hmax.1
    rw [h13]
    simp only [List.length_cons, List.length_append, List.length_take, List.length_drop, List.length_map, List.length_range]
    omega
  obtain ⟨pk', hr1, hp1, hc1, ht1⟩ := hrd (out.drop (1 + 2 * bytesFor n))
  rw [List.take_append_drop] at hr1
  have hln : 1 + 2 * bytesFor n + (out.drop (1 + 2 * bytesFor n)).length = PICNIC_MAX_PUBLICKEY_SIZE := by
    have hm : 1 + 2 * bytesFor n ≤ PICNIC_MAX_PUBLICKEY_SIZE := hmax.1
    rw [List.length_drop, hol]; omega
  rw [hln] at hr1
  have hpa' : pk'.Arrays := by
    obtain ⟨r, key', hr, -, -, hok⟩ := C12_read_public_key pk2 hpk2 out PICNIC_MAX_PUBLICKEY_SIZE (by omega)
    rw [hr1] at hr
    have h1 := Prod.mk.inj (Outcome.ok.inj hr)
    have h2 := Option.some.inj h1.2
    subst h2
    exact (hok h1.1.symm).choose_spec.2.2
  obtain ⟨out2, hw2, hrd2⟩ := C11_write_read sk sk2 hsa n (hsp ▸ hn) hz0 (hskpk ▸ hz1) (hskpk ▸ hz2)
    ((List.range PICNIC_MAX_PRIVATEKEY_SIZE).map J.skBuf) PICNIC_MAX_PRIVATEKEY_SIZE (by simp) hmax.2
  have hol2 : out2.length = PICNIC_MAX_PRIVATEKEY_SIZE := by
    have h12 := C12_write_private_key sk hsa ((List.range PICNIC_MAX_PRIVATEKEY_SIZE).map J.skBuf) PICNIC_MAX_PRIVATEKEY_SIZE (by simp)
    rw [hw2, hsp, hn] at h12
    simp only [] at h12
    rw [if_neg (by have := hmax.2; simp only [PICNIC_MAX_PRIVATEKEY_SIZE, PICNIC_MAX_LOWMC_BLOCK_SIZE]; omega)] at h12
    have h13 : out2 = _ := Option.some.inj (Prod.mk.inj (Outcome.ok.inj h12)).2
    have h1 := hsa.pk.ct
    have h2 := hsa.pk.pt
    have h3 := hsa.data
    have hm : 1 + 3 * bytesFor n ≤ PICNIC_MAX_PRIVATEKEY_SIZE := hmax.2
    rw [h13]
    simp only [List.length_cons, List.length_append, List.length_take, List.length_drop, List.length_map, List.length_range]
    omega
  obtain ⟨sk', hr2, hq1, hq2, hq3, hq4, hq5⟩ := hrd2 (out2.drop (1 + 3 * bytesFor n))
  rw [List.take_append_drop] at hr2
  have hln2 : 1 + 3 * bytesFor n + (out2.drop (1 + 3 * bytesFor n)).length = PICNIC_MAX_PRIVATEKEY_SIZE := by
    have hm : 1 + 3 * bytesFor n ≤ PICNIC_MAX_PRIVATEKEY_SIZE := hmax.2
    rw [List.length_drop, hol2]; omega
  rw [hln2] at hr2
  have hsa' : sk'.Arrays := by
    obtain ⟨r, key', hr, -, -, hok⟩ := C12_read_private_key sk2 out2 PICNIC_MAX_PRIVATEKEY_SIZE (by omega)
    rw [hr2] at hr
    have h1 := Prod.mk.inj (Outcome.ok.inj hr)
    have h2 := Option.some.inj h1.2
    subst h2
    exact (hok h1.1.symm).choose_spec.2.2.2.1
  exact ⟨out, out2, pk', sk', hw, hw2, hr1, hr2, hpa', hsa', hp1.trans hpp, hq1.trans hsp, hc1, ht1, hq3⟩

/-- **C60**, `test_serialization_L1`, for every parameter set: the test passes, whatever the random source delivers and the memory contains. -/
theorem C60_serialization (E : Env) (hE : EnvWF E) (rng : Rng) (hrng : RngLen rng) (J : CycleJunk) (pk2 : PublicKey) (sk2 : PrivateKey)
    (hpk2 : pk2.Arrays) (p n : ℕ) (hn : blockBits p = some n) (r0 r1 : Buf) (h0 : rng 0 (bytesFor n) = some r0) (h1 : rng 1 (bytesFor n) = some r1) :
    testSerialization E rng J pk2 sk2 p = Outcome.ok 1 := by
  obtain ⟨pk, sk, e, hg⟩ := genOK { E with junk := J.call 0 } ⟨hE.perm, hE.lowmc⟩ rng hrng p n hn J.pk J.sk r0 r1 h0 h1
  obtain ⟨P, hP, hPn⟩ := getParamSet_of hn
  have hb : 1 ≤ bytesFor n ∧ bytesFor n ≤ 32 := by
    have := (paramsWF_of hP).nMax
    have h0 : 1 ≤ P.stateSizeBits := by
      obtain ⟨h1, h2⟩ := getParamSet_bounds hP
      clear * - hP h1 h2
      interval_cases p <;> (injection hP with h; subst h; decide)
    rw [hPn] at this h0
    unfold bytesFor
    omega
  obtain ⟨out, out2, pk', sk', hw, hw2, hr1, hr2, hpa', hsa', hp1, hq1, hc1, ht1, hq3⟩ :=
    keys_roundtrip J p n hn pk pk2 sk sk2 hpk2 hg.pkp hg.skp hg.skpk hg.pa hg.sa hg.z0 hg.z1 hg.z2
  obtain ⟨P', hP', hR⟩ := hg.rel
  rw [hP] at hP'
  obtain rfl : P = P' := by simpa using hP'
  have hbits : ∀ {x y : Buf}, x.length = 32 → y.length = 32 → x.take (bytesFor n) = y.take (bytesFor n) → ∀ i < n, bitsOf y i = bitsOf x i :=
    fun hx hy h i hi => ((take_eq_iff (by omega) (by omega)).1 h i (by unfold bytesFor; omega)).symm
  have hval : ∀ j (sk1 : PrivateKey) (pk1 : PublicKey), sk1.Arrays → pk1.Arrays → sk1.params = p → pk1.params = p →
      pk1.ciphertext.take (bytesFor n) = pk.ciphertext.take (bytesFor n) → pk1.plaintext.take (bytesFor n) = pk.plaintext.take (bytesFor n) →
      sk1.data.take (bytesFor n) = sk.data.take (bytesFor n) →
      picnicValidateKeypair { E with junk := J.call j } (some sk1) (some pk1) = Outcome.ok 0 := by
    intro j sk1 pk1 a1 a2 a3 a4 a5 a6 a7
    have hEj : EnvWF { E with junk := J.call j } := ⟨hE.perm, hE.lowmc⟩
    rw [← C08_unused_bytes { E with junk := J.call j } hEj sk sk1 pk pk1 n hg.sa hg.pa a1 a2 (hg.pkp ▸ hn) (by rw [a3, hg.skp])
      (by rw [a4, hg.pkp]) (hbits a1.data hg.sa.data a7) (hbits a2.pt hg.pa.pt a6) a5.symm]
    obtain ⟨r, hr, -, hiff⟩ := C08_validate _ hEj sk pk hg.sa hg.pa
    have : r = 0 := hiff.2 ⟨by rw [hg.pkp, hg.skp], P, hg.pkp ▸ hP, hR⟩
    rw [hr, this]
  have e1 : ¬ (((1 + 2 * bytesFor n : ℕ) : Int) ≤ 1) := by omega
  have e2 : ¬ (((1 + 3 * bytesFor n : ℕ) : Int) ≤ 1) := by omega
  unfold testSerialization
  rw [e, ok_bind]
  simp only [ne_eq, not_true_eq_false, if_false]
  rw [hw, ok_bind]
  simp only []
  rw [if_neg e1, hw2, ok_bind]
  simp only []
  rw [if_neg e2, hr1, ok_bind]
  simp only [not_true_eq_false, if_false]
  rw [hr2, ok_bind]
  simp only [not_true_eq_false, if_false]
  rw [hval 1 sk' pk' hsa' hpa' hq1 hp1 hc1 ht1 hq3, ok_bind]
  simp only [not_true_eq_false, if_false]
  rw [hval 2 sk' pk hsa' hg.pa hq1 hg.pkp rfl rfl hq3, ok_bind]
  simp only [not_true_eq_false, if_false]
  rw [hval 3 sk pk' hg.sa hpa' hg.skp hp1 hc1 ht1 rfl, ok_bind]
  simp only [not_true_eq_false, if_false]
  rfl

/-- What `sign_picnic3`, `serializeSignature2`, `deserializeSignature2` in a row give. -/
theorem signAndReadBack_ok (E : Env) (hE : EnvWF E) (hI : InvWF E) (rng : Rng) (hrng : RngLen rng) (J : CycleJunk) (p n : ℕ) (hp : p ∈ picnic3Params)
    (hn : blockBits p = some n) (r0 r1 : Buf) (h0 : rng 0 (bytesFor n) = some r0) (h1 : rng 1 (bytesFor n) = some r1) :
    signAndReadBack E rng J p = Outcome.diverge ∨ ∃ P sig, getParamSet p = some P ∧ Sig2WF P sig ∧
      signAndReadBack E rng J p = Outcome.ok (some (P, sig, sig2Bytes P sig, sig)) := by
  obtain ⟨pk, sk, e, hg⟩ := genOK { E with junk := J.call 0 } ⟨hE.perm, hE.lowmc⟩ rng hrng p n hn J.pk J.sk r0 r1 h0 h1
  obtain ⟨P, hP, hPn⟩ := getParamSet_of hn
  obtain ⟨-, -, hi3⟩ := getParamSet_p3 hp
  have hWF := paramsWF_of hP
  have h3 := p3WF_of hP hi3
  have hw := hWF.words
  have hby := hWF.bytes
  have hnm := hWF.nMax
  obtain ⟨P', hP', hR⟩ := hg.rel
  rw [hP] at hP'
  obtain rfl : P = P' := by simpa using hP'
  have hR' : Relation P (E.lowmc P) sk.data sk.pk.plaintext sk.pk.ciphertext := hg.skpk ▸ hR
  have h1 := hg.sa.data
  have h2 := hg.sa.pk.pt
  have h4 := hg.sa.pk.ct
  have hsign := signPicnic3_ok (E := { E with junk := J.call 1 }) (P := P) (key := sk.data) (pk := sk.pk.ciphertext) (pt := sk.pk.plaintext)
    (msg := List.replicate 500 0x07) (mlen := 500) hE.perm hWF (seedWF_of hP) (merkleWF_of hP) h3 (p3Sz_of hP hi3) (hE.lowmc _ _ hP)
    (hI.len _ hp _ hP) (hI.inv _ hp _ hP) (by omega) (by omega) (by omega) (by rw [List.length_replicate]) (by decide)
  unfold signR at hsign
  rw [if_pos ((relation_iff hWF (by omega)).2 hR')] at hsign
  unfold signAndReadBack
  rw [hP]
  dsimp only
  rw [e, ok_bind]
  simp only [ne_eq, not_true_eq_false, if_false, deref, pure_eq_ok, ok_bind]
  rw [hsign]
  have hrl := sRoot_length (E := { E with junk := J.call 1 }) (P := P) (key := sk.data) (pk := sk.pk.ciphertext) (pt := sk.pk.plaintext)
    (msg := (List.replicate 500 (0x07 : Byte)).take 500)
  have hll := sSalt_length (E := { E with junk := J.call 1 }) (P := P) (key := sk.data) (pk := sk.pk.ciphertext) (pt := sk.pk.plaintext)
    (msg := (List.replicate 500 (0x07 : Byte)).take 500)
  generalize sSalt { E with junk := J.call 1 } P sk.data sk.pk.ciphertext sk.pk.plaintext ((List.replicate 500 (0x07 : Byte)).take 500) = salt at *
  generalize sRoot { E with junk := J.call 1 } P sk.data sk.pk.ciphertext sk.pk.plaintext ((List.replicate 500 (0x07 : Byte)).take 500) = root at *
  generalize (List.replicate 500 (0x07 : Byte)).take 500 = msg at *
  cases hx : expandR { E with junk := J.call 1 } P E.fuel (sHash { E with junk := J.call 1 } P salt root sk.data sk.pk.ciphertext sk.pk.plaintext msg) with
  | none => exact Or.inl rfl
  | some r =>
    obtain ⟨C, Q⟩ := r
    have hc := expandR_wf h3 hx
    have hle := sig2Len_le hp hP hc
    have hwf := sSig_wf (E := { E with junk := J.call 1 }) (key := sk.data) (pk := sk.pk.ciphertext) (pt := sk.pk.plaintext) (msg := msg) h3 hc hll hrl
    have hbl : (sig2Bytes P (sSig { E with junk := J.call 1 } P salt root sk.data sk.pk.ciphertext sk.pk.plaintext msg C Q)).length = sig2Len P C Q :=
      pre2_length hwf _
    refine Or.inr ⟨P, _, rfl, hwf, ?_⟩
    dsimp only
    rw [ok_bind]
    dsimp only
    rw [serializeSignature2_ok h3 hwf (by simp), ok_bind]
    change (match (if picnicSignatureSize p < sig2Len P C Q then none else some (_, sig2Len P C Q) : Option (Buf × ℕ)) with
        | none => _
        | some (signature, signature_len) => _) = _
    rw [if_neg (by omega)]
    dsimp only
    have htake : ∀ r : Buf, (sig2Bytes P (sSig { E with junk := J.call 1 } P salt root sk.data sk.pk.ciphertext sk.pk.plaintext msg C Q) ++ r).take (sig2Len P C Q) =
        sig2Bytes P (sSig { E with junk := J.call 1 } P salt root sk.data sk.pk.ciphertext sk.pk.plaintext msg C Q) := fun r => by
      rw [← hbl, List.take_left]
    generalize List.drop _ (List.map J.sig (List.range (picnicSignatureSize p))) = rest
    obtain ⟨d1, d2, d3⟩ := dec_sSig h3 hc hll hrl (htake rest)
    rw [deserializeSignature2_ok (E := { E with junk := J.call 2 }) hE.perm hWF h3 (by rw [List.length_append, hbl]; omega)]
    unfold dec2R
    have hge : P.digestSizeBytes + P.saltSizeBytes ≤ sig2Len P C Q := by
      have h0 : off2 P C Q 0 ≤ sig2Len P C Q := off2_mono (Nat.zero_le _)
      have h00 : P.digestSizeBytes + P.saltSizeBytes ≤ off2 P C Q 0 := by simp [off2]; omega
      omega
    rw [if_neg (by omega), d3]
    change ((match expandR { E with junk := J.call 1 } P E.fuel (sHash { E with junk := J.call 1 } P salt root sk.data sk.pk.ciphertext sk.pk.plaintext msg) with
      | none => _
      | some (C, Q) => _) >>= _) = _
    rw [hx]
    dsimp only
    rw [if_pos ⟨rfl, d2⟩, d1, ok_bind, htake]

/-- **C60**, `test_serialize_roundtrip_picnic3`: the test passes, or signing does not end because the challenge is never sampled. -/
theorem C60_roundtrip (E : Env) (hE : EnvWF E) (hI : InvWF E) (rng : Rng) (hrng : RngLen rng) (J : CycleJunk) (p n : ℕ) (hp : p ∈ picnic3Params)
    (hn : blockBits p = some n) (r0 r1 : Buf) (h0 : rng 0 (bytesFor n) = some r0) (h1 : rng 1 (bytesFor n) = some r1) :
    testSerializeRoundtrip E rng J p = Outcome.ok 1 ∨
      (testSerializeRoundtrip E rng J p = Outcome.diverge ∧ signAndReadBack E rng J p = Outcome.diverge) := by
  unfold testSerializeRoundtrip
  rcases signAndReadBack_ok E hE hI rng hrng J p n hp hn r0 r1 h0 h1 with h | ⟨P, sig, hP, hwf, h⟩
  · exact Or.inr ⟨by rw [h]; rfl, h⟩
  · obtain ⟨-, -, hi3⟩ := getParamSet_p3 hp
    have h3 := p3WF_of hP hi3
    have hbl : (sig2Bytes P sig).length = sig2Len P sig.challengeC sig.challengeP := pre2_length hwf _
    refine Or.inl ?_
    rw [h, ok_bind]
    dsimp only
    rw [serializeSignature2_ok h3 hwf (by simp), ok_bind, if_neg (by omega)]
    dsimp only
    rw [memeq_ok le_rfl (by simp), ok_bind]
    simp

theorem memeq_self {a : Buf} {n : ℕ} (h : n ≤ a.length) : memeq a a n = Outcome.ok true := by rw [memeq_ok h h]; simp

theorem compareProofs_self {P : Params} {f : Proof2} {b : Bool} (h : Pf2WF P f) : compareProofs P f f b = Outcome.ok true := by
  unfold compareProofs
  have h1 := h.seedLen
  have h2 := h.seedInfoLen
  have h3 := h.aux
  have h4 := h.C
  have h5 := h.input
  have h6 := h.msgs
  rw [if_neg (by simp), memeq_self (by omega), ok_bind, memeq_self (by omega), memeq_self (by omega), memeq_self (by omega), memeq_self (by omega)]
  cases b <;> rfl

theorem compareSignatures_self {P : Params} {s : Signature2} (h : Sig2WF P s) : compareSignatures P s s = Outcome.ok true := by
  unfold compareSignatures
  have h1 := h.salt
  have h2 := h.iSeedInfoLen
  have h3 := h.cvInfoLen
  have hc := h.chal
  have m : ∀ {a : List ℕ} {n : ℕ}, a.length = n → memeqU16 a a n = Outcome.ok true := by
    intro a n e; unfold memeqU16; rw [if_pos ⟨by omega, by omega⟩]; simp
  rw [memeq_self (by omega), ok_bind, if_neg (by simp), if_neg (by simp), memeq_self (by omega), ok_bind, if_neg (by simp), if_neg (by simp),
    memeq_self (by omega), ok_bind, if_neg (by simp), m hc.lenC, ok_bind, if_neg (by simp), m hc.lenQ, ok_bind, if_neg (by simp)]
  obtain ⟨r, e, hr⟩ := loop_inv (fun _ (r : Bool) => r = true) (n := P.numMPCRounds) (s := true) (f := fun t eq => if !eq then pure false else do
    let c ← containsU16 s.challengeC P.numOpenedRounds t
    if c then do
      let idx ← indexOfU16 s.challengeC P.numOpenedRounds t
      let P_t ← rd s.challengeP idx
      let p1 ← rd s.proofs t
      let p1 ← deref p1
      let p2 ← rd s.proofs t
      let p2 ← deref p2
      compareProofs P p1 p2 (P_t != P.numMPCParties - 1)
    else pure true) rfl (by
    intro t ht r hr
    rw [hr, if_neg (by simp), ← hc.lenC, containsU16_ok, ok_bind]
    by_cases hm : t ∈ s.challengeC
    · obtain ⟨q1, q2⟩ := h.proof t hm
      have hi := List.idxOf_lt_length_iff.2 hm
      rw [decide_eq_true hm, if_pos rfl, indexOfU16_ok hm, ok_bind, rd_ok (by rw [hc.lenQ, ← hc.lenC]; exact hi), ok_bind]
      have hrd : rd s.proofs t = Outcome.ok (some (pfOf s t)) := by
        have hlt : t < s.proofs.length := by rw [h.proofs]; exact ht
        rw [rd_ok hlt, ← q1, List.getD_eq_getElem _ _ hlt]
      rw [hrd, ok_bind]
      simp only [deref, pure_eq_ok, ok_bind]
      exact ⟨_, compareProofs_self q2, rfl⟩
    · rw [decide_eq_false hm]
      exact ⟨_, rfl, rfl⟩)
  rw [hr] at e
  exact e

/-- **C60**, `test_sig_serialize_picnic3`: the test passes, or signing does not end because the challenge is never sampled. -/
theorem C60_sig_serialize (E : Env) (hE : EnvWF E) (hI : InvWF E) (rng : Rng) (hrng : RngLen rng) (J : CycleJunk) (p n : ℕ) (hp : p ∈ picnic3Params)
    (hn : blockBits p = some n) (r0 r1 : Buf) (h0 : rng 0 (bytesFor n) = some r0) (h1 : rng 1 (bytesFor n) = some r1) :
    testSigSerialize E rng J p = Outcome.ok 1 ∨ (testSigSerialize E rng J p = Outcome.diverge ∧ signAndReadBack E rng J p = Outcome.diverge) := by
  unfold testSigSerialize
  rcases signAndReadBack_ok E hE hI rng hrng J p n hp hn r0 r1 h0 h1 with h | ⟨P, sig, hP, hwf, h⟩
  · exact Or.inr ⟨by rw [h]; rfl, h⟩
  · refine Or.inl ?_
    rw [h, ok_bind]
    dsimp only
    rw [compareSignatures_self hwf, ok_bind]
    rfl

/-- **C60**, `do_test_sign`: for key files that can be read, belong together and form a key pair, and an expected challenge and salt no longer than a
signature, the test gives 1 exactly if the signature has the expected length and starts with the expected challenge and salt: no other step of
the test fails. -/
theorem C60_vectors (E : Env) (hE : EnvWF E) (J : CycleJunk) (hJ : J.pk.Arrays) (p n : ℕ) (hI : p ∈ picnic3Params → InvWF E) (hn : blockBits p = some n)
    (msg pkBuf skBuf chal salt : Buf) (hm : msg.length + 200 ≤ 2 ^ 32) (pk : PublicKey) (sk : PrivateKey)
    (h1 : picnicReadPublicKey (some J.pk) (some pkBuf) pkBuf.length = Outcome.ok (0, some pk)) (hpp : pk.params = p)
    (h2 : picnicReadPrivateKey (some J.sk) (some skBuf) skBuf.length = Outcome.ok (0, some sk)) (hsp : sk.params = p)
    (hct : pk.ciphertext.take (bytesFor n) = sk.pk.ciphertext.take (bytesFor n)) (hpt : pk.plaintext.take (bytesFor n) = sk.pk.plaintext.take (bytesFor n))
    (P : Params) (hP : getParamSet p = some P) (hR : Relation P (E.lowmc P) sk.data pk.plaintext pk.ciphertext)
    (hcs : chal.length + salt.length ≤ picnicSignatureSize p) (expLen : ℕ) :
    (cycleSign E J p sk msg = Outcome.diverge ∧ doTestSign E J msg pkBuf skBuf chal salt expLen = Outcome.diverge) ∨
    ∃ sig len, cycleSign E J p sk msg = Outcome.ok (0, sig, len) ∧
      doTestSign E J msg pkBuf skBuf chal salt expLen = Outcome.ok (if len = expLen ∧ chal ++ salt <+: sig then 1 else 0) := by
  have hE0 : ∀ j, EnvWF { E with junk := j } := fun j => ⟨hE.perm, hE.lowmc⟩
  obtain ⟨P', hP', hPn⟩ := getParamSet_of hn
  obtain rfl : P = P' := Option.some.inj (hP.symm.trans hP')
  have hpa : pk.Arrays := by
    obtain ⟨r, key', hr, -, -, hok⟩ := C12_read_public_key J.pk hJ pkBuf pkBuf.length le_rfl
    rw [h1] at hr
    simp only [Outcome.ok.injEq, Prod.mk.injEq, Option.some.injEq] at hr
    obtain ⟨rfl, rfl⟩ := hr
    exact (hok rfl).choose_spec.2.2
  obtain ⟨hsa, hpad⟩ : sk.Arrays ∧ ZeroPad n sk.data := by
    obtain ⟨r, key', hr, -, -, hok⟩ := C12_read_private_key J.sk skBuf skBuf.length le_rfl
    rw [h2] at hr
    simp only [Outcome.ok.injEq, Prod.mk.injEq, Option.some.injEq] at hr
    obtain ⟨rfl, rfl⟩ := hr
    obtain ⟨n', hn1, -, ⟨n'', rest, hn2, -, -, -, -, hz, -, -⟩, ha, -⟩ := hok rfl
    rw [hsp, hn] at hn1 hn2
    obtain rfl := Option.some.inj hn1
    obtain rfl := Option.some.inj hn2
    refine ⟨ha, fun i h1 h2 => ?_⟩
    rw [← hz i h1 h2, msbBit, msbBit, List.getD_eq_getElem?_getD, List.getD_eq_getElem?_getD, List.getElem?_take, if_pos (by omega)]
  have hval : ∀ (pk' : PublicKey), pk'.Arrays → pk'.params = p → pk'.ciphertext.take (bytesFor n) = pk.ciphertext.take (bytesFor n) →
      pk'.plaintext.take (bytesFor n) = pk.plaintext.take (bytesFor n) →
      picnicValidateKeypair { E with junk := J.call 0 } (some sk) (some pk') = Outcome.ok 0 := by
    intro pk' a1 a2 a3 a4
    have hb : bytesFor n ≤ 32 := by have := (paramsWF_of hP).nMax; rw [hPn] at this; unfold bytesFor; omega
    have q1 := a1.pt
    have q2 := hpa.pt
    rw [← C08_unused_bytes { E with junk := J.call 0 } (hE0 _) sk sk pk pk' n hsa hpa hsa a1 (hpp ▸ hn) rfl (by rw [a2, hpp]) (fun _ _ => rfl)
      (fun i hi => ((take_eq_iff (by omega) (by omega)).1 a4 i (by unfold bytesFor; omega)).symm) a3.symm]
    obtain ⟨r, hr, -, hiff⟩ := C08_validate _ (hE0 (J.call 0)) sk pk hsa hpa
    have : r = 0 := hiff.2 ⟨by rw [hpp, hsp], P, hpp ▸ hP, hR⟩
    rw [hr, this]
  have hskpp : sk.pk.params = p := by
    obtain ⟨r, key', hr, -, -, hok⟩ := C12_read_private_key J.sk skBuf skBuf.length le_rfl
    rw [h2] at hr
    simp only [Outcome.ok.injEq, Prod.mk.injEq, Option.some.injEq] at hr
    obtain ⟨rfl, rfl⟩ := hr
    exact (hok rfl).choose_spec.2.1.trans hsp
  have hR' : Relation P (E.lowmc P) sk.data sk.pk.plaintext sk.pk.ciphertext := by
    obtain ⟨r, hr, -, hiff⟩ := C08_validate _ (hE0 (J.call 0)) sk sk.pk hsa hsa.pk
    rw [hval sk.pk hsa.pk hskpp hct.symm hpt.symm] at hr
    obtain ⟨-, Q, hQ, h⟩ := hiff.1 (Outcome.ok.inj hr).symm
    rw [hskpp, hP] at hQ
    obtain rfl := Option.some.inj hQ
    exact h
  have hdv : cycleSign E J p sk msg = Outcome.diverge → doTestSign E J msg pkBuf skBuf chal salt expLen = Outcome.diverge := by
    intro h
    unfold cycleSign at h
    unfold doTestSign
    rw [h1, ok_bind]
    simp only [ne_eq, not_true_eq_false, if_false]
    rw [h2, ok_bind]
    simp only [not_true_eq_false, if_false]
    rw [hval pk hpa hpp rfl rfl, ok_bind]
    simp only [not_true_eq_false, if_false, deref, pure_eq_ok, ok_bind]
    rw [hpp, h]
    rfl
  have hok : ∀ sig len, cycleSign E J p sk msg = Outcome.ok (0, sig, len) → sig.length = picnicSignatureSize p →
      picnicVerify { E with junk := J.call 2 } (some pk) msg msg.length sig len = Outcome.ok 0 →
      doTestSign E J msg pkBuf skBuf chal salt expLen = Outcome.ok (if len = expLen ∧ chal ++ salt <+: sig then 1 else 0) := by
    intro sig len h hsl hv
    unfold cycleSign at h
    unfold doTestSign
    rw [h1, ok_bind]
    simp only [ne_eq, not_true_eq_false, if_false]
    rw [h2, ok_bind]
    simp only [not_true_eq_false, if_false]
    rw [hval pk hpa hpp rfl rfl, ok_bind]
    simp only [not_true_eq_false, if_false, deref, pure_eq_ok, ok_bind]
    rw [hpp, h, ok_bind]
    simp only [not_true_eq_false, if_false]
    by_cases hl : len = expLen
    swap
    · rw [if_pos hl, if_neg (fun h => hl h.1)]
    rw [if_neg (not_not.2 hl), memeq_ok (by omega) le_rfl, ok_bind, List.take_length]
    by_cases hc : sig.take chal.length = chal
    swap
    · rw [if_pos (by simpa using hc), if_neg]
      rintro ⟨-, ⟨rest, rfl⟩⟩
      exact hc (by simp)
    rw [if_neg (by simpa using hc), memeq_ok (by rw [List.length_drop]; omega) le_rfl, ok_bind, List.take_length]
    by_cases hs : (sig.drop chal.length).take salt.length = salt
    swap
    · rw [if_pos (by simpa using hs), if_neg]
      rintro ⟨-, ⟨rest, rfl⟩⟩
      exact hs (by simp)
    rw [if_neg (by simpa using hs), hv, ok_bind]
    simp only [not_true_eq_false, if_false]
    have hpre : chal ++ salt <+: sig := by
      refine ⟨(sig.drop chal.length).drop salt.length, ?_⟩
      conv_rhs => rw [← List.take_append_drop chal.length sig, hc, ← List.take_append_drop salt.length (sig.drop chal.length), hs]
      rw [List.append_assoc]
    rw [if_pos ⟨hl, hpre⟩]
  rcases blockBits_cases hn with hp | hp
  · obtain ⟨hc, -⟩ := C03_zkb _ (hE0 (J.call 1)) sk hsa (hsp ▸ hp) P (hsp ▸ hP) hR' msg msg.length le_rfl hm
      ((List.range (picnicSignatureSize p)).map J.sig) (picnicSignatureSize p) (by simp) (by rw [hsp])
    rcases hc with h | ⟨sig, len, h, hle, hsl⟩
    · exact Or.inl ⟨h, hdv h⟩
    · refine Or.inr ⟨sig, len, h, hok sig len h (by simpa using hsl) ?_⟩
      exact C01_sign_verify _ (hE0 (J.call 1)) (J.call 2) E.fuel le_rfl sk hsa (hsp ▸ hp) n (hsp ▸ hn) hpad msg msg.length le_rfl hm _ _ (by simp) sig len h pk hpa
        (by rw [hpp, hsp]) hct hpt sig rfl (by rw [hsl]; simpa [hsp] using hle)
  · have hI0 : ∀ j, InvWF { E with junk := j } := fun j => ⟨(hI hp).len, (hI hp).inv⟩
    obtain ⟨hc, -⟩ := C03_p3 _ (hE0 (J.call 1)) (hI0 (J.call 1)) sk hsa (hsp ▸ hp) P (hsp ▸ hP) hR' msg msg.length le_rfl hm
      ((List.range (picnicSignatureSize p)).map J.sig) (picnicSignatureSize p) (by simp) (by rw [hsp])
    rcases hc with h | ⟨sig, len, h, hle, hsl⟩
    · exact Or.inl ⟨h, hdv h⟩
    · refine Or.inr ⟨sig, len, h, hok sig len h (by simpa using hsl) ?_⟩
      exact C02_sign_verify _ (hE0 (J.call 1)) (hI0 (J.call 1)) (J.call 2) E.fuel le_rfl sk hsa (hsp ▸ hp) n (hsp ▸ hn) msg msg.length le_rfl hm _ _ (by simp)
        sig len h pk hpa (by rw [hpp, hsp]) hct hpt sig rfl (by rw [hsl]; simpa [hsp] using hle)

/-- The hypotheses are met by the files of a generated key pair. -/
example (E : Env) (hE : EnvWF E) (rng : Rng) (hrng : RngLen rng) (J : CycleJunk) (hJ : J.pk.Arrays) (p n : ℕ) (hn : blockBits p = some n)
    (r0 r1 : Buf) (h0 : rng 0 (bytesFor n) = some r0) (h1 : rng 1 (bytesFor n) = some r1) :
    ∃ (pkBuf skBuf : Buf) (pk : PublicKey) (sk : PrivateKey), picnicReadPublicKey (some J.pk) (some pkBuf) PICNIC_MAX_PUBLICKEY_SIZE = Outcome.ok (0, some pk) ∧
      pk.params = p ∧ picnicReadPrivateKey (some J.sk) (some skBuf) PICNIC_MAX_PRIVATEKEY_SIZE = Outcome.ok (0, some sk) ∧ sk.params = p := by
  obtain ⟨pk, sk, e, hg⟩ := genOK { E with junk := J.call 0 } ⟨hE.perm, hE.lowmc⟩ rng hrng p n hn J.pk J.sk r0 r1 h0 h1
  obtain ⟨out, out2, pk', sk', -, -, hr1, hr2, -, -, hp1, hq1, -⟩ :=
    keys_roundtrip J p n hn pk J.pk sk J.sk hJ hg.pkp hg.skp hg.skpk hg.pa hg.sa hg.z0 hg.z1 hg.z2
  exact ⟨out, out2, pk', sk', hr1, hp1, hr2, hq1⟩

theorem loop_or {σ : Type} (I : ℕ → σ → Prop) {f : ℕ → σ → M σ} {n : ℕ} {s : σ} (h0 : I 0 s)
    (hs : ∀ i, i < n → ∀ s, I i s → f i s = Outcome.diverge ∨ ∃ s', f i s = Outcome.ok s' ∧ I (i + 1) s') :
    loop f n s = Outcome.diverge ∨ ∃ s', loop f n s = Outcome.ok s' ∧ I n s' := by
  induction n with
  | zero => exact Or.inr ⟨s, rfl, h0⟩
  | succ n ih =>
    rw [loop_succ]
    rcases ih (fun i hi => hs i (by omega)) with h | ⟨s', h, hI⟩
    · exact Or.inl (by rw [h]; rfl)
    · rw [h, ok_bind]
      exact hs n (by omega) s' hI

/-- Verification with a buffer of `picnic_signature_size` bytes has three outcomes, and what is accepted is longer than challenge and salt. -/
theorem verify_three (E : Env) (hE : EnvWF E) (n : ℕ) (pk : PublicKey) (hI : pk.params ∈ picnic3Params → InvWF E) (hn : blockBits pk.params = some n) (hpk : pk.Arrays)
    (msg : Buf) (hm : msg.length + 200 ≤ 2 ^ 32) (sig : Buf) (len : ℕ) (hs : sig.length = picnicSignatureSize pk.params) (hl : len ≤ sig.length) :
    (picnicVerify E (some pk) msg msg.length sig len = Outcome.ok 0 ∨ picnicVerify E (some pk) msg msg.length sig len = Outcome.ok (-1) ∨
      picnicVerify E (some pk) msg msg.length sig len = Outcome.diverge) ∧
    (picnicVerify E (some pk) msg msg.length sig len = Outcome.ok 0 → 50 ≤ len) := by
  classical
  rcases blockBits_cases hn with hp | hp
  · obtain ⟨P, hP, h3⟩ := getParamSet_zkb hp
    have hf : Full P sig len := full_size hP h3 (by omega)
    refine ⟨(verify_outcomes hE hP h3 hpk le_rfl hm hl hf).1, fun h => ?_⟩
    obtain ⟨v1, v2, -, e⟩ := picnicVerify_zkb (msg := msg) hE hP h3 hpk le_rfl hm hl hf
    rw [e] at h
    by_cases hd : Decodes P sig len
    · have h1 := hd.1
      have hT : 50 ≤ numBytes (2 * P.numMPCRounds) := by
        obtain ⟨h1, h2⟩ := getParamSet_bounds hP
        clear * - hP h1 h2 h3
        generalize pk.params = p at *
        interval_cases p <;> (injection hP with h; subst h; first | decide | exact absurd h3 (by decide))
      omega
    · rw [if_neg hd] at h
      exact absurd h (by decide)
  · obtain ⟨P, hP, hi3⟩ := getParamSet_p3 hp
    refine ⟨?_, fun h => ?_⟩
    · rw [picnicVerify_p3 hE (hI hp) hP hp hpk le_rfl hm hl]
      split_ifs
      · exact Or.inr (Or.inl rfl)
      · cases expandR E P E.fuel (sig.take P.digestSizeBytes) with
        | none => exact Or.inr (Or.inr rfl)
        | some r =>
          obtain ⟨C, Q⟩ := r
          dsimp only
          split_ifs
          · exact Or.inl rfl
          · exact Or.inr (Or.inl rfl)
    · obtain ⟨C, Q, h1, -⟩ := picnicVerify_p3_zero hE (hI hp) hP hp hpk le_rfl hm hl h
      have : 32 ≤ P.digestSizeBytes := by
        obtain ⟨h1, h2⟩ := getParamSet_bounds hP
        clear * - hP h1 h2
        generalize pk.params = p at *
        interval_cases p <;> (injection hP with h; subst h; decide)
      have := (seedWF_of hP).salt
      omega

/-- **C60**, `picnic_test_modified_signatures`: the test passes, or it does not end because a challenge is never sampled, or it has found an accepted
signature that differs from another accepted one of the same length in exactly one byte (see C50 for what this means). -/
theorem C60_modified (E : Env) (hE : EnvWF E) (rng : Rng) (hrng : RngLen rng) (J : CycleJunk) (p n : ℕ) (hI : p ∈ picnic3Params → InvWF E)
    (hn : blockBits p = some n) (r0 r1 : Buf) (h0 : rng 0 (bytesFor n) = some r0) (h1 : rng 1 (bytesFor n) = some r1)
    (msg : Buf) (hm : msg.length + 200 ≤ 2 ^ 32) :
    testModifiedSignatures E rng J p msg = Outcome.ok 1 ∨ testModifiedSignatures E rng J p msg = Outcome.diverge ∨
    (testModifiedSignatures E rng J p msg = Outcome.ok 0 ∧ ∃ (pk : PublicKey) (sig : Buf) (len l k : ℕ), l < len ∧ len ≤ sig.length ∧
      picnicVerify { E with junk := J.call 2 } (some pk) msg msg.length sig len = Outcome.ok 0 ∧
      picnicVerify { E with junk := J.call k } (some pk) msg msg.length (sig.set l (sig.getD l 0 + 1)) len = Outcome.ok 0) := by
  have hE0 : ∀ j, EnvWF { E with junk := j } := fun j => ⟨hE.perm, hE.lowmc⟩
  have hI0 : ∀ j, p ∈ picnic3Params → InvWF { E with junk := j } := fun j hp => ⟨(hI hp).len, (hI hp).inv⟩
  obtain ⟨pk, sk, e, hg⟩ := genOK { E with junk := J.call 0 } ⟨hE.perm, hE.lowmc⟩ rng hrng p n hn J.pk J.sk r0 r1 h0 h1
  obtain ⟨k1, k2, k3, k4, k5, k6, k7, k8, ⟨P, hP, hR⟩, -⟩ := hg
  have hR' : Relation P (E.lowmc P) sk.data sk.pk.plaintext sk.pk.ciphertext := k3 ▸ hR
  have hpos : picnicSignatureSize p ≠ 0 := by
    obtain ⟨a, b⟩ := getParamSet_bounds hP
    have := (C04_max_sizes.1 p a b).1
    omega
  have key : cycleSign E J p sk msg = Outcome.diverge ∨ ∃ sig len, cycleSign E J p sk msg = Outcome.ok (0, sig, len) ∧
      len ≤ picnicSignatureSize p ∧ sig.length = picnicSignatureSize p ∧
      picnicVerify { E with junk := J.call 2 } (some pk) msg msg.length sig len = Outcome.ok 0 := by
    rcases blockBits_cases hn with hp | hp
    · obtain ⟨hc, -⟩ := C03_zkb _ (hE0 (J.call 1)) sk k5 (k2 ▸ hp) P (k2 ▸ hP) hR' msg msg.length le_rfl hm
        ((List.range (picnicSignatureSize p)).map J.sig) (picnicSignatureSize p) (by simp) (by rw [k2])
      rcases hc with h | ⟨sig, len, h, hle, hsl⟩
      · exact Or.inl h
      · refine Or.inr ⟨sig, len, h, k2 ▸ hle, by simpa using hsl, ?_⟩
        exact C01_sign_verify _ (hE0 (J.call 1)) (J.call 2) E.fuel le_rfl sk k5 (k2 ▸ hp) n (k2 ▸ hn) k6 msg msg.length le_rfl hm _ _ (by simp) sig len h pk k4
          (by rw [k1, k2]) (by rw [k3]) (by rw [k3]) sig rfl (by rw [hsl]; simpa [k2] using hle)
    · obtain ⟨hc, -⟩ := C03_p3 _ (hE0 (J.call 1)) (hI0 (J.call 1) hp) sk k5 (k2 ▸ hp) P (k2 ▸ hP) hR' msg msg.length le_rfl hm
        ((List.range (picnicSignatureSize p)).map J.sig) (picnicSignatureSize p) (by simp) (by rw [k2])
      rcases hc with h | ⟨sig, len, h, hle, hsl⟩
      · exact Or.inl h
      · refine Or.inr ⟨sig, len, h, k2 ▸ hle, by simpa using hsl, ?_⟩
        exact C02_sign_verify _ (hE0 (J.call 1)) (hI0 (J.call 1) hp) (J.call 2) E.fuel le_rfl sk k5 (k2 ▸ hp) n (k2 ▸ hn) msg msg.length le_rfl hm _ _ (by simp)
          sig len h pk k4 (by rw [k1, k2]) (by rw [k3]) (by rw [k3]) sig rfl (by rw [hsl]; simpa [k2] using hle)
  unfold cycleSign at key
  unfold testModifiedSignatures
  dsimp only
  rw [if_neg hpos, e, ok_bind]
  simp only [ne_eq, not_true_eq_false, if_false]
  rcases key with h | ⟨sig, len, h, hle, hsl, hv⟩
  · rw [h]
    exact Or.inr (Or.inl rfl)
  rw [h, ok_bind]
  simp only [not_true_eq_false, if_false]
  rw [hv, ok_bind]
  simp only [not_true_eq_false, if_false]
  have h50 := (verify_three _ (hE0 (J.call 2)) n pk (fun h => hI0 _ (k1 ▸ h)) (k1 ▸ hn) k4 msg hm sig len (by rw [k1, hsl]) (by omega)).2 hv
  have hst : 0 < len / 50 := Nat.div_pos h50 (by decide)
  rw [if_neg (by omega)]
  obtain ⟨st, hste⟩ : ∃ st, st = len / 50 := ⟨_, rfl⟩
  rw [← hste] at hst ⊢
  rcases loop_or (fun _ (r : Option Buf) => r = some sig ∨ (r = none ∧ ∃ l k, l < len ∧
      picnicVerify { E with junk := J.call k } (some pk) msg msg.length (sig.set l (sig.getD l 0 + 1)) len = Outcome.ok 0))
    (f := fun i => modifyByte { E with junk := J.call (3 + i) } (some pk) msg len (i * st)) (n := (len + (st - 1)) / st) (s := some sig) (Or.inl rfl) (by
      intro i hi r hr
      rcases hr with rfl | ⟨rfl, hr⟩
      · have hil : i * st < len := by
          have := (Nat.lt_div_iff_mul_lt hst).1 hi
          rwa [Nat.add_sub_cancel] at this
        have hget : sig.getD (i * st) 0 = sig[i * st]'(by omega) := List.getD_eq_getElem _ _ (by omega)
        unfold modifyByte
        dsimp only
        rw [rd_ok (by omega), ok_bind, wr_ok (by omega), ok_bind, ← hget]
        rcases (verify_three _ (hE0 (J.call (3 + i))) n pk (fun h => hI0 _ (k1 ▸ h)) (k1 ▸ hn) k4 msg hm (sig.set (i * st) (sig.getD (i * st) 0 + 1)) len
          (by rw [List.length_set, k1, hsl]) (by rw [List.length_set]; omega)).1 with hr | hr | hr
        · rw [hr]
          exact Or.inr ⟨_, rfl, Or.inr ⟨rfl, _, _, hil, hr⟩⟩
        · rw [hr, ok_bind, if_neg (by decide), rd_ok (by rw [List.length_set]; omega), ok_bind, wr_ok (by rw [List.length_set]; omega), ok_bind]
          refine Or.inr ⟨_, rfl, Or.inl ?_⟩
          rw [List.set_set, List.getElem_set_self, hget, BitVec.add_sub_cancel, List.set_getElem_self]
        · rw [hr]
          exact Or.inl rfl
      · exact Or.inr ⟨none, rfl, Or.inr ⟨rfl, hr⟩⟩) with hd | ⟨r, hr, hrr⟩
  · rw [hd]
    exact Or.inr (Or.inl rfl)
  · rw [hr, ok_bind]
    rcases hrr with rfl | ⟨rfl, l, k, hl, hk⟩
    · exact Or.inl rfl
    · exact Or.inr (Or.inr ⟨rfl, pk, sig, len, l, k, hl, by omega, hv, hk⟩)

/-- Instances of the hypotheses of the three theorems. -/
example (J : CycleJunk) : testSerialization exEnv (fun k n => some (List.replicate n (BitVec.ofNat 8 (3 * k + 1)))) J PublicKey.zero PrivateKey.zero 1 = Outcome.ok 1 ∧
    (testSigSerialize altEnv (fun k n => some (List.replicate n (BitVec.ofNat 8 (3 * k + 1)))) J 7 = Outcome.ok 1 ∨
      testSigSerialize altEnv (fun k n => some (List.replicate n (BitVec.ofNat 8 (3 * k + 1)))) J 7 = Outcome.diverge) := by
  have hr : RngLen fun k n => some (List.replicate n (BitVec.ofNat 8 (3 * k + 1))) := by
    intro k n b h
    injection h with h
    rw [← h, List.length_replicate]
  refine ⟨C60_serialization exEnv exEnv_wf _ hr J _ _ ⟨by simp [PublicKey.zero, PICNIC_MAX_LOWMC_BLOCK_SIZE], by simp [PublicKey.zero, PICNIC_MAX_LOWMC_BLOCK_SIZE]⟩ 1 128 rfl _ _ rfl rfl, ?_⟩
  exact (C60_sig_serialize altEnv altEnv_wf altEnv_inv _ hr J 7 129 (by decide) rfl _ _ rfl rfl).imp_right And.left

end Picnic
