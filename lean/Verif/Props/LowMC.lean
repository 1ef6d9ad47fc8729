import Verif.Props.Example

/-
Property C30: LowMC encryption in the library is the LowMC of the specification and a permutation.
-/

namespace Picnic

open Spec Finset

/-- C30: for every valid parameter set, all LowMC tables of the documented sizes, all contents of uninitialised memory,
and all objects large enough, `LowMCEnc` succeeds; bit i of its output (i < block length) is bit i of the LowMC
encryption of the specification, the remaining bits of the last word are zero, and nothing else is written. -/
theorem C30_enc_spec (E : Env) (hE : EnvWF E) (p : ℕ) (P : Params) (hp : getParamSet p = some P)
    (plaintext output key : Buf) (h1 : plaintext.length = 32) (h2 : output.length = 32) (h3 : key.length = 32) :
    ∃ out, lowMCEnc E P plaintext output key = Outcome.ok out ∧ out.length = 32 ∧
      (∀ i < P.stateSizeBits, bitsOf out i = (lowmcOf P (E.lowmc P)).enc (bitsOf key) (bitsOf plaintext) i) ∧
      (∀ i, P.stateSizeBits ≤ i → i < 32 * P.stateSizeWords → bitsOf out i = 0) ∧
      (∀ i, 32 * P.stateSizeWords ≤ i → bitsOf out i = bitsOf output i) := by
  have hP := paramsWF_of hp
  have hw := hP.words
  have hn := hP.nMax
  rw [lowMCEnc_ok hP (hE.lowmc p P hp) (by omega) (by omega) (by omega)]
  have hl : (ofBits ((lowmcOf P (E.lowmc P)).enc (bitsOf key) (bitsOf plaintext)) (4 * P.stateSizeWords)).length =
      4 * P.stateSizeWords := by simp
  refine ⟨_, rfl, by simp; omega, fun i hi => ?_, fun i h1 h2 => ?_, fun i hi => ?_⟩
  · rw [bitsOf_append_left (by rw [hl]; omega), bitsOf_ofBits _ (by omega)]
  · rw [bitsOf_append_left (by rw [hl]; omega), bitsOf_ofBits _ (by omega), enc_ge hP.rounds h1]
  · obtain ⟨j, rfl⟩ : ∃ j, i = 8 * (4 * P.stateSizeWords) + j := ⟨i - 8 * (4 * P.stateSizeWords), by omega⟩
    have := bitsOf_append_right
      (a := ofBits ((lowmcOf P (E.lowmc P)).enc (bitsOf key) (bitsOf plaintext)) (4 * P.stateSizeWords))
      (b := output.drop (4 * P.stateSizeWords)) (i := j)
    rw [hl] at this
    rw [this, bitsOf_drop]

/-! ### injectivity -/

theorem sbox_inj {a b c a' b' c' : ZMod 2} (h : sbox a b c = sbox a' b' c') : a = a' ∧ b = b' ∧ c = c' := by
  revert a b c a' b' c'; decide

theorem sboxLayer_inj {m n : ℕ} {s t : Bits} (hm : 3 * m ≤ n) (h : ∀ i < n, sboxLayer m s i = sboxLayer m t i) :
    ∀ i < n, s i = t i := by
  intro i hi
  by_cases him : i < 3 * m
  · have hk : i / 3 < m := by omega
    have e : ∀ j < 3, sboxLayer m s (3 * (i / 3) + j) = sboxLayer m t (3 * (i / 3) + j) :=
      fun j hj => h _ (by omega)
    have h0 := e 0 (by omega)
    have h1 := e 1 (by omega)
    have h2 := e 2 (by omega)
    simp only [sboxLayer] at h0 h1 h2
    rw [if_pos (show 3 * (i / 3) + 0 < 3 * m by omega), if_pos (show 3 * (i / 3) + 0 < 3 * m by omega), show (3 * (i / 3) + 0) / 3 = i / 3 by omega,
      show (3 * (i / 3) + 0) % 3 = 0 by omega] at h0
    rw [if_pos (show 3 * (i / 3) + 1 < 3 * m by omega), if_pos (show 3 * (i / 3) + 1 < 3 * m by omega), show (3 * (i / 3) + 1) / 3 = i / 3 by omega,
      show (3 * (i / 3) + 1) % 3 = 1 by omega] at h1
    rw [if_pos (show 3 * (i / 3) + 2 < 3 * m by omega), if_pos (show 3 * (i / 3) + 2 < 3 * m by omega), show (3 * (i / 3) + 2) / 3 = i / 3 by omega,
      show (3 * (i / 3) + 2) % 3 = 2 by omega] at h2
    simp only [OfNat.one_ne_ofNat, if_false, if_true, OfNat.zero_ne_ofNat, zero_ne_one] at h0 h1 h2
    obtain ⟨g1, g2, g3⟩ := sbox_inj (Prod.ext h2 (Prod.ext h1 h0))
    have hr : i % 3 = 0 ∨ i % 3 = 1 ∨ i % 3 = 2 := by omega
    rcases hr with hr | hr | hr
    · rw [show i = 3 * (i / 3) by omega]; exact g3
    · rw [show i = 3 * (i / 3) + 1 by omega]; exact g2
    · rw [show i = 3 * (i / 3) + 2 by omega]; exact g1
  · have := h i hi
    rwa [sboxLayer, sboxLayer, if_neg him, if_neg him] at this

theorem mulVec_left_inv {n : ℕ} {A B : ℕ → ℕ → ZMod 2} (h : IsInv n B A) (v : Bits) {i : ℕ} (hi : i < n) :
    mulVec n B (mulVec n A v) i = v i := by
  simp only [mulVec]
  rw [if_pos hi]
  calc ∑ j ∈ range n, B i j * (if j < n then ∑ k ∈ range n, A j k * v k else 0)
      = ∑ j ∈ range n, ∑ k ∈ range n, B i j * A j k * v k := by
        refine sum_congr rfl fun j hj => ?_
        rw [if_pos (mem_range.1 hj), mul_sum]
        exact sum_congr rfl fun k _ => by ring
    _ = ∑ k ∈ range n, (∑ j ∈ range n, B i j * A j k) * v k := by
        rw [sum_comm]
        exact sum_congr rfl fun k _ => by rw [sum_mul]
    _ = ∑ k ∈ range n, (if i = k then 1 else 0) * v k :=
        sum_congr rfl fun k hk => by rw [h i hi k (mem_range.1 hk)]
    _ = v i := by
        rw [sum_eq_single i]
        · simp
        · intro k _ hk; rw [if_neg (fun e => hk e.symm)]; simp
        · intro h'; exact absurd (mem_range.2 hi) h'

theorem enc_injective (X : Spec.LowMC) (hm : 3 * X.m ≤ X.n) (hL : ∀ r < X.r, ∃ B, IsInv X.n B (X.L r)) (key pt pt' : Bits)
    (h : ∀ i < X.n, X.enc key pt i = X.enc key pt' i) : ∀ i < X.n, pt i = pt' i := by
  have hind : ∀ t, t ≤ X.r → (∀ i < X.n, X.state key pt t i = X.state key pt' t i) → ∀ i < X.n, pt i = pt' i := by
    intro t
    induction t with
    | zero =>
      intro _ h i hi
      have := h i hi
      simp only [LowMC.state, Pi.add_apply] at this
      exact add_right_cancel this
    | succ t ih =>
      intro ht h
      apply ih (by omega)
      apply sboxLayer_inj hm
      obtain ⟨B, hB⟩ := hL t (by omega)
      intro i hi
      rw [← mulVec_left_inv hB (sboxLayer X.m (X.state key pt t)) hi,
        ← mulVec_left_inv hB (sboxLayer X.m (X.state key pt' t)) hi]
      simp only [mulVec]
      rw [if_pos hi, if_pos hi]
      refine sum_congr rfl fun j hj => ?_
      have := h j (mem_range.1 hj)
      simp only [LowMC.state, Pi.add_apply, mulVec] at this
      rw [add_right_cancel (add_right_cancel this)]
  exact hind X.r (le_refl _) h

/-- C30: if every linear layer matrix of the parameter set has a left inverse, then for a fixed key different plaintext
blocks are encrypted to different blocks. -/
theorem C30_permutation (E : Env) (hE : EnvWF E) (p : ℕ) (P : Params) (hp : getParamSet p = some P)
    (hL : ∀ r < P.numRounds, ∃ B, IsInv P.stateSizeBits B (matBits P.stateSizeWords ((E.lowmc P).L r)))
    (key pt pt' out out' c c' : Buf) (hk : key.length = 32) (h1 : pt.length = 32) (h1' : pt'.length = 32)
    (h2 : out.length = 32) (h2' : out'.length = 32)
    (hc : lowMCEnc E P pt out key = Outcome.ok c) (hc' : lowMCEnc E P pt' out' key = Outcome.ok c')
    (heq : ∀ i < P.stateSizeBits, bitsOf c i = bitsOf c' i) : ∀ i < P.stateSizeBits, bitsOf pt i = bitsOf pt' i := by
  obtain ⟨o, ho, -, hob, -⟩ := C30_enc_spec E hE p P hp pt out key h1 h2 hk
  obtain ⟨o', ho', -, hob', -⟩ := C30_enc_spec E hE p P hp pt' out' key h1' h2' hk
  rw [hc] at ho
  rw [hc'] at ho'
  injection ho with ho
  injection ho' with ho'
  subst ho ho'
  refine enc_injective (lowmcOf P (E.lowmc P)) (paramsWF_of hp).sboxes hL (bitsOf key) (bitsOf pt) (bitsOf pt') ?_
  intro i hi
  rw [← hob i hi, ← hob' i hi]
  exact heq i hi

/-- The hypotheses of C30 can be met for every parameter set. -/
example (p : ℕ) (P : Params) (hp : getParamSet p = some P) : EnvWF exEnv ∧
    ∀ r < P.numRounds, ∃ B, IsInv P.stateSizeBits B (matBits P.stateSizeWords ((exEnv.lowmc P).L r)) :=
  ⟨exEnv_wf, fun _ _ => ⟨_, idMatrix_inv (paramsWF_of hp)⟩⟩

/-- The S-box is the one of the specification: its truth table, (a, b, c) with a the most significant bit. -/
theorem C30_sbox_table :
    ([(0,0,0), (0,0,1), (0,1,0), (0,1,1), (1,0,0), (1,0,1), (1,1,0), (1,1,1)] : List (ZMod 2 × ZMod 2 × ZMod 2)).map
      (fun x => sbox x.1 x.2.1 x.2.2) =
    [(0,0,0), (0,0,1), (0,1,1), (1,1,0), (1,1,1), (1,0,0), (1,0,1), (0,1,0)] := by decide

end Picnic
