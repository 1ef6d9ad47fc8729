import Verif.Proofs.ZkbSpec
import Verif.Proofs.Params
import Verif.Model.Zkb

/-
The MPC code of /repo/picnic_impl.c (prover and verifier) against Verif/Spec/Zkb.lean.
-/

namespace Picnic

open Finset Spec Spec.Zkb

/-! ### arrays indexed by the parties -/

/-- An array with entries `f 0`, ..., `f (N-1)`. -/
abbrev arrN {α : Type} (N : ℕ) (f : ℕ → α) : List α := (List.range N).map f

theorem rd_arrN {α : Type} {N i : ℕ} {f : ℕ → α} (h : i < N) : rd (arrN N f) i = Outcome.ok (f i) := by
  simp [rd, arrN, h]

theorem wr_arrN {α : Type} {N i : ℕ} {f : ℕ → α} (h : i < N) (v : α) :
    wr (arrN N f) i v = Outcome.ok (arrN N (Function.update f i v)) := by
  rw [wr_ok (by simpa [arrN] using h)]
  congr 1
  apply List.ext_getElem (by simp [arrN])
  intro j h1 h2
  by_cases hj : i = j
  · subst hj; simp [arrN]
  · simp [arrN, List.getElem_set_ne hj, Function.update_apply, show ¬ j = i from fun h => hj h.symm]

theorem arrN_congr {α : Type} {N : ℕ} {f g : ℕ → α} (h : ∀ i < N, f i = g i) : arrN N f = arrN N g :=
  List.map_congr_left fun i hi => h i (List.mem_range.1 hi)

theorem loop_upd {α : Type} {N : ℕ} {f g : ℕ → α} {body : ℕ → List α → M (List α)}
    (h : ∀ i < N, ∀ f' : ℕ → α, f' i = f i → body i (arrN N f') = Outcome.ok (arrN N (Function.update f' i (g i)))) :
    loop body N (arrN N f) = Outcome.ok (arrN N g) := by
  have key : ∀ k ≤ N, loop body k (arrN N f) = Outcome.ok (arrN N fun i => if i < k then g i else f i) := by
    intro k
    induction k with
    | zero => intro _; simp [loop]
    | succ k ih =>
      intro hk
      rw [loop_succ, ih (by omega), ok_bind, h k (by omega) _ (by simp)]
      congr 1
      apply arrN_congr
      intro i _
      simp only [Function.update_apply]
      by_cases h1 : i = k
      · subst h1; simp
      · rw [if_neg h1]
        by_cases h2 : i < k
        · rw [if_pos h2, if_pos (by omega)]
        · rw [if_neg h2, if_neg (by omega)]
  rw [key N (le_refl _)]
  congr 1
  exact arrN_congr fun i hi => by rw [if_pos hi]

theorem collect_arrN {α : Type} {N : ℕ} {f : ℕ → M α} {g : ℕ → α} (h : ∀ i < N, f i = Outcome.ok (g i)) :
    collect f N = Outcome.ok (arrN N g) := collect_ok h

/-! ### linear operations -/

theorem xorArray_ofBits {σ : Bits} {x : Buf} {W : ℕ} (hx : 4 * W ≤ x.length) :
    xorArray (ofBits σ (4 * W)) (ofBits σ (4 * W)) x W = Outcome.ok (ofBits (σ + bitsOf x) (4 * W)) := by
  obtain ⟨o, h1, h2, h3⟩ := xorArray_ok (out := ofBits σ (4 * W)) (in1 := ofBits σ (4 * W)) (in2 := x) (len := W)
    (by simp) (by simp) hx
  rw [h1]
  congr 1
  refine buf_ext (by rw [h2]; simp) fun i hi => ?_
  have hi' : i < 8 * (4 * W) := by rw [h2] at hi; simpa using hi
  rw [h3, if_pos (by omega), bitsOf_ofBits _ hi', bitsOf_ofBits _ hi']
  rfl

theorem xor_ofBits {σ κ : Bits} {W : ℕ} :
    ofBits (σ + bitsOf (ofBits κ (4 * W))) (4 * W) = ofBits (σ + κ) (4 * W) :=
  ofBits_congr fun i hi => by rw [Pi.add_apply, Pi.add_apply, bitsOf_ofBits _ hi]

/-- The share arrays of the computation. -/
abbrev shares (N W : ℕ) (σ : ℕ → Bits) : List Buf := arrN N fun i => ofBits (σ i) (4 * W)

theorem mpcXor_ok {N W : ℕ} {σ κ : ℕ → Bits} :
    mpcXor (shares N W σ) (shares N W κ) W N = Outcome.ok (shares N W fun i => σ i + κ i) := by
  unfold mpcXor shares
  refine loop_upd fun i hi f' hf => ?_
  rw [rd_arrN hi, ok_bind, rd_arrN hi, ok_bind, hf, xorArray_ofBits (by simp), ok_bind, wr_arrN hi, xor_ofBits]

theorem mpcXorAt_ok {N W p : ℕ} {σ : ℕ → Bits} {x : Buf} (hp : p < N) (hx : 4 * W ≤ x.length) :
    (do
      let s ← rd (shares N W σ) p
      let s' ← xorArray s s x W
      wr (shares N W σ) p s') = Outcome.ok (shares N W (Function.update σ p (σ p + bitsOf x))) := by
  unfold shares
  rw [rd_arrN hp, ok_bind, xorArray_ofBits hx, ok_bind, wr_arrN hp]
  congr 1
  apply arrN_congr
  intro i _
  by_cases h : i = p
  · subst h; simp
  · simp [Function.update_apply, h]

theorem mpcMatrixMul_ok {E : Env} {P : Params} {tag N : ℕ} {κ : ℕ → Bits} {keys : ℕ → Buf} {matrix : Buf}
    (hP : ParamsWF P) (hk : ∀ i < N, P.stateSizeBits ≤ 8 * (keys i).length)
    (hm : 4 * P.stateSizeWords * P.stateSizeBits ≤ matrix.length) :
    mpcMatrixMul E P tag (shares N P.stateSizeWords κ) (arrN N keys) matrix N =
      Outcome.ok (shares N P.stateSizeWords fun i =>
        mulVec P.stateSizeBits (matBits P.stateSizeWords matrix) (bitsOf (keys i))) := by
  unfold mpcMatrixMul shares
  refine loop_upd fun i hi f' hf => ?_
  rw [rd_arrN hi, ok_bind, rd_arrN hi, ok_bind, hf, matrixMul_ok hP (by simp [LOWMC_MAX_STATE_SIZE]) (by simp)
    (hk i hi) hm, ok_bind, wr_arrN hi]
  simp

theorem mpcMatrixMulInPlace_ok {E : Env} {P : Params} {tag N : ℕ} {σ : ℕ → Bits} {matrix : Buf}
    (hP : ParamsWF P) (hm : 4 * P.stateSizeWords * P.stateSizeBits ≤ matrix.length) :
    mpcMatrixMulInPlace E P tag (shares N P.stateSizeWords σ) matrix N =
      Outcome.ok (shares N P.stateSizeWords fun i =>
        mulVec P.stateSizeBits (matBits P.stateSizeWords matrix) (σ i)) := by
  have hw := hP.words
  unfold mpcMatrixMulInPlace shares
  refine loop_upd fun i hi f' hf => ?_
  rw [rd_arrN hi, ok_bind, hf, matrixMul_ok hP (by simp [LOWMC_MAX_STATE_SIZE]) (by simp) (by simp; omega) hm, ok_bind,
    wr_arrN hi, mulVec_congr (w := σ i) (fun j hj => bitsOf_ofBits _ (by omega))]
  simp

/-! ### S-box input and output -/

theorem readSboxBits_ok {N W k : ℕ} {σ : ℕ → Bits} (hk : 3 * k + 2 < 32 * W) :
    readSboxBits (shares N W σ) (3 * k) N = Outcome.ok (arrN N (fun i => b8 (σ i (3 * k + 2))),
      arrN N (fun i => b8 (σ i (3 * k + 1))), arrN N (fun i => b8 (σ i (3 * k)))) := by
  have key : ∀ d < 32 * W, collect (fun j => do let s ← rd (shares N W σ) j; getBit s d) N =
      Outcome.ok (arrN N fun i => b8 (σ i d)) := by
    intro d hd
    refine collect_arrN fun i hi => ?_
    rw [shares, rd_arrN hi, ok_bind, getBit_ok (by simp; omega), bitsOf_ofBits _ (by omega)]
  unfold readSboxBits
  rw [key _ (by omega), ok_bind, key _ (by omega), ok_bind, key _ (by omega), ok_bind]
  rfl

theorem writeSboxBits_ok {N W k : ℕ} {σ : ℕ → Bits} (hk : 3 * k + 2 < 32 * W) (a b c ab bc ca : ℕ → ZMod 2) :
    writeSboxBits (shares N W σ) (3 * k) N (arrN N fun i => b8 (a i)) (arrN N fun i => b8 (b i))
      (arrN N fun i => b8 (c i)) (arrN N fun i => b8 (ab i)) (arrN N fun i => b8 (bc i)) (arrN N fun i => b8 (ca i)) =
    Outcome.ok (shares N W fun i => Function.update (Function.update (Function.update (σ i)
        (3 * k + 2) (a i + bc i)) (3 * k + 1) (a i + b i + ca i)) (3 * k) (a i + b i + c i + ab i)) := by
  unfold writeSboxBits shares
  refine loop_upd fun i hi f' hf => ?_
  rw [rd_arrN hi, ok_bind, rd_arrN hi, ok_bind, rd_arrN hi, ok_bind, rd_arrN hi, ok_bind, rd_arrN hi, ok_bind,
    rd_arrN hi, ok_bind, rd_arrN hi, ok_bind, hf]
  simp only [← b8_add]
  rw [setBit_ok (by simp; omega), ok_bind, setBit_ok (by simp; omega), ok_bind, setBit_ok (by simp; omega), ok_bind,
    wr_arrN hi]
  congr 3
  refine buf_ext (by simp) fun j hj => ?_
  have hj' : j < 8 * (4 * W) := by simpa using hj
  rw [bitsOf_setBitP (by simp; omega), bitsOf_setBitP (by simp; omega), bitsOf_setBitP (by simp; omega),
    bitsOf_ofBits _ hj']
  simp only [Function.update_apply, bitsOf_ofBits _ hj']

/-! ### the prover -/

/-- The three views of the prover. -/
abbrev views3 (key comm out : ℕ → Buf) : List View := arrN 3 fun i => ⟨key i, comm i, out i⟩

theorem mpcAND_ok {x y : ℕ → ZMod 2} {tape : ℕ → Buf} {pos : ℕ} {key comm out : ℕ → Buf}
    (ht : ∀ i < 3, pos < 8 * (tape i).length) (hc : ∀ i < 3, pos < 8 * (comm i).length) :
    mpcAND (arrN 3 fun i => b8 (x i)) (arrN 3 fun i => b8 (y i)) ⟨arrN 3 tape, pos⟩ (views3 key comm out) =
      Outcome.ok (arrN 3 (fun i => b8 (andShare (x i) (y i) (x ((i + 1) % 3)) (y ((i + 1) % 3)) (bitsOf (tape i) pos)
          (bitsOf (tape ((i + 1) % 3)) pos))), ⟨arrN 3 tape, pos + 1⟩,
        views3 key (fun i => setBitP (comm i) pos (andShare (x i) (y i) (x ((i + 1) % 3)) (y ((i + 1) % 3))
          (bitsOf (tape i) pos) (bitsOf (tape ((i + 1) % 3)) pos))) out) := by
  unfold mpcAND
  rw [collect_arrN (g := fun i => b8 (bitsOf (tape i) pos)) (fun i hi => by
    simp only []
    rw [rd_arrN hi, ok_bind, getBit_ok (ht i hi)]), ok_bind]
  set w : ℕ → ZMod 2 := fun i => andShare (x i) (y i) (x ((i + 1) % 3)) (y ((i + 1) % 3)) (bitsOf (tape i) pos)
          (bitsOf (tape ((i + 1) % 3)) pos) with hw
  refine bind_of (loop_seq (fun k => (arrN k (fun i => b8 (w i)),
      views3 key (fun i => if i < k then setBitP (comm i) pos (w i) else comm i) out)) (by simp [arrN]) ?_) ?_
  · intro i hi
    have hi' : (i + 1) % 3 < 3 := Nat.mod_lt _ (by omega)
    simp only []
    rw [rd_arrN hi, ok_bind, rd_arrN hi', ok_bind, rd_arrN hi', ok_bind, rd_arrN hi, ok_bind, rd_arrN hi, ok_bind,
      rd_arrN hi', ok_bind, rd_arrN hi, ok_bind]
    simp only [← b8_add, ← b8_mul]
    rw [setBit_ok (by rw [if_neg (by omega)]; exact hc i hi), ok_bind, wr_arrN hi, ok_bind, pure_eq_ok]
    simp only [lt_irrefl, if_false]
    congr 2
    · simp [arrN, List.range_succ, hw, andShare]
    · apply arrN_congr
      intro j _
      simp only [Function.update_apply]
      by_cases h1 : j = i
      · subst h1; simp [hw, andShare]
      · rw [if_neg h1]
        by_cases h2 : j < i
        · rw [if_pos h2, if_pos (by omega)]
        · rw [if_neg h2, if_neg (by omega)]
  · simp only [pure_eq_ok]
    congr 3

/-- `n` consecutive bits starting at bit `p` overwritten by `w 0`, `w 1`, ... -/
def putBits (c : Buf) (p : ℕ) (w : Bits) : ℕ → Buf
  | 0 => c
  | n + 1 => setBitP (putBits c p w n) (p + n) (w n)

@[simp] theorem putBits_length (c : Buf) (p : ℕ) (w : Bits) (n : ℕ) : (putBits c p w n).length = c.length := by
  induction n with
  | zero => rfl
  | succ n ih => simp [putBits, ih]

theorem bitsOf_putBits {c : Buf} {p n : ℕ} {w : Bits} (h : p + n ≤ 8 * c.length) (q : ℕ) :
    bitsOf (putBits c p w n) q = if p ≤ q ∧ q < p + n then w (q - p) else bitsOf c q := by
  induction n with
  | zero => rw [if_neg (by omega)]; rfl
  | succ n ih =>
    rw [putBits, bitsOf_setBitP (by simp; omega), Function.update_apply]
    by_cases hq : q = p + n
    · rw [if_pos hq, if_pos (by omega), hq, show p + n - p = n by omega]
    · rw [if_neg hq, ih (by omega)]
      by_cases h2 : p ≤ q ∧ q < p + n
      · rw [if_pos h2, if_pos (by omega)]
      · rw [if_neg h2, if_neg (by omega)]

/-- The gate bits of party i in an S-box layer that starts at tape position `pos`. -/
def layerBits (σ : ℕ → Bits) (tape : ℕ → Buf) (pos : ℕ) (i : ℕ) : Bits := fun d =>
  andShare (gateL (σ i) (d / 3) (d % 3)) (gateR (σ i) (d / 3) (d % 3))
    (gateL (σ ((i + 1) % 3)) (d / 3) (d % 3)) (gateR (σ ((i + 1) % 3)) (d / 3) (d % 3))
    (bitsOf (tape i) (pos + d)) (bitsOf (tape ((i + 1) % 3)) (pos + d))

theorem mpcSubstitution_ok {P : Params} {W pos : ℕ} {σ : ℕ → Bits} {tape key comm out : ℕ → Buf}
    (hW : 3 * P.numSboxes ≤ 32 * W) (ht : ∀ i < 3, pos + 3 * P.numSboxes ≤ 8 * (tape i).length)
    (hc : ∀ i < 3, pos + 3 * P.numSboxes ≤ 8 * (comm i).length) :
    mpcSubstitution P (shares 3 W σ) ⟨arrN 3 tape, pos⟩ (views3 key comm out) =
      Outcome.ok (shares 3 W (fun i => subShare P.numSboxes (σ i) (layerBits σ tape pos i)),
        ⟨arrN 3 tape, pos + 3 * P.numSboxes⟩,
        views3 key (fun i => putBits (comm i) pos (layerBits σ tape pos i) (3 * P.numSboxes)) out) := by
  unfold mpcSubstitution
  refine loop_seq (fun k => (shares 3 W (fun i => subShare k (σ i) (layerBits σ tape pos i)),
        (⟨arrN 3 tape, pos + 3 * k⟩ : RandomTape),
        views3 key (fun i => putBits (comm i) pos (layerBits σ tape pos i) (3 * k)) out)) ?_ ?_
  · rfl
  · intro k hk
    simp only []
    have hb : ∀ (a : ℕ), (fun i => b8 (subShare k (σ i) (layerBits σ tape pos i) (3 * k + a))) =
        fun i => b8 (σ i (3 * k + a)) := by
      intro a; funext i; rw [subShare_ge _ _ (by omega)]
    have hb0 : (fun i => b8 (subShare k (σ i) (layerBits σ tape pos i) (3 * k))) = fun i => b8 (σ i (3 * k)) := hb 0
    rw [readSboxBits_ok (by omega), ok_bind]
    simp only [hb, hb0]
    have ht' : ∀ a < 3, ∀ i < 3, pos + 3 * k + a < 8 * (tape i).length := fun a ha i hi => by have := ht i hi; omega
    have hc' : ∀ a < 3, ∀ i < 3, pos + 3 * k + a < 8 * (comm i).length := fun a ha i hi => by have := hc i hi; omega
    rw [mpcAND_ok (pos := pos + 3 * k) (ht' 0 (by omega)) (by simpa using hc' 0 (by omega)), ok_bind]
    simp only []
    rw [mpcAND_ok (ht' 1 (by omega)) (by simpa using hc' 1 (by omega)), ok_bind]
    simp only []
    rw [mpcAND_ok (ht' 2 (by omega)) (by simpa using hc' 2 (by omega)), ok_bind]
    simp only []
    rw [writeSboxBits_ok (by omega), ok_bind, pure_eq_ok]
    have e : ∀ i, ∀ j < 3, layerBits σ tape pos i (3 * k + j) =
        andShare (gateL (σ i) k j) (gateR (σ i) k j) (gateL (σ ((i + 1) % 3)) k j) (gateR (σ ((i + 1) % 3)) k j)
          (bitsOf (tape i) (pos + 3 * k + j)) (bitsOf (tape ((i + 1) % 3)) (pos + 3 * k + j)) := by
      intro i j hj
      simp only [layerBits]
      rw [show (3 * k + j) / 3 = k by omega, show (3 * k + j) % 3 = j by omega, Nat.add_assoc]
    have e0 := fun i => e i 0 (by omega)
    have e1 := fun i => e i 1 (by omega)
    have e2 := fun i => e i 2 (by omega)
    simp only [gateL, gateR, if_true, if_false, OfNat.ofNat_ne_zero, OfNat.ofNat_ne_one, one_ne_zero, Nat.add_zero]
      at e0 e1 e2
    refine congrArg Outcome.ok (Prod.ext ?_ (Prod.ext ?_ ?_))
    · simp only [shares]
      apply arrN_congr
      intro i _
      congr 1
      rw [subShare_succ, e0, e1, e2]
    · simp only []
      congr 1
    · simp only [views3]
      apply arrN_congr
      intro i _
      congr 1
      rw [show 3 * (k + 1) = 3 * k + 1 + 1 + 1 by ring, putBits, putBits, putBits, e0, e1, e2]
      rfl

theorem shares_zero (N W : ℕ) : List.replicate N (zeros (W * 4)) = shares N W fun _ => 0 := by
  have h : ofBits (0 : Bits) (4 * W) = zeros (W * 4) := by
    refine buf_ext (by simp [Nat.mul_comm]) fun i hi => ?_
    rw [bitsOf_ofBits _ (by simpa using hi), bitsOf_zeros]; rfl
  rw [shares, arrN, h]
  simp

/-- One round of a share. -/
theorem share_step {P : Params} {C : LowMCConsts} (hP : ParamsWF P) (hC : ConstsWF P C) {t : ℕ} (ht : t < P.numRounds)
    {first : Bool} {key pt w g g' : Bits} (h1 : ∀ p < 3 * P.numSboxes * t, g' p = g p)
    (h2 : ∀ d < 3 * P.numSboxes, g' (3 * P.numSboxes * t + d) = w d) (d : ℕ) (hd : d < 32 * P.stateSizeWords) :
    mulVec P.stateSizeBits (matBits P.stateSizeWords (C.L t))
        (subShare P.numSboxes (share (lowmcOf P C) first key g pt t) w) d +
      (if first then bitsOf (C.RC t) d else 0) +
      mulVec P.stateSizeBits (matBits P.stateSizeWords (C.K (t + 1))) key d =
    share (lowmcOf P C) first key g' pt (t + 1) d := by
  simp only [share, Pi.add_apply]
  have e1 : mulVec P.stateSizeBits (matBits P.stateSizeWords (C.L t))
        (subShare P.numSboxes (share (lowmcOf P C) first key g pt t) w) =
      mulVec (lowmcOf P C).n ((lowmcOf P C).L t) (subShare (lowmcOf P C).m (share (lowmcOf P C) first key g' pt t)
        (fun i => g' (3 * (lowmcOf P C).m * t + i))) :=
    mulVec_congr (subShare_congr (m := P.numSboxes) hP.sboxes
      (share_congr (X := lowmcOf P C) hP.sboxes (fun _ _ => rfl) (fun _ _ => rfl) t fun p hp => (h1 p hp).symm)
      fun i hi => (h2 i hi).symm)
  have e2 : (if first = true then bitsOf (C.RC t) d else 0) = (if first = true then (lowmcOf P C).RC t else 0) d := by
    cases first
    · rfl
    · show bitsOf (C.RC t) d = trunc P.stateSizeBits (bitsOf (C.RC t)) d
      by_cases hin : d < P.stateSizeBits
      · simp [trunc, hin]
      · simp only [trunc, if_neg hin]; exact hC.RC_pad t ht d (by omega) hd
  rw [e1, e2]
  rfl

/-- The view of party i in the terms of the specification. -/
def specView (key comm tape : Buf) : Zkb.View := ⟨bitsOf key, bitsOf comm, bitsOf tape⟩

theorem mpcLowMC_ok {E : Env} {P : Params} {tag : ℕ} {tape key comm out : ℕ → Buf} {plaintext slab : Buf}
    (hP : ParamsWF P) (hC : ConstsWF P (E.lowmc P))
    (hs : 6 * P.stateSizeWords * 4 ≤ slab.length) (hp : 4 * P.stateSizeWords ≤ plaintext.length)
    (hk : ∀ i < 3, P.stateSizeBits ≤ 8 * (key i).length)
    (ht : ∀ i < 3, 3 * P.numSboxes * P.numRounds ≤ 8 * (tape i).length)
    (hc : ∀ i < 3, 3 * P.numSboxes * P.numRounds ≤ 8 * (comm i).length)
    (ho : ∀ i < 3, (out i).length = P.stateSizeBytes) :
    ∃ comm' : ℕ → Buf,
      mpcLowMC E P tag ⟨arrN 3 tape, 0⟩ (views3 key comm out) plaintext slab =
        Outcome.ok (views3 key comm' (fun i => ofBits (Zkb.output (lowmcOf P (E.lowmc P)) (bitsOf plaintext) i
          (specView (key i) (comm' i) (tape i))) P.stateSizeBytes), ⟨arrN 3 tape, 3 * P.numSboxes * P.numRounds⟩) ∧
      (∀ i < 3, (comm' i).length = (comm i).length) ∧
      (∀ i < 3, ∀ p, 3 * P.numSboxes * P.numRounds ≤ p → bitsOf (comm' i) p = bitsOf (comm i) p) ∧
      ∀ i < 3, Zkb.Consistent (lowmcOf P (E.lowmc P)) (bitsOf plaintext) i (specView (key i) (comm' i) (tape i))
        (specView (key ((i + 1) % 3)) (comm' ((i + 1) % 3)) (tape ((i + 1) % 3))) := by
  set X := lowmcOf P (E.lowmc P) with hX
  have hw := hP.words
  have hby := hP.bytes
  have hsb := hP.sboxes
  have hr := hP.rounds
  suffices h : ∃ r, mpcLowMC E P tag ⟨arrN 3 tape, 0⟩ (views3 key comm out) plaintext slab = Outcome.ok r ∧
      ∃ comm' : ℕ → Buf, r = (views3 key comm' (fun i => ofBits (Zkb.output X (bitsOf plaintext) i
          (specView (key i) (comm' i) (tape i))) P.stateSizeBytes), ⟨arrN 3 tape, 3 * P.numSboxes * P.numRounds⟩) ∧
      (∀ i < 3, (comm' i).length = (comm i).length) ∧
      (∀ i < 3, ∀ p, 3 * P.numSboxes * P.numRounds ≤ p → bitsOf (comm' i) p = bitsOf (comm i) p) ∧
      ∀ i < 3, Zkb.Consistent X (bitsOf plaintext) i (specView (key i) (comm' i) (tape i))
        (specView (key ((i + 1) % 3)) (comm' ((i + 1) % 3)) (tape ((i + 1) % 3))) by
    obtain ⟨r, h1, comm', rfl, h2⟩ := h
    exact ⟨comm', h1, h2⟩
  unfold mpcLowMC
  simp only []
  obtain ⟨sl, hsl⟩ : ∃ sl, wrN slab 0 (zeros (6 * P.stateSizeWords * 4)) = Outcome.ok sl :=
    ⟨_, wrN_ok (by simpa using hs)⟩
  rw [hsl, ok_bind, shares_zero]
  rw [collect_arrN (g := key) (fun i hi => by rw [rd_arrN hi, ok_bind, pure_eq_ok]), ok_bind]
  unfold mpcXorConstant
  rw [mpcXorAt_ok (by omega) hp, ok_bind, mpcMatrixMul_ok hP hk (hC.K_len 0 (by omega)), ok_bind, mpcXor_ok, ok_bind]
  refine bind_ex (loopFrom_inv (fun r s => ∃ (κ : ℕ → Bits) (comm' : ℕ → Buf),
      s = (shares 3 P.stateSizeWords (fun i => share X (i = 0) (bitsOf (key i)) (bitsOf (comm' i)) (bitsOf plaintext)
            (r - 1)), shares 3 P.stateSizeWords κ, (⟨arrN 3 tape, 3 * P.numSboxes * (r - 1)⟩ : RandomTape),
          views3 key comm' out) ∧
      (∀ i < 3, (comm' i).length = (comm i).length) ∧
      (∀ i < 3, ∀ p, 3 * P.numSboxes * (r - 1) ≤ p → bitsOf (comm' i) p = bitsOf (comm i) p) ∧
      ∀ i < 3, ∀ t < r - 1, ∀ k < P.numSboxes, ∀ j < 3,
        let s := share X (i = 0) (bitsOf (key i)) (bitsOf (comm' i)) (bitsOf plaintext) t
        let s' := share X ((i + 1) % 3 = 0) (bitsOf (key ((i + 1) % 3))) (bitsOf (comm' ((i + 1) % 3)))
          (bitsOf plaintext) t
        let p := 3 * P.numSboxes * t + 3 * k + j
        bitsOf (comm' i) p = andShare (gateL s k j) (gateR s k j) (gateL s' k j) (gateR s' k j) (bitsOf (tape i) p)
          (bitsOf (tape ((i + 1) % 3)) p)) (by omega) ?_ ?_) ?_
  · refine ⟨fun i => mulVec P.stateSizeBits (matBits P.stateSizeWords ((E.lowmc P).K 0)) (bitsOf (key i)), comm, ?_,
      fun _ _ => rfl, fun _ _ _ _ => rfl, fun _ _ t ht => absurd ht (by omega)⟩
    simp only [Prod.mk.injEq, Nat.sub_self, Nat.mul_zero, and_true]
    apply arrN_congr
    intro i _
    congr 1
    by_cases hi : i = 0
    · subst hi; simp [share]; rfl
    · simp [share, hi, Function.update_of_ne hi]; rfl
  · rintro r h1 h2 _ ⟨κ, comm', rfl, hl, hu, hg⟩
    obtain ⟨t, rfl⟩ : ∃ t, r = t + 1 := ⟨r - 1, by omega⟩
    simp only [Nat.add_sub_cancel] at hu hg ⊢
    have htR : t < P.numRounds := by omega
    have hmul : 3 * P.numSboxes * (t + 1) = 3 * P.numSboxes * t + 3 * P.numSboxes := by ring
    have hle : 3 * P.numSboxes * (t + 1) ≤ 3 * P.numSboxes * P.numRounds := mul_le_of_le (by omega)
    rw [mpcMatrixMul_ok hP hk (hC.K_len (t + 1) (by omega)), ok_bind,
      mpcSubstitution_ok (by omega) (fun i hi => by have := ht i hi; omega)
        (fun i hi => by rw [hl i hi]; have := hc i hi; omega), ok_bind]
    simp only []
    rw [mpcMatrixMulInPlace_ok hP (hC.L_len t htR), ok_bind, mpcXorAt_ok (by omega) (hC.RC_len t htR), ok_bind,
      mpcXor_ok, ok_bind, pure_eq_ok]
    refine ⟨_, rfl, ?_⟩
    set σ : ℕ → Bits := fun i => share X (i = 0) (bitsOf (key i)) (bitsOf (comm' i)) (bitsOf plaintext) t with hσ
    set ω := layerBits σ tape (3 * P.numSboxes * t) with hω
    set comm'' : ℕ → Buf := fun i => putBits (comm' i) (3 * P.numSboxes * t) (ω i) (3 * P.numSboxes) with hcomm
    have hb : ∀ i < 3, ∀ p, bitsOf (comm'' i) p = if 3 * P.numSboxes * t ≤ p ∧ p < 3 * P.numSboxes * t + 3 * P.numSboxes
        then ω i (p - 3 * P.numSboxes * t) else bitsOf (comm' i) p := fun i hi p =>
      bitsOf_putBits (by rw [hl i hi]; have := hc i hi; omega) p
    have hlow : ∀ i < 3, ∀ p < 3 * P.numSboxes * t, bitsOf (comm'' i) p = bitsOf (comm' i) p := fun i hi p hp => by
      rw [hb i hi, if_neg (by omega)]
    have hmid : ∀ i < 3, ∀ d < 3 * P.numSboxes, bitsOf (comm'' i) (3 * P.numSboxes * t + d) = ω i d :=
      fun i hi d hd => by rw [hb i hi, if_pos (by omega), Nat.add_sub_cancel_left]
    have hsame : ∀ i < 3, ∀ t' ≤ t, ∀ d < X.n, share X (i = 0) (bitsOf (key i)) (bitsOf (comm' i)) (bitsOf plaintext) t' d =
        share X (i = 0) (bitsOf (key i)) (bitsOf (comm'' i)) (bitsOf plaintext) t' d := fun i hi t' ht' =>
      share_congr hsb (fun _ _ => rfl) (fun _ _ => rfl) t' fun p hp =>
        (hlow i hi p (lt_of_lt_of_le hp (mul_le_of_le ht'))).symm
    refine ⟨fun i => mulVec P.stateSizeBits (matBits P.stateSizeWords ((E.lowmc P).K (t + 1))) (bitsOf (key i)), comm'',
      ?_, ?_, ?_, ?_⟩
    · simp only [Prod.mk.injEq, and_true, hmul]
      apply arrN_congr
      intro i hi
      apply ofBits_congr
      intro d hd
      refine Eq.trans ?_ (share_step hP hC htR (hlow i hi) (hmid i hi) d (by omega))
      simp only [Pi.add_apply]
      congr 1
      by_cases h0 : i = 0
      · subst h0; simp [hσ, hX]
      · simp [Function.update_of_ne h0, h0, hσ, hX]
    · intro i hi; simp [hcomm, hl i hi]
    · intro i hi p hp
      rw [hb i hi, if_neg (by omega), hu i hi p (by omega)]
    · intro i hi t' ht' k hk' j hj
      have hi' : (i + 1) % 3 < 3 := Nat.mod_lt _ (by omega)
      have hsL := fun (h : t' ≤ t) => gateL_congr (j := j) hsb (hsame i hi t' h) hk'
      have hsR := fun (h : t' ≤ t) => gateR_congr (j := j) hsb (hsame i hi t' h) hk'
      have hsL' := fun (h : t' ≤ t) => gateL_congr (j := j) hsb (hsame _ hi' t' h) hk'
      have hsR' := fun (h : t' ≤ t) => gateR_congr (j := j) hsb (hsame _ hi' t' h) hk'
      rw [← hsL (by omega), ← hsR (by omega), ← hsL' (by omega), ← hsR' (by omega)]
      by_cases htt : t' < t
      · rw [hlow i hi _ (gate_lt htt hk' hj)]
        exact hg i hi t' htt k hk' j hj
      · obtain rfl : t' = t := by omega
        rw [Nat.add_assoc, hmid i hi _ (by omega), hω]
        simp only [layerBits]
        rw [show (3 * k + j) / 3 = k by omega, show (3 * k + j) % 3 = j by omega]
  · rintro _ ⟨κ, comm', rfl, hl, hu, hg⟩
    simp only [Nat.add_sub_cancel] at hu hg ⊢
    rw [show loop _ 3 _ = _ from loop_upd (g := fun i => (⟨key i, comm' i, ofBits (Zkb.output X (bitsOf plaintext) i
          (specView (key i) (comm' i) (tape i))) P.stateSizeBytes⟩ : View)) fun i hi f' hf => by
      rw [rd_arrN hi, ok_bind, shares, rd_arrN hi, ok_bind, hf]
      simp only []
      rw [memcpy_ok (by simp; omega) (by rw [ho i hi]; omega), ok_bind, wr_arrN hi]
      congr 4
      simp only [List.take_zero, List.nil_append, List.drop_zero, Nat.zero_add]
      rw [List.drop_eq_nil_of_le (by rw [ho i hi]), List.append_nil, ofBits_take (by omega)]
      rfl, ok_bind, pure_eq_ok]
    exact ⟨_, rfl, comm', rfl, hl, hu, fun i hi t ht k hk j hj => hg i hi t ht k hk j hj⟩

/-! ### the verifier -/

/-- What the two opened players contribute to gate p: the first computes it, the second has sent it. -/
def pairShare (x y : ℕ → ZMod 2) (t0 t1 c2 : Buf) (p : ℕ) (i : ℕ) : ZMod 2 :=
  if i = 0 then andShare (x 0) (y 0) (x 1) (y 1) (bitsOf t0 p) (bitsOf t1 p) else bitsOf c2 p

theorem mpcANDVerify_ok {x y : ℕ → ZMod 2} {tp : List Buf} {t0 t1 : Buf} {pos : ℕ} {v1 v2 : View}
    (h0 : rd tp 0 = Outcome.ok t0) (h1 : rd tp 1 = Outcome.ok t1) (ht0 : pos < 8 * t0.length) (ht1 : pos < 8 * t1.length)
    (hc1 : pos < 8 * v1.communicatedBits.length) (hc2 : pos < 8 * v2.communicatedBits.length) :
    mpcANDVerify (arrN 2 fun i => b8 (x i)) (arrN 2 fun i => b8 (y i)) ⟨tp, pos⟩ v1 v2 =
      Outcome.ok (arrN 2 (fun i => b8 (pairShare x y t0 t1 v2.communicatedBits pos i)), ⟨tp, pos + 1⟩,
        { v1 with communicatedBits := (setBitP v1.communicatedBits pos (pairShare x y t0 t1 v2.communicatedBits pos 0)) }) := by
  unfold mpcANDVerify
  simp only []
  rw [h0, ok_bind, getBit_ok ht0, ok_bind, h1, ok_bind, getBit_ok ht1, ok_bind, rd_arrN (by omega), ok_bind,
    rd_arrN (by omega), ok_bind, rd_arrN (by omega), ok_bind, rd_arrN (by omega), ok_bind]
  simp only [← b8_mul, ← b8_add]
  rw [setBit_ok hc1, ok_bind, getBit_ok hc2, ok_bind, pure_eq_ok]
  simp [arrN, List.range_succ, pairShare, andShare]

/-- The gate bits of the two players in an S-box layer that starts at tape position `pos`. -/
def pairBits (σ : ℕ → Bits) (t0 t1 c2 : Buf) (pos : ℕ) (i : ℕ) : Bits := fun d =>
  pairShare (fun i => gateL (σ i) (d / 3) (d % 3)) (fun i => gateR (σ i) (d / 3) (d % 3)) t0 t1 c2 (pos + d) i

theorem mpcSubstitutionVerify_ok {P : Params} {W pos : ℕ} {σ : ℕ → Bits} {tp : List Buf} {t0 t1 : Buf} {v1 v2 : View}
    (h0 : rd tp 0 = Outcome.ok t0) (h1 : rd tp 1 = Outcome.ok t1)
    (hW : 3 * P.numSboxes ≤ 32 * W) (ht0 : pos + 3 * P.numSboxes ≤ 8 * t0.length)
    (ht1 : pos + 3 * P.numSboxes ≤ 8 * t1.length)
    (hc1 : pos + 3 * P.numSboxes ≤ 8 * v1.communicatedBits.length)
    (hc2 : pos + 3 * P.numSboxes ≤ 8 * v2.communicatedBits.length) :
    mpcSubstitutionVerify P (shares 2 W σ) ⟨tp, pos⟩ v1 v2 =
      Outcome.ok (shares 2 W (fun i => subShare P.numSboxes (σ i) (pairBits σ t0 t1 v2.communicatedBits pos i)),
        ⟨tp, pos + 3 * P.numSboxes⟩,
        { v1 with communicatedBits := (putBits v1.communicatedBits pos (pairBits σ t0 t1 v2.communicatedBits pos 0)
            (3 * P.numSboxes)) }) := by
  unfold mpcSubstitutionVerify
  set c2 := v2.communicatedBits with hcc
  have hl2 : c2.length = v2.communicatedBits.length := rfl
  refine loop_seq (fun k => (shares 2 W (fun i => subShare k (σ i) (pairBits σ t0 t1 c2 pos i)),
        (⟨tp, pos + 3 * k⟩ : RandomTape),
        { v1 with communicatedBits := (putBits v1.communicatedBits pos (pairBits σ t0 t1 c2 pos 0) (3 * k)) })) rfl ?_
  intro k hk
  simp only []
  have hb : ∀ (a : ℕ), (fun i => b8 (subShare k (σ i) (pairBits σ t0 t1 c2 pos i) (3 * k + a))) =
      fun i => b8 (σ i (3 * k + a)) := by
    intro a; funext i; rw [subShare_ge _ _ (by omega)]
  have hb0 : (fun i => b8 (subShare k (σ i) (pairBits σ t0 t1 c2 pos i) (3 * k))) = fun i => b8 (σ i (3 * k)) := hb 0
  rw [readSboxBits_ok (by omega), ok_bind]
  simp only [hb, hb0]
  rw [mpcANDVerify_ok (pos := pos + 3 * k) h0 h1 (by omega) (by omega) (by simp only [putBits_length]; omega) (by omega), ok_bind]
  simp only []
  rw [mpcANDVerify_ok h0 h1 (by omega) (by omega) (by simp; omega) (by omega), ok_bind]
  simp only []
  rw [mpcANDVerify_ok h0 h1 (by omega) (by omega) (by simp; omega) (by omega), ok_bind]
  simp only []
  rw [writeSboxBits_ok (by omega), ok_bind, pure_eq_ok]
  have e : ∀ i, ∀ j < 3, pairBits σ t0 t1 c2 pos i (3 * k + j) =
      pairShare (fun i => gateL (σ i) k j) (fun i => gateR (σ i) k j) t0 t1 c2 (pos + 3 * k + j) i := by
    intro i j hj
    simp only [pairBits]
    rw [show (3 * k + j) / 3 = k by omega, show (3 * k + j) % 3 = j by omega, Nat.add_assoc]
  have e0 := fun i => e i 0 (by omega)
  have e1 := fun i => e i 1 (by omega)
  have e2 := fun i => e i 2 (by omega)
  simp only [gateL, gateR, if_true, if_false, OfNat.ofNat_ne_zero, OfNat.ofNat_ne_one, one_ne_zero, Nat.add_zero]
    at e0 e1 e2
  refine congrArg Outcome.ok (Prod.ext ?_ (Prod.ext ?_ ?_))
  · simp only [shares]
    apply arrN_congr
    intro i _
    congr 1
    rw [subShare_succ, e0, e1, e2]
  · simp only []
    congr 1
  · simp only []
    congr 1
    rw [show 3 * (k + 1) = 3 * k + 1 + 1 + 1 by ring, putBits, putBits, putBits, e0, e1, e2]
    rfl

/-- Which of the two opened players (0 or 1) adds the constants. -/
def isFirst (c : Byte) (p : ℕ) : Bool := (c.toNat + p) % 3 = 0

theorem mpcXorConstantVerify_ok {W : ℕ} {σ : ℕ → Bits} {x : Buf} {c : Byte} (hc : c.toNat < 3) (hx : 4 * W ≤ x.length) :
    mpcXorConstantVerify (shares 2 W σ) x W c =
      Outcome.ok (shares 2 W fun i => σ i + if isFirst c i then bitsOf x else 0) := by
  have hc' : c = 0 ∨ c = 1 ∨ c = 2 := by
    rcases (show c.toNat = 0 ∨ c.toNat = 1 ∨ c.toNat = 2 by omega) with h | h | h
    · exact Or.inl (BitVec.eq_of_toNat_eq h)
    · exact Or.inr (Or.inl (BitVec.eq_of_toNat_eq h))
    · exact Or.inr (Or.inr (BitVec.eq_of_toNat_eq h))
  unfold mpcXorConstantVerify
  rcases hc' with rfl | rfl | rfl
  · rw [if_pos rfl, mpcXorAt_ok (by omega) hx]
    congr 1
    apply arrN_congr
    intro i hi
    interval_cases i <;> simp [isFirst, Function.update_apply]
  · refine Eq.trans (if_neg (by decide)) (Eq.trans (if_neg (by decide)) (congrArg Outcome.ok (arrN_congr fun i hi => ?_)))
    have : isFirst 1 i = false := by interval_cases i <;> rfl
    simp only [this, Bool.false_eq_true, if_false, add_zero]
  · refine Eq.trans (if_neg (by decide)) (Eq.trans (if_pos rfl) (Eq.trans (mpcXorAt_ok (by omega) hx)
      (congrArg Outcome.ok (arrN_congr fun i hi => ?_))))
    rcases (show i = 0 ∨ i = 1 by omega) with rfl | rfl
    · simp only [show isFirst 2 0 = false from rfl, Bool.false_eq_true, if_false, add_zero]
      rw [Function.update_of_ne (by omega)]
    · simp only [show isFirst 2 1 = true from rfl, if_true, Function.update_self]

theorem mpcLowMCVerify_ok {E : Env} {P : Params} {tag : ℕ} {tp : List Buf} {t0 t1 : Buf} {v1 v2 : View}
    {plaintext tmp : Buf} {c : Byte} (hP : ParamsWF P) (hC : ConstsWF P (E.lowmc P)) (hc3 : c.toNat < 3)
    (hs : 4 * P.stateSizeWords * 4 ≤ tmp.length) (hp : 4 * P.stateSizeWords ≤ plaintext.length)
    (h0 : rd tp 0 = Outcome.ok t0) (h1 : rd tp 1 = Outcome.ok t1)
    (hk1 : P.stateSizeBits ≤ 8 * v1.inputShare.length) (hk2 : P.stateSizeBits ≤ 8 * v2.inputShare.length)
    (ht0 : 3 * P.numSboxes * P.numRounds ≤ 8 * t0.length) (ht1 : 3 * P.numSboxes * P.numRounds ≤ 8 * t1.length)
    (hc1 : 3 * P.numSboxes * P.numRounds ≤ 8 * v1.communicatedBits.length)
    (hc2 : 3 * P.numSboxes * P.numRounds ≤ 8 * v2.communicatedBits.length)
    (ho1 : v1.outputShare.length = P.stateSizeBytes) (ho2 : v2.outputShare.length = P.stateSizeBytes) :
    ∃ comm : Buf,
      mpcLowMCVerify E P tag v1 v2 ⟨tp, 0⟩ tmp plaintext c =
        Outcome.ok (⟨v1.inputShare, comm, ofBits (Zkb.output (lowmcOf P (E.lowmc P)) (bitsOf plaintext) c.toNat
            (specView v1.inputShare comm t0)) P.stateSizeBytes⟩,
          ⟨v2.inputShare, v2.communicatedBits, ofBits (Zkb.output (lowmcOf P (E.lowmc P)) (bitsOf plaintext)
            ((c.toNat + 1) % 3) (specView v2.inputShare v2.communicatedBits t1)) P.stateSizeBytes⟩,
          ⟨tp, 3 * P.numSboxes * P.numRounds⟩) ∧
      comm.length = v1.communicatedBits.length ∧
      (∀ p, 3 * P.numSboxes * P.numRounds ≤ p → bitsOf comm p = bitsOf v1.communicatedBits p) ∧
      Zkb.Consistent (lowmcOf P (E.lowmc P)) (bitsOf plaintext) c.toNat (specView v1.inputShare comm t0)
        (specView v2.inputShare v2.communicatedBits t1) := by
  obtain ⟨i2, c2, o2⟩ := v2
  simp only [] at hk2 hc2 ho2 ⊢
  set v2 : View := ⟨i2, c2, o2⟩ with hv2
  have hv2i : v2.inputShare = i2 := rfl
  have hv2c : v2.communicatedBits = c2 := rfl
  have hv2o : v2.outputShare = o2 := rfl
  set X := lowmcOf P (E.lowmc P) with hX
  have hw := hP.words
  have hby := hP.bytes
  have hsb := hP.sboxes
  have hr := hP.rounds
  set pt := bitsOf plaintext with hpt
  set key : ℕ → Bits := fun i => if i = 0 then bitsOf v1.inputShare else bitsOf v2.inputShare with hkey
  suffices h : ∃ r, mpcLowMCVerify E P tag v1 v2 ⟨tp, 0⟩ tmp plaintext c = Outcome.ok r ∧ ∃ comm : Buf,
      r = (⟨v1.inputShare, comm, ofBits (Zkb.output X pt c.toNat
            (specView v1.inputShare comm t0)) P.stateSizeBytes⟩,
          ⟨v2.inputShare, c2, ofBits (Zkb.output X pt
            ((c.toNat + 1) % 3) (specView v2.inputShare c2 t1)) P.stateSizeBytes⟩,
          ⟨tp, 3 * P.numSboxes * P.numRounds⟩) ∧
      comm.length = v1.communicatedBits.length ∧
      (∀ p, 3 * P.numSboxes * P.numRounds ≤ p → bitsOf comm p = bitsOf v1.communicatedBits p) ∧
      Zkb.Consistent X pt c.toNat (specView v1.inputShare comm t0) (specView v2.inputShare c2 t1) by
    obtain ⟨r, h1, comm', rfl, h2⟩ := h
    exact ⟨comm', h1, h2⟩
  unfold mpcLowMCVerify
  simp only []
  obtain ⟨sl, hsl⟩ : ∃ sl, wrN tmp 0 (zeros (4 * P.stateSizeWords * 4)) = Outcome.ok sl :=
    ⟨_, wrN_ok (by simpa using hs)⟩
  have hks : [v1.inputShare, v2.inputShare] = arrN 2 fun i => if i = 0 then v1.inputShare else v2.inputShare := by
    simp [arrN, List.range_succ]
  have hkl : ∀ i < 2, P.stateSizeBits ≤ 8 * (if i = 0 then v1.inputShare else v2.inputShare).length := by
    intro i _; split_ifs <;> assumption
  have hkb : ∀ i, bitsOf (if i = 0 then v1.inputShare else v2.inputShare) = key i := by
    intro i; simp only [hkey]; split_ifs <;> rfl
  have hfst0 : isFirst c 0 = decide (c.toNat = 0) := by
    simp only [isFirst, Nat.add_zero, Nat.mod_eq_of_lt hc3]
  rw [hsl, ok_bind, shares_zero, mpcXorConstantVerify_ok hc3 hp, ok_bind, hks,
    mpcMatrixMul_ok hP hkl (hC.K_len 0 (by omega)), ok_bind, mpcXor_ok, ok_bind]
  simp only [hkb]
  refine bind_ex (loopFrom_inv (fun r s => ∃ (κ : ℕ → Bits) (comm : Buf),
      s = (shares 2 P.stateSizeWords (fun i => share X (isFirst c i) (key i) (bitsOf (if i = 0 then comm else c2)) pt
            (r - 1)), shares 2 P.stateSizeWords κ, (⟨tp, 3 * P.numSboxes * (r - 1)⟩ : RandomTape),
          (⟨v1.inputShare, comm, v1.outputShare⟩ : View)) ∧
      comm.length = v1.communicatedBits.length ∧
      (∀ p, 3 * P.numSboxes * (r - 1) ≤ p → bitsOf comm p = bitsOf v1.communicatedBits p) ∧
      ∀ t < r - 1, ∀ k < P.numSboxes, ∀ j < 3,
        let s := share X (isFirst c 0) (key 0) (bitsOf comm) pt t
        let s' := share X (isFirst c 1) (key 1) (bitsOf c2) pt t
        let p := 3 * P.numSboxes * t + 3 * k + j
        bitsOf comm p = andShare (gateL s k j) (gateR s k j) (gateL s' k j) (gateR s' k j) (bitsOf t0 p)
          (bitsOf t1 p)) (by omega) ?_ ?_) ?_
  · refine ⟨fun i => mulVec P.stateSizeBits (matBits P.stateSizeWords ((E.lowmc P).K 0)) (key i), v1.communicatedBits, ?_,
      rfl, fun _ _ => rfl, fun t ht => absurd ht (by omega)⟩
    simp only [Prod.mk.injEq, Nat.sub_self, Nat.mul_zero, and_true]
    apply arrN_congr
    intro i _
    simp only [share, zero_add]
    rfl
  · rintro r hr1 hr2 _ ⟨κ, comm, rfl, hl, hu, hg⟩
    obtain ⟨t, rfl⟩ : ∃ t, r = t + 1 := ⟨r - 1, by omega⟩
    simp only [Nat.add_sub_cancel] at hu hg ⊢
    have htR : t < P.numRounds := by omega
    have hmul : 3 * P.numSboxes * (t + 1) = 3 * P.numSboxes * t + 3 * P.numSboxes := by ring
    have hle : 3 * P.numSboxes * (t + 1) ≤ 3 * P.numSboxes * P.numRounds := mul_le_of_le (by omega)
    rw [mpcMatrixMul_ok hP hkl (hC.K_len (t + 1) (by omega)), ok_bind,
      mpcSubstitutionVerify_ok h0 h1 (by omega) (by omega) (by omega) (by simp only []; omega) (by rw [hv2c]; omega), ok_bind]
    simp only []
    rw [mpcMatrixMulInPlace_ok hP (hC.L_len t htR), ok_bind, mpcXorConstantVerify_ok hc3 (hC.RC_len t htR), ok_bind,
      mpcXor_ok, ok_bind, pure_eq_ok]
    refine ⟨_, rfl, ?_⟩
    simp only [hkb]
    set σ : ℕ → Bits := fun i => share X (isFirst c i) (key i) (bitsOf (if i = 0 then comm else c2)) pt t with hσ
    set ω := pairBits σ t0 t1 c2 (3 * P.numSboxes * t) with hω
    set comm' : Buf := putBits comm (3 * P.numSboxes * t) (ω 0) (3 * P.numSboxes) with hcomm
    have hb : ∀ p, bitsOf comm' p = if 3 * P.numSboxes * t ≤ p ∧ p < 3 * P.numSboxes * t + 3 * P.numSboxes
        then ω 0 (p - 3 * P.numSboxes * t) else bitsOf comm p := fun p =>
      bitsOf_putBits (by omega) p
    have hlow : ∀ p < 3 * P.numSboxes * t, bitsOf comm' p = bitsOf comm p := fun p hp => by
      rw [hb, if_neg (by omega)]
    have hmid : ∀ d < 3 * P.numSboxes, bitsOf comm' (3 * P.numSboxes * t + d) = ω 0 d :=
      fun d hd => by rw [hb, if_pos (by omega), Nat.add_sub_cancel_left]
    have hsame : ∀ t' ≤ t, ∀ d < X.n, share X (isFirst c 0) (key 0) (bitsOf comm) pt t' d =
        share X (isFirst c 0) (key 0) (bitsOf comm') pt t' d := fun t' ht' =>
      share_congr hsb (fun _ _ => rfl) (fun _ _ => rfl) t' fun p hp =>
        (hlow p (lt_of_lt_of_le hp (mul_le_of_le ht'))).symm
    refine ⟨fun i => mulVec P.stateSizeBits (matBits P.stateSizeWords ((E.lowmc P).K (t + 1))) (key i), comm',
      ?_, ?_, ?_, ?_⟩
    · simp only [Prod.mk.injEq, and_true, hmul]
      apply arrN_congr
      intro i hi
      apply ofBits_congr
      intro d hd
      refine Eq.trans ?_ (share_step (g := bitsOf (if i = 0 then comm else c2)) (w := ω i) hP hC htR ?_ ?_ d (by omega))
      · simp only [Pi.add_apply]
        congr 2
        split_ifs <;> rfl
      · intro p hp
        split_ifs
        · exact hlow p hp
        · rfl
      · intro p hp
        split_ifs with h0
        · rw [h0]; exact hmid p hp
        · simp [hω, pairBits, pairShare, h0]
    · simp [hcomm, hl]
    · intro p hp
      rw [hb, if_neg (by omega), hu p (by omega)]
    · intro t' ht' k hk' j hj
      have hsL := fun (h : t' ≤ t) => gateL_congr (j := j) hsb (hsame t' h) hk'
      have hsR := fun (h : t' ≤ t) => gateR_congr (j := j) hsb (hsame t' h) hk'
      rw [← hsL (by omega), ← hsR (by omega)]
      by_cases htt : t' < t
      · rw [hlow _ (gate_lt htt hk' hj)]
        exact hg t' htt k hk' j hj
      · obtain rfl : t' = t := by omega
        rw [Nat.add_assoc, hmid _ (by omega), hω]
        simp only [pairBits, pairShare, if_true]
        rw [show (3 * k + j) / 3 = k by omega, show (3 * k + j) % 3 = j by omega]
        simp [hσ]
  · rintro _ ⟨κ, comm, rfl, hl, hu, hg⟩
    simp only [Nat.add_sub_cancel] at hu hg ⊢
    rw [rd_arrN (by omega), ok_bind, rd_arrN (by omega), ok_bind,
      memcpy_ok (by simp; omega) (by omega), ok_bind, memcpy_ok (by simp; omega) (by rw [hv2o]; omega), ok_bind,
      pure_eq_ok]
    refine ⟨_, rfl, comm, ?_, hl, hu, ?_⟩
    · simp only [List.take_zero, List.nil_append, List.drop_zero, Nat.zero_add]
      rw [List.drop_eq_nil_of_le (by omega), List.append_nil, ofBits_take (by omega),
        List.drop_eq_nil_of_le (by rw [hv2o]; omega), List.append_nil, ofBits_take (by omega)]
      simp only [hfst0, specView, Zkb.output, hkey, hv2, if_true, one_ne_zero, if_false]
      rfl
    · intro t ht k hk j hj
      have := hg t ht k hk j hj
      rw [hfst0] at this
      exact this

end Picnic
