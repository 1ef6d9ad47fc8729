import Verif.Proofs.P3Api
import Verif.Proofs.Order
import Verif.Proofs.Conf1
import Mathlib.Data.Matrix.Basic

/-
One repetition of Picnic3 in terms of Verif/Spec/Picnic3.lean: preprocessing and simulated computation.
-/

namespace Picnic

open Spec Spec.Challenge Spec.Tree Spec.Picnic3 Finset
open Spec.Picnic1 (toBits int16)

/-- The instance of the specification that belongs to a parameter set. -/
def inst3 (E : Env) (P : Params) : Picnic3.Inst :=
  ⟨lowmcOf P (E.lowmc P), P.numMPCRounds, P.numOpenedRounds, P.seedSizeBytes, P.digestSizeBytes, rateOf P, fun m => streamByte E.perm (rateOf P) (absorbPadded E.perm (rateOf P) (padShake (rateOf P) m))⟩

theorem inst3_of {E : Env} {p : ℕ} {P : Params} {I : Picnic3.Inst} (hP : getParamSet p = some P) (hI : I.Is p)
    (hf : I.Shake E.perm) (hX : I.X = lowmcOf P (E.lowmc P)) : I = inst3 E P := by
  have h1 : Picnic3.table p = some (P.stateSizeBits, P.numSboxes, P.numRounds, P.numMPCRounds, P.numOpenedRounds, P.seedSizeBytes,
      P.digestSizeBytes, rateOf P) := by
    have hI' := hI
    unfold Picnic3.Inst.Is at hI'
    obtain ⟨h1, h2⟩ := getParamSet_bounds hP
    interval_cases p <;> first
      | (injection hP with hP; subst hP; rfl)
      | (simp [Picnic3.table] at hI')
  have h2 := hI.symm.trans h1
  simp only [Option.some.injEq, Prod.mk.injEq] at h2
  obtain ⟨-, -, -, hT, hu, hs, hd, hr⟩ := h2
  have hx : I.xof = fun m => streamByte E.perm (rateOf P) (absorbPadded E.perm (rateOf P) (padShake (rateOf P) m)) := by
    funext m i
    have h := hf m (i + 1)
    rw [Picnic3.Inst.hash, shake, List.range_succ, List.map_append, List.map_append] at h
    have := (List.append_inj h (by simp)).2
    simpa [← hr] using this
  clear hf
  cases I
  simp only at hx hX hT hu hs hd hr
  subst hx hX hT hu hs hd hr
  rfl

section
variable {E : Env} {P : Params}

theorem inst3_blk (hP : ParamsWF P) : (inst3 E P).blk = P.stateSizeBytes := by
  rw [Picnic3.Inst.blk, bytesFor, hP.bytes]; rfl

theorem inst3_gate (hP : ParamsWF P) : (inst3 E P).gate = P.andSizeBytes := by
  rw [Picnic3.Inst.gate, bytesFor, hP.andBytes]; rfl

theorem inst3_depth (h3 : P3WF P) : (inst3 E P).depth = ceilLog2 P.numMPCRounds := by
  have := h3.T
  have := h3.Tpos
  rw [Picnic3.Inst.depth, ceilLog2_eq_clog (by omega) (by omega)]; rfl

theorem inst3_hash (m : Buf) (n : ℕ) : (inst3 E P).hash m n = H E P HASH_PREFIX_NONE m n := rfl

theorem inst3_hash1 {p : Byte} (hp : p ≠ HASH_PREFIX_NONE) (m : Buf) (n : ℕ) : (inst3 E P).hash ([p] ++ m) n = H E P p m n := by
  rw [Picnic3.Inst.hash, H, prefixBytes, if_pos hp]; rfl

/-! ### linear algebra -/

theorem isInv_symm {n : ℕ} {A B : ℕ → ℕ → ZMod 2} (h : IsInv n A B) : IsInv n B A := by
  have key : (Matrix.of fun i j : Fin n => A i j) * (Matrix.of fun i j : Fin n => B i j) = 1 := by
    ext i k
    rw [Matrix.mul_apply, Matrix.one_apply]
    have := h i i.2 k k.2
    rw [← Fin.sum_univ_eq_sum_range (fun j => A i j * B j k)] at this
    simp only [Matrix.of_apply, Fin.ext_iff]
    exact this
  have key2 := mul_eq_one_comm.1 key
  intro i hi k hk
  have h2 := congrFun (congrFun key2 ⟨i, hi⟩) ⟨k, hk⟩
  rw [Matrix.mul_apply, Matrix.one_apply] at h2
  simp only [Matrix.of_apply, Fin.ext_iff] at h2
  rw [← Fin.sum_univ_eq_sum_range (fun j => B i j * A j k)]
  exact h2

theorem mulVec_inj {n : ℕ} {A B : ℕ → ℕ → ZMod 2} (h : IsInv n A B) {v w : Bits} (e : ∀ i < n, mulVec n A v i = mulVec n A w i) {i : ℕ} (hi : i < n) :
    v i = w i := by
  rw [← mulVec_inv (isInv_symm h) v hi, ← mulVec_inv (isInv_symm h) w hi]
  exact congrFun (mulVec_congr e) i

/-! ### gates -/

theorem layer_eq (x z : Bits) : layer x z = sboxB x z := by
  funext i
  obtain ⟨k, hk⟩ : ∃ k, k = i / 3 := ⟨_, rfl⟩
  have h012 : i = 3 * k ∨ i = 3 * k + 1 ∨ i = 3 * k + 2 := by omega
  unfold layer
  rcases h012 with h | h | h
  · rw [h, sboxB_0, (ix3 k).1.2, if_neg (by omega), if_neg (by omega)]
  · rw [h, sboxB_1, (ix3 k).2.1.2, if_neg (by omega), if_pos rfl]
  · rw [h, sboxB_2, (ix3 k).2.2.2, if_pos rfl]; rfl

theorem layer_fresh {n : ℕ} (hn : n % 3 = 0) (x y w : Bits) :
    (∀ i < n, layer x w i = y i) ↔ ∀ i < n, w i = freshOf x y i := by
  rw [layer_eq]
  have h2 := fun a : ZMod 2 => zmod2_add_self a
  constructor
  · intro h i hi
    obtain ⟨k, hk⟩ : ∃ k, k = i / 3 := ⟨_, rfl⟩
    have h012 : i = 3 * k ∨ i = 3 * k + 1 ∨ i = 3 * k + 2 := by omega
    unfold freshOf
    rw [← hk]
    rcases h012 with e | e | e
    · have := h (3 * k) (by omega)
      rw [sboxB_0] at this
      rw [e, (ix3 k).1.2, if_pos rfl, ← this]
      linear_combination -(h2 (x (3 * k))) - h2 (x (3 * k + 1)) - h2 (x (3 * k + 2))
    · have := h (3 * k + 2) (by omega)
      rw [sboxB_2] at this
      rw [e, (ix3 k).2.1.2, if_neg (by omega), if_pos rfl, ← this]
      linear_combination - h2 (x (3 * k + 2))
    · have := h (3 * k + 1) (by omega)
      rw [sboxB_1] at this
      rw [e, (ix3 k).2.2.2, if_neg (by omega), if_neg (by omega), ← this]
      linear_combination - h2 (x (3 * k + 1)) - h2 (x (3 * k + 2))
  · intro h i hi
    obtain ⟨k, hk⟩ : ∃ k, k = i / 3 := ⟨_, rfl⟩
    have h012 : i = 3 * k ∨ i = 3 * k + 1 ∨ i = 3 * k + 2 := by omega
    rcases h012 with e | e | e
    · rw [e, sboxB_0, h (3 * k) (by omega), freshOf, (ix3 k).1.1, (ix3 k).1.2, if_pos rfl]
      linear_combination (h2 (x (3 * k))) + h2 (x (3 * k + 1)) + h2 (x (3 * k + 2))
    · rw [e, sboxB_1, h (3 * k + 2) (by omega), freshOf, (ix3 k).2.2.1, (ix3 k).2.2.2, if_neg (by omega), if_neg (by omega)]
      linear_combination h2 (x (3 * k + 1)) + h2 (x (3 * k + 2))
    · rw [e, sboxB_2, h (3 * k + 1) (by omega), freshOf, (ix3 k).2.1.1, (ix3 k).2.1.2, if_neg (by omega), if_pos rfl]
      linear_combination h2 (x (3 * k + 2))

/-- With the products as gate outputs, `layer` is the S-box layer of LowMC. -/
theorem layer_sbox (m : ℕ) (x : Bits) {i : ℕ} (hi : i < 3 * m) : layer x (fun i => x (in1 i) * x (in2 i)) i = sboxLayer m x i := by
  rw [layer_eq]
  unfold sboxLayer
  rw [if_pos hi]
  obtain ⟨k, hk⟩ : ∃ k, k = i / 3 := ⟨_, rfl⟩
  have h012 : i = 3 * k ∨ i = 3 * k + 1 ∨ i = 3 * k + 2 := by omega
  rw [← hk]
  dsimp only [sbox]
  rcases h012 with h | h | h
  · rw [h, sboxB_0, (ix3 k).1.2, if_neg (by omega), if_neg (by omega)]
    change _ + x (fstIx _) * x (sndIx _) = _
    rw [(fs_0 k).1, (fs_0 k).2]
  · rw [h, sboxB_1, (ix3 k).2.1.2, if_neg (by omega), if_pos rfl]
    change _ + x (fstIx _) * x (sndIx _) = _
    rw [(fs_2 k).1, (fs_2 k).2]; ring
  · rw [h, sboxB_2, (ix3 k).2.2.2, if_pos rfl]
    change _ + x (fstIx _) * x (sndIx _) = _
    rw [(fs_1 k).1, (fs_1 k).2]

/-! ### preprocessing -/

section
variable {salt : Buf} {t : ℕ} {v : Round} {tp : ℕ → Buf}

/-- The tapes of a repetition of the specification. -/
theorem tape3_eq (hP : ParamsWF P) (salt : Buf) (t j : ℕ) (v : Round) :
    (inst3 E P).tape salt t j v = bitsOf (p3Tape E P salt t j (v.seed j)) := by
  rw [Picnic3.Inst.tape, inst3_gate hP, inst3_hash, toBits_eq, p3Tape, int16_eq, int16_eq]

theorem share_mask {r i : ℕ} (htp : ∀ j < 16, (inst3 E P).tape salt t j v = bitsOf (tp j)) {j : ℕ} (hj : j < 16) (hi : i < P.stateSizeBits) :
    (inst3 E P).share salt t v j (2 * P.stateSizeBits * r + i) = bitsOf (tp j) (P.stateSizeBits * 2 * r + i) := by
  have hd := pos_div (n := P.stateSizeBits) (r := r) (q := i) (by omega)
  unfold Picnic3.Inst.share
  change (if j = 15 ∧ P.stateSizeBits ≤ (2 * P.stateSizeBits * r + i) % (2 * P.stateSizeBits) then _ else _) = _
  rw [Nat.mul_comm 2 P.stateSizeBits, hd.2, if_neg (by omega), htp j hj]

theorem share_gate {r i : ℕ} (htp : ∀ j < 16, (inst3 E P).tape salt t j v = bitsOf (tp j)) {j : ℕ} (hj : j < 16) (hi : i < P.stateSizeBits) :
    (inst3 E P).share salt t v j (2 * P.stateSizeBits * r + P.stateSizeBits + i) =
      if j = 15 then bitsOf v.aux (P.stateSizeBits * r + i) else bitsOf (tp j) (P.stateSizeBits * 2 * r + P.stateSizeBits + i) := by
  have hd := pos_div (n := P.stateSizeBits) (r := r) (q := P.stateSizeBits + i) (by omega)
  rw [← Nat.add_assoc] at hd
  unfold Picnic3.Inst.share
  change (if j = 15 ∧ P.stateSizeBits ≤ (2 * P.stateSizeBits * r + P.stateSizeBits + i) % (2 * P.stateSizeBits) then
    toBits v.aux (P.stateSizeBits * ((2 * P.stateSizeBits * r + P.stateSizeBits + i) / (2 * P.stateSizeBits)) +
      ((2 * P.stateSizeBits * r + P.stateSizeBits + i) % (2 * P.stateSizeBits) - P.stateSizeBits)) else _) = _
  rw [Nat.mul_comm 2 P.stateSizeBits, hd.1, hd.2, toBits_eq, Nat.add_sub_cancel_left, htp j hj]
  by_cases h : j = 15
  · rw [if_pos h, if_pos ⟨h, by omega⟩]
  · rw [if_neg h, if_neg (fun h2 => h h2.1)]

theorem mask_eq (htp : ∀ j < 16, (inst3 E P).tape salt t j v = bitsOf (tp j)) {r i : ℕ} (hi : i < P.stateSizeBits) :
    (inst3 E P).mask ((inst3 E P).share salt t v) r i = maskAt P tp r i := by
  unfold Picnic3.Inst.mask maskAt
  change (if r = P.numRounds then _ else _) = _
  split_ifs with h
  · rfl
  · change _ = tpar tp _
    unfold tpar
    exact sum_congr rfl fun j hj => share_mask htp (mem_range.1 hj) hi

theorem gateSum (htp : ∀ j < 16, (inst3 E P).tape salt t j v = bitsOf (tp j)) {r i : ℕ} (hi : i < P.stateSizeBits) :
    ∑ j ∈ range 16, (inst3 E P).share salt t v j (2 * P.stateSizeBits * r + P.stateSizeBits + i) =
      tpar15 tp (P.stateSizeBits * 2 * r + P.stateSizeBits + i) + bitsOf v.aux (P.stateSizeBits * r + i) := by
  have hs : ∀ j ∈ range 15, (inst3 E P).share salt t v j (2 * P.stateSizeBits * r + P.stateSizeBits + i) =
      bitsOf (tp j) (P.stateSizeBits * 2 * r + P.stateSizeBits + i) := fun j hj => by
    have hj := mem_range.1 hj
    rw [share_gate htp (by omega) hi, if_neg (by omega)]
  rw [sum_range_succ, share_gate htp (by omega) hi, if_pos rfl, sum_congr rfl hs, tpar15]

/-- The correction bits in terms of positions. -/
theorem auxOf_bit (h3 : P3WF P) {r i : ℕ} (hr : r < P.numRounds) (hi : i < P.stateSizeBits) (hl : (tp 15).length = 2 * P.andSizeBytes) :
    bitsOf (auxOf E P tp) (P.stateSizeBits * r + i) =
      auxBit (lam P tp r) (yOf P (E.lowmc P) tp r) i + tpar15 tp (P.stateSizeBits * 2 * r + P.stateSizeBits + i) := by
  have hrn : P.stateSizeBits * (r + 1) ≤ P.stateSizeBits * P.numRounds := Nat.mul_le_mul_left _ hr
  rw [Nat.mul_succ] at hrn
  have ht := h3.tape
  have hd := mul_div_mod (n := P.stateSizeBits) (r := r) hi
  have hq := pos_div (n := P.stateSizeBits) (r := r) (q := P.stateSizeBits + i) (by omega)
  have hrn2 : P.stateSizeBits * 2 * r + P.stateSizeBits + i = 2 * (P.stateSizeBits * r) + (P.stateSizeBits + i) := by ring
  have hrn3 : P.stateSizeBits * 2 * P.numRounds = 2 * (P.stateSizeBits * P.numRounds) := by ring
  rw [← Nat.add_assoc] at hq
  unfold auxOf
  rw [bitsOf_ofBits _ (by omega), auxBitsOf, if_pos (by omega), hd.1, hd.2,
    show P.stateSizeBits + P.stateSizeBits * 2 * r + i = P.stateSizeBits * 2 * r + P.stateSizeBits + i by ring, auxTp, if_pos rfl,
    bitsOf_ofBits _ (by omega), auxTape, if_pos (by rw [hq.2]; omega), hq.1, hq.2, Nat.add_sub_cancel_left]

theorem auxOf_pad {p : ℕ} (hp : P.stateSizeBits * P.numRounds ≤ p) : bitsOf (auxOf E P tp) p = 0 := by
  by_cases h : p < 8 * P.andSizeBytes
  · unfold auxOf
    rw [bitsOf_ofBits _ h, auxBitsOf, if_neg (by omega)]
  · exact bitsOf_ge (by rw [auxOf_length]; omega)

theorem gates_eq (h3 : P3WF P) : 3 * P.numSboxes * P.numRounds = P.stateSizeBits * P.numRounds := by rw [h3.full]

/-- Bytes with one bit for every gate. -/
theorem gate_ext (hP : ParamsWF P) (h3 : P3WF P) {a b : Buf} (ha : a.length = P.andSizeBytes) (hb : b.length = P.andSizeBytes)
    (hab : ∀ r < P.numRounds, ∀ i < P.stateSizeBits, bitsOf a (P.stateSizeBits * r + i) = bitsOf b (P.stateSizeBits * r + i))
    (pa : ∀ p, P.stateSizeBits * P.numRounds ≤ p → bitsOf a p = 0) (pb : ∀ p, P.stateSizeBits * P.numRounds ≤ p → bitsOf b p = 0) : a = b := by
  refine buf_ext (by omega) fun p _ => ?_
  by_cases hp : P.stateSizeBits * P.numRounds ≤ p
  · rw [pa p hp, pb p hp]
  · have hn : 0 < P.stateSizeBits := by
      rcases Nat.eq_zero_or_pos P.stateSizeBits with h | h
      · rw [h] at hp; omega
      · exact h
    have := hab (p / P.stateSizeBits) (Nat.div_lt_of_lt_mul (by omega)) (p % P.stateSizeBits) (Nat.mod_lt _ hn)
    rwa [Nat.div_add_mod] at this

theorem zeroPad_gate (hP : ParamsWF P) (h3 : P3WF P) {b : Buf} (hl : b.length = P.andSizeBytes) :
    ZeroPad (3 * (inst3 E P).X.m * (inst3 E P).X.r) b ↔ ∀ p, P.stateSizeBits * P.numRounds ≤ p → bitsOf b p = 0 := by
  rw [padZero_iff_gates (P := P) (by rw [hl, hP.andBytes]; rfl)]
  change (∀ p, 3 * P.numSboxes * P.numRounds ≤ p → _) ↔ _
  rw [gates_eq h3]

/-- Preprocessing is correct exactly with the correction bits that the library computes; they determine the mask of the key. -/
theorem prepared_iff (hP : ParamsWF P) (h3 : P3WF P) (hI : InvOK P (E.lowmc P)) (htp : ∀ j < 16, (inst3 E P).tape salt t j v = bitsOf (tp j))
    (hl : (tp 15).length = 2 * P.andSizeBytes) (κ : Bits) :
    (inst3 E P).Prepared salt t v κ ↔ v.aux = auxOf E P tp ∧ ∀ i < P.stateSizeBits, κ i = kap P (E.lowmc P) tp i := by
  have hn3 : P.stateSizeBits % 3 = 0 := by have := h3.full; omega
  have hR := hP.rounds
  have hrnd : ∀ r < P.numRounds, ∀ i < P.stateSizeBits, mulVec P.stateSizeBits (matBits P.stateSizeWords ((E.lowmc P).L r)) (yOf P (E.lowmc P) tp r) i =
      maskAt P tp (r + 1) i + mulVec P.stateSizeBits (matBits P.stateSizeWords ((E.lowmc P).K (r + 1))) (kap P (E.lowmc P) tp) i := by
    intro r hr i hi
    rw [yOf, mulVec_inv (hI.L r hr) _ hi, Pi.add_apply]
  have hmask0 : ∀ r < P.numRounds, ∀ i < P.stateSizeBits, (inst3 E P).mask ((inst3 E P).share salt t v) r i = lam P tp r i := by
    intro r hr i hi
    rw [mask_eq htp hi, maskAt, if_neg (by omega)]
  have hlay : ∀ r < P.numRounds, ∀ w : Bits, ∀ i < P.stateSizeBits,
      layer ((inst3 E P).mask ((inst3 E P).share salt t v) r) w i = layer (lam P tp r) w i := by
    intro r hr w i hi
    rw [layer_eq, layer_eq]
    exact sboxB_congr hn3 (hmask0 r hr) (fun _ _ => rfl) hi
  constructor
  · rintro ⟨h1, h2, w, hw⟩
    rw [inst3_gate hP] at h1
    have hk : ∀ i < P.stateSizeBits, κ i = kap P (E.lowmc P) tp i := fun i hi => mulVec_inj hI.K0 (fun i hi => by
      have e := hw.key i hi
      have e2 := mulVec_inv hI.K0 (lam P tp 0) hi
      rw [hmask0 0 hR i hi] at e
      rw [kap, e2]
      exact e) hi
    have hy : ∀ r < P.numRounds, ∀ i < P.stateSizeBits, layer (lam P tp r) (w r) i = yOf P (E.lowmc P) tp r i := fun r hr i hi =>
      mulVec_inj (hI.L r hr) (fun i hi => by
        rw [hrnd r hr i hi]
        have e := hw.round r hr i hi
        rw [mask_eq htp hi] at e
        have e1 : mulVec P.stateSizeBits (matBits P.stateSizeWords ((E.lowmc P).L r)) (layer ((inst3 E P).mask ((inst3 E P).share salt t v) r) (w r)) i =
          mulVec P.stateSizeBits (matBits P.stateSizeWords ((E.lowmc P).L r)) (layer (lam P tp r) (w r)) i := congrFun (mulVec_congr (hlay r hr _)) i
        have e2 : mulVec P.stateSizeBits (matBits P.stateSizeWords ((E.lowmc P).K (r + 1))) κ i =
          mulVec P.stateSizeBits (matBits P.stateSizeWords ((E.lowmc P).K (r + 1))) (kap P (E.lowmc P) tp) i := congrFun (mulVec_congr hk) i
        rw [← e2, ← e1, ← e]
        exact (by
          intro a b; linear_combination - zmod2_add_self b : ∀ a b : ZMod 2, a = a + b + b) _ _) hi
    refine ⟨gate_ext hP h3 h1 auxOf_length (fun r hr i hi => ?_) ((zeroPad_gate hP h3 h1).1 h2) (fun p hp => auxOf_pad hp), hk⟩
    have e := hw.gate r hr i hi
    change ∑ j ∈ range 16, (inst3 E P).share salt t v j (2 * P.stateSizeBits * r + P.stateSizeBits + i) = _ at e
    have hix := fst_lt hn3 hi
    rw [gateSum htp hi, show in1 i = fstIx i from rfl, show in2 i = sndIx i from rfl, hmask0 r hr _ hix.1, hmask0 r hr _ hix.2,
      (layer_fresh hn3 _ _ _).1 (hy r hr) i hi] at e
    rw [auxOf_bit h3 hr hi hl, auxBit, ← e]
    linear_combination - zmod2_add_self (tpar15 tp (P.stateSizeBits * 2 * r + P.stateSizeBits + i))
  · rintro ⟨h1, hk⟩
    refine ⟨by rw [h1, auxOf_length, inst3_gate hP], (zeroPad_gate hP h3 (by rw [h1, auxOf_length])).2 (fun p hp => by rw [h1]; exact auxOf_pad hp),
      fun r => freshOf (lam P tp r) (yOf P (E.lowmc P) tp r), ?_, ?_, ?_⟩
    · intro i hi
      rw [hmask0 0 hR i hi, ← mulVec_inv hI.K0 (lam P tp 0) hi]
      exact congrFun (mulVec_congr hk) i
    · intro r hr i hi
      have e1 : mulVec P.stateSizeBits (matBits P.stateSizeWords ((E.lowmc P).L r)) (layer ((inst3 E P).mask ((inst3 E P).share salt t v) r)
          (freshOf (lam P tp r) (yOf P (E.lowmc P) tp r))) i =
        mulVec P.stateSizeBits (matBits P.stateSizeWords ((E.lowmc P).L r)) (yOf P (E.lowmc P) tp r) i := congrFun (mulVec_congr fun i hi => by
          rw [hlay r hr _ i hi, (layer_fresh hn3 _ _ _).2 (fun _ _ => rfl) i hi]) i
      have e2 : mulVec P.stateSizeBits (matBits P.stateSizeWords ((E.lowmc P).K (r + 1))) κ i =
          mulVec P.stateSizeBits (matBits P.stateSizeWords ((E.lowmc P).K (r + 1))) (kap P (E.lowmc P) tp) i := congrFun (mulVec_congr hk) i
      change mulVec P.stateSizeBits (matBits P.stateSizeWords ((E.lowmc P).L r)) _ i + mulVec P.stateSizeBits (matBits P.stateSizeWords ((E.lowmc P).K (r + 1))) κ i = _
      rw [e1, e2, hrnd r hr i hi, mask_eq htp hi]
      linear_combination zmod2_add_self (mulVec P.stateSizeBits (matBits P.stateSizeWords ((E.lowmc P).K (r + 1))) (kap P (E.lowmc P) tp) i)
    · intro r hr i hi
      have hix := fst_lt hn3 hi
      change ∑ j ∈ range 16, (inst3 E P).share salt t v j (2 * P.stateSizeBits * r + P.stateSizeBits + i) = _
      rw [gateSum htp hi, show in1 i = fstIx i from rfl, show in2 i = sndIx i from rfl, hmask0 r hr _ hix.1, hmask0 r hr _ hix.2, h1,
        auxOf_bit h3 hr hi hl, auxBit]
      linear_combination zmod2_add_self (tpar15 tp (P.stateSizeBits * 2 * r + P.stateSizeBits + i))

end

/-! ### simulated computation -/

section
variable {pt : Buf} {v : Round} {sh tb mu : ℕ → Bits} {u : Option ℕ}

/-- The masked states, if the messages are those of the library. -/
theorem public_eq (hP : ParamsWF P) (h3 : P3WF P) {mk pt' : Bits} {R : ℕ} (hR : R ≤ P.numRounds)
    (hmk : ∀ i < P.stateSizeBits, bitsOf v.key i = mk i) (hpt : ∀ i < P.stateSizeBits, bitsOf pt i = pt' i)
    (hm : ∀ r < R, (∀ i < P.stateSizeBits, (inst3 E P).public (toBits pt) (toBits v.key) (fun j => toBits (v.msgs j)) r i = onState P (E.lowmc P) tb mu u mk pt' r i) →
      ∀ j < 16, ∀ i < P.stateSizeBits, bitsOf (v.msgs j) (P.stateSizeBits * r + i) = onShare P (E.lowmc P) tb mu u mk pt' r j i) :
    ∀ r ≤ R, ∀ i < P.stateSizeBits,
      (inst3 E P).public (toBits pt) (toBits v.key) (fun j => toBits (v.msgs j)) r i = onState P (E.lowmc P) tb mu u mk pt' r i := by
  have hn3 : P.stateSizeBits % 3 = 0 := by have := h3.full; omega
  intro r
  induction r with
  | zero =>
    intro _ i hi
    rw [Picnic3.Inst.public, onState, Pi.add_apply, Pi.add_apply, toBits_eq, hpt i hi, add_comm, toBits_eq]
    congr 1
    exact congrFun (mulVec_congr hmk) i
  | succ r ih =>
    intro hr i hi
    have ih := ih (by omega)
    have hmr := hm r (by omega) ih
    rw [Picnic3.Inst.public, onState]
    simp only [Pi.add_apply]
    refine congrArg₂ (· + ·) (congrArg₂ (· + ·) ?_ rfl) ?_
    · refine congrFun (mulVec_congr fun q hq => ?_) i
      rw [layer_eq]
      refine sboxB_congr hn3 ih (fun q hq => ?_) hq
      have hix := fst_lt hn3 hq
      rw [show in1 q = fstIx q from rfl, show in2 q = sndIx q from rfl, ih _ hix.1, ih _ hix.2, andB, add_comm]
      refine congrArg (· + _) (sum_congr rfl fun j hj => ?_)
      rw [toBits_eq]
      exact hmr j (mem_range.1 hj) q hq
    · rw [toBits_eq]
      exact congrFun (mulVec_congr hmk) i

theorem sends_bit {j : ℕ} (h3 : P3WF P) {mk pt' : Bits} {r i : ℕ} (hi : i < P.stateSizeBits) (hu : u ≠ some j)
    (hsh : ∀ r i, i < P.stateSizeBits → r < P.numRounds → sh j (2 * P.stateSizeBits * r + i) = tb j (P.stateSizeBits * 2 * r + i) ∧
      sh j (2 * P.stateSizeBits * r + P.stateSizeBits + i) = tb j (P.stateSizeBits * 2 * r + P.stateSizeBits + i)) (hr : r < P.numRounds)
    (hs : ∀ i < P.stateSizeBits, (inst3 E P).public (toBits pt) (toBits v.key) (fun j => toBits (v.msgs j)) r i = onState P (E.lowmc P) tb mu u mk pt' r i) :
    (let s := (inst3 E P).public (toBits pt) (toBits v.key) (fun j => toBits (v.msgs j)) r;
      s (in1 i) * sh j (2 * P.stateSizeBits * r + in2 i) + s (in2 i) * sh j (2 * P.stateSizeBits * r + in1 i) +
        sh j (2 * P.stateSizeBits * r + P.stateSizeBits + i)) = onShare P (E.lowmc P) tb mu u mk pt' r j i := by
  have hn3 : P.stateSizeBits % 3 = 0 := by have := h3.full; omega
  have hix := fst_lt hn3 hi
  dsimp only
  rw [show in1 i = fstIx i from rfl, show in2 i = sndIx i from rfl, hs _ hix.1, hs _ hix.2, (hsh r _ hix.1 hr).1, (hsh r _ hix.2 hr).1, (hsh r i hi hr).2,
    onShare, shareB, if_neg hu]

/-- The hypothesis on the shares. -/
def ShareOK (P : Params) (sh tb : ℕ → Bits) (u : Option ℕ) : Prop := ∀ j < 16, u ≠ some j → ∀ r i, i < P.stateSizeBits → r < P.numRounds →
  sh j (2 * P.stateSizeBits * r + i) = tb j (P.stateSizeBits * 2 * r + i) ∧
    sh j (2 * P.stateSizeBits * r + P.stateSizeBits + i) = tb j (P.stateSizeBits * 2 * r + P.stateSizeBits + i)

/-- Parties that follow the protocol send the messages that the library computes. -/
theorem sends_to (hP : ParamsWF P) (h3 : P3WF P) {mk pt' : Bits} (hsh : ShareOK P sh tb u)
    (hmk : ∀ i < P.stateSizeBits, bitsOf v.key i = mk i) (hpt : ∀ i < P.stateSizeBits, bitsOf pt i = pt' i)
    (hmu : ∀ j < 16, u ≠ some j → ∀ p, P.stateSizeBits * P.numRounds ≤ p → mu j p = 0)
    (h : ∀ j < 16, (u = some j → (v.msgs j).length = P.andSizeBytes ∧ bitsOf (v.msgs j) = mu j) ∧ (u ≠ some j → (inst3 E P).Sends pt sh v j)) :
    (∀ r ≤ P.numRounds, ∀ i < P.stateSizeBits,
      (inst3 E P).public (toBits pt) (toBits v.key) (fun j => toBits (v.msgs j)) r i = onState P (E.lowmc P) tb mu u mk pt' r i) ∧
    ∀ j < 16, v.msgs j = ofBits (onMsg P (E.lowmc P) tb mu u mk pt' j) P.andSizeBytes := by
  have hbit : ∀ r < P.numRounds, (∀ i < P.stateSizeBits, (inst3 E P).public (toBits pt) (toBits v.key) (fun j => toBits (v.msgs j)) r i = onState P (E.lowmc P) tb mu u mk pt' r i) →
      ∀ j < 16, ∀ i < P.stateSizeBits, bitsOf (v.msgs j) (P.stateSizeBits * r + i) = onShare P (E.lowmc P) tb mu u mk pt' r j i := by
    intro r hr hs j hj i hi
    by_cases hu : u = some j
    · rw [((h j hj).1 hu).2, onShare, shareB, if_pos hu]
    · have e := ((h j hj).2 hu).2.2 r hr i hi
      rw [← sends_bit h3 hi hu (hsh j hj hu) hr hs]
      dsimp only at e ⊢
      rw [← toBits_eq]
      exact e
  have hst := public_eq hP h3 le_rfl hmk hpt hbit
  refine ⟨hst, fun j hj => ?_⟩
  have hl : (v.msgs j).length = P.andSizeBytes := by
    by_cases hu : u = some j
    · exact ((h j hj).1 hu).1
    · rw [((h j hj).2 hu).1, inst3_gate hP]
  refine buf_ext (by rw [hl, ofBits_length]) fun p hp => ?_
  rw [hl] at hp
  rw [bitsOf_ofBits _ hp, onMsg]
  by_cases hpn : p < P.stateSizeBits * P.numRounds
  · have hn : 0 < P.stateSizeBits := by
      rcases Nat.eq_zero_or_pos P.stateSizeBits with h | h
      · rw [h] at hpn; omega
      · exact h
    have hr : p / P.stateSizeBits < P.numRounds := Nat.div_lt_of_lt_mul hpn
    have := hbit _ hr (hst _ hr.le) j hj (p % P.stateSizeBits) (Nat.mod_lt _ hn)
    rw [Nat.div_add_mod] at this
    rw [if_pos hpn, this]
  · rw [if_neg hpn]
    by_cases hu : u = some j
    · rw [((h j hj).1 hu).2]
    · rw [(zeroPad_gate hP h3 hl).1 ((h j hj).2 hu).2.1 p (by omega), hmu j hj hu p (by omega)]

/-- The messages that the library computes are those of parties that follow the protocol. -/
theorem sends_of (hP : ParamsWF P) (h3 : P3WF P) {mk pt' : Bits} (hsh : ShareOK P sh tb u)
    (hmk : ∀ i < P.stateSizeBits, bitsOf v.key i = mk i) (hpt : ∀ i < P.stateSizeBits, bitsOf pt i = pt' i)
    (hmu : ∀ j < 16, u ≠ some j → ∀ p, P.stateSizeBits * P.numRounds ≤ p → mu j p = 0)
    (h : ∀ j < 16, v.msgs j = ofBits (onMsg P (E.lowmc P) tb mu u mk pt' j) P.andSizeBytes) :
    (∀ r ≤ P.numRounds, ∀ i < P.stateSizeBits,
      (inst3 E P).public (toBits pt) (toBits v.key) (fun j => toBits (v.msgs j)) r i = onState P (E.lowmc P) tb mu u mk pt' r i) ∧
    ∀ j < 16, u ≠ some j → (inst3 E P).Sends pt sh v j := by
  have ht := h3.tape
  have hbit : ∀ r < P.numRounds, ∀ j < 16, ∀ i < P.stateSizeBits, bitsOf (v.msgs j) (P.stateSizeBits * r + i) = onShare P (E.lowmc P) tb mu u mk pt' r j i := by
    intro r hr j hj i hi
    have hrn : P.stateSizeBits * (r + 1) ≤ P.stateSizeBits * P.numRounds := Nat.mul_le_mul_left _ hr
    rw [Nat.mul_succ] at hrn
    have hd := mul_div_mod (n := P.stateSizeBits) (r := r) hi
    rw [h j hj, bitsOf_ofBits _ (by omega), onMsg, if_pos (by omega), hd.1, hd.2]
  have hst := public_eq hP h3 le_rfl hmk hpt fun r hr _ => hbit r hr
  refine ⟨hst, fun j hj hu => ?_⟩
  have hl : (v.msgs j).length = P.andSizeBytes := by rw [h j hj, ofBits_length]
  refine ⟨by rw [hl, inst3_gate hP], (zeroPad_gate hP h3 hl).2 fun p hp => ?_, fun r hr i hi => ?_⟩
  · by_cases hp2 : p < 8 * P.andSizeBytes
    · rw [h j hj, bitsOf_ofBits _ hp2, onMsg, if_neg (by omega), hmu j hj hu p hp]
    · exact bitsOf_ge (by omega)
  · have e := sends_bit (E := E) (pt := pt) (v := v) (mk := mk) (pt' := pt') h3 hi hu (hsh j hj hu) hr (hst r (by exact hr.le))
    dsimp only at e ⊢
    rw [toBits_eq (v.msgs j)]
    exact (hbit r hr j hj i hi).trans e.symm

/-- The result of the computation. -/
theorem result_eq (hP : ParamsWF P) {mk pt' : Bits}
    (h : ∀ i < P.stateSizeBits, (inst3 E P).public (toBits pt) (toBits v.key) (fun j => toBits (v.msgs j)) P.numRounds i =
      onState P (E.lowmc P) tb mu u mk pt' P.numRounds i) :
    (inst3 E P).result pt v = ofBits (onState P (E.lowmc P) tb mu u mk pt' P.numRounds) P.stateSizeBytes := by
  have hR := hP.rounds
  rw [Picnic3.Inst.result, inst3_blk hP, ofBits_eq]
  refine ofBits_congr fun i _ => ?_
  by_cases hi : i < P.stateSizeBits
  · exact h i hi
  · rw [onState_ge hR (by omega)]
    change (inst3 E P).public _ _ _ P.numRounds i = 0
    obtain ⟨r, hr⟩ : ∃ r, P.numRounds = r + 1 := ⟨P.numRounds - 1, by omega⟩
    rw [hr, Picnic3.Inst.public]
    simp only [Pi.add_apply]
    rw [mulVec_ge (by exact Nat.le_of_not_lt hi), mulVec_ge (by exact Nat.le_of_not_lt hi)]
    change 0 + trunc P.stateSizeBits _ i + 0 = 0
    rw [trunc, if_neg hi, add_zero, add_zero]

end

end

end Picnic
