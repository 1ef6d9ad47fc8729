import Verif.Proofs.Fips
import Verif.Proofs.Params
import Verif.Props.Example

/-
Properties C23, C24, C25: hashing.
-/

namespace Picnic

open Spec Spec.Keccak

/-- C25: on every 200-byte state the permutation code of the library stays in bounds and computes Keccak-p[1600, 24] of
FIPS 202. -/
theorem C25_keccak (state : Buf) (hs : state.length = 200) :
    ∃ out, keccakPermute24 state = Outcome.ok out ∧ out.length = 200 ∧
      ∀ i < 1600, bitOf out i = keccakP24 (bitOf state) i :=
  ⟨_, keccakPerm_spec hs⟩

/-! ### C23 -/

/-- SHAKE128 for the parameter sets with 128/129-bit blocks, SHAKE256 for the others. -/
def shakeOf (n : ℕ) : List Bool → ℕ → List Bool := if n = 128 ∨ n = 129 then shake128 else shake256

theorem shakeOf_eq (P : Params) (m : Buf) (d : ℕ) :
    toBits (shake keccakPerm (rateOf P) m d) = shakeOf P.stateSizeBits (toBits m) (8 * d) := by
  rw [shake_spec _ (rateOf_ok P).pos (rateOf_ok P).le]
  unfold shakeOf rateOf
  split <;> rfl

/-- Squeeze several times; the outputs are concatenated. -/
def squeezeAll (E : Env) : List ℕ → HashInstance → M Buf
  | [], _ => pure []
  | d :: ds, inst => do
    let (inst, o) ← hashSqueeze E inst d
    let r ← squeezeAll E ds inst
    pure (o ++ r)

theorem squeezeAll_ok {E : Env} {rate : ℕ} {st0 : Buf} (hE : PermWF E) (hr : RateOK rate) (hs0 : st0.length = 200)
    (ds : List ℕ) (hd : ∀ d ∈ ds, d + 200 ≤ 2 ^ 32) (k : ℕ) (inst : HashInstance) (h : Squeezed E rate st0 k inst) :
    squeezeAll E ds inst = Outcome.ok ((List.range ds.sum).map fun j => streamByte E.perm rate st0 (k + j)) := by
  induction ds generalizing k inst with
  | nil => rfl
  | cons d ds ih =>
    obtain ⟨i', h1, h2⟩ := hashSqueeze_ok (len := d) hE hr hs0 h (hd d (by simp))
    simp only [squeezeAll, h1, ok_bind]
    rw [ih (fun x hx => hd x (by simp [hx])) _ _ h2, ok_bind, pure_eq_ok, List.sum_cons]
    congr 1
    rw [← range_map_append]
    congr 1
    exact List.map_congr_left fun j _ => by rw [Nat.add_assoc]

/-- C23: HashInit with any prefix byte, any number of HashUpdate calls with chunks of any size below the 32-bit limit,
HashFinal, and any number of HashSqueeze calls stay in bounds; the concatenated output is SHAKE128 (SHAKE256) of FIPS 202
of the concatenated input. -/
theorem C23_incremental (E : Env) (hE : E.perm = keccakPerm) (P : Params) (pfx : Byte) (chunks : List (Buf × ℕ))
    (hc : ∀ c ∈ chunks, c.2 ≤ c.1.length ∧ c.2 + 200 ≤ 2 ^ 32) (ds : List ℕ) (hd : ∀ d ∈ ds, d + 200 ≤ 2 ^ 32) :
    ∃ out, (do
        let ctx ← hashInit E P pfx
        let ctx ← chunks.foldlM (fun ctx c => hashUpdate E ctx c.1 c.2) ctx
        let ctx ← hashFinal E ctx
        squeezeAll E ds ctx) = Outcome.ok out ∧ out.length = ds.sum ∧
      toBits out = shakeOf P.stateSizeBits
        (toBits ((if pfx = 0xFF then [] else [pfx]) ++ (chunks.map fun c => c.1.take c.2).flatten)) (8 * ds.sum) := by
  have hE' : PermWF E := by intro s hs; rw [hE]; exact (keccakPerm_spec hs).2.1
  have hr := rateOf_ok P
  obtain ⟨i0, h0, h0'⟩ := hashInit_ok hE' P pfx
  obtain ⟨i1, h1, h1'⟩ := hashUpdates_ok hE' hr chunks _ i0 h0' hc
  obtain ⟨i2, h2, h2'⟩ := hashFinal_ok hE' hr h1'
  have h3 := squeezeAll_ok hE' hr (finalState_length hE' hr _) ds hd 0 i2 h2'
  refine ⟨_, by rw [h0, ok_bind, h1, ok_bind, h2, ok_bind, h3], by simp, ?_⟩
  rw [finalState_eq hE' hr]
  have e : (if pfx = 0xFF then [] else [pfx]) ++ (chunks.map fun c => c.1.take c.2).flatten =
      prefixBytes pfx ++ chunks.flatMap (fun p => p.1.take p.2) := by
    unfold prefixBytes HASH_PREFIX_NONE
    rw [List.flatMap_def]
    by_cases h : pfx = 0xFF
    · rw [if_pos h, if_neg (by simpa using h)]
    · rw [if_neg h, if_pos (by simpa using h)]
  rw [e, ← shakeOf_eq]
  simp only [shake, Nat.zero_add, hE]

/-- A non-trivial instance: three chunks (one empty), the second only partly used, and three outputs. -/
example : (∀ c ∈ [([1, 2, 3], 3), ([], 0), ([4, 5, 6, 7], 2)], (c : Buf × ℕ).2 ≤ c.1.length ∧
    c.2 + 200 ≤ 2 ^ 32) ∧ ∀ d ∈ [10, 0, 1000], d + 200 ≤ 2 ^ 32 := by decide

/-! ### C24 -/

theorem loop_ub {σ : Type} {f : ℕ → σ → M σ} {n m : ℕ} {s : σ} {u : UB} (h : loop f n s = Outcome.ub u) (hm : n ≤ m) :
    loop f m s = Outcome.ub u := by
  induction m, hm using Nat.le_induction with
  | base => exact h
  | succ m _ ih => rw [loop_succ, ih]; rfl

theorem addBytes_overflow {state data : Buf} {doff offset length : ℕ} (h1 : offset < 200) (hs : state.length = 200)
    (h2 : offset + length = 2 ^ 32) (hd : doff + length ≤ data.length) :
    addBytes state data doff offset length = Outcome.ub UB.oobRead := by
  unfold addBytes
  rw [assertM_true (by simpa using h1), ok_bind, assertM_true (by rw [h2]; decide), ok_bind]
  refine loop_ub (n := (200 - offset) + 1) ?_ (by omega)
  rw [loop_succ]
  obtain ⟨s, e, hl⟩ := loop_inv (fun _ (s : Buf) => s.length = 200) (f := fun i state => do
      let s ← rd state (offset + i)
      let d ← rd data (doff + i)
      wr state (offset + i) (s ^^^ d)) (n := 200 - offset) (s := state) hs (by
    intro i hi s hl
    rw [rd_ok (by omega), ok_bind, rd_ok (by omega), ok_bind, wr_ok (by omega)]
    exact ⟨_, rfl, by simpa using hl⟩)
  rw [e, ok_bind]
  have : ¬ offset + (200 - offset) < s.length := by omega
  simp only [rd]
  rw [List.getElem?_eq_none (by omega)]
  rfl

/-- Message lengths at which `HashUpdate` breaks, when `pos` bytes of the current block have been absorbed. -/
theorem hashUpdate_overflow {E : Env} {rate : ℕ} {m data : Buf} {inst : HashInstance} (h : Absorbed E rate m inst)
    (hr : RateOK rate) (hpos : 0 < inst.byteIOIndex) (hd : 2 ^ 32 - inst.byteIOIndex ≤ data.length) :
    hashUpdate E inst data (2 ^ 32 - inst.byteIOIndex) = Outcome.ub UB.oobRead := by
  have hp := h.pos
  have hr2 := hr.le
  unfold hashUpdate spongeAbsorb
  have e3 : inst.rate / 8 = rate := by rw [h.rateBits]; omega
  set len := 2 ^ 32 - inst.byteIOIndex with hlen
  have e1 : len * 8 % 2 ^ 64 = len * 8 := Nat.mod_eq_of_lt (by omega)
  have e2 : len * 8 / 8 = len := by omega
  simp only [e1, e2, h.notSq, e3, Bool.false_eq_true, if_false]
  rw [absorbLoop, if_pos (by omega), if_neg (by omega)]
  have e4 : (len - 0) % 2 ^ 32 = len := by rw [Nat.sub_zero]; exact Nat.mod_eq_of_lt (by omega)
  have e5 : (len + inst.byteIOIndex) % 2 ^ 32 = 0 := by
    rw [show len + inst.byteIOIndex = 2 ^ 32 by omega]; norm_num
  simp only [e4, e5]
  rw [if_neg (by omega), addBytes_overflow (by omega) h.len (by omega) (by omega)]
  rfl

theorem hashUpdate_diverge {E : Env} {rate : ℕ} {m data : Buf} {inst : HashInstance} (h : Absorbed E rate m inst)
    (hr : RateOK rate) (hpos : 0 < inst.byteIOIndex) :
    hashUpdate E inst data (2 ^ 32) = Outcome.diverge := by
  have hp := h.pos
  have hr2 := hr.le
  unfold hashUpdate spongeAbsorb
  have e3 : inst.rate / 8 = rate := by rw [h.rateBits]; omega
  simp only [show 2 ^ 32 * 8 % 2 ^ 64 / 8 = 2 ^ 32 by norm_num, h.notSq, e3, Bool.false_eq_true, if_false]
  have key : ∀ n, absorbLoop E data rate (2 ^ 32) n 0 inst = Outcome.diverge := by
    intro n
    induction n with
    | zero => rfl
    | succ n ih =>
      rw [absorbLoop, if_pos (by norm_num), if_neg (by omega)]
      simp only [show (2 ^ 32 - 0) % 2 ^ 32 = 0 by norm_num, Nat.zero_add]
      rw [Nat.mod_eq_of_lt (show inst.byteIOIndex < 2 ^ 32 by omega), if_neg (by omega)]
      have : addBytes inst.state data 0 inst.byteIOIndex 0 = Outcome.ok inst.state := by
        unfold addBytes
        rw [assertM_true (by simp; omega), ok_bind, assertM_true (by
          rw [Nat.add_zero, Nat.mod_eq_of_lt (by omega)]; simp; omega), ok_bind]
        rfl
      simp only [this, ok_bind, Nat.add_zero]
      rw [Nat.mod_eq_of_lt (show inst.byteIOIndex < 2 ^ 32 by omega), if_neg (by omega)]
      exact ih
  rw [key]
  rfl

theorem hashAll_message {E : Env} {P : Params} {a b : Buf × ℕ} {rest : List (Buf × ℕ)} {n : ℕ} (hE : PermWF E)
    (ha : a.2 ≤ a.1.length) (ha2 : a.2 < rateOf P) :
    ∃ inst, Absorbed E (rateOf P) (a.1.take a.2) inst ∧ inst.byteIOIndex = a.2 ∧
      hashAll E P HASH_PREFIX_NONE (a :: b :: rest) n = (do
        let ctx ← hashUpdate E inst b.1 b.2
        let ctx ← rest.foldlM (fun ctx (p : Buf × Nat) => hashUpdate E ctx p.1 p.2) ctx
        let ctx ← hashFinal E ctx
        let (_, out) ← hashSqueeze E ctx n
        pure out) := by
  obtain ⟨i0, h0, h0'⟩ := hashInit_ok hE P HASH_PREFIX_NONE
  obtain ⟨i1, h1, h1'⟩ := hashUpdate_ok (data := a.1) (len := a.2) hE (rateOf_ok P) h0' ha
    (by have := (rateOf_ok P).le; omega)
  have e : prefixBytes HASH_PREFIX_NONE = [] := rfl
  rw [e, List.nil_append] at h1'
  refine ⟨i1, h1', ?_, ?_⟩
  · have := h1'.st
    rw [foldl_absB_lt _ _ _ _ _ (by simp; omega)] at this
    have := congrArg Prod.snd this
    simpa [ha] using this.symm
  · unfold hashAll
    rw [h0, ok_bind]
    simp only [List.foldlM_cons, h1, ok_bind, bind_assoc]

/-- C24 is false for the code.  With every valid private key structure, signing any message of 2^32 - s bytes (s is
the byte length of a LowMC block) accesses memory outside of the hash state: the block arithmetic of the sponge is done in
32 bits (CVE-2022-37454). -/
theorem C24_sign_overflow_violated (E : Env) (hE : PermWF E) (sk : PrivateKey) (hsk : sk.Arrays) (n : ℕ)
    (hn : blockBits sk.params = some n) (message sig : Buf) (slen : ℕ) (hm : message.length = 2 ^ 32 - bytesFor n) :
    picnicSign E (some sk) message (2 ^ 32 - bytesFor n) sig slen = Outcome.ub UB.oobRead := by
  obtain ⟨P, hP, rfl⟩ := getParamSet_of hn
  have hWF := paramsWF_of hP
  have hb := hWF.bytes
  have hmax := hWF.nMax
  have hpos := hWF.nPos
  have := hsk.data
  have hbf : bytesFor P.stateSizeBits = P.stateSizeBytes := by rw [bytesFor, hb]
  rw [hbf] at hm ⊢
  have hrate : 136 ≤ rateOf P := by unfold rateOf; split <;> omega
  have key : ∀ rest k, hashAll E P HASH_PREFIX_NONE
      ((sk.data, P.stateSizeBytes) :: (message, 2 ^ 32 - P.stateSizeBytes) :: rest) k = Outcome.ub UB.oobRead := by
    intro rest k
    obtain ⟨inst, h1, h2, h3⟩ := hashAll_message (E := E) (P := P) (a := (sk.data, P.stateSizeBytes))
      (b := (message, 2 ^ 32 - P.stateSizeBytes)) (rest := rest) (n := k) hE (by simp; omega) (by simp; omega)
    simp only at h2
    rw [h3]
    simp only [← h2]
    rw [hashUpdate_overflow h1 (rateOf_ok P) (by omega) (by omega)]
    rfl
  simp only [picnicSign, deref, pure_eq_ok, ok_bind, hP]
  by_cases h3 : isPicnic3 sk.params = true
  · simp only [h3, Bool.not_true, Bool.false_eq_true, if_false, signPicnic3, computeSaltAndRootSeed]
    rw [key]
    rfl
  · simp only [h3, Bool.not_false, if_true, signPicnic1, computeSeeds]
    rw [key]
    rfl

/-- C24 is false for the code: signing any message of 2^32 bytes never returns. -/
theorem C24_sign_diverges_violated (E : Env) (hE : PermWF E) (sk : PrivateKey) (hsk : sk.Arrays) (n : ℕ)
    (hn : blockBits sk.params = some n) (message sig : Buf) (slen : ℕ) :
    picnicSign E (some sk) message (2 ^ 32) sig slen = Outcome.diverge := by
  obtain ⟨P, hP, rfl⟩ := getParamSet_of hn
  have hWF := paramsWF_of hP
  have hb := hWF.bytes
  have hmax := hWF.nMax
  have hpos := hWF.nPos
  have := hsk.data
  have hrate : 136 ≤ rateOf P := by unfold rateOf; split <;> omega
  have key : ∀ rest k, hashAll E P HASH_PREFIX_NONE
      ((sk.data, P.stateSizeBytes) :: (message, 2 ^ 32) :: rest) k = Outcome.diverge := by
    intro rest k
    obtain ⟨inst, h1, h2, h3⟩ := hashAll_message (E := E) (P := P) (a := (sk.data, P.stateSizeBytes))
      (b := (message, 2 ^ 32)) (rest := rest) (n := k) hE (by simp; omega) (by simp; omega)
    simp only at h2
    rw [h3]
    simp only
    rw [hashUpdate_diverge h1 (rateOf_ok P) (by omega)]
    rfl
  simp only [picnicSign, deref, pure_eq_ok, ok_bind, hP]
  by_cases h3 : isPicnic3 sk.params = true
  · simp only [h3, Bool.not_true, Bool.false_eq_true, if_false, signPicnic3, computeSaltAndRootSeed]
    rw [key]
    rfl
  · simp only [h3, Bool.not_false, if_true, signPicnic1, computeSeeds]
    rw [key]
    rfl

/-- A further consequence of the length arithmetic: an update with a length that is a multiple of 2^61 bytes is
ignored, so messages of such lengths are hashed like the empty message. -/
theorem C24_huge_update_ignored (E : Env) (inst : HashInstance) (data : Buf) (k : ℕ) (h : inst.squeezing = false) :
    hashUpdate E inst data (2 ^ 61 * k) = Outcome.ok inst := by
  unfold hashUpdate spongeAbsorb
  have : 2 ^ 61 * k * 8 % 2 ^ 64 / 8 = 0 := by
    rw [show 2 ^ 61 * k * 8 = 2 ^ 64 * k by ring, Nat.mul_mod_right]
  simp only [this, h]
  simp [absorbLoop, assertM]

/-- C24 (the part that holds): as long as the length is at most 2^32 - 200, HashUpdate terminates, stays in bounds and
reads exactly the given bytes.  Missing for the full property: larger lengths, for which it is false (see above). -/
theorem C24_update_partial (E : Env) (hE : PermWF E) (P : Params) (pfx : Byte) (chunks : List (Buf × ℕ))
    (hc : ∀ c ∈ chunks, c.2 ≤ c.1.length ∧ c.2 + 200 ≤ 2 ^ 32) :
    ∃ inst, (do
        let ctx ← hashInit E P pfx
        chunks.foldlM (fun ctx c => hashUpdate E ctx c.1 c.2) ctx) = Outcome.ok inst := by
  obtain ⟨i0, h0, h0'⟩ := hashInit_ok hE P pfx
  obtain ⟨i1, h1, -⟩ := hashUpdates_ok hE (rateOf_ok P) chunks _ i0 h0' hc
  exact ⟨i1, by rw [h0, ok_bind, h1]⟩

/-- The hypotheses of the negative results can be met. -/
example : ∃ sk : PrivateKey, sk.Arrays ∧ blockBits sk.params = some 128 ∧ PermWF exEnv :=
  ⟨{ PrivateKey.zero with params := 1 }, ⟨by simp [PrivateKey.zero, PICNIC_MAX_LOWMC_BLOCK_SIZE],
    by simp [PrivateKey.zero, PublicKey.zero, PICNIC_MAX_LOWMC_BLOCK_SIZE],
    by simp [PrivateKey.zero, PublicKey.zero, PICNIC_MAX_LOWMC_BLOCK_SIZE]⟩, rfl, exEnv_wf.perm⟩

end Picnic
