import Verif.Model.Bits32
import Verif.Proofs.ZkbApi
import Mathlib.Tactic.IntervalCases

/-
Lemmas for C77.
-/

namespace Picnic.Bits32

/-- `HashUpdate` looks at the length modulo 2^29. -/
theorem hashUpdate_eq (E : Env) (ctx : HashInstance) (data : Buf) (n : ℕ) :
    hashUpdate E ctx data n = Picnic.hashUpdate E ctx data (n % 2 ^ 29) := by
  have h1 : n * 8 % 2 ^ 32 / 8 = n % 2 ^ 29 := by omega
  have h2 : n % 2 ^ 29 * 8 % 2 ^ 64 / 8 = n % 2 ^ 29 := by omega
  simp only [hashUpdate, Picnic.hashUpdate, h1, h2]

theorem hashUpdate_small (E : Env) (ctx : HashInstance) (data : Buf) {n : ℕ} (h : n < 2 ^ 29) :
    hashUpdate E ctx data n = Picnic.hashUpdate E ctx data n := by
  rw [hashUpdate_eq, Nat.mod_eq_of_lt h]

theorem hashSqueeze_small (E : Env) (ctx : HashInstance) {n : ℕ} (h : n < 2 ^ 29) :
    hashSqueeze E ctx n = Picnic.hashSqueeze E ctx n := by
  unfold hashSqueeze Picnic.hashSqueeze
  rw [show n * 8 % 2 ^ 32 / 8 = n by omega, show n * 8 % 2 ^ 64 / 8 = n by omega]

theorem hashInit_eq (E : Env) (P : Params) (p : Byte) : hashInit E P p = Picnic.hashInit E P p := by
  unfold hashInit Picnic.hashInit
  simp only [hashUpdate_small E _ _ (show 1 < 2 ^ 29 by norm_num)]

theorem updates_eq (E : Env) (parts : List (Buf × ℕ)) (ctx : HashInstance) :
    parts.foldlM (fun ctx (p : Buf × ℕ) => hashUpdate E ctx p.1 p.2) ctx =
      (parts.map fun p => (p.1, p.2 % 2 ^ 29)).foldlM (fun ctx (p : Buf × ℕ) => Picnic.hashUpdate E ctx p.1 p.2) ctx := by
  rw [List.foldlM_map]
  simp only [hashUpdate_eq]

theorem hashAll_eq (E : Env) (P : Params) (p : Byte) (parts : List (Buf × ℕ)) {n : ℕ} (h : n < 2 ^ 29) :
    hashAll E P p parts n = Picnic.hashAll E P p (parts.map fun p => (p.1, p.2 % 2 ^ 29)) n := by
  unfold hashAll Picnic.hashAll
  simp only [hashInit_eq, updates_eq, hashSqueeze_small E _ h]

theorem triples_eq (E : Env) (ctx : HashInstance) (xs : List (List Buf)) (T : ℕ) (len : ℕ → ℕ) (h : ∀ j, len j < 2 ^ 29) :
    hashUpdateTriples E ctx xs T len = Picnic.hashUpdateTriples E ctx xs T len := by
  unfold hashUpdateTriples Picnic.hashUpdateTriples
  simp only [hashUpdate_small E _ _ (h _)]

/-- The lengths hashed, other than that of the message. -/
structure Small (P : Params) : Prop where
  bytes : P.stateSizeBytes < 2 ^ 29
  dig : P.digestSizeBytes < 2 ^ 29
  salt : P.saltSizeBytes < 2 ^ 29
  g1 : P.unruhGWithInputBytes < 2 ^ 29
  g2 : P.unruhGWithoutInputBytes < 2 ^ 29
  slab : P.seedSizeBytes * (P.numMPCParties * P.numMPCRounds) + P.saltSizeBytes < 2 ^ 29
  root : P.saltSizeBytes + P.seedSizeBytes < 2 ^ 29

theorem small_of {p : ℕ} {P : Params} (hP : getParamSet p = some P) : Small P := by
  obtain ⟨h1, h2⟩ := getParamSet_bounds hP
  interval_cases p <;> (injection hP with hP; subst hP; constructor <;> decide)

section
variable {P : Params} (E : Env) (hS : Small P)
include hS

theorem H3_eq (circuitOutput plaintext : Buf) (viewOutputs as : List (List Buf)) (cb salt msg : Buf) (n : ℕ) (gs : Option (List (List Buf))) :
    H3 E P circuitOutput plaintext viewOutputs as cb salt msg n gs =
      Picnic.H3 E P circuitOutput plaintext viewOutputs as cb salt msg (n % 2 ^ 29) gs := by
  have hg : ∀ j, (fun j => if j = 2 then P.unruhGWithInputBytes else P.unruhGWithoutInputBytes) j < 2 ^ 29 := by
    intro j; dsimp only; split
    · exact hS.g1
    · exact hS.g2
  unfold H3 Picnic.H3
  simp only [hashInit_eq, triples_eq E _ _ _ _ (fun _ => hS.bytes), triples_eq E _ _ _ _ (fun _ => hS.dig), triples_eq E _ _ _ _ hg,
    hashUpdate_small E _ _ hS.bytes, hashUpdate_small E _ _ hS.salt, hashUpdate_eq E _ msg, hashSqueeze_small E _ hS.dig]

theorem verify_eq (sig : Signature) (pubKey plaintext msg : Buf) (n : ℕ) :
    verify E P sig pubKey plaintext msg n = Picnic.verify E P sig pubKey plaintext msg (n % 2 ^ 29) := by
  unfold verify Picnic.verify
  simp only [H3_eq E hS]

theorem parts_eq (a b c msg : Buf) (n : ℕ) :
    ([(a, P.stateSizeBytes), (msg, n), (b, P.stateSizeBytes), (c, P.stateSizeBytes), intLE P.stateSizeBits].map fun p => (p.1, p.2 % 2 ^ 29)) =
      [(a, P.stateSizeBytes), (msg, n % 2 ^ 29), (b, P.stateSizeBytes), (c, P.stateSizeBytes), intLE P.stateSizeBits] := by
  simp only [List.map, Nat.mod_eq_of_lt hS.bytes, intLE, Nat.mod_eq_of_lt (show 2 < 2 ^ 29 by norm_num)]

theorem computeSeeds_eq (key pubKey plaintext msg : Buf) (n : ℕ) :
    computeSeeds E P key pubKey plaintext msg n = Picnic.computeSeeds E P key pubKey plaintext msg (n % 2 ^ 29) := by
  unfold computeSeeds Picnic.computeSeeds
  simp only [hashAll_eq E P _ _ hS.slab, parts_eq hS]

theorem signPicnic1_eq (key pubKey plaintext msg : Buf) (n : ℕ) (sig : Signature) :
    signPicnic1 E P key pubKey plaintext msg n sig = Picnic.signPicnic1 E P key pubKey plaintext msg (n % 2 ^ 29) sig := by
  unfold signPicnic1 Picnic.signPicnic1
  simp only [computeSeeds_eq E hS, H3_eq E hS]
  rfl

theorem HCPhash_eq (d : Buf) (Ch : List Buf) (hCv salt pubKey plaintext msg : Buf) (n : ℕ) :
    HCPhash E P d Ch hCv salt pubKey plaintext msg n = Picnic.HCPhash E P d Ch hCv salt pubKey plaintext msg (n % 2 ^ 29) := by
  unfold HCPhash Picnic.HCPhash
  simp only [hashInit_eq, hashUpdate_small E _ _ hS.dig, hashUpdate_small E _ _ hS.bytes, hashUpdate_small E _ _ hS.salt, hashUpdate_eq E _ msg,
    hashSqueeze_small E _ hS.dig]

theorem verifyPicnic3_eq (sig : Signature2) (pubKey plaintext msg : Buf) (n : ℕ) :
    verifyPicnic3 E P sig pubKey plaintext msg n = Picnic.verifyPicnic3 E P sig pubKey plaintext msg (n % 2 ^ 29) := by
  unfold verifyPicnic3 Picnic.verifyPicnic3
  simp only [HCPhash_eq E hS]
  rfl

theorem saltAndRoot_eq (d key pubKey plaintext msg : Buf) (n : ℕ) :
    computeSaltAndRootSeed E P d (P.saltSizeBytes + P.seedSizeBytes) key pubKey plaintext msg n =
      Picnic.computeSaltAndRootSeed E P d (P.saltSizeBytes + P.seedSizeBytes) key pubKey plaintext msg (n % 2 ^ 29) := by
  unfold computeSaltAndRootSeed Picnic.computeSaltAndRootSeed
  simp only [hashAll_eq E P _ _ hS.root, parts_eq hS]

theorem signPicnic3_eq (key pubKey plaintext msg : Buf) (n : ℕ) (sig : Signature2) :
    signPicnic3 E P key pubKey plaintext msg n sig = Picnic.signPicnic3 E P key pubKey plaintext msg (n % 2 ^ 29) sig := by
  unfold signPicnic3 Picnic.signPicnic3
  simp only [saltAndRoot_eq E hS, HCPhash_eq E hS]
  rfl

end

theorem picnicSign_eq (E : Env) (sk : Option PrivateKey) (msg : Buf) (n : ℕ) (sig : Buf) (slen : ℕ) :
    picnicSign E sk msg n sig slen = Picnic.picnicSign E sk msg (n % 2 ^ 29) sig slen := by
  unfold picnicSign Picnic.picnicSign
  refine congrArg _ (funext fun sk => ?_)
  cases h : getParamSet sk.params with
  | none => rfl
  | some P => simp only [signPicnic1_eq E (small_of h), signPicnic3_eq E (small_of h)]; rfl

theorem picnicVerify_eq (E : Env) (pk : Option PublicKey) (msg : Buf) (n : ℕ) (sig : Buf) (slen : ℕ) :
    picnicVerify E pk msg n sig slen = Picnic.picnicVerify E pk msg (n % 2 ^ 29) sig slen := by
  unfold picnicVerify Picnic.picnicVerify
  refine congrArg _ (funext fun pk => ?_)
  cases h : getParamSet pk.params with
  | none => rfl
  | some P => simp only [verify_eq E (small_of h), verifyPicnic3_eq E (small_of h)]; rfl

end Picnic.Bits32
