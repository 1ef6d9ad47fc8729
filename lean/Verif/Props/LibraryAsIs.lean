import Verif.Proofs.LowMCTablesAll
import Verif.Props.Grain
import Verif.Props.Cycle

/-
C79: the library with its own Keccak permutation and with the LowMC constants of the specification in all parameter sets; no assumption is left but the
contents of uninitialised memory and the bound of the challenge search, which are arbitrary.
-/

namespace Picnic

open Spec Spec.Grain Tables

/-- The tables of a parameter set, by block size and number of rounds. -/
def specTables (n r : ℕ) : NatTables := if r = 4 then fullTables n else if r = 20 then t128 else if r = 30 then t192p else t256

/-- The library as it is: Keccak of the library, constants of the specification. -/
def libEnv (junk : ℕ → ℕ → ℕ → Byte) (fuel : ℕ) : Env where
  perm := keccakPerm
  lowmc P := toConsts P.stateSizeWords (specTables P.stateSizeBits P.numRounds)
  junk := junk
  fuel := fuel

/-- The parameter sets by block size, rounds, S-boxes. -/
theorem sizes_cases {p : ℕ} {P : Params} (hP : getParamSet p = some P) :
    (P.stateSizeBits = 129 ∧ P.numRounds = 4 ∧ P.numSboxes = 43) ∨ (P.stateSizeBits = 192 ∧ P.numRounds = 4 ∧ P.numSboxes = 64) ∨
    (P.stateSizeBits = 255 ∧ P.numRounds = 4 ∧ P.numSboxes = 85) ∨ (P.stateSizeBits = 128 ∧ P.numRounds = 20 ∧ P.numSboxes = 10) ∨
    (P.stateSizeBits = 192 ∧ P.numRounds = 30 ∧ P.numSboxes = 10) ∨ (P.stateSizeBits = 256 ∧ P.numRounds = 38 ∧ P.numSboxes = 10) := by
  obtain ⟨h1, h2⟩ := getParamSet_bounds hP
  interval_cases p <;> (injection hP with hP; subst hP; decide)

theorem specTables_n {p : ℕ} {P : Params} (hP : getParamSet p = some P) : (specTables P.stateSizeBits P.numRounds).n = P.stateSizeBits := by
  rcases sizes_cases hP with ⟨a, b, _⟩ | ⟨a, b, _⟩ | ⟨a, b, _⟩ | ⟨a, b, _⟩ | ⟨a, b, _⟩ | ⟨a, b, _⟩ <;> rw [a, b] <;> rfl

/-- The assumptions of all other theorems hold for the library as it is. -/
theorem C79_env (junk : ℕ → ℕ → ℕ → Byte) (fuel : ℕ) : EnvWF (libEnv junk fuel) ∧ InvWF (libEnv junk fuel) := by
  refine ⟨⟨exEnv_wf.perm, fun p P hP => toConsts_wf (paramsWF_of hP) (specTables_n hP)⟩, fun p hp P hP => toConsts_invLen (specTables_n hP), fun p hp P hP => ?_⟩
  have hr := rounds_p3 hp hP
  show InvOK P (toConsts P.stateSizeWords (specTables P.stateSizeBits P.numRounds))
  rw [specTables, if_pos hr]
  exact toConsts_inv (paramsWF_of hP) hr (fullTables_n hP hr) (fullTables_ok _)

/-- **C79.** The program of example.c, for each parameter set, with the library as it is: the keys are made, written, read, validated, the message is signed, the
signature is verified, and the program returns 0 – unless the search for a challenge inside signing does not end within the bound `fuel`. -/
theorem C79_life_cycle (junk : ℕ → ℕ → ℕ → Byte) (fuel : ℕ) (p n : ℕ) (rng : Rng) (hrng : RngLen rng) (J : CycleJunk) (hn : blockBits p = some n)
    (r0 r1 : Buf) (h0 : rng 0 (bytesFor n) = some r0) (h1 : rng 1 (bytesFor n) = some r1) (msg : Buf) (hm : msg.length + 200 ≤ 2 ^ 32) :
    (∃ sk, sk.params = p ∧ (∀ i, msbBit sk.data i = (decide (i < n) && msbBit r0 i)) ∧
      cycleSign (libEnv junk fuel) J p sk msg = Outcome.diverge ∧ picnicExample (libEnv junk fuel) rng J p msg = Outcome.diverge) ∨
    picnicExample (libEnv junk fuel) rng J p msg = Outcome.ok 0 :=
  C47_life_cycle (libEnv junk fuel) (C79_env junk fuel).1 p n (fun _ => (C79_env junk fuel).2) rng hrng J hn r0 r1 h0 h1 msg hm

/-- A signature that the library makes is accepted, ZKB++ parameter sets. -/
theorem C79_sign_verify_zkb (junk junk' : ℕ → ℕ → ℕ → Byte) (fuel : ℕ) (sk : PrivateKey) (hsk : sk.Arrays) (hp : sk.params ∈ zkbParams)
    (hpp : sk.pk.params = sk.params) (n : ℕ) (hn : blockBits sk.params = some n) (hpad : ZeroPad n sk.data) (msg : Buf) (hm : msg.length + 200 ≤ 2 ^ 32)
    (buf sig : Buf) (len : ℕ) (hs : picnicSign (libEnv junk fuel) (some sk) msg msg.length buf buf.length = Outcome.ok (0, sig, len))
    (hlen : len ≤ sig.length) : picnicVerify (libEnv junk' fuel) (some sk.pk) msg msg.length sig len = Outcome.ok 0 :=
  C01_sign_verify (libEnv junk fuel) (C79_env junk fuel).1 junk' fuel le_rfl sk hsk hp n hn hpad msg msg.length le_rfl hm buf buf.length le_rfl sig len hs
    sk.pk hsk.pk hpp rfl rfl sig rfl hlen

/-- A signature that the library makes is accepted, Picnic3. -/
theorem C79_sign_verify_p3 (junk junk' : ℕ → ℕ → ℕ → Byte) (fuel : ℕ) (sk : PrivateKey) (hsk : sk.Arrays) (hp : sk.params ∈ picnic3Params)
    (hpp : sk.pk.params = sk.params) (msg : Buf) (hm : msg.length + 200 ≤ 2 ^ 32) (buf sig : Buf) (len : ℕ)
    (hs : picnicSign (libEnv junk fuel) (some sk) msg msg.length buf buf.length = Outcome.ok (0, sig, len))
    (hlen : len ≤ sig.length) : picnicVerify (libEnv junk' fuel) (some sk.pk) msg msg.length sig len = Outcome.ok 0 := by
  obtain ⟨P, hP, _⟩ := getParamSet_p3 hp
  exact C02_sign_verify (libEnv junk fuel) (C79_env junk fuel).1 (C79_env junk fuel).2 junk' fuel le_rfl sk hsk hp P.stateSizeBits (blockBits_of hP) msg
    msg.length le_rfl hm buf buf.length le_rfl sig len hs sk.pk hsk.pk hpp rfl rfl sig rfl hlen

/-- LowMC with the constants of the specification is a permutation for each key, in every parameter set. -/
theorem C79_permutation (junk : ℕ → ℕ → ℕ → Byte) (fuel : ℕ) (p : ℕ) (P : Params) (hP : getParamSet p = some P) (key pt pt' : Bits)
    (heq : ∀ i < P.stateSizeBits, (lowmcOf P ((libEnv junk fuel).lowmc P)).enc key pt i = (lowmcOf P ((libEnv junk fuel).lowmc P)).enc key pt' i) :
    ∀ i < P.stateSizeBits, pt i = pt' i := by
  by_cases hr : P.numRounds = 4
  · have e : (libEnv junk fuel).lowmc P = (withTables (libEnv junk fuel)).lowmc P := by
      show toConsts _ (specTables _ _) = if P.numRounds = 4 then _ else _
      rw [if_pos hr, specTables, if_pos hr]
    rw [e] at heq
    exact C78_permutation (libEnv junk fuel) (C79_env junk fuel).1 p P hP hr key pt pt' heq
  · refine enc_injective (lowmcOf P ((libEnv junk fuel).lowmc P)) (paramsWF_of hP).sboxes (fun r hlt => ?_) key pt pt' heq
    have hlt : r < P.numRounds := hlt
    refine ⟨_, toConsts_leftAll (paramsWF_of hP) (specTables_n hP) ?_ r hlt⟩
    rcases sizes_cases hP with ⟨a, b, _⟩ | ⟨a, b, _⟩ | ⟨a, b, _⟩ | ⟨a, b, _⟩ | ⟨a, b, _⟩ | ⟨a, b, _⟩
    · exact absurd b hr
    · exact absurd b hr
    · exact absurd b hr
    · rw [a, b]; exact t128_left
    · rw [a, b]; exact t192p_left
    · rw [a, b]; exact t256_left

/-- The constants of every parameter set are those that the generator of the specification makes. -/
theorem C79_generated (junk : ℕ → ℕ → ℕ → Byte) (fuel : ℕ) (p : ℕ) (P : Params) (hP : getParamSet p = some P) (b g : ℕ → Bool) (hb : IsRegister b)
    (hg : IsKept b g) : Generated (lowmcOf P ((libEnv junk fuel).lowmc P)) g := by
  by_cases h4 : P.numRounds = 4
  · have e : (libEnv junk fuel).lowmc P = (withTables (libEnv junk fuel)).lowmc P := by
      show toConsts _ (specTables _ _) = if P.numRounds = 4 then _ else _
      rw [if_pos h4, specTables, if_pos h4]
    rw [e]
    exact C78_generated (libEnv junk fuel) p P hP h4 b g hb hg
  · obtain ⟨_, _, _, k1, k2, k3⟩ := chunks_spec hb hg
    have hn := specTables_n hP
    have hW := paramsWF_of hP
    have hr : P.numRounds = 20 ∨ P.numRounds = 30 ∨ P.numRounds = 38 := by
      rcases sizes_cases hP with ⟨_, b, _⟩ | ⟨_, b, _⟩ | ⟨_, b, _⟩ | ⟨_, b, _⟩ | ⟨_, b, _⟩ | ⟨_, b, _⟩ <;> omega
    show Generated (lowmcOf P (toConsts P.stateSizeWords (specTables P.stateSizeBits P.numRounds))) g
    rw [specTables, if_neg h4] at hn ⊢
    rcases hr with hr | hr | hr
    · rw [if_pos hr] at hn ⊢
      exact generated_of_facts hW hr hn k1.L k1.RC k1.K
    · rw [if_neg (by omega), if_pos hr] at hn ⊢
      exact generated_of_facts hW hr hn k2.L k2.RC k2.K
    · rw [if_neg (by omega), if_neg (by omega)] at hn ⊢
      exact generated_of_facts hW hr hn k3.L k3.RC k3.K

/-- The generator makes one instance only: every instance with the same sizes that it makes has the entries of the tables. -/
theorem C79_unique (junk : ℕ → ℕ → ℕ → Byte) (fuel : ℕ) (p : ℕ) (P : Params) (hP : getParamSet p = some P) (b g : ℕ → Bool) (hb : IsRegister b)
    (hg : IsKept b g) (X : LowMC) (hn : X.n = P.stateSizeBits) (hXr : X.r = P.numRounds) (hX : Generated X g) :
    (∀ t < X.r, ∀ i < X.n, ∀ j < X.n, X.L t i j = (lowmcOf P ((libEnv junk fuel).lowmc P)).L t i j) ∧
    (∀ t < X.r, ∀ i < X.n, X.RC t i = (lowmcOf P ((libEnv junk fuel).lowmc P)).RC t i) ∧
    ∀ t ≤ X.r, ∀ i < X.n, ∀ j < X.n, X.K t i j = (lowmcOf P ((libEnv junk fuel).lowmc P)).K t i j := by
  have hpos : 0 < X.r := by
    rcases sizes_cases hP with ⟨_, b, _⟩ | ⟨_, b, _⟩ | ⟨_, b, _⟩ | ⟨_, b, _⟩ | ⟨_, b, _⟩ | ⟨_, b, _⟩ <;> omega
  exact generated_unique hn.symm hXr.symm hpos hX (C79_generated junk fuel p P hP b g hb hg)

theorem next_inv {n : ℕ} {g : ℕ → Bool} {s q : ℕ} (h : Next n g s q) : ∃ B, IsInv n B (matAt n g q) := by
  induction h with
  | accept _ h => exact h
  | reject _ _ _ _ ih => exact ih

/-- Different secret keys have different round keys, in every round of every parameter set. -/
theorem C79_round_keys (junk : ℕ → ℕ → ℕ → Byte) (fuel : ℕ) (p : ℕ) (P : Params) (hP : getParamSet p = some P) (t : ℕ) (ht : t ≤ P.numRounds)
    (k k' : Bits) (h : ∀ i < P.stateSizeBits, mulVec P.stateSizeBits ((lowmcOf P ((libEnv junk fuel).lowmc P)).K t) k i =
      mulVec P.stateSizeBits ((lowmcOf P ((libEnv junk fuel).lowmc P)).K t) k' i) : ∀ i < P.stateSizeBits, k i = k' i := by
  obtain ⟨b, g, hb, hg⟩ := C78_sequences
  have hG := C79_generated junk fuel p P hP b g hb hg
  have en : (lowmcOf P ((libEnv junk fuel).lowmc P)).n = P.stateSizeBits := rfl
  have er : (lowmcOf P ((libEnv junk fuel).lowmc P)).r = P.numRounds := rfl
  revert h hG
  generalize lowmcOf P ((libEnv junk fuel).lowmc P) = X at en er ⊢
  rintro h ⟨_, pK, _, _, _, _, h4⟩
  obtain ⟨h5, h6⟩ := h4 t (by omega)
  obtain ⟨B, hB⟩ := next_inv h5
  rw [en] at hB h6
  have hI : IsInv P.stateSizeBits B (X.K t) := fun i hi k hk => by
    rw [← hB i hi k hk]
    exact Finset.sum_congr rfl fun j hj => by rw [h6 j (Finset.mem_range.1 hj) k hk]
  intro i hi
  have e : mulVec P.stateSizeBits (X.K t) k = mulVec P.stateSizeBits (X.K t) k' := by
    funext j
    by_cases hj : j < P.stateSizeBits
    · exact h j hj
    · rw [mulVec, mulVec, if_neg hj, if_neg hj]
  rw [← mulVec_inv hI k hi, ← mulVec_inv hI k' hi, e]

/-- The blocks of the known-answer tests, by block size and number of rounds. -/
def specKey (n r : ℕ) : Buf := if r = 4 then katKey n else if r = 20 then key128 else if r = 30 then key192p else key256

/-- See `specKey`. -/
def specPt (n r : ℕ) : Buf := if r = 4 then katPt n else if r = 20 then pt128 else if r = 30 then pt192p else pt256

/-- See `specKey`. -/
def specCt (n r : ℕ) : Buf := if r = 4 then katCt n else if r = 20 then ct128 else if r = 30 then ct192p else ct256

/-- The key pairs of the known-answer tests of the project are valid keys of the library as it is, in every parameter set. -/
theorem C79_kats (junk : ℕ → ℕ → ℕ → Byte) (fuel : ℕ) (p : ℕ) (P : Params) (hP : getParamSet p = some P) :
    Relation P ((libEnv junk fuel).lowmc P) (specKey P.stateSizeBits P.numRounds) (specPt P.stateSizeBits P.numRounds) (specCt P.stateSizeBits P.numRounds) := by
  by_cases hr : P.numRounds = 4
  · have e : (libEnv junk fuel).lowmc P = (withTables (libEnv junk fuel)).lowmc P := by
      show toConsts _ (specTables _ _) = if P.numRounds = 4 then _ else _
      rw [if_pos hr, specTables, if_pos hr]
    rw [e, specKey, specPt, specCt, if_pos hr, if_pos hr, if_pos hr]
    refine C78_kats (libEnv junk fuel) p P hP ?_
    by_contra hp
    obtain ⟨h1, h2⟩ := getParamSet_bounds hP
    have h2 : p < 7 := by omega
    interval_cases p <;> (injection hP with hP; subst hP; revert hr; decide)
  · refine relation_of_checkAll (paramsWF_of hP) (specTables_n hP) ?_
    rcases sizes_cases hP with ⟨a, b, _⟩ | ⟨a, b, _⟩ | ⟨a, b, _⟩ | ⟨a, b, c⟩ | ⟨a, b, c⟩ | ⟨a, b, c⟩
    · exact absurd b hr
    · exact absurd b hr
    · exact absurd b hr
    · rw [a, b, c]; exact t128_kat
    · rw [a, b, c]; exact t192p_kat
    · rw [a, b, c]; exact t256_kat

/-- A block at the beginning of an array of 32 bytes. -/
def fill32 (b : Buf) : Buf := b ++ zeros (32 - b.length)

theorem fill32_length {b : Buf} (h : b.length ≤ 32) : (fill32 b).length = 32 := by
  simp only [fill32, List.length_append, zeros_length]
  omega

theorem fill32_bits (b : Buf) (i : ℕ) : bitsOf (fill32 b) i = bitsOf b i := by
  have h : (fill32 b).getD (i / 8) 0 = b.getD (i / 8) 0 := by
    simp only [fill32, List.getD_eq_getElem?_getD, List.getElem?_append]
    split_ifs with h
    · rfl
    · rw [List.getElem?_eq_none (l := b) (by omega)]
      by_cases h2 : i / 8 - b.length < 32 - b.length
      · simp [zeros, List.getElem?_replicate, h2]
      · simp [zeros, List.getElem?_replicate, h2]
  rw [bitsOf, bitsOf, h]

/-- The key of the known-answer test, in the structures of the library (arrays of 32 bytes). -/
def katSk (p : ℕ) (P : Params) : PrivateKey where
  params := p
  data := fill32 (specKey P.stateSizeBits P.numRounds)
  pk := { params := p, plaintext := fill32 (specPt P.stateSizeBits P.numRounds), ciphertext := fill32 (specCt P.stateSizeBits P.numRounds) }

theorem kat_lengths {p : ℕ} {P : Params} (hP : getParamSet p = some P) :
    (specKey P.stateSizeBits P.numRounds).length ≤ 32 ∧ (specPt P.stateSizeBits P.numRounds).length ≤ 32 ∧
      (specCt P.stateSizeBits P.numRounds).length ≤ 32 ∧ ZeroPad P.stateSizeBits (fill32 (specKey P.stateSizeBits P.numRounds)) := by
  rcases sizes_cases hP with ⟨a, b, _⟩ | ⟨a, b, _⟩ | ⟨a, b, _⟩ | ⟨a, b, _⟩ | ⟨a, b, _⟩ | ⟨a, b, _⟩ <;> rw [a, b] <;>
    refine ⟨by decide, by decide, by decide, fun i h1 h2 => ?_⟩ <;> simp only [bytesFor] at h2
  · have h2 : i < 136 := h2
    interval_cases i <;> decide
  · omega
  · have h2 : i < 256 := h2
    interval_cases i; decide
  · omega
  · omega
  · omega

theorem katSk_arrays {p : ℕ} {P : Params} (hP : getParamSet p = some P) : (katSk p P).Arrays := by
  obtain ⟨h1, h2, h3, _⟩ := kat_lengths hP
  exact ⟨fill32_length h1, ⟨fill32_length h2, fill32_length h3⟩⟩

/-- A concrete case in every parameter set: the key of the known-answer test passes picnic_validate_keypair of the library as it is, and it meets the
hypotheses of `C79_sign_verify_zkb` and `C79_sign_verify_p3`. -/
theorem C79_example (junk : ℕ → ℕ → ℕ → Byte) (fuel : ℕ) (p : ℕ) (P : Params) (hP : getParamSet p = some P) :
    picnicValidateKeypair (libEnv junk fuel) (some (katSk p P)) (some (katSk p P).pk) = Outcome.ok 0 ∧ (katSk p P).Arrays ∧
      ZeroPad P.stateSizeBits (katSk p P).data := by
  refine ⟨?_, katSk_arrays hP, (kat_lengths hP).2.2.2⟩
  obtain ⟨r, e, _, hr⟩ := C08_validate (libEnv junk fuel) (C79_env junk fuel).1 (katSk p P) (katSk p P).pk (katSk_arrays hP) (katSk_arrays hP).pk
  have : r = 0 := hr.2 ⟨rfl, P, hP, (relation_congr (paramsWF_of hP) (fun i _ => fill32_bits _ i) (fun i _ => fill32_bits _ i)
    (fun i _ => fill32_bits _ i)).2 (C79_kats junk fuel p P hP)⟩
  rw [e, this]

end Picnic
