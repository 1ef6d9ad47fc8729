import Verif.Props.LibraryAsIs
import Verif.Props.Conform1
import Verif.Props.Conform3
import Verif.Props.Hash
import Verif.Proofs.SameInst
import Verif.Spec.Standard

/-
C80: the library as it is (its own Keccak, the LowMC constants of the specification) and the standardised schemes.  C37 and C38 compare the library with the
specification for any permutation and any constants, the same ones on both sides; here the instance of the specification is pinned down without the library:
its hash function is SHAKE of FIPS 202 and its LowMC is the one of the generator (Spec/Standard).
-/

namespace Picnic

open Spec Spec.Keccak Spec.Grain

theorem fips_bits_inj {a b : Buf} (h : toBits a = toBits b) : a = b := by
  have hl : a.length = b.length := by
    have := congrArg List.length h
    rw [toBits_length, toBits_length] at this
    omega
  refine List.ext_getElem hl fun i h1 h2 => BitVec.eq_of_getLsbD_eq fun k hk => ?_
  have e : bitOf a (8 * i + k) = bitOf b (8 * i + k) := by rw [← toBits_getD, ← toBits_getD, h]
  simp only [bitOf, show (8 * i + k) / 8 = i by omega, show (8 * i + k) % 8 = k by omega, List.getD_eq_getElem _ _ h1, List.getD_eq_getElem _ _ h2] at e
  exact e

/-- The standard leaves no choice (ZKB++): two instances have the same numbers, the same hash function and the same LowMC entries. -/
theorem C80_unique_zkb (p : ℕ) (I I' : Picnic1.Inst) (h : Standard1 p I) (h' : Standard1 p I') :
    (I.X.n = I'.X.n ∧ I.X.m = I'.X.m ∧ I.X.r = I'.X.r ∧ I.T = I'.T ∧ I.seed = I'.seed ∧ I.digest = I'.digest ∧ I.unruh = I'.unruh) ∧
    (∀ m n, I.hash m n = I'.hash m n) ∧
    (∀ t < I.X.r, ∀ i < I.X.n, ∀ j < I.X.n, I.X.L t i j = I'.X.L t i j) ∧ (∀ t < I.X.r, ∀ i < I.X.n, I.X.RC t i = I'.X.RC t i) ∧
    ∀ t ≤ I.X.r, ∀ i < I.X.n, ∀ j < I.X.n, I.X.K t i j = I'.X.K t i j := by
  have e := h.is.symm.trans h'.is
  simp only [Option.some.injEq, Prod.mk.injEq] at e
  obtain ⟨e1, e2, e3, e4, e5, e6, e7, e8⟩ := e
  have hpos : 0 < I.X.r := by
    have := h.is
    unfold Picnic1.Inst.Is Picnic1.table at this
    split at this <;> simp only [Option.some.injEq, Prod.mk.injEq, reduceCtorEq] at this <;> omega
  obtain ⟨b, g, hb, hg⟩ := C78_sequences
  refine ⟨⟨e1, e2, e3, e4, e5, e6, e8⟩, fun m n => fips_bits_inj ?_, generated_unique e1.symm e3.symm hpos (h.lowmc b g hb hg) (h'.lowmc b g hb hg)⟩
  rw [h.hash, h'.hash, e1]

/-- The standard leaves no choice (Picnic3). -/
theorem C80_unique_p3 (p : ℕ) (I I' : Picnic3.Inst) (h : Standard3 p I) (h' : Standard3 p I') :
    (I.X.n = I'.X.n ∧ I.X.m = I'.X.m ∧ I.X.r = I'.X.r ∧ I.T = I'.T ∧ I.u = I'.u ∧ I.seed = I'.seed ∧ I.digest = I'.digest) ∧
    (∀ m n, I.hash m n = I'.hash m n) ∧
    (∀ t < I.X.r, ∀ i < I.X.n, ∀ j < I.X.n, I.X.L t i j = I'.X.L t i j) ∧ (∀ t < I.X.r, ∀ i < I.X.n, I.X.RC t i = I'.X.RC t i) ∧
    ∀ t ≤ I.X.r, ∀ i < I.X.n, ∀ j < I.X.n, I.X.K t i j = I'.X.K t i j := by
  have e := h.is.symm.trans h'.is
  simp only [Option.some.injEq, Prod.mk.injEq] at e
  obtain ⟨e1, e2, e3, e4, e5, e6, e7, e8⟩ := e
  have hpos : 0 < I.X.r := by
    have := h.is
    unfold Picnic3.Inst.Is Picnic3.table at this
    split at this <;> simp only [Option.some.injEq, Prod.mk.injEq, reduceCtorEq] at this <;> omega
  obtain ⟨b, g, hb, hg⟩ := C78_sequences
  refine ⟨⟨e1, e2, e3, e4, e5, e6, e7⟩, fun m n => fips_bits_inj ?_, generated_unique e1.symm e3.symm hpos (h.lowmc b g hb hg) (h'.lowmc b g hb hg)⟩
  rw [h.hash, h'.hash, e1]

theorem standard1_lib {p : ℕ} (hp : p ∈ zkbParams) {P : Params} (hP : getParamSet p = some P) (junk : ℕ → ℕ → ℕ → Byte) (fuel : ℕ) :
    Standard1 p (instOf (libEnv junk fuel) P) :=
  ⟨instOf_is _ hp hP, fun m n => shakeOf_eq P m n, fun b g hb hg => C79_generated junk fuel p P hP b g hb hg, fun t _ i hi => if_neg (Nat.not_lt.2 hi)⟩

theorem standard3_lib {p : ℕ} (hp : p ∈ picnic3Params) {P : Params} (hP : getParamSet p = some P) (junk : ℕ → ℕ → ℕ → Byte) (fuel : ℕ) :
    Standard3 p (inst3 (libEnv junk fuel) P) :=
  ⟨inst3_is _ hp hP, fun m n => shakeOf_eq P m n, fun b g hb hg => C79_generated junk fuel p P hP b g hb hg, fun t _ i hi => if_neg (Nat.not_lt.2 hi)⟩

theorem mulVec_congr_entries {n : ℕ} {A B : ℕ → ℕ → ZMod 2} (h : ∀ i < n, ∀ j < n, A i j = B i j) : mulVec n A = mulVec n B := by
  funext v i
  unfold mulVec
  split_ifs with hi
  · exact Finset.sum_congr rfl fun j hj => by rw [h i hi j (Finset.mem_range.1 hj)]
  · rfl

theorem same_lowmc {X Y : LowMC} (n : X.n = Y.n) (m : X.m = Y.m) (r : X.r = Y.r) (hX : ∀ t < X.r, ∀ i ≥ X.n, X.RC t i = 0)
    (hY : ∀ t < Y.r, ∀ i ≥ Y.n, Y.RC t i = 0) (hL : ∀ t < X.r, ∀ i < X.n, ∀ j < X.n, X.L t i j = Y.L t i j)
    (hRC : ∀ t < X.r, ∀ i < X.n, X.RC t i = Y.RC t i) (hK : ∀ t ≤ X.r, ∀ i < X.n, ∀ j < X.n, X.K t i j = Y.K t i j) : X.Same Y where
  n := n.symm
  m := m.symm
  r := r.symm
  K t ht := (mulVec_congr_entries (hK t ht)).symm
  L t ht := (mulVec_congr_entries (hL t ht)).symm
  RC t ht := by
    funext i
    by_cases hi : i < X.n
    · exact (hRC t ht i hi).symm
    · rw [hX t ht i (by omega), hY t (by omega) i (by omega)]

theorem same1 {p : ℕ} {I J : Picnic1.Inst} (h : Standard1 p I) (h' : Standard1 p J) : I.Same J := by
  obtain ⟨⟨e1, e2, e3, e4, e5, e6, e7⟩, hh, hL, hRC, hK⟩ := C80_unique_zkb p I J h h'
  exact ⟨same_lowmc e1 e2 e3 h.pad h'.pad hL hRC hK, e4.symm, e5.symm, e6.symm, e7.symm, fun m n => (hh m n).symm⟩

theorem same3 {p : ℕ} {I J : Picnic3.Inst} (h : Standard3 p I) (h' : Standard3 p J) : I.Same J := by
  obtain ⟨⟨e1, e2, e3, e4, e5, e6, e7⟩, hh, hL, hRC, hK⟩ := C80_unique_p3 p I J h h'
  exact ⟨same_lowmc e1 e2 e3 h.pad h'.pad hL hRC hK, e4.symm, e5.symm, e6.symm, e7.symm, fun m n => (hh m n).symm⟩

/-- The instance of the standard exists, ZKB++. -/
theorem C80_exists_zkb (p : ℕ) (hp : p ∈ zkbParams) : ∃ I, Standard1 p I := by
  obtain ⟨P, hP, _⟩ := getParamSet_zkb hp
  exact ⟨_, standard1_lib hp hP (fun _ _ _ => 0) 0⟩

/-- The instance of the standard exists, Picnic3. -/
theorem C80_exists_p3 (p : ℕ) (hp : p ∈ picnic3Params) : ∃ I, Standard3 p I := by
  obtain ⟨P, hP, _⟩ := getParamSet_p3 hp
  exact ⟨_, standard3_lib hp hP (fun _ _ _ => 0) 0⟩

/-- **C80**, ZKB++.  For the instance of the standard and for every key, message and byte string: verification by the library
returns 0 only for strings that start with a valid signature and -1 only for others, it returns 0 for all of the former once the bound of the challenge search is large enough; what signing returns is the signature of the standard, and for a key that belongs to its public key the library returns
that signature once the bound is large enough. -/
theorem C80_zkb (p : ℕ) (hp : p ∈ zkbParams) (I : Picnic1.Inst) (hStd : Standard1 p I) :
    (∀ (pk : PublicKey), pk.Arrays → pk.params = p → ∀ (msg : Buf) (mlen : ℕ), mlen ≤ msg.length → mlen + 200 ≤ 2 ^ 32 → ∀ b : Buf,
      (∀ junk fuel, picnicVerify (libEnv junk fuel) (some pk) msg mlen b b.length = Outcome.ok 0 →
        ∃ n ≤ b.length, I.IsValid (pk.ciphertext.take I.blk) (pk.plaintext.take I.blk) (msg.take mlen) (b.take n)) ∧
      (∀ junk fuel, picnicVerify (libEnv junk fuel) (some pk) msg mlen b b.length = Outcome.ok (-1) →
        ∀ n ≤ b.length, ¬ I.IsValid (pk.ciphertext.take I.blk) (pk.plaintext.take I.blk) (msg.take mlen) (b.take n)) ∧
      ((∃ n ≤ b.length, I.IsValid (pk.ciphertext.take I.blk) (pk.plaintext.take I.blk) (msg.take mlen) (b.take n)) →
        ∃ n0, ∀ fuel ≥ n0, ∀ junk, picnicVerify (libEnv junk fuel) (some pk) msg mlen b b.length = Outcome.ok 0)) ∧
    ∀ (sk : PrivateKey), sk.Arrays → sk.params = p → ∀ (msg : Buf) (mlen : ℕ), mlen ≤ msg.length → mlen + 200 ≤ 2 ^ 32 →
      (∀ junk fuel (buf : Buf) (slen : ℕ), slen ≤ buf.length → ∀ (sig : Buf) (len : ℕ),
        picnicSign (libEnv junk fuel) (some sk) msg mlen buf slen = Outcome.ok (0, sig, len) →
        ∃ s, I.IsSignature (sk.data.take I.blk) (sk.pk.ciphertext.take I.blk) (sk.pk.plaintext.take I.blk) (msg.take mlen) s ∧
          sig = s ++ buf.drop s.length ∧ len = s.length) ∧
      ∀ s, (∀ i < 8 * I.blk, Picnic1.toBits sk.pk.ciphertext i =
          if i < I.X.n then I.X.enc (Picnic1.toBits sk.data) (Picnic1.toBits sk.pk.plaintext) i else 0) →
        I.IsSignature (sk.data.take I.blk) (sk.pk.ciphertext.take I.blk) (sk.pk.plaintext.take I.blk) (msg.take mlen) s →
        ∃ n0, ∀ fuel ≥ n0, ∀ junk (buf : Buf) (slen : ℕ), slen ≤ buf.length → picnicSignatureSize p ≤ slen →
          picnicSign (libEnv junk fuel) (some sk) msg mlen buf slen = Outcome.ok (0, s ++ buf.drop s.length, s.length) := by
  obtain ⟨P, hP, _⟩ := getParamSet_zkb hp
  have j0 : ℕ → ℕ → ℕ → Byte := fun _ _ _ => 0
  have hE := fun junk fuel => (C79_env junk fuel).1
  have S := same1 (standard1_lib hp hP j0 0) hStd
  have S' := same1 hStd (standard1_lib hp hP j0 0)
  have hblk : I.blk = (instOf (libEnv j0 0) P).blk := S.blk
  refine ⟨?_, ?_⟩
  · rintro pk hpk rfl msg mlen hm hm32 b
    rw [hblk]
    refine ⟨fun junk fuel hv => ?_, fun junk fuel hv n hn hc => ?_, ?_⟩
    · obtain ⟨n, hn, h⟩ := C37_verify_sound (libEnv junk fuel) (hE _ _) pk hpk hp P hP (instOf (libEnv j0 0) P) (instOf_is _ hp hP) rfl rfl msg mlen hm hm32 b hv
      exact ⟨n, hn, S.isValid h⟩
    · exact C37_verify_reject (libEnv junk fuel) (hE _ _) pk hpk hp P hP (instOf (libEnv j0 0) P) (instOf_is _ hp hP) rfl rfl msg mlen hm hm32 b hv n hn (S'.isValid hc)
    · rintro ⟨n, hn, hv⟩
      exact C37_verify_complete (libEnv j0 0) (hE _ _) pk hpk hp P hP (instOf (libEnv j0 0) P) (instOf_is _ hp hP) rfl rfl msg mlen hm hm32 b n hn (S'.isValid hv)
  · rintro sk hsk rfl msg mlen hm hm32
    rw [hblk]
    refine ⟨fun junk fuel buf slen hb sig len hs => ?_, fun s hR hs => ?_⟩
    · obtain ⟨s, h1, h2⟩ := C37_sign (libEnv junk fuel) (hE _ _) sk hsk hp P hP (instOf (libEnv j0 0) P) (instOf_is _ hp hP) rfl rfl msg mlen hm hm32 buf slen hb sig len hs
      exact ⟨s, S.isSignature h1, h2⟩
    · simp only [toBits_eq, S.X.n, S.X.enc] at hR
      exact C37_sign_complete (libEnv j0 0) (hE _ _) sk hsk hp P hP hR (instOf (libEnv j0 0) P) (instOf_is _ hp hP) rfl rfl msg mlen hm hm32 s (S'.isSignature hs)

/-- **C80**, Picnic3; see `C80_zkb`.  Here the accepted strings are exactly the valid signatures. -/
theorem C80_p3 (p : ℕ) (hp : p ∈ picnic3Params) (I : Picnic3.Inst) (hStd : Standard3 p I) :
    (∀ (pk : PublicKey), pk.Arrays → pk.params = p → ∀ (msg : Buf) (mlen : ℕ), mlen ≤ msg.length → mlen + 200 ≤ 2 ^ 32 → ∀ b : Buf,
      (∀ junk fuel, picnicVerify (libEnv junk fuel) (some pk) msg mlen b b.length = Outcome.ok 0 →
        I.IsValid (pk.ciphertext.take I.blk) (pk.plaintext.take I.blk) (msg.take mlen) b) ∧
      (∀ junk fuel, picnicVerify (libEnv junk fuel) (some pk) msg mlen b b.length = Outcome.ok (-1) →
        ¬ I.IsValid (pk.ciphertext.take I.blk) (pk.plaintext.take I.blk) (msg.take mlen) b) ∧
      (I.IsValid (pk.ciphertext.take I.blk) (pk.plaintext.take I.blk) (msg.take mlen) b →
        ∃ n0, ∀ fuel ≥ n0, ∀ junk, picnicVerify (libEnv junk fuel) (some pk) msg mlen b b.length = Outcome.ok 0)) ∧
    ∀ (sk : PrivateKey), sk.Arrays → sk.params = p → ∀ (msg : Buf) (mlen : ℕ), mlen ≤ msg.length → mlen + 200 ≤ 2 ^ 32 →
      (∀ junk fuel (buf : Buf) (slen : ℕ), slen ≤ buf.length → ∀ (sig : Buf) (len : ℕ),
        picnicSign (libEnv junk fuel) (some sk) msg mlen buf slen = Outcome.ok (0, sig, len) →
        ∃ s, I.IsSignature (sk.data.take I.blk) (sk.pk.ciphertext.take I.blk) (sk.pk.plaintext.take I.blk) (msg.take mlen) s ∧
          sig = s ++ buf.drop s.length ∧ len = s.length) ∧
      ∀ s, (∀ i < 8 * I.blk, Picnic1.toBits sk.pk.ciphertext i =
          if i < I.X.n then I.X.enc (Picnic1.toBits sk.data) (Picnic1.toBits sk.pk.plaintext) i else 0) →
        I.IsSignature (sk.data.take I.blk) (sk.pk.ciphertext.take I.blk) (sk.pk.plaintext.take I.blk) (msg.take mlen) s →
        ∃ n0, ∀ fuel ≥ n0, ∀ junk (buf : Buf) (slen : ℕ), slen ≤ buf.length → picnicSignatureSize p ≤ slen →
          picnicSign (libEnv junk fuel) (some sk) msg mlen buf slen = Outcome.ok (0, s ++ buf.drop s.length, s.length) := by
  obtain ⟨P, hP, _⟩ := getParamSet_p3 hp
  have j0 : ℕ → ℕ → ℕ → Byte := fun _ _ _ => 0
  have hE := fun junk fuel => (C79_env junk fuel).1
  have hI := fun junk fuel => (C79_env junk fuel).2
  have S := same3 (standard3_lib hp hP j0 0) hStd
  have S' := same3 hStd (standard3_lib hp hP j0 0)
  have hblk : I.blk = (inst3 (libEnv j0 0) P).blk := S.blk
  refine ⟨?_, ?_⟩
  · rintro pk hpk rfl msg mlen hm hm32 b
    rw [hblk]
    refine ⟨fun junk fuel hv => ?_, fun junk fuel hv hc => ?_, fun hv => ?_⟩
    · exact S.isValid (C38_verify_sound (libEnv junk fuel) (hE _ _) (hI _ _) pk hpk hp P hP (inst3 (libEnv j0 0) P) (inst3_is _ hp hP) (fun _ _ => rfl) rfl msg mlen hm hm32 b hv)
    · exact C38_verify_reject (libEnv junk fuel) (hE _ _) (hI _ _) pk hpk hp P hP (inst3 (libEnv j0 0) P) (inst3_is _ hp hP) (fun _ _ => rfl) rfl msg mlen hm hm32 b hv (S'.isValid hc)
    · exact C38_verify_complete (libEnv j0 0) (hE _ _) (hI _ _) pk hpk hp P hP (inst3 (libEnv j0 0) P) (inst3_is _ hp hP) (fun _ _ => rfl) rfl msg mlen hm hm32 b (S'.isValid hv)
  · rintro sk hsk rfl msg mlen hm hm32
    rw [hblk]
    refine ⟨fun junk fuel buf slen hb sig len hs => ?_, fun s hR hs => ?_⟩
    · obtain ⟨s, h1, h2⟩ := C38_sign (libEnv junk fuel) (hE _ _) (hI _ _) sk hsk hp P hP (inst3 (libEnv j0 0) P) (inst3_is _ hp hP) (fun _ _ => rfl) rfl msg mlen hm hm32 buf slen hb sig len hs
      exact ⟨s, S.isSignature h1, h2⟩
    · simp only [toBits_eq, S.X.n, S.X.enc] at hR
      exact C38_sign_complete (libEnv j0 0) (hE _ _) (hI _ _) sk hsk hp P hP hR (inst3 (libEnv j0 0) P) (inst3_is _ hp hP) (fun _ _ => rfl) rfl msg mlen hm hm32 s (S'.isSignature hs)

/-- A concrete case (ZKB++): the key of the known-answer test is a key of the standard, with the bits of the public key as the standard computes them; the last condition of
`C80_zkb` on keys is met. -/
theorem C80_example_zkb (p : ℕ) (hp : p ∈ zkbParams) (P : Params) (hP : getParamSet p = some P) (I : Picnic1.Inst) (hStd : Standard1 p I) :
    (katSk p P).Arrays ∧ (katSk p P).params = p ∧ ∀ i < 8 * I.blk, Picnic1.toBits (katSk p P).pk.ciphertext i =
      if i < I.X.n then I.X.enc (Picnic1.toBits (katSk p P).data) (Picnic1.toBits (katSk p P).pk.plaintext) i else 0 := by
  have S := same1 (standard1_lib hp hP (fun _ _ _ => 0) 0) hStd
  refine ⟨katSk_arrays hP, rfl, ?_⟩
  simp only [toBits_eq, S.blk, S.X.n, S.X.enc]
  exact (relation_congr (paramsWF_of hP) (fun i _ => fill32_bits _ i) (fun i _ => fill32_bits _ i) (fun i _ => fill32_bits _ i)).2
    (C79_kats (fun _ _ _ => 0) 0 p P hP)

/-- A concrete case (Picnic3), see `C80_example_zkb`. -/
theorem C80_example_p3 (p : ℕ) (hp : p ∈ picnic3Params) (P : Params) (hP : getParamSet p = some P) (I : Picnic3.Inst) (hStd : Standard3 p I) :
    (katSk p P).Arrays ∧ (katSk p P).params = p ∧ ∀ i < 8 * I.blk, Picnic1.toBits (katSk p P).pk.ciphertext i =
      if i < I.X.n then I.X.enc (Picnic1.toBits (katSk p P).data) (Picnic1.toBits (katSk p P).pk.plaintext) i else 0 := by
  have S := same3 (standard3_lib hp hP (fun _ _ _ => 0) 0) hStd
  refine ⟨katSk_arrays hP, rfl, ?_⟩
  simp only [toBits_eq, S.blk, S.X.n, S.X.enc]
  exact (relation_congr (paramsWF_of hP) (fun i _ => fill32_bits _ i) (fun i _ => fill32_bits _ i) (fun i _ => fill32_bits _ i)).2
    (C79_kats (fun _ _ _ => 0) 0 p P hP)

theorem lowmcSizes_of {p : ℕ} {P : Params} (hP : getParamSet p = some P) : lowmcSizes p = some (P.stateSizeBits, P.numSboxes, P.numRounds) := by
  obtain ⟨h1, h2⟩ := getParamSet_bounds hP
  interval_cases p <;> (injection hP with hP; subst hP; rfl)

theorem paramSet_of_sizes {p : ℕ} {x : ℕ × ℕ × ℕ} (h : lowmcSizes p = some x) : ∃ P, getParamSet p = some P := by
  by_cases hp : p < 13
  · interval_cases p <;> first
      | exact ⟨_, rfl⟩
      | exact absurd h (by simp [lowmcSizes, Picnic1.table, Picnic3.table])
  · obtain ⟨k, rfl⟩ : ∃ k, p = k + 13 := ⟨p - 13, by omega⟩
    exact absurd h (by simp [lowmcSizes, Picnic1.table, Picnic3.table])

theorem same_lib {p : ℕ} {P : Params} (hP : getParamSet p = some P) (junk : ℕ → ℕ → ℕ → Byte) (fuel : ℕ) {X : LowMC} (hX : StandardLowMC p X) :
    (lowmcOf P ((libEnv junk fuel).lowmc P)).Same X := by
  have e := (lowmcSizes_of hP).symm.trans hX.sizes
  simp only [Option.some.injEq, Prod.mk.injEq] at e
  obtain ⟨e1, e2, e3⟩ := e
  obtain ⟨b, g, hb, hg⟩ := C78_sequences
  obtain ⟨k1, k2, k3⟩ := C79_unique junk fuel p P hP b g hb hg X e1.symm e3.symm (hX.made b g hb hg)
  have en : (lowmcOf P ((libEnv junk fuel).lowmc P)).n = P.stateSizeBits := rfl
  have er : (lowmcOf P ((libEnv junk fuel).lowmc P)).r = P.numRounds := rfl
  refine same_lowmc e1 e2 e3 (fun t _ i hi => if_neg (Nat.not_lt.2 hi)) hX.pad ?_ ?_ ?_
  · intro t ht i hi j hj
    exact (k1 t (by omega) i (by omega) j (by omega)).symm
  · intro t ht i hi
    exact (k2 t (by omega) i (by omega)).symm
  · intro t ht i hi j hj
    exact (k3 t (by omega) i (by omega) j (by omega)).symm

/-- **C80**, keys.  Key generation by the library, with random bytes `r0` and `r1`: the secret key has the bits of `r0`, the plaintext of the public key those of `r1`, and the
ciphertext is the LowMC encryption of the standard, all of them continued with zeros. -/
theorem C80_keygen (p : ℕ) (X : LowMC) (hX : StandardLowMC p X) (junk : ℕ → ℕ → ℕ → Byte) (fuel : ℕ) (rng : Rng) (hrng : RngLen rng)
    (hn : blockBits p = some X.n) (pk0 : PublicKey) (sk0 : PrivateKey) (r0 r1 : Buf) (h0 : rng 0 (bytesFor X.n) = some r0)
    (h1 : rng 1 (bytesFor X.n) = some r1) :
    ∃ pk sk, picnicKeygen (libEnv junk fuel) rng p (some pk0) (some sk0) = Outcome.ok (0, some pk, some sk) ∧ pk.params = p ∧ sk.params = p ∧ sk.pk = pk ∧
      Picnic1.toBits sk.data = trunc X.n (Picnic1.toBits r0) ∧ Picnic1.toBits pk.plaintext = trunc X.n (Picnic1.toBits r1) ∧
      Picnic1.toBits pk.ciphertext = trunc X.n (X.enc (Picnic1.toBits r0) (Picnic1.toBits r1)) := by
  obtain ⟨pk, sk, k1, k2, k3, k4, _, _, k5, k6, ⟨P, hP, eP, k7⟩, _⟩ :=
    C07_keygen (libEnv junk fuel) (C79_env junk fuel).1 rng hrng p X.n hn pk0 sk0 r0 r1 h0 h1
  have S := same_lib hP junk fuel hX
  refine ⟨pk, sk, k1, k2, k3, k4, ?_, ?_, ?_⟩ <;> simp only [toBits_eq, S.enc] <;> funext i
  · exact k5 i
  · exact k6 i
  · exact k7 i

/-- **C80**, validation of keys: it returns 0 exactly if the ciphertext of the public key is the LowMC encryption of the standard, followed by zeros up to the end of
the last byte. -/
theorem C80_validate (p : ℕ) (X : LowMC) (hX : StandardLowMC p X) (junk : ℕ → ℕ → ℕ → Byte) (fuel : ℕ) (sk : PrivateKey) (pk : PublicKey) (hsk : sk.Arrays)
    (hpk : pk.Arrays) (hs : sk.params = p) (hp : pk.params = p) :
    ∃ r, picnicValidateKeypair (libEnv junk fuel) (some sk) (some pk) = Outcome.ok r ∧ (r = 0 ∨ r = -1) ∧
      (r = 0 ↔ ∀ i < 8 * bytesFor X.n, Picnic1.toBits pk.ciphertext i = trunc X.n (X.enc (Picnic1.toBits sk.data) (Picnic1.toBits pk.plaintext)) i) := by
  obtain ⟨r, h1, h2, h3⟩ := C08_validate (libEnv junk fuel) (C79_env junk fuel).1 sk pk hsk hpk
  refine ⟨r, h1, h2, h3.trans ?_⟩
  subst hp
  obtain ⟨P, hP⟩ := paramSet_of_sizes hX.sizes
  have S := same_lib hP junk fuel hX
  have en : X.n = P.stateSizeBits := S.n
  simp only [toBits_eq, S.enc]
  rw [en]
  constructor
  · rintro ⟨_, P', hP', hR⟩
    rw [hP] at hP'
    injection hP' with e
    subst e
    exact hR
  · exact fun hR => ⟨hs, P, hP, hR⟩

/-- A concrete case for the theorems about keys: the LowMC instance of the standard exists in each parameter set. -/
theorem C80_exists_lowmc (p n : ℕ) (hn : blockBits p = some n) : ∃ X, StandardLowMC p X ∧ X.n = n := by
  obtain ⟨P, hP, e⟩ := getParamSet_of hn
  exact ⟨lowmcOf P ((libEnv (fun _ _ _ => 0) 0).lowmc P), ⟨lowmcSizes_of hP, fun b g hb hg => C79_generated _ _ p P hP b g hb hg,
    fun t _ i hi => if_neg (Nat.not_lt.2 hi)⟩, e⟩

end Picnic
