import Verif.Proofs.Cross
import Verif.Props.Conform3

/-
C40: the randomness of signatures under different parameter sets.
-/

namespace Picnic

open Spec Spec.Picnic1 Finset

/-- Violation of C40 for the two transforms: if a key signs the same message with the Fiat-Shamir and with the Unruh parameter
set of a level, then any repetition in which the challenges differ yields the secret key. -/
theorem C40_unruh_violated (E : Env) (hE : EnvWF E) (sk sk' : PrivateKey) (hsk : sk.Arrays) (hsk' : sk'.Arrays)
    (hp : (sk.params, sk'.params) ∈ [(1, 2), (3, 4), (5, 6)]) (hdat : sk'.data = sk.data) (hpt : sk'.pk.plaintext = sk.pk.plaintext)
    (hct : sk'.pk.ciphertext = sk.pk.ciphertext) (P P' : Params) (hP : getParamSet sk.params = some P) (hP' : getParamSet sk'.params = some P')
    (I I' : Inst) (hI : I.Is sk.params) (hI' : I'.Is sk'.params) (hf : I.f = E.perm) (hf' : I'.f = E.perm)
    (hX : I.X = lowmcOf P (E.lowmc P)) (hX' : I'.X = lowmcOf P' (E.lowmc P')) (msg : Buf) (mlen : ℕ) (hm : mlen ≤ msg.length)
    (hm32 : mlen + 200 ≤ 2 ^ 32) (buf buf' : Buf) (slen slen' : ℕ) (hbuf : slen ≤ buf.length) (hbuf' : slen' ≤ buf'.length) (sig sig' : Buf) (len len' : ℕ)
    (hs : picnicSign E (some sk) msg mlen buf slen = Outcome.ok (0, sig, len))
    (hs' : picnicSign E (some sk') msg mlen buf' slen' = Outcome.ok (0, sig', len')) :
    ∃ (e e' : List ℕ) (salt : Buf) (o o' : ℕ → Opening), sig.take len = I.encode e salt o ∧ sig'.take len' = I'.encode e' salt o' ∧
      salt.length = 32 ∧ (∀ t < I.T, I.Fits (e.getD t 0) (o t)) ∧ (∀ t < I'.T, I'.Fits (e'.getD t 0) (o' t)) ∧
      ∀ t < I.T, e.getD t 0 ≠ e'.getD t 0 → I.recover salt t (e.getD t 0) (o t) (e'.getD t 0) (o' t) = sk.data.take I.blk := by
  have hpz : sk.params ∈ zkbParams ∧ sk'.params ∈ zkbParams := by
    revert hp
    generalize sk.params = p
    generalize sk'.params = p'
    intro hp
    simp only [List.mem_cons, Prod.mk.injEq, List.not_mem_nil, or_false] at hp
    rcases hp with ⟨rfl, rfl⟩ | ⟨rfl, rfl⟩ | ⟨rfl, rfl⟩ <;> decide
  obtain ⟨hn, hmm, hr, hT, hsd, hdg, hrt⟩ : I.X.n = I'.X.n ∧ I.X.m = I'.X.m ∧ I.X.r = I'.X.r ∧ I.T = I'.T ∧ I.seed = I'.seed ∧
      I.digest = I'.digest ∧ I.rate = I'.rate := by
    revert hp hI hI'
    generalize sk.params = p
    generalize sk'.params = p'
    intro hp
    simp only [List.mem_cons, Prod.mk.injEq, List.not_mem_nil, or_false] at hp
    rcases hp with ⟨rfl, rfl⟩ | ⟨rfl, rfl⟩ | ⟨rfl, rfl⟩ <;>
    · intro hI hI'
      simp only [Inst.Is, table, Option.some.injEq, Prod.mk.injEq] at hI hI'
      refine ⟨?_, ?_, ?_, ?_, ?_, ?_, ?_⟩ <;> omega
  have hb : I.blk = I'.blk := by rw [Inst.blk, Inst.blk, hn]
  have hkl : (sk.data.take I.blk).length = I.blk := by
    have h1 := (match1_of hP hI hf hX).blk
    have h2 := (paramsWF_of hP).bytes
    have h3 := (paramsWF_of hP).nMax
    have h4 := hsk.data
    rw [List.length_take]
    omega
  obtain ⟨s, ⟨v, e, hv, hc, rfl⟩, rfl, rfl⟩ := C37_sign E hE sk hsk hpz.1 P hP I hI hf hX msg mlen hm hm32 buf slen hbuf sig len hs
  obtain ⟨s', ⟨v', e', hv', hc', he'⟩, h', rfl⟩ := C37_sign E hE sk' hsk' hpz.2 P' hP' I' hI' hf' hX' msg mlen hm hm32 buf' slen' hbuf' sig' len' hs'
  have hsec : I'.secrets (sk.data.take I.blk) (sk.pk.ciphertext.take I.blk) (sk.pk.plaintext.take I.blk) (msg.take mlen) =
      I.secrets (sk.data.take I.blk) (sk.pk.ciphertext.take I.blk) (sk.pk.plaintext.take I.blk) (msg.take mlen) := by
    rw [Inst.secrets, Inst.secrets, Inst.hash, Inst.hash, hf, hf', hn, hT, hsd, hrt]
  have hsalt : ∀ s, I'.saltOf s = I.saltOf s := fun s => by rw [Inst.saltOf, Inst.saltOf, hT, hsd]
  rw [hdat, hpt, hct, ← hb, hsec, hsalt] at hc'
  rw [hdat, hpt, hct, ← hb, hsec, hsalt] at he'
  rw [hdat, hpt, hct, ← hb, hsec, hsalt] at hv'
  rw [h']
  have hsl := hash1_length I (sk.data.take I.blk ++ msg.take mlen ++ sk.pk.ciphertext.take I.blk ++ sk.pk.plaintext.take I.blk ++ int16 I.X.n) (3 * I.T * I.seed + 32)
  rw [← Inst.secrets] at hsl
  generalize I.secrets _ _ _ _ = s at hv hc hv' hc' he' hsl ⊢
  refine ⟨e, e', I.saltOf s, _, _, List.take_left' rfl, (List.take_left' rfl).trans he', ?_, fun t ht => openViews_fits (challenge_lt hc) hsl ht (hv t ht),
    fun t ht => openViews_fits (challenge_lt hc') (by rw [hsl, hT, hsd]) ht (hv' t ht), fun t ht hne => ?_⟩
  · rw [Inst.saltOf, List.length_drop, hsl]
    omega
  · have r := hv t ht
    have r' := hv' t (by omega)
    have h1 : e.getD t 0 < 3 := challenge_lt hc
    have h2 : e'.getD t 0 < 3 := challenge_lt hc'
    have hks := keyShare_congr hn hmm hr hdg hrt (hf.trans hf'.symm)
    have hkeys : ∀ j < 3, (v' t j).key = (v t j).key := by
      have hseed : ∀ j < 3, (v' t j).seed = (v t j).seed := fun j hj => by
        rw [r.seed j hj, r'.seed j hj, Inst.seedOf, Inst.seedOf, hsd]
      have e0 : (v' t 0).key = (v t 0).key := by rw [r'.key0, r.key0, hseed 0 (by omega), hks]
      have e1 : (v' t 1).key = (v t 1).key := by rw [r'.key1, r.key1, hseed 1 (by omega), hks]
      intro j hj
      interval_cases j
      · exact e0
      · exact e1
      · rw [r'.key2, r.key2, e0, e1, hb]
    have hsh : ∀ j < 3, (if opens (e.getD t 0) j then I.shareOf (I.saltOf s) t (e.getD t 0) (I.openViews (e.getD t 0) (v t)) j
        else I.shareOf (I.saltOf s) t (e'.getD t 0) (I'.openViews (e'.getD t 0) (v' t)) j) = (v t j).key := fun j hj => by
      split_ifs with ho
      · exact shareOf_openViews h1 r hj ho
      · have ho' : opens (e'.getD t 0) j := by
          revert ho hne h1 h2 hj
          generalize e.getD t 0 = a
          generalize e'.getD t 0 = b
          intro hne h1 h2 hj ho
          unfold opens at *
          omega
        rw [← hkeys j hj, ← shareOf_openViews h2 r' hj ho', Inst.shareOf, Inst.shareOf, hks]
    rw [Inst.recover, ← run_sum hkl r, sum_range_succ, sum_range_succ, sum_range_one, hsh 0 (by omega), hsh 1 (by omega), hsh 2 (by omega)]

/-- Violation of C40 for Picnic3: if a key signs the same message with a Picnic3 parameter set and with the "full" parameter set
of the same level, then the salt of the Picnic3 signature contains the seed of the first party of repetition 0 of the other
signature; if that signature has challenge 1 in repetition 0, the two signatures yield the secret key. -/
theorem C40_full_violated (E : Env) (hE : EnvWF E) (hInv : InvWF E) (sk sk' : PrivateKey) (hsk : sk.Arrays) (hsk' : sk'.Arrays)
    (hp : (sk.params, sk'.params) ∈ [(7, 10), (8, 11), (9, 12)]) (hdat : sk'.data = sk.data) (hpt : sk'.pk.plaintext = sk.pk.plaintext)
    (hct : sk'.pk.ciphertext = sk.pk.ciphertext) (P P' : Params) (hP : getParamSet sk.params = some P) (hP' : getParamSet sk'.params = some P')
    (I : Picnic3.Inst) (I' : Inst) (hI : I.Is sk.params) (hI' : I'.Is sk'.params) (hf : I.Shake E.perm) (hf' : I'.f = E.perm)
    (hX : I.X = lowmcOf P (E.lowmc P)) (hX' : I'.X = lowmcOf P' (E.lowmc P')) (msg : Buf) (mlen : ℕ) (hm : mlen ≤ msg.length)
    (hm32 : mlen + 200 ≤ 2 ^ 32) (buf buf' : Buf) (slen slen' : ℕ) (hbuf : slen ≤ buf.length) (hbuf' : slen' ≤ buf'.length) (sig sig' : Buf) (len len' : ℕ)
    (hs : picnicSign E (some sk) msg mlen buf slen = Outcome.ok (0, sig, len))
    (hs' : picnicSign E (some sk') msg mlen buf' slen' = Outcome.ok (0, sig', len')) :
    ∃ (d salt3 rest : Buf) (e : List ℕ) (salt : Buf) (o : ℕ → Opening), sig.take len = d ++ salt3 ++ rest ∧ d.length = I.digest ∧
      salt3.length = 32 ∧ sig'.take len' = I'.encode e salt o ∧ salt.length = 32 ∧ (∀ t < I'.T, I'.Fits (e.getD t 0) (o t)) ∧
      (∃ x, I'.Challenge (I'.hash x I'.digest) e) ∧
      (e.getD 0 0 = 0 → (o 0).seed0 = salt3.take I'.seed) ∧
      (e.getD 0 0 = 1 → I'.recover3 salt (o 0) salt3 = sk.data.take I'.blk) := by
  have hpz : sk.params ∈ picnic3Params ∧ sk'.params ∈ zkbParams := by
    revert hp
    generalize sk.params = p
    generalize sk'.params = p'
    intro hp
    simp only [List.mem_cons, Prod.mk.injEq, List.not_mem_nil, or_false] at hp
    rcases hp with ⟨rfl, rfl⟩ | ⟨rfl, rfl⟩ | ⟨rfl, rfl⟩ <;> decide
  obtain ⟨hn, hrt, hs32, hTp⟩ : I.X.n = I'.X.n ∧ I.rate = I'.rate ∧ I'.seed ≤ 32 ∧ 0 < I'.T := by
    revert hp hI hI'
    generalize sk.params = p
    generalize sk'.params = p'
    intro hp
    simp only [List.mem_cons, Prod.mk.injEq, List.not_mem_nil, or_false] at hp
    rcases hp with ⟨rfl, rfl⟩ | ⟨rfl, rfl⟩ | ⟨rfl, rfl⟩ <;>
    · intro hI hI'
      simp only [Inst.Is, table, Picnic3.Inst.Is, Picnic3.table, Option.some.injEq, Prod.mk.injEq] at hI hI'
      refine ⟨?_, ?_, ?_, ?_⟩ <;> omega
  have hb : I.blk = I'.blk := by rw [Inst.blk, Picnic3.Inst.blk, hn]
  have hkl : (sk.data.take I'.blk).length = I'.blk := by
    have h1 := (match1_of hP' hI' hf' hX').blk
    have h2 := (paramsWF_of hP').bytes
    have h3 := (paramsWF_of hP').nMax
    have h4 := hsk.data
    rw [List.length_take]
    omega
  obtain ⟨s3, ⟨ss, h, v3, κ, C, Q, -, -, -, -, he3⟩, h3, rfl⟩ := C38_sign E hE hInv sk hsk hpz.1 P hP I hI hf hX msg mlen hm hm32 buf slen hbuf sig len hs
  obtain ⟨s', ⟨v, e, hv, hc, he'⟩, h', rfl⟩ := C37_sign E hE sk' hsk' hpz.2 P' hP' I' hI' hf' hX' msg mlen hm hm32 buf' slen' hbuf' sig' len' hs'
  rw [hdat, hpt, hct] at hc
  rw [hdat, hpt, hct] at he'
  rw [hdat, hpt, hct] at hv
  obtain ⟨m, hmd⟩ : ∃ m, m = sk.data.take I'.blk ++ msg.take mlen ++ sk.pk.ciphertext.take I'.blk ++ sk.pk.plaintext.take I'.blk ++ int16 I'.X.n := ⟨_, rfl⟩
  have hsl := hash1_length I' m (3 * I'.T * I'.seed + 32)
  have hpre : ((I.secrets (sk.data.take I.blk) (sk.pk.ciphertext.take I.blk) (sk.pk.plaintext.take I.blk) (msg.take mlen)).take 32).take I'.seed =
      I'.seedOf (I'.hash m (3 * I'.T * I'.seed + 32)) 0 0 := by
    rw [Picnic3.Inst.secrets, hb, hn, ← hmd, hf, hrt, List.take_take, Nat.min_eq_left hs32, ← shake_prefix (by omega), Inst.seedOf, Inst.hash, hf',
      Nat.zero_mul, List.drop_zero, ← shake_prefix]
    have : 1 * I'.seed ≤ 3 * I'.T * I'.seed := Nat.mul_le_mul_right _ (by omega)
    omega
  have hl3 : ((I.secrets (sk.data.take I.blk) (sk.pk.ciphertext.take I.blk) (sk.pk.plaintext.take I.blk) (msg.take mlen)).take 32).length = 32 := by
    rw [Picnic3.Inst.secrets, Picnic3.Inst.hash, List.length_take, List.length_map, List.length_range]
    omega
  rw [Inst.secrets, ← hmd] at hc he' hv
  rw [h', h3]
  generalize List.take 32 (I.secrets _ _ _ _) = salt3 at he3 hpre hl3
  generalize I'.hash m _ = s at hv hc he' hsl hpre
  have r := hv 0 hTp
  obtain ⟨d, rest, he4, hdl⟩ : ∃ d rest, s3 = d ++ salt3 ++ rest ∧ d.length = I.digest := by
    rw [Picnic3.Inst.encode] at he3
    simp only [List.append_assoc] at he3
    exact ⟨_, _, he3.trans (List.append_assoc _ _ _).symm, by simp [Picnic3.Inst.challengeDigest, Picnic3.Inst.hash]⟩
  refine ⟨d, salt3, rest, e, I'.saltOf s, _, (List.take_left' rfl).trans he4, hdl, hl3, (List.take_left' rfl).trans he', ?_,
    fun t ht => openViews_fits (challenge_lt hc) hsl ht (hv t ht), ⟨_, hc⟩, fun h0 => ?_, fun h1 => ?_⟩
  · rw [Inst.saltOf, List.length_drop, hsl]
    omega
  · rw [h0, Inst.openViews]
    dsimp only
    rw [r.seed 0 (by omega), hpre]
  · rw [h1, Inst.recover3, shareOf_openViews (by omega) r (by omega) (Or.inl rfl), shareOf_openViews (by omega) r (by omega) (Or.inr rfl), hpre, ← r.seed 0 (by omega), ← r.key0, run_sum hkl r]

/-- The part of C40 that holds: for parameter sets with different block lengths, seeds and salts are the SHAKE outputs of different
strings, whatever the keys and messages are. -/
theorem C40_partial (p p' n n' : ℕ) (hn : blockBits p = some n) (hn' : blockBits p' = some n') (hne : n ≠ n') (sk msg ct pt sk' msg' ct' pt' : Buf) :
    sk ++ msg ++ ct ++ pt ++ int16 n ≠ sk' ++ msg' ++ ct' ++ pt' ++ int16 n' := by
  have hlt : ∀ p n, blockBits p = some n → n < 65536 := fun p n h => by
    unfold blockBits at h
    split at h <;> simp only [Option.some.injEq, reduceCtorEq] at h <;> omega
  have h1 := hlt p n hn
  have h2 := hlt p' n' hn'
  intro h
  have h2 := (List.append_inj' h (by simp [int16])).2
  simp only [int16, List.cons.injEq, and_true] at h2
  have h3 := congrArg BitVec.toNat h2.1
  have h4 := congrArg BitVec.toNat h2.2
  simp only [BitVec.toNat_ofNat] at h3 h4
  omega

/-! ### concrete case -/

theorem altState_trits : ∀ dig ∈ [32, 48, 64], ∀ j < 4, (Challenge.trits ((altState j).take dig)).head? = some 1 ∧ 3 ≤ (Challenge.trits ((altState j).take dig)).length := by
  decide +kernel

/-- Two such signatures with a key that is not zero, and challenge 1 in repetition 0. -/
theorem C40_example (p p' : ℕ) (hp : (p, p') ∈ [(7, 10), (8, 11), (9, 12)]) (msg : Buf) (hm : msg.length + 200 ≤ 2 ^ 32) :
    ∃ (E : Env) (sk : PrivateKey) (P' : Params) (d salt3 rest : Buf) (e : List ℕ) (salt : Buf) (o : ℕ → Opening) (buf buf' : Buf),
      EnvWF E ∧ InvWF E ∧ sk.params = p ∧ getParamSet p' = some P' ∧ bitsOf sk.data 0 = 1 ∧
      (∃ r, picnicSign E (some sk) msg msg.length buf buf.length =
        Outcome.ok (0, d ++ salt3 ++ rest ++ r, (d ++ salt3 ++ rest).length)) ∧
      (∃ r, picnicSign E (some { sk with params := p' }) msg msg.length buf' buf'.length =
        Outcome.ok (0, (instOf E P').encode e salt o ++ r, ((instOf E P').encode e salt o).length)) ∧
      e.getD 0 0 = 1 ∧ (instOf E P').recover3 salt (o 0) salt3 = sk.data.take (instOf E P').blk := by
  have hpz : p ∈ picnic3Params ∧ p' ∈ zkbParams := by
    simp only [List.mem_cons, Prod.mk.injEq, List.not_mem_nil, or_false] at hp
    rcases hp with ⟨rfl, rfl⟩ | ⟨rfl, rfl⟩ | ⟨rfl, rfl⟩ <;> decide
  obtain ⟨E, sk, P, buf, sig, len, S, ⟨N, hN, hEN⟩, h1, h2, h3, rfl, h5, h6, h7, h8, h9, h10, h11, h12, h13⟩ := p3_example_alt p hpz.1 msg hm
  obtain ⟨P', hP', hi3⟩ := getParamSet_zkb hpz.2
  obtain ⟨hXX, hdig, hT, hdig2⟩ : lowmcOf P (E.lowmc P) = lowmcOf P' (E.lowmc P') ∧ P'.digestSizeBytes ∈ [32, 48, 64] ∧ (0 < P'.numMPCRounds ∧ P'.numMPCRounds ≤ 438) ∧
      P'.digestSizeBytes ≤ rateOf P' ∧ P'.digestSizeBytes ≤ 200 := by
    subst hEN
    revert hp h5
    generalize sk.params = p
    intro hp h5
    simp only [List.mem_cons, Prod.mk.injEq, List.not_mem_nil, or_false] at hp
    rcases hp with ⟨rfl, rfl⟩ | ⟨rfl, rfl⟩ | ⟨rfl, rfl⟩ <;>
    · injection h5 with h5
      injection hP' with hP'
      subst h5
      subst hP'
      exact ⟨rfl, by decide, by decide, by decide⟩
  have hnn : P.stateSizeBits = P'.stateSizeBits := congrArg LowMC.n hXX
  have hR : Relation P' (E.lowmc P') sk.data sk.pk.plaintext sk.pk.ciphertext := by
    unfold Relation at *
    rw [← hXX, ← hnn]
    exact h7
  have hH : ∀ pr m, ∃ j < 4, H E P' pr m P'.digestSizeBytes = (altState j).take P'.digestSizeBytes := fun pr m => by
    subst hEN
    exact altEnv_H (rateOf_two hP') hdig2.1 hdig2.2
  have hstream : ∀ n d, (∃ j < 4, d = (altState j).take P'.digestSizeBytes) → 3 * n ≤ (Challenge.stream (nextDigest E P') d n).length := by
    intro n
    induction n with
    | zero => intro d _; omega
    | succ n ih =>
      rintro d ⟨j, hj, rfl⟩
      rw [Challenge.stream, List.length_append]
      have := (altState_trits _ hdig j hj).2
      have := ih (nextDigest E P' ((altState j).take P'.digestSizeBytes)) (hH _ _)
      omega
  have hfuel : E.fuel = N := by rw [hEN]
  have hc := C03_zkb E h1 { sk with params := p' } ⟨h3.data, h3.pk⟩ hpz.2 P' hP' hR msg msg.length le_rfl hm (zeros (picnicSignatureSize p')) _ le_rfl (by simp)
  have hnd := hc.2 fun d _ => by
    obtain ⟨n, hn⟩ : ∃ n, E.fuel = n + 1 := ⟨N - 1, by omega⟩
    rw [hn, Challenge.stream, List.length_append]
    have := hstream n (nextDigest E P' d) (hH _ _)
    omega
  rcases hc.1 with h | ⟨sig', len', hs', -, -⟩
  · exact absurd h hnd
  obtain ⟨d, salt3, rest, e, salt, o, a1, a2, a3, a4, a5, a6, ⟨x, a7⟩, a8, a9⟩ := C40_full_violated E h1 h2 sk { sk with params := p' } h3 ⟨h3.data, h3.pk⟩ hp rfl rfl rfl P P' h5 hP'
    (inst3 E P) (instOf E P') (inst3_is E hpz.1 h5) (instOf_is E hpz.2 hP') (fun _ _ => rfl) rfl rfl rfl msg msg.length le_rfl hm buf _ _ _ le_rfl le_rfl sig sig' len len' h11 hs'
  have he : e.getD 0 0 = 1 := by
    obtain ⟨n, b1, b2⟩ := a7
    change P'.numMPCRounds ≤ _ at b1
    change e = List.take P'.numMPCRounds _ at b2
    obtain ⟨j, hj, hx⟩ := hH 0xff x
    change (instOf E P').hash x _ = _ at hx
    rw [show (instOf E P').digest = P'.digestSizeBytes from rfl, hx] at b1 b2
    obtain ⟨n, rfl⟩ : ∃ k, n = k + 1 := by
      rcases n with _ | n
      · simp [Challenge.stream] at b1
        omega
      · exact ⟨n, rfl⟩
    have ht := (altState_trits _ hdig j hj).1
    rw [Challenge.stream] at b2
    generalize Challenge.trits _ = l at ht b2
    obtain ⟨k, hk⟩ : ∃ k, P'.numMPCRounds = k + 1 := ⟨P'.numMPCRounds - 1, by omega⟩
    rw [b2, hk]
    cases l with
    | nil => simp at ht
    | cons a l =>
      simp only [List.head?_cons, Option.some.injEq] at ht
      simp [ht]
  obtain ⟨t, -, hsg, hln⟩ := C38_sign E h1 h2 sk h3 hpz.1 P h5 (inst3 E P) (inst3_is E hpz.1 h5) (fun _ _ => rfl) rfl msg msg.length le_rfl hm buf _ le_rfl sig len h11
  obtain ⟨t', -, hsg', hln'⟩ := C37_sign E h1 { sk with params := p' } ⟨h3.data, h3.pk⟩ hpz.2 P' hP' (instOf E P') (instOf_is E hpz.2 hP') rfl rfl msg msg.length le_rfl hm _ _ le_rfl sig' len' hs'
  have ht : sig.take len = t := by rw [hsg, hln, List.take_left' rfl]
  have ht' : sig'.take len' = t' := by rw [hsg', hln', List.take_left' rfl]
  refine ⟨E, sk, P', d, salt3, rest, e, salt, o, buf, zeros (picnicSignatureSize p'), h1, h2, rfl, hP', h8, ⟨buf.drop t.length, ?_⟩,
    ⟨(zeros (picnicSignatureSize p')).drop t'.length, ?_⟩, he, a9 he⟩
  · rw [← a1, ht, ← hsg, ← hln, h11]
  · rw [← a4, ht', ← hsg', ← hln', hs']

end Picnic
