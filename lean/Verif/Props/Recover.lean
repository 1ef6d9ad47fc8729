import Verif.Proofs.Recover
import Verif.Props.Distribution
import Verif.Props.P3Example

/-
C58: Picnic3 signatures reveal the secret key.
-/

namespace Picnic

open Spec Spec.Challenge Finset

/-- **C58** is false for Picnic3: from every signature in which some unopened party is not the last one, `recoverKey` computes the secret key.  It does
not even need the public key or the message. -/
theorem C58_p3_violated (E : Env) (hE : EnvWF E) (hI : InvWF E) (junk' : ℕ → ℕ → ℕ → Byte) (fuel' : ℕ) (hfuel : E.fuel ≤ fuel')
    (sk : PrivateKey) (hsk : sk.Arrays) (hp : sk.params ∈ picnic3Params) (P : Params) (hP : getParamSet sk.params = some P)
    (msg : Buf) (mlen : ℕ) (hm : mlen ≤ msg.length) (hm32 : mlen + 200 ≤ 2 ^ 32)
    (buf : Buf) (slen : ℕ) (hbuf : slen ≤ buf.length) (sig : Buf) (len : ℕ)
    (hs : picnicSign E (some sk) msg mlen buf slen = Outcome.ok (0, sig, len)) (b : Buf) (hb : b.take len = sig.take len) (hbl : len ≤ b.length) :
    ∃ C Q, IsChallenge3 P.numMPCRounds P.numMPCParties P.numOpenedRounds (nextDigest E P) (sig.take P.digestSizeBytes) C Q ∧
      ((∀ k ∈ Q, k = 15) ∨ ∃ key, recoverKey { E with junk := junk', fuel := fuel' } P b len = Outcome.ok (some key) ∧
        key.length = P.stateSizeBytes ∧ ∀ i < 8 * P.stateSizeBytes, bitsOf key i = if i < P.stateSizeBits then bitsOf sk.data i else 0) := by
  classical
  obtain ⟨P', hP', hi3⟩ := getParamSet_p3 hp
  have hWF := paramsWF_of hP
  have h3 := p3WF_of hP hi3
  obtain ⟨hd1, hd2⟩ := dig_le hP hi3
  obtain ⟨hR, C, Q, hx, hc, hlen, hle, hsig, hsl⟩ := picnicSign_p3_zero hE hI hP hp hsk hm hm32 hbuf rfl rfl hs
  have hrl := sRoot_length (E := E) (P := P) (key := sk.data) (pk := sk.pk.ciphertext) (pt := sk.pk.plaintext) (msg := msg.take mlen)
  have hll := sSalt_length (E := E) (P := P) (key := sk.data) (pk := sk.pk.ciphertext) (pt := sk.pk.plaintext) (msg := msg.take mlen)
  generalize hsalt : sSalt E P sk.data sk.pk.ciphertext sk.pk.plaintext (msg.take mlen) = salt at *
  generalize hroot : sRoot E P sk.data sk.pk.ciphertext sk.pk.plaintext (msg.take mlen) = root at *
  have hbs : sig.take (sig2Len P C Q) = sig2Bytes P (sSig E P salt root sk.data sk.pk.ciphertext sk.pk.plaintext (msg.take mlen) C Q) := by
    rw [← hlen, hsig, List.take_left' hsl]
  have hbt : b.take (sig2Len P C Q) = sig2Bytes P (sSig E P salt root sk.data sk.pk.ciphertext sk.pk.plaintext (msg.take mlen) C Q) := by
    rw [← hbs, ← hlen, hb]
  obtain ⟨hd, hpad, hh⟩ := dec_sSig h3 hc hll hrl hbt
  refine ⟨C, Q, by rw [(dec_sSig h3 hc hll hrl hbs).2.2]; exact expandR_spec h3 hx, ?_⟩
  by_cases hall : ∀ k ∈ Q, k = 15
  · exact Or.inl hall
  right
  have hlong : ¬ len < P.digestSizeBytes + P.saltSizeBytes := by rw [hlen, sig2Len, off2]; omega
  have hwf := sSig_wf (E := E) (P := P) (salt := salt) (root := root) (key := sk.data) (pk := sk.pk.ciphertext) (pt := sk.pk.plaintext) (msg := msg.take mlen)
    (C := C) (Q := Q) h3 hc hll hrl
  unfold recoverKey
  rw [deserializeSignature2_ok (E := { E with junk := junk', fuel := fuel' }) hE.perm hWF h3 hbl]
  unfold dec2R
  rw [if_neg hlong]
  simp only [expandR_env]
  rw [hh, expandR_mono hx hfuel]
  dsimp only
  rw [if_pos ⟨hlen, hpad⟩, ok_bind, hd]
  obtain ⟨S, hS⟩ : ∃ S, S = sSig E P salt root sk.data sk.pk.ciphertext sk.pk.plaintext (msg.take mlen) C Q := ⟨_, rfl⟩
  rw [← hS] at hwf ⊢
  have hSC : S.challengeC = C := by rw [hS]; rfl
  have hSQ : S.challengeP = Q := by rw [hS]; rfl
  have hSs : S.salt = salt := by rw [hS]; rfl
  dsimp only
  rw [hSC, hSQ]
  cases hf : (C.zip Q).find? fun x => decide (x.2 ≠ 15) with
  | none =>
    exfalso
    push Not at hall
    obtain ⟨k, hk, hk15⟩ := hall
    obtain ⟨i, hi, rfl⟩ := List.getElem_of_mem hk
    have hcl := hc.lenC
    have hql := hc.lenQ
    have := List.find?_eq_none.1 hf (C[i]'(by omega), Q[i]) (by
      rw [List.mem_iff_getElem]
      exact ⟨i, by rw [List.length_zip]; omega, List.getElem_zip⟩)
    exact this (by simpa using hk15)
  | some x =>
    obtain ⟨t, k⟩ := x
    have hk15 : k ≠ 15 := by simpa using List.find?_some hf
    obtain ⟨htC, hhid⟩ := zip_hid hc.nodup (List.mem_of_find?_eq_some hf)
    have htS : t ∈ S.challengeC := by rw [hSC]; exact htC
    have hk16 : k < 16 := hhid ▸ (hid_lt h3 hc htC).2
    have hpf : pfOf S t = sPf E P salt root sk.data sk.pk.plaintext t k := by rw [hS, pfOf_sSig hc htC, hhid]
    obtain ⟨hp1, hp2⟩ := hwf.proof t htS
    have h4 := h3.seed
    dsimp only
    rw [rd_proof hwf htS, ok_bind]
    simp only [deref]
    rw [ok_bind, createTree_ok (by decide) (by decide), ok_bind, log16, hp2.seedInfoLen, ← hp2.seedLen]
    have hrec := reconstruct_ok (E := { E with junk := junk', fuel := fuel' }) (P := P) (D := 4) (n := 16) (rep := t) (l := [k]) (input := (pfOf S t).seedInfo)
      (salt := S.salt) hE.perm (seedWF_of hP) (by decide) (by decide) (by decide) hwf.salt (by simpa using hk16) (by rw [revN_16 hk16]; exact hp2.seedLen)
      (by rw [hp2.seedLen]; unfold INT_MAX; omega)
    rw [show (do
        let x ← reconstructSeeds { E with junk := junk', fuel := fuel' } P _ [k] 1 _ _ S.salt t
        _ : M (Option Buf)) = _ from bind_of_ok hrec]
    dsimp only
    have hnl : ∀ j, (recS { E with junk := junk', fuel := fuel' } P S.salt t 4 16 [k] (pfOf S t).seedInfo j).length = P.seedSizeBytes := fun j =>
      recS_length (by rw [revN_16 hk16, hp2.seedLen]) _
    rw [getLeaves_mk, createRandomTapes_ok (E := { E with junk := junk', fuel := fuel' })
      (s := fun j => recS { E with junk := junk', fuel := fuel' } P S.salt t 4 16 [k] (pfOf S t).seedInfo (2 ^ 4 - 1 + j)) hE.perm h3 (fun j _ => hnl _) hwf.salt, ok_bind]
    have htape : ∀ j < 16, j ≠ k → p3Tape { E with junk := junk', fuel := fuel' } P S.salt t j
        (recS { E with junk := junk', fuel := fuel' } P S.salt t 4 16 [k] (pfOf S t).seedInfo (2 ^ 4 - 1 + j)) = sTape E P salt root t j := by
      intro j hj hjk
      have := vNode_opened (E := E) (salt := salt) (root := root) (key := sk.data) (pk := sk.pk.ciphertext) (pt := sk.pk.plaintext) (msg := msg.take mlen)
        h3 hc hrl htC hj (by rw [hhid]; exact hjk)
      rw [← hS] at this
      unfold vNode at this
      rw [if_pos htS, hSC, hSQ, hhid] at this
      rw [p3Tape_env, recS_env, this, hSs, sTape]
    have hcom : (pfOf S t).C = (sTape E P salt root t k).take P.digestSizeBytes := by
      rw [hpf]
      change sCom E P salt root t k = _
      unfold sCom
      rw [if_neg hk15, com_eq_tape hd1]
      rfl
    have hset : ∀ i < P.stateSizeBits, (((arrN 16 fun j => p3Tape { E with junk := junk', fuel := fuel' } P S.salt t j
        (recS { E with junk := junk', fuel := fuel' } P S.salt t 4 16 [k] (pfOf S t).seedInfo (2 ^ 4 - 1 + j))).set k (pfOf S t).C).map
          fun b => bitsOf b i).sum = lam P (sTape E P salt root t) 0 i := by
      intro i hi
      rw [set_arrN, sum_arrN]
      unfold lam tpar
      refine sum_congr rfl fun j hj => ?_
      by_cases e : j = k
      · rw [e, if_pos rfl, hcom, bitsOf_take (by omega)]
        congr 1
        omega
      · rw [if_neg e, htape j (mem_range.1 hj) e]
        congr 1
        omega
    have hw := hWF.words
    have hby := hWF.bytes
    refine ⟨_, rfl, ofBits_length _ _, fun i hi => ?_⟩
    rw [bitsOf_ofBits _ (by omega)]
    by_cases hin : i < P.stateSizeBits
    · rw [if_pos hin, if_pos hin, sum_congr rfl fun j hj => by rw [hset j (mem_range.1 hj)], hpf]
      change bitsOf ((sMk E P salt root sk.data t).take P.stateSizeBytes) i + _ = _
      rw [bitsOf_take (by omega), sMk, bitsOf_ofBits _ (by omega), kap, mulVec, if_pos hin]
      unfold matBits
      generalize (∑ j ∈ Finset.range P.stateSizeBits, _ : ZMod 2) = x
      generalize bitsOf sk.data i = y
      revert x y
      decide
    · rw [if_neg hin, if_neg hin]


/-- The consequence: who has seen one signature can sign every message.  `forge` computes the key as above and signs with it; the library accepts the
result. -/
theorem C58_p3_forge (E : Env) (hE : EnvWF E) (hI : InvWF E) (junk' : ℕ → ℕ → ℕ → Byte) (fuel' : ℕ) (hfuel : E.fuel ≤ fuel')
    (sk : PrivateKey) (hsk : sk.Arrays) (hp : sk.params ∈ picnic3Params) (P : Params) (hP : getParamSet sk.params = some P)
    (pk : PublicKey) (hpk : pk.Arrays) (hpp : pk.params = sk.params) (hct : pk.ciphertext = sk.pk.ciphertext) (hpt : pk.plaintext = sk.pk.plaintext)
    (msg : Buf) (mlen : ℕ) (hm : mlen ≤ msg.length) (hm32 : mlen + 200 ≤ 2 ^ 32)
    (buf : Buf) (slen : ℕ) (hbuf : slen ≤ buf.length) (sig : Buf) (len : ℕ)
    (hs : picnicSign E (some sk) msg mlen buf slen = Outcome.ok (0, sig, len)) (b : Buf) (hb : b.take len = sig.take len) (hbl : len ≤ b.length)
    (msg' : Buf) (mlen' : ℕ) (hm' : mlen' ≤ msg'.length) (hm32' : mlen' + 200 ≤ 2 ^ 32)
    (buf' : Buf) (slen' : ℕ) (hbuf' : slen' ≤ buf'.length) (hsize' : picnicSignatureSize pk.params ≤ slen') :
    ∃ C Q, IsChallenge3 P.numMPCRounds P.numMPCParties P.numOpenedRounds (nextDigest E P) (sig.take P.digestSizeBytes) C Q ∧
      ((∀ k ∈ Q, k = 15) ∨ forge { E with junk := junk', fuel := fuel' } P pk b len msg' mlen' buf' slen' = Outcome.diverge ∨
        ∃ sig' len', forge { E with junk := junk', fuel := fuel' } P pk b len msg' mlen' buf' slen' = Outcome.ok (0, sig', len') ∧
          picnicVerify { E with junk := junk', fuel := fuel' } (some pk) msg' mlen' sig' len' = Outcome.ok 0) := by
  obtain ⟨C, Q, hc, h⟩ := C58_p3_violated E hE hI junk' fuel' hfuel sk hsk hp P hP msg mlen hm hm32 buf slen hbuf sig len hs b hb hbl
  refine ⟨C, Q, hc, h.imp_right ?_⟩
  rintro ⟨key, hk, hkl, hkb⟩
  have hWF := paramsWF_of hP
  have hby := hWF.bytes
  obtain ⟨hst, -⟩ := stateBytes_le hP
  obtain ⟨hR, -⟩ := picnicSign_p3_zero hE hI hP hp hsk hm hm32 hbuf rfl rfl hs
  have hE' : EnvWF { E with junk := junk', fuel := fuel' } := ⟨hE.perm, hE.lowmc⟩
  have hI' : InvWF { E with junk := junk', fuel := fuel' } := ⟨hI.len, hI.inv⟩
  have hd : ∀ i < P.stateSizeBits, bitsOf (key ++ zeros (32 - key.length)) i = bitsOf sk.data i := fun i hi => by
    rw [bitsOf_append_left (by omega), hkb i (by omega), if_pos hi]
  have hF : forge { E with junk := junk', fuel := fuel' } P pk b len msg' mlen' buf' slen' =
      picnicSign { E with junk := junk', fuel := fuel' } (some { params := pk.params, data := key ++ zeros (32 - key.length), pk := pk }) msg' mlen' buf' slen' := by
    unfold forge
    rw [hk, ok_bind]
  rw [hF]
  have hA : PrivateKey.Arrays { params := pk.params, data := key ++ zeros (32 - key.length), pk := pk } := ⟨by simp; omega, hpk⟩
  have hp' : pk.params ∈ picnic3Params := hpp ▸ hp
  have hP' : getParamSet pk.params = some P := hpp ▸ hP
  rcases (C03_p3 _ hE' hI' _ hA hp' P hP' (by
    rw [hct, hpt]
    exact (relation_congr hWF hd (fun _ _ => rfl) (fun _ _ => rfl)).2 hR) msg' mlen' hm' hm32' buf' slen' hbuf' hsize').1 with h | ⟨sig', len', h, hle, hsl⟩
  · exact Or.inl h
  · refine Or.inr ⟨sig', len', h, ?_⟩
    exact C02_sign_verify _ hE' hI' junk' fuel' le_rfl _ hA hp' _ (blockBits_of hP') msg' mlen' hm' hm32' buf' slen' hbuf' sig' len' h pk hpk rfl rfl rfl
      sig' rfl (by change len' ≤ picnicSignatureSize pk.params at hle; omega)

/-- The exception is rare: if digests are random, all `u` unopened parties are the last one in exactly one in `16 ^ u` of the cases in which a challenge
is found (`u` = 36, 52, 68). -/
theorem C58_exception (I : Picnic3.Inst) (p : ℕ) (hI : I.Is p) (k N : ℕ)
    [DecidablePred fun D : Fin N → Digest k => ∃ C Q, Reads3 I.T 16 I.u (texts D) C Q ∧ ∀ q ∈ Q, q = 15]
    [DecidablePred fun D : Fin N → Digest k => ∃ C Q, Reads3 I.T 16 I.u (texts D) C Q] :
    16 ^ I.u * (univ.filter fun D : Fin N → Digest k => ∃ C Q, Reads3 I.T 16 I.u (texts D) C Q ∧ ∀ q ∈ Q, q = 15).card =
      (univ.filter fun D : Fin N → Digest k => ∃ C Q, Reads3 I.T 16 I.u (texts D) C Q).card := by
  classical
  have hpos : 0 < I.T.choose I.u := by
    apply Nat.choose_pos
    unfold Picnic3.Inst.Is Picnic3.table at hI
    split at hI <;> simp only [Option.some.injEq, Prod.mk.injEq, reduceCtorEq] at hI <;> omega
  have hcard : Fintype.card I.Vector = I.T.choose I.u * 16 ^ I.u := by
    rw [Fintype.card_subtype, ← card_some_vectors]
  have hfair := C52_p3 I p hI k N
  have hne : 0 < Fintype.card I.Vector := by rw [hcard]; positivity
  obtain ⟨e0⟩ := Fintype.card_pos_iff.1 hne
  have h1 := fair_card hfair (fun e => ∀ t k, e.1 t = some k → k = 15) e0
  have h2 := fair_card hfair (fun _ => True) e0
  rw [card_last] at h1
  rw [filter_true, card_univ, hcard] at h2
  have e1 : (univ.filter fun D : Fin N → Digest k => ∃ C Q, Reads3 I.T 16 I.u (texts D) C Q ∧ ∀ q ∈ Q, q = 15) =
      univ.filter fun D : Fin N → Digest k => ∃ e : I.Vector, (∃ C Q, Reads3 I.T 16 I.u (texts D) C Q ∧ Picnic3.Asks C Q e.1) ∧ ∀ t k, e.1 t = some k → k = 15 := by
    refine filter_congr fun D _ => ⟨fun ⟨C, Q, h, hq⟩ => ?_, fun ⟨e, ⟨C, Q, h, ha⟩, hk⟩ => ⟨C, Q, h, (asks_all h ha).2 hk⟩⟩
    obtain ⟨e, he, ha⟩ := reads3_vector h
    exact ⟨⟨e, he⟩, ⟨C, Q, h, ha⟩, (asks_all h ha).1 hq⟩
  have e2 : (univ.filter fun D : Fin N → Digest k => ∃ C Q, Reads3 I.T 16 I.u (texts D) C Q) =
      univ.filter fun D : Fin N → Digest k => ∃ e : I.Vector, (∃ C Q, Reads3 I.T 16 I.u (texts D) C Q ∧ Picnic3.Asks C Q e.1) ∧ True := by
    refine filter_congr fun D _ => ⟨fun ⟨C, Q, h⟩ => ?_, fun ⟨e, ⟨C, Q, h, _⟩, _⟩ => ⟨C, Q, h⟩⟩
    obtain ⟨e, he, ha⟩ := reads3_vector h
    exact ⟨⟨e, he⟩, ⟨C, Q, h, ha⟩, trivial⟩
  rw [e1, e2]
  convert (congrArg (16 ^ I.u * ·) h1).trans ?_
  refine Eq.trans ?_ h2.symm
  ring

/-- In the environment `altEnv` the first unopened party is not the last one. -/
theorem alt_not_last {p N : ℕ} {P : Params} (hp : p ∈ picnic3Params) (hP : getParamSet p = some P) {d : Buf} {C Q : List ℕ}
    (hc : IsChallenge3 P.numMPCRounds P.numMPCParties P.numOpenedRounds (nextDigest { altEnv with fuel := N } P) d C Q) : ¬ ∀ k ∈ Q, k = 15 := by
  classical
  obtain ⟨-, -, h2, hu, hr, h200, -, -⟩ := alt_facts hp hP
  have hnext : ∀ d, ∃ j < 4, nextDigest { altEnv with fuel := N } P d = (altState j).take P.digestSizeBytes := fun d => altEnv_H (rateOf_two hP) hr h200
  obtain ⟨bC, bP, k, m, -, e2, e3, -, -, e6, rfl⟩ := hc
  obtain rfl : bP = 4 := le_antisymm ((e2 _).2 ((h2 _).1 le_rfl)) ((h2 _).2 ((e2 _).1 le_rfl))
  obtain ⟨k, rfl⟩ : ∃ i, k = i + 1 := by
    refine ⟨k - 1, ?_⟩
    rcases Nat.eq_zero_or_pos k with rfl | h
    · exfalso
      simp [stream3, firsts] at e3
      omega
    · omega
  obtain ⟨m, rfl⟩ : ∃ i, m = i + 1 := by
    refine ⟨m - 1, ?_⟩
    rcases Nat.eq_zero_or_pos m with rfl | h
    · exfalso
      simp [stream3] at e6
      omega
    · omega
  rw [Function.iterate_succ_apply', stream3]
  obtain ⟨j, hj, e⟩ := hnext ((nextDigest { altEnv with fuel := N } P)^[k] d)
  rw [e]
  have hfirst : ∃ x l, (chunks 4 ((altState j).take P.digestSizeBytes)).filter (· < P.numMPCParties) = x :: l ∧ x ≠ 15 := by
    have : ∀ j < 4, (((chunks 4 ((altState j).take P.digestSizeBytes)).filter (· < P.numMPCParties)).head?.any fun x => decide (x ≠ 15)) = true := by
      simp only [picnic3Params, List.mem_cons, List.not_mem_nil, or_false] at hp
      rcases hp with rfl | rfl | rfl <;> (injection hP with h; subst h) <;> decide +kernel
    have := this j hj
    cases hl : (chunks 4 ((altState j).take P.digestSizeBytes)).filter (· < P.numMPCParties) with
    | nil => rw [hl] at this; simp at this
    | cons x l => rw [hl] at this; exact ⟨x, l, rfl, by simpa using this⟩
  obtain ⟨x, l, hl, hx⟩ := hfirst
  intro hall
  refine hx (hall x ?_)
  obtain ⟨u, hu'⟩ : ∃ u, P.numOpenedRounds = u + 1 := ⟨P.numOpenedRounds - 1, by omega⟩
  rw [hl, hu', List.cons_append, List.take_succ_cons]
  exact List.mem_cons_self

/-- The hypotheses are met, and the exception does not occur: in the environment `altEnv` every Picnic3 parameter set has a key pair, and a signature for
every message, from which the secret key (not zero) is computed. -/
theorem C58_example (p : ℕ) (hp : p ∈ picnic3Params) (msg : Buf) (hm : msg.length + 200 ≤ 2 ^ 32) :
    ∃ (E : Env) (sk : PrivateKey) (P : Params) (buf sig key : Buf) (len : ℕ), EnvWF E ∧ InvWF E ∧ sk.Arrays ∧ sk.params = p ∧ getParamSet p = some P ∧
      bitsOf sk.data 0 = 1 ∧ picnicSign E (some sk) msg msg.length buf buf.length = Outcome.ok (0, sig, len) ∧
      recoverKey E P (sig.take len) len = Outcome.ok (some key) ∧ key.length = P.stateSizeBytes ∧ ∀ i < P.stateSizeBits, bitsOf key i = bitsOf sk.data i := by
  classical
  obtain ⟨E, sk, P, buf, sig, len, S, ⟨N, hN, rfl⟩, hE, hI, hsk, rfl, hP, hch, hR, hb0, hbuf, -, hs, -⟩ := p3_example_alt p hp msg hm
  have hWF := paramsWF_of hP
  have hby := hWF.bytes
  obtain ⟨-, C₀, Q₀, -, -, -, hle, hsig, hsl⟩ := picnicSign_p3_zero hE hI hP hp hsk le_rfl hm le_rfl rfl rfl hs
  have hll : len ≤ sig.length := by rw [hsig, List.length_append]; omega
  obtain ⟨C, Q, hc, h⟩ := C58_p3_violated _ hE hI altEnv.junk N le_rfl sk hsk hp P hP msg msg.length le_rfl hm buf buf.length le_rfl sig len hs
    (sig.take len) (by rw [List.take_take, Nat.min_self]) (by rw [List.length_take]; omega)
  rcases h with h | ⟨key, h1, h2, h3⟩
  · exfalso
    exact alt_not_last hp hP hc h
  · exact ⟨_, sk, P, buf, sig, key, len, hE, hI, hsk, rfl, hP, hb0, hs, h1, h2, fun i hi => by rw [h3 i (by omega), if_pos hi]⟩

end Picnic
