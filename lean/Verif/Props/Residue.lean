import Verif.Model.Residue
import Verif.Props.Cycle
import Verif.Proofs.P3Sign
import Verif.Proofs.ZkbOob

/-
C57: what is left in released memory.
-/

namespace Picnic

open Spec Spec.Challenge

/-- The functions with released blocks compute the same signatures. -/
theorem released1 (E : Env) (P : Params) (sk ct pt msg : Buf) (mlen : ℕ) (sig : Signature) :
    (signPicnic1Released E P sk ct pt msg mlen sig >>= fun r => pure (r.map Prod.fst)) = signPicnic1 E P sk ct pt msg mlen sig := by
  unfold signPicnic1Released signPicnic1
  simp only [bind_assoc]
  refine bind_congr fun slab => bind_congr fun salt => bind_congr fun rounds => ?_
  cases rounds with
  | none => rfl
  | some rounds =>
    simp only [bind_assoc]
    rfl

theorem released3 (E : Env) (P : Params) (sk ct pt msg : Buf) (mlen : ℕ) (sig : Signature2) :
    (signPicnic3Released E P sk ct pt msg mlen sig >>= fun r => pure (r.map Prod.fst)) = signPicnic3 E P sk ct pt msg mlen sig := by
  unfold signPicnic3Released signPicnic3
  simp only [bind_assoc]
  refine bind_congr fun sr => bind_congr fun salt => bind_congr fun root => bind_congr fun tree => bind_congr fun preps => bind_congr fun online => ?_
  cases online with
  | none => rfl
  | some online =>
    simp only [bind_assoc]
    rfl

theorem collectOpt_inv {α : Type} {f : ℕ → M (Option α)} {n : ℕ} {l : List α} (h : collectOpt f n = Outcome.ok (some l)) :
    l.length = n ∧ ∀ i < n, ∃ x, f i = Outcome.ok (some x) ∧ l[i]? = some x := by
  induction n generalizing l with
  | zero =>
    rw [collectOpt] at h
    have : l = [] := by injection h with h; injection h with h; exact h.symm
    subst this
    exact ⟨rfl, fun i hi => absurd hi (by omega)⟩
  | succ n ih =>
    rw [collectOpt] at h
    obtain ⟨a, ha, h⟩ := bind_ok_inv h
    obtain _ | l' := a
    · cases h
    · obtain ⟨b, hb, h⟩ := bind_ok_inv h
      obtain _ | x := b
      · cases h
      · have : l = l' ++ [x] := by injection h with h; injection h with h; exact h.symm
        subst this
        obtain ⟨hl, hx⟩ := ih ha
        refine ⟨by simp [hl], fun i hi => ?_⟩
        by_cases e : i = n
        · subst e
          exact ⟨x, hb, by rw [List.getElem?_append_right (by omega), hl]; simp⟩
        · obtain ⟨y, h1, h2⟩ := hx i (by omega)
          exact ⟨y, h1, by rw [List.getElem?_append_left (by omega)]; exact h2⟩

theorem some_of_ite {α : Type} {c : Prop} [Decidable c] {x y : α} (h : some x = if c then some y else none) : x = y := by
  split_ifs at h
  exact Option.some.inj h

theorem rdN_inv {b d : Buf} {off n : ℕ} (h : rdN b off n = Outcome.ok d) : off + n ≤ b.length ∧ d.length = n := by
  unfold rdN at h
  split_ifs at h with hc
  injection h with h
  subst h
  exact ⟨hc, by rw [List.length_take, List.length_drop]; omega⟩

theorem memcpy_inv {dst src d : Buf} {doff soff n : ℕ} (h : memcpy dst doff src soff n = Outcome.ok d) : soff + n ≤ src.length ∧ d.length = dst.length := by
  unfold memcpy at h
  obtain ⟨x, hx, h⟩ := bind_ok_inv h
  obtain ⟨h1, h2⟩ := rdN_inv hx
  refine ⟨h1, ?_⟩
  unfold wrN at h
  split_ifs at h with hc
  injection h with h
  subst h
  simp only [List.length_append, List.length_take, List.length_drop]
  omega

/-- **C57** is false for ZKB++: after every successful signature the memory that has been released contains, for every repetition, three blocks
(the input shares of the three views) that add up to the secret key. -/
theorem C57_zkb_violated (E : Env) (hE : EnvWF E) (sk : PrivateKey) (hsk : sk.Arrays) (hp : sk.params ∈ zkbParams) (P : Params)
    (hP : getParamSet sk.params = some P) (msg : Buf) (mlen : ℕ) (buf : Buf) (slen : ℕ) (out : Buf) (len : ℕ)
    (hs : picnicSign E (some sk) msg mlen buf slen = Outcome.ok (0, out, len)) :
    ∃ sig rounds, signPicnic1Released E P sk.data sk.pk.ciphertext sk.pk.plaintext msg mlen (allocateSignature E P) = Outcome.ok (some (sig, rounds)) ∧
      serializeSignature P sig buf slen = Outcome.ok (some (out, len)) ∧ rounds.length = P.numMPCRounds ∧
      ∀ r ∈ rounds, ∃ a b c, r.views.map (·.inputShare) = [a, b, c] ∧
        ∀ i < P.stateSizeBytes, sk.data.getD i 0 = a.getD i 0 ^^^ b.getD i 0 ^^^ c.getD i 0 := by
  obtain ⟨P', hP', h3⟩ := getParamSet_zkb hp
  rw [hP] at hP'
  obtain rfl : P = P' := by simpa using hP'
  have hWF := paramsWF_of hP
  have hZ := zkbWF_of hP h3
  have hC := hE.lowmc _ _ hP
  unfold picnicSign at hs
  simp only [deref, ok_bind, hP, h3] at hs
  rw [if_pos (by rfl), ← released1] at hs
  obtain ⟨s', h1, hs⟩ := bind_ok_inv hs
  obtain ⟨r, hr, h1⟩ := bind_ok_inv h1
  obtain rfl : r.map Prod.fst = s' := by injection h1
  obtain _ | ⟨sig, rounds⟩ := r
  · exact absurd hs (by simp [pure_eq_ok])
  refine ⟨sig, rounds, hr, ?_, ?_⟩
  · obtain ⟨s2, h2, hs⟩ := bind_ok_inv hs
    obtain _ | ⟨o, l⟩ := s2
    · exact absurd hs (by simp [pure_eq_ok])
    · simp only [pure_eq_ok, Outcome.ok.injEq, Prod.mk.injEq, true_and] at hs
      rw [hs.1, hs.2] at h2
      exact h2
  · unfold signPicnic1Released at hr
    obtain ⟨slab, -, hr⟩ := bind_ok_inv hr
    obtain ⟨salt, hsalt, hr⟩ := bind_ok_inv hr
    obtain ⟨rs, hrs, hr⟩ := bind_ok_inv hr
    obtain _ | rs := rs
    · exact absurd hr (by simp [pure_eq_ok])
    obtain ⟨cb, -, hr⟩ := bind_ok_inv hr
    obtain ⟨pf, -, hr⟩ := bind_ok_inv hr
    simp only [pure_eq_ok, Outcome.ok.injEq, Option.some.injEq, Prod.mk.injEq] at hr
    obtain rfl := hr.2
    obtain ⟨hl, hget⟩ := collectOpt_inv hrs
    refine ⟨hl, fun r hmem => ?_⟩
    obtain ⟨k, hk, rfl⟩ := List.getElem_of_mem hmem
    obtain ⟨x, hx, hx'⟩ := hget k (by omega)
    rw [List.getElem?_eq_getElem hk] at hx'
    obtain rfl : _ = x := Option.some.inj hx'
    obtain ⟨hm1, hm2⟩ := memcpy_inv hsalt
    have hw := hWF.words
    have hb := hWF.bytes
    have hmax := hWF.nMax
    have := hsk.data
    have := hsk.pk.ct
    have := hsk.pk.pt
    obtain ⟨views, junk, hv, e⟩ := signRound_ok (sk := sk.data) (pubKey := sk.pk.ciphertext) (pt := sk.pk.plaintext) (salt := salt) (slab := slab) (k := k) hE.perm hWF hC hZ
      (by omega) (by omega) (by omega) (by omega) (by omega) (by rw [hm2]; exact (allocateSignature_wf hZ).salt) (sd := fun j => _) fun j => rfl
    rw [hx] at e
    have e := some_of_ite (Outcome.ok.inj e)
    refine ⟨(views 0).inputShare, (views 1).inputShare, (views 2).inputShare, by rw [e]; rfl, fun i hi => ?_⟩
    refine byte_ext fun j hj => ?_
    have e2 : ∀ b : Buf, byteBit (b.getD i 0) j = bitsOf b (8 * i + j) := by
      intro b
      rw [bitsOf, show (8 * i + j) / 8 = i by omega, show (8 * i + j) % 8 = j by omega]
    rw [byteBit_xor, byteBit_xor, e2, e2, e2, e2, hv.inp 2 (by omega), shareKeys, if_pos rfl, bitsOf_ofBits _ (by omega), hv.inp 0 (by omega),
      hv.inp 1 (by omega), shareKeys, if_neg (by omega), shareKeys, if_neg (by omega), Pi.add_apply, Pi.add_apply]
    generalize bitsOf sk.data _ = x
    generalize bitsOf (vkey _ _ _ _ _ 0) _ = y
    generalize bitsOf (vkey _ _ _ _ _ 1) _ = z
    revert x y z
    decide

/-- **C57** is false for Picnic3: after every successful signature the memory that has been released contains, for every repetition, the masked key and
the sixteen random tapes.  The key is the masked key plus a public linear function of the sums of the tapes. -/
theorem C57_p3_violated (E : Env) (hE : EnvWF E) (hI : InvWF E) (sk : PrivateKey) (hsk : sk.Arrays) (hp : sk.params ∈ picnic3Params) (P : Params)
    (hP : getParamSet sk.params = some P) (msg : Buf) (mlen : ℕ) (buf : Buf) (slen : ℕ) (out : Buf) (len : ℕ)
    (hs : picnicSign E (some sk) msg mlen buf slen = Outcome.ok (0, out, len)) :
    ∃ (sig : Signature2) (preps : List Prep) (online : List (Buf × Msgs)), signPicnic3Released E P sk.data sk.pk.ciphertext sk.pk.plaintext msg mlen (allocateSignature2 E P) = Outcome.ok (some (sig, preps, online)) ∧
      serializeSignature2 P sig buf slen = Outcome.ok (some (out, len)) ∧ preps.length = P.numMPCRounds ∧ online.length = P.numMPCRounds ∧
      ∀ (t : ℕ) (p : Prep) (o : Buf × Msgs), preps[t]? = some p → online[t]? = some o → p.tapes.tape.length = 16 ∧
        ∀ i < P.stateSizeBits, bitsOf sk.data i = bitsOf o.1 i +
          ∑ j ∈ Finset.range P.stateSizeBits, bitsOf ((E.lowmc P).KInv 0) (32 * P.stateSizeWords * i + j) * (p.tapes.tape.map fun b => bitsOf b j).sum := by
  obtain ⟨P', hP', hi3⟩ := getParamSet_p3 hp
  rw [hP] at hP'
  obtain rfl : P = P' := by simpa using hP'
  have hWF := paramsWF_of hP
  have h3 := p3WF_of hP hi3
  have hT1 := h3.Tpos
  have hT2 := h3.T
  have hu := h3.upos
  have hu2 := h3.u
  unfold picnicSign at hs
  simp only [deref, ok_bind, hP, hi3] at hs
  rw [if_neg (by simp), ← released3] at hs
  obtain ⟨s', h1, hs⟩ := bind_ok_inv hs
  obtain ⟨r, hr, h1⟩ := bind_ok_inv h1
  obtain rfl : r.map Prod.fst = s' := by injection h1
  obtain _ | ⟨sig, preps, online⟩ := r
  · exact absurd hs (by simp [pure_eq_ok])
  refine ⟨sig, preps, online, hr, ?_, ?_⟩
  · obtain ⟨s2, h2, hs⟩ := bind_ok_inv hs
    obtain _ | ⟨o, l⟩ := s2
    · exact absurd hs (by simp [pure_eq_ok])
    · simp only [pure_eq_ok, Outcome.ok.injEq, Prod.mk.injEq, true_and] at hs
      rw [hs.1, hs.2] at h2
      exact h2
  · unfold signPicnic3Released at hr
    obtain ⟨sr, -, hr⟩ := bind_ok_inv hr
    obtain ⟨salt, hsalt, hr⟩ := bind_ok_inv hr
    obtain ⟨root, hroot, hr⟩ := bind_ok_inv hr
    obtain ⟨tree, htree, hr⟩ := bind_ok_inv hr
    obtain ⟨ps, hps, hr⟩ := bind_ok_inv hr
    obtain ⟨os, hos, hr⟩ := bind_ok_inv hr
    obtain _ | os := os
    · exact absurd hr (by simp [pure_eq_ok])
    obtain ⟨_, -, hr⟩ := bind_ok_inv hr
    obtain ⟨_, -, hr⟩ := bind_ok_inv hr
    obtain ⟨_, -, hr⟩ := bind_ok_inv hr
    obtain ⟨_, -, hr⟩ := bind_ok_inv hr
    obtain ⟨_, -, hr⟩ := bind_ok_inv hr
    obtain ⟨_, -, hr⟩ := bind_ok_inv hr
    obtain ⟨⟨_, _⟩, -, hr⟩ := bind_ok_inv hr
    obtain ⟨_, -, hr⟩ := bind_ok_inv hr
    obtain ⟨⟨_, _⟩, -, hr⟩ := bind_ok_inv hr
    obtain ⟨⟨_, _⟩, -, hr⟩ := bind_ok_inv hr
    obtain ⟨_, -, hr⟩ := bind_ok_inv hr
    simp only [pure_eq_ok, Outcome.ok.injEq, Option.some.injEq, Prod.mk.injEq] at hr
    obtain ⟨-, rfl, rfl⟩ := hr
    have hsl : salt.length = P.saltSizeBytes := by rw [(memcpy_inv hsalt).2]; simp [allocateSignature2]
    have hrl := (rdN_inv hroot).2
    rw [generateSeeds_ok hE.perm (seedWF_of hP) (by omega) (by omega) hrl hsl] at htree
    have htree := Outcome.ok.inj htree
    subst htree
    have hps := Outcome.ok.inj ((collect_arrN fun t ht =>
      signPrep_ok (root := root) hE.perm hWF (seedWF_of hP) h3 (hE.lowmc _ _ hP) (hI.len _ hp _ hP) hsl hrl ht).symm.trans hps)
    subst hps
    obtain ⟨hl, hget⟩ := collectOpt_inv hos
    refine ⟨by simp, hl, fun t p o ht ho => ?_⟩
    have htT : t < P.numMPCRounds := by
      rw [← hl]
      exact (List.getElem?_eq_some_iff.1 ho).1
    have hw := hWF.words
    have hb := hWF.bytes
    have hmax := hWF.nMax
    have := hsk.data
    have := hsk.pk.ct
    have := hsk.pk.pt
    obtain ⟨x, hx, hx'⟩ := hget t htT
    rw [ho] at hx'
    obtain rfl : o = x := Option.some.inj hx'
    rw [rd_arrN htT, ok_bind, signOnline_ok hWF h3 (hE.lowmc _ _ hP) (by omega) (by omega) (by omega) rfl rfl] at hx
    have hx := some_of_ite (Outcome.ok.inj hx).symm
    rw [show (arrN P.numMPCRounds _)[t]? = some _ by simp [arrN, htT]; rfl] at ht
    obtain rfl := Option.some.inj ht
    subst hx
    refine ⟨by simp, fun i hi => ?_⟩
    have e : ∀ j < P.stateSizeBits, (((arrN 16 (auxTp P (E.lowmc P) (sTape E P salt root t)))).map fun b => bitsOf b j).sum = lam P (sTape E P salt root t) 0 j := by
      intro j hj
      rw [← auxTp_mask (C := E.lowmc P) (by rw [sTape_length]; have := h3.tape; have := Nat.le_mul_of_pos_right P.stateSizeBits hWF.rounds; omega) hj, arrN_map, arrN]
      unfold tpar
      simp [List.range_succ, Finset.sum_range_succ, add_assoc]
    dsimp only
    rw [Finset.sum_congr rfl fun j hj => by rw [e j (Finset.mem_range.1 hj)], sMk, bitsOf_ofBits _ (by omega), kap, mulVec, if_pos hi]
    unfold matBits
    generalize (∑ j ∈ Finset.range P.stateSizeBits, _ : ZMod 2) = x
    generalize bitsOf sk.data i = y
    revert x y
    decide

/-- Instances: there are environments, keys and successful signatures for every parameter set, so the hypotheses of the two theorems can be met. -/
theorem C57_example (msg : Buf) (hm : msg.length + 200 ≤ 2 ^ 32) :
    (∀ p ∈ zkbParams, ∃ (sk : PrivateKey) (P : Params) (sig : Signature) (rounds : List SignRound), sk.params = p ∧
      signPicnic1Released zeroEnv P sk.data sk.pk.ciphertext sk.pk.plaintext msg msg.length (allocateSignature zeroEnv P) = Outcome.ok (some (sig, rounds)) ∧
      rounds ≠ [] ∧ ∀ r ∈ rounds, ∃ a b c, r.views.map (·.inputShare) = [a, b, c] ∧ sk.data.getD 0 0 = a.getD 0 0 ^^^ b.getD 0 0 ^^^ c.getD 0 0) ∧
    (∀ p ∈ picnic3Params, ∃ (E : Env) (sk : PrivateKey) (P : Params) (sig : Signature2) (preps : List Prep) (online : List (Buf × Msgs)), sk.params = p ∧
      signPicnic3Released E P sk.data sk.pk.ciphertext sk.pk.plaintext msg msg.length (allocateSignature2 E P) = Outcome.ok (some (sig, preps, online)) ∧
      preps.length = P.numMPCRounds ∧ online.length = P.numMPCRounds ∧ 0 < P.numMPCRounds ∧ bitsOf sk.data 0 = 1 ∧
      ∀ (t : ℕ) (p : Prep) (o : Buf × Msgs), preps[t]? = some p → online[t]? = some o →
        bitsOf sk.data 0 = bitsOf o.1 0 +
          ∑ j ∈ Finset.range P.stateSizeBits, bitsOf ((E.lowmc P).KInv 0) j * (p.tapes.tape.map fun b => bitsOf b j).sum) := by
  refine ⟨fun p hp => ?_, fun p hp => ?_⟩
  · obtain ⟨sk, P, n, buf, sig, len, hE, hsk, rfl, hP, hn, hpad, hR, -, hbl, hs⟩ := zkb_example p hp msg hm
    obtain ⟨S, rounds, h1, -, h2, h3⟩ := C57_zkb_violated zeroEnv hE sk hsk hp P hP _ _ _ _ _ _ hs
    have hWF := paramsWF_of hP
    refine ⟨sk, P, S, rounds, rfl, h1, ?_, fun r hr => ?_⟩
    · intro h
      obtain ⟨P', hP', h3⟩ := getParamSet_zkb hp
      rw [hP] at hP'
      obtain rfl : P = P' := by simpa using hP'
      have := (zkbWF_of hP h3).Tpos
      rw [h, List.length_nil] at h2
      omega
    · obtain ⟨a, b, c, e, h⟩ := h3 r hr
      have := hWF.bytes
      have := hWF.nPos
      exact ⟨a, b, c, e, h 0 (by omega)⟩
  · obtain ⟨E, sk, P, buf, sig, len, S, hE, hI, hsk, rfl, hP, -, -, hb, -, -, hs, -, -⟩ := p3_example p hp msg hm
    obtain ⟨S, preps, online, h1, -, h2, h3, h4⟩ := C57_p3_violated E hE hI sk hsk hp P hP _ _ _ _ _ _ hs
    obtain ⟨P', hP', hi3⟩ := getParamSet_p3 hp
    rw [hP] at hP'
    obtain rfl : P = P' := by simpa using hP'
    have := (p3WF_of hP hi3).Tpos
    refine ⟨E, sk, P, S, preps, online, rfl, h1, h2, h3, by omega, hb, fun t p o hp ho => ?_⟩
    have := (h4 t p o hp ho).2 0 (paramsWF_of hP).nPos
    simpa using this

end Picnic
