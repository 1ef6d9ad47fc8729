import Verif.Proofs.Extract3Api
import Verif.Props.Conform3

/-
C39: Picnic3 is a proof of knowledge of the secret key.
-/

namespace Picnic

open Spec Spec.Picnic3

/-- C39: let three transcripts with the same salt pass the checks, with the same root of the Merkle tree and the same digest of
commitments for repetition `t`.  Let `a` and `b` open repetition `t` with different unopened parties, and let `c` open its
preprocessing.  Then there is a collision among the strings that are hashed for repetition `t`, or the masked key of `a` plus the
mask of the key in `c` is a secret key. -/
theorem C39_extract (I : Inst) (p : ℕ) (hI : I.Is p) (ct pt salt : Buf) (a b c : Transcript) (ha : I.Accepts ct pt salt a)
    (hb : I.Accepts ct pt salt b) (hc : I.Accepts ct pt salt c) (t : ℕ) (hta : t ∈ a.C) (htb : t ∈ b.C) (ht : t < I.T) (htc : t ∉ c.C)
    (hid : hid a.C a.Q t ≠ hid b.C b.Q t) (hab : I.SameFirst t a b) (hac : I.SameFirst t a c) :
    I.Broken salt t a b c ∨ ∃ κ, I.Prepared salt t (c.v t) κ ∧
      ∀ i < I.X.n, I.X.enc (Picnic1.toBits (a.v t).key + κ) (Picnic1.toBits pt) i = Picnic1.toBits ct i := by
  by_cases hbr : I.Broken salt t a b c
  · exact Or.inl hbr
  refine Or.inr ?_
  have hn : I.X.n = 3 * I.X.m := by
    unfold Picnic3.Inst.Is table at hI
    split at hI <;> simp only [Option.some.injEq, Prod.mk.injEq, reduceCtorEq] at hI <;> omega
  have n1 : ∀ τ ∈ [a, b, c], ∀ τ' ∈ [a, b, c], ¬ I.Collide (comString (τ.v t)) (comString (τ'.v t)) := fun τ h τ' h' e => hbr (.com τ τ' h h' e)
  have n2 : ∀ τ ∈ [a, b, c], ∀ τ' ∈ [a, b, c], ∀ j < 16, τ.Opens t j → τ'.Opens t j →
      ¬ I.Collide (commitString salt t (τ.v t) j) (commitString salt t (τ'.v t) j) := fun τ h τ' h' j hj o o' e => hbr (.commit τ τ' j h h' hj o o' e)
  have ma : a ∈ [a, b, c] := by simp
  have mb : b ∈ [a, b, c] := by simp
  have mc : c ∈ [a, b, c] := by simp
  have oc : ∀ j, c.Opens t j := fun j h => absurd h htc
  have hm : msgString (a.v t) = msgString (b.v t) := by
    by_contra hne
    exact hbr (.msg ⟨hne, same_leaf ha hb hta htb hab.1 fun k h1 h2 e => hbr (.node k h1 h2 e)⟩)
  obtain ⟨hk, hms⟩ := same_msgs ha hb hta htb hm
  obtain ⟨-, ⟨κ, hκ⟩, -⟩ := hc.1.2.1 t ht htc
  obtain ⟨-, -, w, hw⟩ := id hκ
  refine ⟨κ, hκ, fun i hi => ?_⟩
  have hs : ∀ j < 16, I.Sends pt (I.share salt t (c.v t)) (a.v t) j := by
    intro j hj
    by_cases hja : j = Picnic3.hid a.C a.Q t
    · have ob : b.Opens t j := fun _ e => hid (hja.symm.trans e)
      have hsame := same_party hb hc ht (hab.2.symm.trans hac.2) (n1 b mb c mc) (n2 b mb c mc) hj ob (oc j)
      exact sends_congr hk.symm (fun j hj => (hms j hj).symm) hj (share_same hsame) ((hb.1.2.2.1 t htb).2.2.1 j hj (ob htb)).1
    · have oa : a.Opens t j := fun _ e => hja e
      have hsame := same_party ha hc ht hac.2 (n1 a ma c mc) (n2 a ma c mc) hj oa (oc j)
      exact sends_congr rfl (fun _ _ => rfl) hj (share_same hsame) ((ha.1.2.2.1 t hta).2.2.1 j hj hja).1
  rw [← result_enc hn hw hs i hi, (ha.1.2.2.1 t hta).2.2.2]

/-- C39 for accepted signatures: every byte string that `picnic_verify` accepts has a transcript, and for three accepted byte
strings (for the same public key, and any messages) and their transcripts the extraction of C39 yields a secret key for the public
key, unless there is a collision. -/
theorem C39_p3 (E : Env) (hE : EnvWF E) (hI : InvWF E) (pk : PublicKey) (hpk : pk.Arrays) (hp : pk.params ∈ picnic3Params) (P : Params)
    (hP : getParamSet pk.params = some P) (I : Picnic3.Inst) (hIs : I.Is pk.params) (hf : I.Shake E.perm)
    (hX : I.X = lowmcOf P (E.lowmc P)) (msg b : ℕ → Buf) (hm : ∀ c < 3, (msg c).length + 200 ≤ 2 ^ 32)
    (hacc : ∀ c < 3, picnicVerify E (some pk) (msg c) (msg c).length (b c) (b c).length = Outcome.ok 0) :
    (∀ c < 3, ∃ salt τ, I.TranscriptOf (pk.ciphertext.take I.blk) (pk.plaintext.take I.blk) (msg c) (b c) salt τ) ∧
    ∀ (salt : Buf) (τ : ℕ → Transcript),
      (∀ c < 3, I.TranscriptOf (pk.ciphertext.take I.blk) (pk.plaintext.take I.blk) (msg c) (b c) salt (τ c)) →
      ∀ t < I.T, t ∈ (τ 0).C → t ∈ (τ 1).C → t ∉ (τ 2).C → hid (τ 0).C (τ 0).Q t ≠ hid (τ 1).C (τ 1).Q t →
        I.SameFirst t (τ 0) (τ 1) → I.SameFirst t (τ 0) (τ 2) →
        I.Broken salt t (τ 0) (τ 1) (τ 2) ∨ ∃ κ, I.Prepared salt t ((τ 2).v t) κ ∧
          Relation P (E.lowmc P) (Picnic1.ofBits I.blk (Picnic1.toBits ((τ 0).v t).key + κ)) pk.plaintext pk.ciphertext := by
  obtain ⟨P', hP', hi3⟩ := getParamSet_p3 hp
  have hWF := paramsWF_of hP
  have hb := hWF.bytes
  have hpl := hpk.pt
  have hcl := hpk.ct
  have hnM := hWF.nMax
  have h3 := p3WF_of hP hi3
  obtain rfl := inst3_of hP hIs hf hX
  constructor
  · intro c hc
    have := C38_verify_sound E hE hI pk hpk hp P hP _ hIs hf hX (msg c) (msg c).length le_rfl (hm c hc) (b c) (hacc c hc)
    rw [List.take_length] at this
    obtain ⟨salt, s, h, v, C, Q, h1, h2, h3, h4⟩ := this
    exact ⟨salt, ⟨s, h, v, C, Q⟩, h1, h2, h3, h4⟩
  · intro salt τ hτ t ht h0 h1 h2 hne hs1 hs2
    have hA : ∀ c < 3, (inst3 E P).Accepts (pk.ciphertext.take (inst3 E P).blk) (pk.plaintext.take (inst3 E P).blk) salt (τ c) := fun c hc => by
      obtain ⟨-, a2, a3, -⟩ := hτ c hc
      have hcw := isChallenge3_wf ((challenge3_iff h3).1 a3)
      exact ⟨a2, fun t ht => ⟨hcw.ltC t ht, (hid_lt h3 hcw ht).2⟩⟩
    rcases C39_extract _ _ hIs _ _ salt (τ 0) (τ 1) (τ 2) (hA 0 (by omega)) (hA 1 (by omega)) (hA 2 (by omega)) t h0 h1 ht h2 hne hs1 hs2 with h | ⟨κ, hκ, he⟩
    · exact Or.inl h
    refine Or.inr ⟨κ, hκ, ?_⟩
    have hres := ((hA 0 (by omega)).1.2.2.1 t h0).2.2.2
    rw [← relation_iff hWF (by omega)]
    rw [inst3_blk hWF] at he hres ⊢
    refine buf_ext (by rw [ofBits_length, List.length_take]; omega) fun i hi => ?_
    rw [ofBits_length] at hi
    rw [bitsOf_ofBits _ hi]
    by_cases hin : i < P.stateSizeBits
    · have := he i hin
      rw [toBits_eq, toBits_eq, toBits_eq] at this
      rw [← this]
      change _ = (lowmcOf P (E.lowmc P)).enc _ _ i
      refine congrFun (enc_congr hWF (fun i hi => ?_) (fun i hi => (bitsOf_take (by omega)).symm)) i
      rw [ofBits_eq, bitsOf_ofBits _ (by omega), toBits_eq]
    · rw [← hres, result_ge hWF (by omega), enc_ge hWF.rounds (by omega)]

/-- What an honest signer computes passes the checks for every challenge. -/
theorem p3_honest_accepts (p : ℕ) (hp : p ∈ picnic3Params) : ∃ (I : Inst) (ct pt salt : Buf) (s h : ℕ → Buf) (v : ℕ → Round), I.Is p ∧
    ∀ C Q, (∀ t ∈ C, t < I.T ∧ hid C Q t < 16) → I.Accepts ct pt salt ⟨s, h, v, C, Q⟩ := by
  obtain ⟨E, sk, P, buf, sig, len, S, h1, h2, h3, rfl, h5, h6, h7, h8, h9, h10, h11, h12, h13⟩ := p3_example p hp [] (by simp)
  obtain ⟨P', hP', hi3⟩ := getParamSet_p3 hp
  have hWF := paramsWF_of h5
  have h3P := p3WF_of h5 hi3
  obtain ⟨s, ⟨ss, h, v, κ, C, Q, hS, hv, hM, -, -⟩, -, -⟩ :=
    C38_sign E h1 h2 sk h3 hp P h5 (inst3 E P) (inst3_is E hp h5) (fun _ _ => rfl) rfl [] 0 le_rfl (by simp) buf buf.length le_rfl sig len h11
  have hT : 2 ≤ (inst3 E P).T := le_trans (by decide) h3P.Tpos
  have hn := hWF.nMax
  have hb := hWF.bytes
  have hkl := h3.data
  have hcl := h3.pk.ct
  have hpl := h3.pk.pt
  generalize List.take 32 _ = salt at hS hv hM
  have key : ∀ C Q, (∀ t ∈ C, t < (inst3 E P).T ∧ hid C Q t < 16) →
      (inst3 E P).Accepts (sk.pk.ciphertext.take (inst3 E P).blk) (sk.pk.plaintext.take (inst3 E P).blk) salt ⟨ss, h, v, C, Q⟩ := fun C Q hC => by
    refine honest_checks (κ := κ) hT hS (fun t ht => ?_) hM hC
    obtain ⟨v1, v2, v3, v4⟩ := hv t ht
    obtain ⟨-, -, w, hw⟩ := id v2
    exact ⟨v1, v2, by rw [v3, ofBits_eq, ofBits_length],
      honest_result hWF h3P (by omega) (by omega) (by omega) h7 hw v3 (fun j hj => (v4 j hj).1), v4⟩
  exact ⟨inst3 E P, _, _, salt, ss, h, v, inst3_is E hp h5, key⟩

/-- The hypotheses of C39 can be met: what an honest signer computes passes the checks for every challenge.  Here two parties of
repetition 0 are left unopened in turn, and then its preprocessing is opened. -/
theorem C39_example (p : ℕ) (hp : p ∈ picnic3Params) : ∃ (I : Inst) (ct pt salt : Buf) (a b c : Transcript), I.Is p ∧
    I.Accepts ct pt salt a ∧ I.Accepts ct pt salt b ∧ I.Accepts ct pt salt c ∧ 0 ∈ a.C ∧ 0 ∈ b.C ∧ 0 < I.T ∧ 0 ∉ c.C ∧
    hid a.C a.Q 0 ≠ hid b.C b.Q 0 ∧ I.SameFirst 0 a b ∧ I.SameFirst 0 a c ∧ ¬ I.Broken salt 0 a b c := by
  obtain ⟨I, ct, pt, salt, ss, h, v, hIs, key⟩ := p3_honest_accepts p hp
  have hT : 2 ≤ I.T := by
    unfold Picnic3.Inst.Is table at hIs
    split at hIs <;> simp only [Option.some.injEq, Prod.mk.injEq, reduceCtorEq] at hIs <;> omega
  refine ⟨I, ct, pt, salt, ⟨ss, h, v, [0], [0]⟩, ⟨ss, h, v, [0], [1]⟩, ⟨ss, h, v, [1], [0]⟩, hIs, key _ _ ?_, key _ _ ?_, key _ _ ?_, by simp, by simp,
    by omega, by simp, by simp [hid], ⟨rfl, rfl⟩, ⟨rfl, rfl⟩, ?_⟩
  · intro t ht; rw [List.mem_singleton] at ht; subst ht; exact ⟨by omega, by simp [hid]⟩
  · intro t ht; rw [List.mem_singleton] at ht; subst ht; exact ⟨by omega, by simp [hid]⟩
  · intro t ht; rw [List.mem_singleton] at ht; subst ht; exact ⟨by omega, by simp [hid]⟩
  · rintro (⟨τ, τ', j, m, m', -, -, -, hne, -⟩ | ⟨τ, τ', m, m', hne, -⟩ | ⟨hne, -⟩ | ⟨k, -, -, hne, -⟩)
    · have : ∀ τ ∈ [(⟨ss, h, v, [0], [0]⟩ : Transcript), ⟨ss, h, v, [0], [1]⟩, ⟨ss, h, v, [1], [0]⟩], τ.v = v := by simp
      exact hne (by rw [this _ m, this _ m'])
    · have : ∀ τ ∈ [(⟨ss, h, v, [0], [0]⟩ : Transcript), ⟨ss, h, v, [0], [1]⟩, ⟨ss, h, v, [1], [0]⟩], τ.v = v := by simp
      exact hne (by rw [this _ m, this _ m'])
    · exact hne rfl
    · exact hne rfl

end Picnic
