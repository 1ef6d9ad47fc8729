import Verif.Props.P3Verify

/-
The hypotheses of the Picnic3 theorems can be met: an environment in which the sampling of the challenge provably terminates,
and a key pair that signs in it.
-/

namespace Picnic

open Spec Spec.Challenge Finset

/-- Four states. -/
def altState (j : ℕ) : Buf := (List.range 200).map fun i => BitVec.ofNat 8 (if i = 0 then 64 + j else i * i * (2 * j + 3) + i * (37 + 10 * j) + i * i * i / 16)

/-- A stand-in for the permutation, with four possible results: number `j + 1` modulo 4 if byte 1 of the input is `j`. -/
def altPerm (s : Buf) : Buf := altState (((s.getD 1 0).toNat + 1) % 4)

/-- The environment. -/
def altEnv : Env := { perm := altPerm, lowmc := idConsts, junk := fun a b c => BitVec.ofNat 8 (a + b + c), fuel := 1000 }

theorem altState_length (j : ℕ) : (altState j).length = 200 := by simp [altState]

theorem altEnv_wf : EnvWF altEnv where
  perm := fun _ _ => altState_length _
  lowmc := exEnv_wf.lowmc

theorem altEnv_inv : InvWF altEnv where
  len := fun p _ P _ => ⟨by simp [altEnv, idConsts, idMatrix], fun r _ => by simp [altEnv, idConsts, idMatrix]⟩
  inv := fun p _ P hP => ⟨idMatrix_inv (paramsWF_of hP), fun r _ => idMatrix_inv (paramsWF_of hP)⟩

/-- Every hash value is the beginning of one of the four states. -/
theorem altEnv_H {P : Params} {p : Byte} {m : Buf} {n : ℕ} (hr : 2 ≤ rateOf P) (hn : n ≤ rateOf P) (hn2 : n ≤ 200) :
    ∃ j < 4, H altEnv P p m n = (altState j).take n := by
  have key : ∃ j < 4, absorbPadded altPerm (rateOf P) (padShake (rateOf P) (prefixBytes p ++ m)) = altState j := by
    unfold absorbPadded
    have hpos : 0 < (padShake (rateOf P) (prefixBytes p ++ m)).length / rateOf P := by
      apply Nat.div_pos _ (by omega)
      unfold padShake
      have := Nat.mod_lt (prefixBytes p ++ m).length (show 0 < rateOf P by omega)
      have := Nat.mod_le (prefixBytes p ++ m).length (rateOf P)
      dsimp only
      split_ifs <;> simp only [List.length_append, List.length_replicate, List.length_cons, List.length_nil] at * <;> omega
    obtain ⟨k, hk⟩ : ∃ k, (padShake (rateOf P) (prefixBytes p ++ m)).length / rateOf P = k + 1 := ⟨_ - 1, (Nat.sub_add_cancel hpos).symm⟩
    rw [hk, List.range_succ, List.foldl_append]
    exact ⟨_, Nat.mod_lt _ (by decide), rfl⟩
  obtain ⟨j, hj, key⟩ := key
  refine ⟨j, hj, ?_⟩
  unfold H shake
  rw [show altEnv.perm = altPerm from rfl, key]
  have hl := altState_length j
  apply List.ext_getElem (by simp [hl]; omega)
  intro i h1 h2
  simp only [List.length_map, List.length_range] at h1
  rw [List.getElem_map, List.getElem_range, streamByte, Nat.div_eq_of_lt (by omega), Nat.mod_eq_of_lt (by omega), iter, List.getElem_take,
    List.getD_eq_getElem _ _ (by omega)]

theorem mem_firsts {l : List ℕ} {x : ℕ} (h : x ∈ l) : x ∈ firsts l := by
  have key : ∀ (l acc : List ℕ), (x ∈ l ∨ x ∈ acc) → x ∈ l.foldl (fun acc x => if x ∈ acc then acc else acc ++ [x]) acc := by
    intro l
    induction l with
    | nil => intro acc h; simpa using h
    | cons a l ih =>
      intro acc h
      rw [List.foldl_cons]
      refine ih _ ?_
      rcases h with h | h
      · rcases List.mem_cons.1 h with h | h
        · subst h
          right
          split_ifs with h'
          · exact h'
          · simp
        · exact Or.inl h
      · right
        split_ifs
        · exact h
        · exact List.mem_append_left _ h
  exact key l [] (Or.inl h)

theorem firsts_length (l : List ℕ) : (firsts l).length = l.toFinset.card := by
  rw [← List.toFinset_card_of_nodup (firsts_nodup l).1]
  congr 1
  ext x
  simp only [List.mem_toFinset]
  exact ⟨(firsts_nodup l).2 x, mem_firsts⟩

/-- The parameters of a Picnic3 parameter set, as far as the challenge is concerned. -/
theorem alt_facts {p : ℕ} {P : Params} (hp : p ∈ picnic3Params) (hP : getParamSet p = some P) :
    ∃ bC, (∀ j, bC ≤ j ↔ P.numMPCRounds ≤ 2 ^ j) ∧ (∀ j, 4 ≤ j ↔ P.numMPCParties ≤ 2 ^ j) ∧ 1 ≤ P.numOpenedRounds ∧ P.digestSizeBytes ≤ rateOf P ∧ P.digestSizeBytes ≤ 200 ∧
      (∀ j < 4, P.numOpenedRounds ≤ (firsts (stream3 bC P.numMPCRounds (nextDigest altEnv P) ((altState j).take P.digestSizeBytes) 3)).length) ∧
      (∀ j < 4, P.numOpenedRounds ≤ (stream3 4 P.numMPCParties (nextDigest altEnv P) ((altState j).take P.digestSizeBytes) 1).length) := by
  have hlog : ∀ b T : ℕ, 2 ^ b < T → T ≤ 2 ^ (b + 1) → ∀ j, b + 1 ≤ j ↔ T ≤ 2 ^ j := by
    intro b T h1 h2 j
    constructor
    · intro h; exact h2.trans (Nat.pow_le_pow_right (by decide) h)
    · intro h
      by_contra hj
      have := Nat.pow_le_pow_right (n := 2) (by decide) (show j ≤ b by omega)
      omega
  simp only [picnic3Params, List.mem_cons, List.not_mem_nil, or_false] at hp
  rcases hp with rfl | rfl | rfl <;> (injection hP with h; subst h)
  · exact ⟨8, hlog 7 _ (by decide) (by decide), hlog 3 _ (by decide) (by decide), by decide, by decide, by decide, by decide +kernel, by decide +kernel⟩
  · exact ⟨9, hlog 8 _ (by decide) (by decide), hlog 3 _ (by decide) (by decide), by decide, by decide, by decide, by decide +kernel, by decide +kernel⟩
  · exact ⟨10, hlog 9 _ (by decide) (by decide), hlog 3 _ (by decide) (by decide), by decide, by decide, by decide, by decide +kernel, by decide +kernel⟩

/-- Every chain of digests has a challenge. -/
theorem altEnv_challenge {p : ℕ} {P : Params} (hp : p ∈ picnic3Params) (hP : getParamSet p = some P) (d : Buf) :
    ∃ C Q, IsChallenge3 P.numMPCRounds P.numMPCParties P.numOpenedRounds (nextDigest altEnv P) d C Q := by
  classical
  obtain ⟨bC, h1, h2, hu, hr, h200, h4, h5⟩ := alt_facts hp hP
  have hnext : ∀ d, ∃ j < 4, nextDigest altEnv P d = (altState j).take P.digestSizeBytes := fun d => altEnv_H (rateOf_two hP) hr h200
  have hex : ∃ k, P.numOpenedRounds ≤ (firsts (stream3 bC P.numMPCRounds (nextDigest altEnv P) d k)).length := by
    obtain ⟨j, hj, e⟩ := hnext d
    refine ⟨4, (h4 j hj).trans ?_⟩
    rw [← e, firsts_length, firsts_length]
    refine card_le_card fun x hx => ?_
    rw [List.mem_toFinset] at hx ⊢
    rw [stream3]
    exact List.mem_append_right _ hx
  have hk := Nat.find_spec hex
  have hmin := fun k' (h : k' < Nat.find hex) => Nat.find_min hex h
  generalize Nat.find hex = k at hk hmin
  obtain ⟨k, rfl⟩ : ∃ i, k = i + 1 := by
    refine ⟨k - 1, ?_⟩
    rcases Nat.eq_zero_or_pos k with rfl | h
    · exfalso
      simp [stream3, firsts] at hk
      omega
    · omega
  have hst : P.numOpenedRounds ≤ (stream3 4 P.numMPCParties (nextDigest altEnv P) ((nextDigest altEnv P)^[k + 1] d) 1).length := by
    rw [Function.iterate_succ_apply']
    obtain ⟨j, hj, e⟩ := hnext ((nextDigest altEnv P)^[k] d)
    rw [e]
    exact h5 j hj
  exact ⟨_, _, bC, 4, k + 1, 1, h1, h2, hk, fun k' h => not_le.1 (hmin k' h), rfl, hst, rfl⟩

/-- In the environment above, with sufficient fuel, for every Picnic3 parameter set some key pair (generated by `picnic_keygen` from
non-zero random bytes) signs a message successfully: the hypotheses of C02, C03, C05, C16, C17, C21, C31 are met; and the
signature is accepted, so those of C15, C17, C18, C31 for verification are met. -/
theorem p3_example_alt (p : ℕ) (hp : p ∈ picnic3Params) (msg : Buf) (hm : msg.length + 200 ≤ 2 ^ 32) :
    ∃ (E : Env) (sk : PrivateKey) (P : Params) (buf sig : Buf) (len : ℕ) (S : Signature2), (∃ N ≥ 1000, E = { altEnv with fuel := N }) ∧
      EnvWF E ∧ InvWF E ∧ sk.Arrays ∧ sk.params = p ∧
      getParamSet p = some P ∧ (∀ d : Buf, ∃ C Q, IsChallenge3 P.numMPCRounds P.numMPCParties P.numOpenedRounds (nextDigest E P) d C Q) ∧
      Relation P (E.lowmc P) sk.data sk.pk.plaintext sk.pk.ciphertext ∧ bitsOf sk.data 0 = 1 ∧
      buf.length = picnicSignatureSize p ∧
      signPicnic3 E P sk.data sk.pk.ciphertext sk.pk.plaintext msg msg.length (allocateSignature2 E P) = Outcome.ok (some S) ∧
      picnicSign E (some sk) msg msg.length buf buf.length = Outcome.ok (0, sig, len) ∧
      picnicVerify E (some { sk.pk with params := p }) msg msg.length (sig.take len) (sig.take len).length = Outcome.ok 0 ∧
      deserializeSignature2 E P (allocateSignature2 E P) (sig.take len) (sig.take len).length = Outcome.ok (some S) := by
  obtain ⟨P, hP, hi3⟩ := getParamSet_p3 hp
  have hn := blockBits_of hP
  have hWF := paramsWF_of hP
  have hpos := hWF.nPos
  obtain ⟨pk, sk, e, h1, h2, rfl, h5, h6, h7, h8, -, h10⟩ := C07_keygen altEnv altEnv_wf (fun _ n => some (List.replicate n 0xff))
    (fun k n r h => by injection h with h; subst h; simp) p P.stateSizeBits hn ⟨0, [], []⟩ PrivateKey.zero _ _ rfl rfl
  have hR : Relation P (altEnv.lowmc P) sk.data sk.pk.plaintext sk.pk.ciphertext := by
    obtain ⟨r, hr, -, hiff⟩ := C08_validate altEnv altEnv_wf sk sk.pk h6 h5
    rw [h10] at hr
    obtain ⟨-, P', hP', hR⟩ := hiff.1 (by simpa using hr.symm)
    rw [h1, hP] at hP'
    obtain rfl : P = P' := by simpa using hP'
    exact hR
  obtain ⟨N0, hN⟩ := (C03_p3 altEnv altEnv_wf altEnv_inv sk h6 (h2 ▸ hp) P (h2 ▸ hP) hR msg msg.length le_rfl hm
    (zeros (picnicSignatureSize p)) (zeros (picnicSignatureSize p)).length le_rfl (by rw [h2]; simp)).2 fun d _ => altEnv_challenge hp hP d
  obtain ⟨N, hN0⟩ : ∃ N, N = N0 + 1000 := ⟨_, rfl⟩
  have hEW : EnvWF { altEnv with fuel := N } := ⟨altEnv_wf.perm, altEnv_wf.lowmc⟩
  have hIW : InvWF { altEnv with fuel := N } := ⟨altEnv_inv.len, altEnv_inv.inv⟩
  rcases (C03_p3 { altEnv with fuel := N } hEW hIW sk h6 (h2 ▸ hp) P (h2 ▸ hP) hR msg msg.length le_rfl hm
    (zeros (picnicSignatureSize p)) (zeros (picnicSignatureSize p)).length le_rfl (by rw [h2]; simp)).1 with h | ⟨sig, len, h, hle, hsl⟩
  · exact absurd h (hN N (by omega))
  obtain ⟨S, hS⟩ : ∃ S, signPicnic3 { altEnv with fuel := N } P sk.data sk.pk.ciphertext sk.pk.plaintext msg msg.length
      (allocateSignature2 { altEnv with fuel := N } P) = Outcome.ok (some S) := by
    simp only [picnicSign, deref, pure_eq_ok, ok_bind, h2, hP, hi3, Bool.not_true] at h
    rw [if_neg (by simp)] at h
    cases hs : signPicnic3 { altEnv with fuel := N } P sk.data sk.pk.ciphertext sk.pk.plaintext msg msg.length
      (allocateSignature2 { altEnv with fuel := N } P) with
    | ok o =>
      cases o with
      | none => rw [hs] at h; exact absurd h (by simp)
      | some S => exact ⟨S, rfl⟩
    | ub u => rw [hs] at h; cases h
    | diverge => rw [hs] at h; cases h
    | _ => rw [hs] at h; cases h
  have hlen : (sig.take len).length = len := by
    rw [List.length_take, hsl]
    simp only [zeros_length]
    rw [h2] at hle
    omega
  refine ⟨{ altEnv with fuel := N }, sk, P, _, sig, len, S, ⟨N, by omega, rfl⟩, hEW, hIW, h6, h2, hP, altEnv_challenge hp hP, hR, ?_, by simp, hS, h, ?_, ?_⟩
  · rw [h7, if_pos hpos]
    obtain ⟨m, hm⟩ : ∃ m, bytesFor P.stateSizeBits = m + 1 := ⟨bytesFor P.stateSizeBits - 1, by unfold bytesFor; omega⟩
    rw [hm, List.replicate_succ]
    change byteBit (0xff : Byte) _ = 1
    decide
  · rw [hlen]
    exact C02_sign_verify { altEnv with fuel := N } hEW hIW altEnv.junk N le_rfl sk h6 (h2 ▸ hp) P.stateSizeBits (h2 ▸ hn) msg msg.length le_rfl hm
      _ _ le_rfl sig len h { sk.pk with params := p } ⟨h5.pt, h5.ct⟩ h2.symm rfl rfl (sig.take len) (by rw [List.take_take, Nat.min_self]) (by omega)
  · rw [hlen]
    exact C16_p3_sign { altEnv with fuel := N } hEW hIW sk h6 (h2 ▸ hp) P (h2 ▸ hP) msg msg.length le_rfl hm S hS _ _ le_rfl sig len h altEnv.junk
      (sig.take len) (by rw [List.take_take, Nat.min_self]) (by omega)

/-- There is an environment in which, for every Picnic3 parameter set, some key pair signs a message successfully. -/
theorem p3_example (p : ℕ) (hp : p ∈ picnic3Params) (msg : Buf) (hm : msg.length + 200 ≤ 2 ^ 32) :
    ∃ (E : Env) (sk : PrivateKey) (P : Params) (buf sig : Buf) (len : ℕ) (S : Signature2), EnvWF E ∧ InvWF E ∧ sk.Arrays ∧ sk.params = p ∧
      getParamSet p = some P ∧ (∀ d : Buf, ∃ C Q, IsChallenge3 P.numMPCRounds P.numMPCParties P.numOpenedRounds (nextDigest E P) d C Q) ∧
      Relation P (E.lowmc P) sk.data sk.pk.plaintext sk.pk.ciphertext ∧ bitsOf sk.data 0 = 1 ∧
      buf.length = picnicSignatureSize p ∧
      signPicnic3 E P sk.data sk.pk.ciphertext sk.pk.plaintext msg msg.length (allocateSignature2 E P) = Outcome.ok (some S) ∧
      picnicSign E (some sk) msg msg.length buf buf.length = Outcome.ok (0, sig, len) ∧
      picnicVerify E (some { sk.pk with params := p }) msg msg.length (sig.take len) (sig.take len).length = Outcome.ok 0 ∧
      deserializeSignature2 E P (allocateSignature2 E P) (sig.take len) (sig.take len).length = Outcome.ok (some S) := by
  obtain ⟨E, sk, P, buf, sig, len, S, -, h⟩ := p3_example_alt p hp msg hm
  exact ⟨E, sk, P, buf, sig, len, S, h⟩

end Picnic
