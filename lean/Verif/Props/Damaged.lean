import Verif.Props.P3Example
import Verif.Props.Keys

/-
C55: signing with a stored key that has been damaged.
-/

namespace Picnic

open Spec

theorem validParams_cases {p n : ℕ} (h : blockBits p = some n) : p ∈ zkbParams ∨ p ∈ picnic3Params := by
  unfold blockBits at h
  split at h <;> first | decide | cases h

/-- C55: let `picnic_read_private_key` accept a byte string (of any origin).  If `picnic_validate_keypair` rejects the key, then
`picnic_sign` returns -1 and writes nothing, whatever the message and the buffer.  If `picnic_sign` returns 0, then
`picnic_validate_keypair` accepts the key and `picnic_verify` accepts the signature with the public key that is stored in it. -/
theorem C55_read_sign (E : Env) (hE : EnvWF E) (hI : InvWF E) (file : Buf) (flen : ℕ) (hf : flen ≤ file.length) (dst sk : PrivateKey)
    (hr : picnicReadPrivateKey (some dst) (some file) flen = Outcome.ok (0, some sk))
    (msg : Buf) (mlen : ℕ) (hm : mlen ≤ msg.length) (hm32 : mlen + 200 ≤ 2 ^ 32) (buf : Buf) (slen : ℕ) (hbuf : slen ≤ buf.length) :
    (picnicValidateKeypair E (some sk) (some sk.pk) ≠ Outcome.ok 0 → picnicSign E (some sk) msg mlen buf slen = Outcome.ok (-1, buf, slen)) ∧
    ∀ sig len, picnicSign E (some sk) msg mlen buf slen = Outcome.ok (0, sig, len) →
      picnicValidateKeypair E (some sk) (some sk.pk) = Outcome.ok 0 ∧ picnicVerify E (some sk.pk) msg mlen sig len = Outcome.ok 0 := by
  obtain ⟨r, key', h1, -, -, h2⟩ := C12_read_private_key dst file flen hf
  rw [hr] at h1
  simp only [Outcome.ok.injEq, Prod.mk.injEq, Option.some.injEq] at h1
  obtain ⟨rfl, rfl⟩ := h1
  obtain ⟨n, hn, hpp, ⟨n', rest, hn', -, -, -, -, hz, -, -⟩, ha, -⟩ := h2 rfl
  obtain rfl : n = n' := Option.some.inj (hn.symm.trans hn')
  obtain ⟨P, hP, rfl⟩ := getParamSet_of hn
  have hpad : ZeroPad P.stateSizeBits sk.data := fun i h1 h2 => by
    rw [← hz i h1 h2, msbBit, msbBit, List.getD_eq_getElem?_getD, List.getD_eq_getElem?_getD, List.getElem?_take, if_pos (by omega)]
  obtain ⟨r, e, ho, hv⟩ := C08_validate E hE sk sk.pk ha ha.pk
  have hv' : r = 0 ↔ Relation P (E.lowmc P) sk.data sk.pk.plaintext sk.pk.ciphertext := by
    rw [hv, hpp, hP]
    simp
  have hmis : r ≠ 0 → picnicSign E (some sk) msg mlen buf slen = Outcome.ok (-1, buf, slen) := fun h => by
    rcases validParams_cases hn with hp | hp
    · exact C22_mismatch E hE sk ha hp P hP (fun hR => h (hv'.2 hR)) msg mlen hm hm32 buf slen hbuf
    · exact (C21_sign E hE hI sk ha hp P hP msg mlen hm hm32 buf slen hbuf).1 fun hR => h (hv'.2 hR)
  refine ⟨fun h => hmis fun h0 => h (by rw [e, h0]), fun sig len hs => ?_⟩
  have h0 : r = 0 := by
    by_contra h
    rw [hmis h] at hs
    simp at hs
  refine ⟨by rw [e, h0], ?_⟩
  have hlen : len ≤ sig.length := by
    rcases validParams_cases hn with hp | hp
    · rcases (C05_zkb E hE sk ha hp msg mlen hm hm32 buf slen hbuf 0 sig len hs).1 with h | h <;> omega
    · rcases (C05_p3 E hE hI sk ha hp msg mlen hm hm32 buf slen hbuf 0 sig len hs).1 with h | h <;> omega
  rcases validParams_cases hn with hp | hp
  · exact C01_sign_verify E hE E.junk E.fuel le_rfl sk ha hp _ hn hpad msg mlen hm hm32 buf slen hbuf sig len hs sk.pk ha.pk hpp rfl rfl sig rfl hlen
  · exact C02_sign_verify E hE hI E.junk E.fuel le_rfl sk ha hp _ hn msg mlen hm hm32 buf slen hbuf sig len hs sk.pk ha.pk hpp rfl rfl sig rfl hlen

/-- For every parameter set there are byte strings that are accepted although the key is not valid. -/
theorem C55_example (E : Env) (hE : EnvWF E) (p n : ℕ) (hn : blockBits p = some n) (dst : PrivateKey) : ∃ (file : Buf) (sk : PrivateKey),
    picnicReadPrivateKey (some dst) (some file) file.length = Outcome.ok (0, some sk) ∧ sk.params = p ∧
      picnicValidateKeypair E (some sk) (some sk.pk) ≠ Outcome.ok 0 := by
  obtain ⟨P, hP, rfl⟩ := getParamSet_of hn
  have hWF := paramsWF_of hP
  have hpos : 8 ≤ P.stateSizeBits := by
    unfold blockBits at hn
    split at hn <;> simp only [Option.some.injEq, reduceCtorEq] at hn <;> omega
  have h12 : ∀ q m, blockBits q = some m → q < 256 := fun q m h => by
    unfold blockBits at h
    split at h <;> simp only [Option.some.injEq, reduceCtorEq] at h <;> omega
  obtain ⟨m, hm⟩ : ∃ m, bytesFor P.stateSizeBits = m + 1 := ⟨bytesFor P.stateSizeBits - 1, by rw [bytesFor]; omega⟩
  have hzp : ∀ k, ZeroPad P.stateSizeBits (zeros k) := fun k i _ _ => by
    rw [msbBit, List.getD_eq_getElem?_getD, zeros, List.getElem?_replicate]
    split_ifs <;> simp
  have hk : ∀ c, ∃ (file : Buf) (sk : PrivateKey), picnicReadPrivateKey (some dst) (some file) file.length = Outcome.ok (0, some sk) ∧ sk.params = p ∧
      sk.pk.params = p ∧ bitsOf sk.data = 0 ∧ bitsOf sk.pk.plaintext = 0 ∧ bitsOf sk.pk.ciphertext 0 = byteBit c 0 ∧ sk.Arrays := by
    intro c
    let file : Buf := BitVec.ofNat 8 p :: (zeros (m + 1) ++ (c :: zeros m) ++ zeros (m + 1))
    obtain ⟨r, sk, h1, -, h2, h3⟩ := C12_read_private_key dst file file.length le_rfl
    have hr : r = 0 := h2.2 ⟨p, zeros (m + 1), c :: zeros m, zeros (m + 1), P.stateSizeBits, [], hn, by rw [List.take_length]; simp [file], by simp [hm], by simp [hm],
      by simp [hm], hzp _, fun i h1 h2 => by
        obtain ⟨j, hj⟩ : ∃ j, i / 8 = j + 1 := ⟨i / 8 - 1, by omega⟩
        rw [msbBit, hj, List.getD_cons_succ, List.getD_eq_getElem?_getD, zeros, List.getElem?_replicate]
        split_ifs <;> simp, hzp _⟩
    subst hr
    obtain ⟨n', hn', hpp, ⟨n'', rest, hn'', he, l1, l2, l3, -⟩, ha, d1, d2, d3⟩ := h3 rfl
    rw [List.take_length] at he
    simp only [file, List.cons.injEq] at he
    have hpq : sk.params = p := by
      have := congrArg BitVec.toNat he.1
      rw [BitVec.toNat_ofNat, BitVec.toNat_ofNat, Nat.mod_eq_of_lt (h12 _ _ hn), Nat.mod_eq_of_lt (h12 _ _ hn')] at this
      exact this.symm
    rw [hpq, hn] at hn' hn''
    obtain rfl := Option.some.inj hn'
    obtain rfl := Option.some.inj hn''
    rw [hm] at l1 l2 l3 d1 d2 d3
    have he := he.2
    rw [hm, List.append_assoc, List.append_assoc, List.append_assoc] at he
    obtain ⟨e1, he⟩ := List.append_inj he (by simp [l1])
    obtain ⟨e2, he⟩ := List.append_inj he (by simp [l2])
    rw [← List.append_nil (zeros (m + 1))] at he
    obtain ⟨e3, -⟩ := List.append_inj he (by simp [l3])
    have hx : ∀ b : Buf, b.take (m + 1) = zeros (m + 1) → b.drop (m + 1) = List.replicate (32 - (m + 1)) 0 → bitsOf b = 0 := fun b h h' => by
      rw [← List.take_append_drop (m + 1) b, h, h']
      funext i
      have : zeros (m + 1) ++ List.replicate (32 - (m + 1)) 0 = zeros ((m + 1) + (32 - (m + 1))) := by
        rw [zeros, zeros, List.replicate_append_replicate]
      rw [this, bitsOf_zeros]
      rfl
    refine ⟨file, sk, h1, hpq, hpp.trans hpq, hx _ e1.symm d1, hx _ e3.symm d3, ?_, ha⟩
    rw [← bitsOf_take (b := sk.pk.ciphertext) (n := m + 1) (by omega), ← e2]
    rfl
  obtain ⟨f0, s0, a1, a2, a3, a4, a5, a6, a7⟩ := hk 0
  obtain ⟨f1, s1, b1, b2, b3, b4, b5, b6, b7⟩ := hk 0x80
  by_contra hne
  push Not at hne
  have h0 := hne f0 s0 a1 a2
  have h1 := hne f1 s1 b1 b2
  obtain ⟨r, e, -, hv⟩ := C08_validate E hE s0 s0.pk a7 a7.pk
  obtain ⟨r', e', -, hv'⟩ := C08_validate E hE s1 s1.pk b7 b7.pk
  rw [h0] at e
  rw [h1] at e'
  obtain rfl := Outcome.ok.inj e
  obtain rfl := Outcome.ok.inj e'
  obtain ⟨-, P0, hP0, hR0⟩ := hv.1 rfl
  obtain ⟨-, P1, hP1, hR1⟩ := hv'.1 rfl
  rw [a3, hP] at hP0
  rw [b3, hP] at hP1
  obtain rfl := Option.some.inj hP0
  obtain rfl := Option.some.inj hP1
  have g0 := hR0 0 (by rw [bytesFor]; omega)
  have g1 := hR1 0 (by rw [bytesFor]; omega)
  rw [a4, a5, a6] at g0
  rw [b4, b5, b6, ← g0] at g1
  revert g1
  decide

end Picnic
