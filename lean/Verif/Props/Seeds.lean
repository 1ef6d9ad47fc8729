import Verif.Props.P3Sign

/-
C32 for Picnic3: the string from which the salt and the root seed are derived.
-/

namespace Picnic

open Spec

/-- C32 for Picnic3: salt and root seed are the output of SHAKE on the string secret key ‖ message ‖ ciphertext ‖ plaintext ‖
block size (16 bits, little endian), for all (secret, message, public key), and no two different triples give the same string.
(That signing is a function of these data is `C31_p3_sign`.) -/
theorem C32_p3_seed_input (E : Env) (hE : EnvWF E) (p : ℕ) (hp : p ∈ picnic3Params) (P : Params) (hP : getParamSet p = some P) :
    (∀ dst sk ct pt msg : Buf, ∀ mlen, sk.length = 32 → ct.length = 32 → pt.length = 32 → mlen ≤ msg.length → mlen + 200 ≤ 2 ^ 32 →
      dst.length = P.saltSizeBytes + P.seedSizeBytes →
      computeSaltAndRootSeed E P dst (P.saltSizeBytes + P.seedSizeBytes) sk ct pt msg mlen = Outcome.ok
        (shake E.perm (rateOf P) (sk.take P.stateSizeBytes ++ msg.take mlen ++ ct.take P.stateSizeBytes ++ pt.take P.stateSizeBytes ++
          [BitVec.ofNat 8 (P.stateSizeBits % 256), BitVec.ofNat 8 (P.stateSizeBits / 256)]) (P.saltSizeBytes + P.seedSizeBytes))) ∧
    (∀ sk ct pt msg sk' ct' pt' msg' z : Buf, sk.length = P.stateSizeBytes → ct.length = P.stateSizeBytes →
      pt.length = P.stateSizeBytes → sk'.length = P.stateSizeBytes → ct'.length = P.stateSizeBytes →
      pt'.length = P.stateSizeBytes → sk ++ msg ++ ct ++ pt ++ z = sk' ++ msg' ++ ct' ++ pt' ++ z →
      sk = sk' ∧ ct = ct' ∧ pt = pt' ∧ msg = msg') := by
  obtain ⟨P', hP', hi3⟩ := getParamSet_p3 hp
  rw [hP] at hP'
  obtain rfl : P = P' := by simpa using hP'
  have h3 := p3WF_of hP hi3
  have hWF := paramsWF_of hP
  have hb := hWF.bytes
  have hn := hWF.nMax
  have hsd := h3.seed
  have hst := h3.salt
  refine ⟨?_, ?_⟩
  · intro dst sk ct pt msg mlen h1 h2 h4 hm hm32 hd
    unfold computeSaltAndRootSeed
    rw [hashAll_ok hE.perm (by
      intro q hq
      simp only [List.mem_cons, List.not_mem_nil, or_false, intLE_eq] at hq
      rcases hq with rfl | rfl | rfl | rfl | rfl <;> simp <;> omega) (by omega), ok_bind]
    simp only [List.flatMap_cons, List.flatMap_nil, List.append_nil, intLE_eq]
    rw [List.take_of_length_le (le16_length _).le, wrN_full (by rw [H_length, hd])]
    have h256 : le16 P.stateSizeBits = [BitVec.ofNat 8 (P.stateSizeBits % 256), BitVec.ofNat 8 (P.stateSizeBits / 256)] := by
      simp only [picnic3Params, List.mem_cons, List.not_mem_nil, or_false] at hp
      rcases hp with rfl | rfl | rfl <;> (injection hP with hP; subst hP; decide)
    rw [h256]
    simp only [H, ← List.append_assoc]
    rfl
  · intro sk ct pt msg sk' ct' pt' msg' z h1 h2 h4 h1' h2' h4' h
    rw [List.append_left_inj] at h
    obtain ⟨h, r1⟩ := List.append_inj' h (by omega)
    obtain ⟨h, r2⟩ := List.append_inj' h (by omega)
    obtain ⟨r3, r4⟩ := List.append_inj h (by omega)
    exact ⟨r3, r2, r1, r4⟩

end Picnic
