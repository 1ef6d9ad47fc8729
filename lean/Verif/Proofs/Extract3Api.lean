import Verif.Proofs.Extract3
import Verif.Props.Conform3

/-
The result of a repetition of Picnic3, for the instance of the specification that belongs to the model.
-/

namespace Picnic

open Spec Spec.Picnic3

theorem result_ge {E : Env} {P : Params} (hP : ParamsWF P) {pt : Buf} {v : Round} {i : ℕ} (hi : P.stateSizeBits ≤ i) :
    bitsOf ((inst3 E P).result pt v) i = 0 := by
  have hR := hP.rounds
  rw [Picnic3.Inst.result, ofBits_eq]
  by_cases h8 : i < 8 * (inst3 E P).blk
  · rw [bitsOf_ofBits _ h8]
    change (inst3 E P).public _ _ _ P.numRounds i = 0
    obtain ⟨r, hr⟩ : ∃ r, P.numRounds = r + 1 := ⟨P.numRounds - 1, by omega⟩
    rw [hr, Picnic3.Inst.public]
    simp only [Pi.add_apply]
    rw [mulVec_ge (by exact hi), mulVec_ge (by exact hi)]
    change 0 + trunc P.stateSizeBits _ i + 0 = 0
    rw [trunc, if_neg (by omega), add_zero, add_zero]
  · exact bitsOf_ge (by rw [ofBits_length]; omega)

/-- The result of an honestly computed repetition is the ciphertext. -/
theorem honest_result {E : Env} {P : Params} (hP : ParamsWF P) (h3 : P3WF P) {sk pt ct : Buf} (hk : P.stateSizeBytes ≤ sk.length)
    (hpl : P.stateSizeBytes ≤ pt.length) (hct : P.stateSizeBytes ≤ ct.length) (hR : Relation P (E.lowmc P) sk pt ct) {sh : ℕ → Bits} {κ : Bits}
    {w : ℕ → Bits} (hm : (inst3 E P).Masks sh κ w) {v : Round}
    (hkey : v.key = Picnic1.ofBits (inst3 E P).blk (Picnic1.toBits (sk.take (inst3 E P).blk) + trunc (inst3 E P).X.n κ))
    (hs : ∀ j < 16, (inst3 E P).Sends (pt.take (inst3 E P).blk) sh v j) :
    (inst3 E P).result (pt.take (inst3 E P).blk) v = ct.take (inst3 E P).blk := by
  have hb := hP.bytes
  have hn3 : (inst3 E P).X.n = 3 * (inst3 E P).X.m := h3.full.symm
  rw [← relation_iff hP hct] at hR
  rw [inst3_blk hP] at hkey hs ⊢
  rw [← hR]
  have hl : ((inst3 E P).result (pt.take P.stateSizeBytes) v).length = P.stateSizeBytes := by
    rw [Picnic3.Inst.result, ofBits_eq, ofBits_length, inst3_blk hP]
  refine buf_ext (by rw [ofBits_length, hl]) fun i hi => ?_
  rw [hl] at hi
  rw [bitsOf_ofBits _ hi]
  by_cases hin : i < P.stateSizeBits
  · rw [← toBits_eq, result_enc hn3 hm hs i hin]
    refine congrFun (enc_congr hP (fun i hi => ?_) (fun i hi => ?_)) i
    · rw [hkey, ofBits_eq, toBits_eq, Pi.add_apply, bitsOf_ofBits _ (by omega), toBits_eq, Pi.add_apply, trunc, if_pos (by exact hi), bitsOf_take (by omega),
        add_assoc, CharTwo.add_self_eq_zero, add_zero]
    · rw [toBits_eq, bitsOf_take (by omega)]
  · rw [result_ge hP (by omega), enc_ge hP.rounds (by omega)]

end Picnic
