import Verif.Proofs.P3Priv2

/-
The tapes of the unopened party that lead to given published data.
-/

namespace Picnic

open Finset Spec

variable {E : Env} {P : Params}

/-- The positions of a tape that are used: masks, and except for the last party the bits for the AND gates. -/
def UsedBit (P : Params) (k p : ℕ) : Prop :=
  p < P.stateSizeBits * 2 * P.numRounds ∧ (p % (P.stateSizeBits * 2) < P.stateSizeBits ∨ k ≠ 15)

/-- Sizes and padding of published data, `m` being the messages of the unopened party. -/
structure Shape (P : Params) (k : ℕ) (x : Published) (m : Buf) : Prop where
  input : x.input.length = P.stateSizeBytes
  inputPad : ∀ p ≥ P.stateSizeBits, bitsOf x.input p = 0
  aux : k ≠ 15 → x.aux.length = P.andSizeBytes ∧ ∀ p ≥ P.stateSizeBits * P.numRounds, bitsOf x.aux p = 0
  aux15 : k = 15 → x.aux = []
  msg : x.msgs[k]? = some m
  msgLen : m.length = P.andSizeBytes
  msgPad : ∀ p ≥ P.stateSizeBits * P.numRounds, bitsOf m p = 0

theorem arrN_getElem? {α : Type} {n k : ℕ} {f : ℕ → α} (h : k < n) : (arrN n f)[k]? = some (f k) := by
  simp [arrN, h]

theorem pMk_bit {tp : ℕ → Buf} {key : Buf} (hP : ParamsWF P) {i : ℕ} (hi : i < P.stateSizeBits) :
    bitsOf (pMk E P tp key) i = bitsOf key i + kap P (E.lowmc P) tp i := by
  have := hP.words
  rw [pMk, bitsOf_ofBits _ (by omega), Pi.add_apply, add_comm]

theorem pub_input_bit {tp : ℕ → Buf} {key pt : Buf} {k : ℕ} (hP : ParamsWF P) (h3 : P3WF P) {i : ℕ} (hi : i < P.stateSizeBits) :
    bitsOf (pubOf E P tp key pt k).input i = bitsOf (pMk E P tp key) i := by
  have := hP.bytes
  have := h3.bytes
  rw [pubOf]
  dsimp only
  rw [bitsOf_take (by omega)]

theorem pub_shape {tp : ℕ → Buf} {key pt : Buf} {k : ℕ} (hP : ParamsWF P) (h3 : P3WF P) (hk : k < 16) (hkey : PadZero key P.stateSizeBits) :
    ∃ m, Shape P k (pubOf E P tp key pt k) m := by
  have hw := hP.words
  have hb := hP.bytes
  have hbw := h3.bytes
  refine ⟨_, ⟨?_, fun p hp => ?_, fun hk' => ?_, fun hk' => ?_, arrN_getElem? hk, ofBits_length _ _, fun p hp => ?_⟩⟩
  · rw [pubOf, pMk, List.length_take, ofBits_length]; omega
  · rw [pubOf]
    dsimp only
    by_cases h : p < 8 * P.stateSizeBytes
    · rw [bitsOf_take h, pMk, bitsOf_ofBits _ (by omega), Pi.add_apply, kap, mulVec_ge hp, hkey p hp (by omega), add_zero]
    · rw [bitsOf_ge (by rw [List.length_take]; omega)]
  · rw [pubOf]
    dsimp only
    rw [if_pos hk']
    refine ⟨ofBits_length _ _, fun p hp => ?_⟩
    by_cases h : p < 8 * P.andSizeBytes
    · rw [bitsOf_ofBits _ h, auxBitsOf, if_neg (by omega)]
    · rw [bitsOf_ge (by rw [ofBits_length]; omega)]
  · rw [pubOf]
    dsimp only
    rw [if_neg (by omega)]
  · by_cases h : p < 8 * P.andSizeBytes
    · rw [bitsOf_ofBits _ h, onMsg, if_neg (by omega), bitsOf_zeros]
    · rw [bitsOf_ge (by rw [ofBits_length]; omega)]

theorem msg_pos {r i : ℕ} (hr : r < P.numRounds) (hi : i < P.stateSizeBits) : P.stateSizeBits * r + i < P.stateSizeBits * P.numRounds := by
  have := Nat.mul_le_mul_left P.stateSizeBits (show r + 1 ≤ P.numRounds from hr)
  rw [Nat.mul_succ] at this
  omega

theorem onMsg_at {C : LowMCConsts} {tb mu : ℕ → ℕ → ZMod 2} {u : Option ℕ} {mk pt : Bits} {j r i : ℕ} (hr : r < P.numRounds) (hi : i < P.stateSizeBits) :
    onMsg P C tb mu u mk pt j (P.stateSizeBits * r + i) = onShare P C tb mu u mk pt r j i := by
  rw [onMsg, if_pos (msg_pos hr hi), (mul_div_mod hi).1, (mul_div_mod hi).2]

theorem auxBitsOf_at {z : Buf} {r i : ℕ} (hr : r < P.numRounds) (hi : i < P.stateSizeBits) :
    auxBitsOf P z (P.stateSizeBits * r + i) = bitsOf z (P.stateSizeBits * 2 * r + P.stateSizeBits + i) := by
  rw [auxBitsOf, if_pos (msg_pos hr hi), (mul_div_mod hi).1, (mul_div_mod hi).2]
  congr 1
  ring

theorem setAuxP_at {z a : Buf} {r i : ℕ} (hr : r < P.numRounds) (hi : i < P.stateSizeBits) (hz : P.stateSizeBits * 2 * P.numRounds ≤ 8 * z.length) :
    bitsOf (setAuxP P z a) (P.stateSizeBits * 2 * r + P.stateSizeBits + i) = bitsOf a (P.stateSizeBits * r + i) := by
  have h := Nat.mul_le_mul_left (P.stateSizeBits * 2) (show r + 1 ≤ P.numRounds from hr)
  rw [Nat.mul_succ] at h
  have hd := pos_div (n := P.stateSizeBits) (r := r) (q := P.stateSizeBits + i) (by omega)
  rw [setAuxP, bitsOf_ofBits _ (by omega), Nat.add_assoc, hd.1, hd.2, if_pos ⟨by omega, by omega⟩, Nat.add_sub_cancel_left]

theorem setAuxP_else {z a : Buf} {p : ℕ} (h : p % (P.stateSizeBits * 2) < P.stateSizeBits) (hz : p < 8 * z.length) :
    bitsOf (setAuxP P z a) p = bitsOf z p := by
  rw [setAuxP, bitsOf_ofBits _ hz, if_neg (by omega)]

theorem tape_total (h3 : P3WF P) : P.stateSizeBits * 2 * P.numRounds ≤ 8 * (2 * P.andSizeBytes) := by
  calc P.stateSizeBits * 2 * P.numRounds = 2 * (P.stateSizeBits * P.numRounds) := by ring
    _ ≤ 2 * (8 * P.andSizeBytes) := Nat.mul_le_mul_left _ h3.tape
    _ = _ := by ring

theorem upd_length {tp : ℕ → Buf} {k n : ℕ} {z : Buf} (hl : ∀ j < 16, (tp j).length = n) (hz : z.length = n) :
    ∀ j < 16, (Function.update tp k z j).length = n := fun j hj => by
  by_cases e : j = k
  · subst e; rw [Function.update_self, hz]
  · rw [Function.update_of_ne e, hl j hj]

/-- Published data determine the tape of the unopened party. -/
theorem pub_unique {tp : ℕ → Buf} {key pt : Buf} {k : ℕ} {th th' : Buf} (hP : ParamsWF P) (h3 : P3WF P) (hI : InvOK P (E.lowmc P))
    (hl : ∀ j < 16, (tp j).length = 2 * P.andSizeBytes) (hk : k < 16) (hthl : th.length = 2 * P.andSizeBytes) (hthl' : th'.length = 2 * P.andSizeBytes)
    (h : pubOf E P (Function.update tp k th') key pt k = pubOf E P (Function.update tp k th) key pt k) :
    ∀ p, UsedBit P k p → bitsOf th' p = bitsOf th p := by
  have htape := h3.tape
  have hin : ∀ i < P.stateSizeBits, bitsOf (pMk E P (Function.update tp k th') key) i = bitsOf (pMk E P (Function.update tp k th) key) i := fun i hi => by
    rw [← pub_input_bit (pt := pt) (k := k) hP h3 hi, h, pub_input_bit hP h3 hi]
  have hm := congrArg (fun x => x.msgs[k]?) h
  dsimp only [pubOf] at hm
  rw [arrN_getElem? hk, arrN_getElem? hk] at hm
  injection hm with hm
  intro p hp
  refine hidden_unique (mu := fun _ => bitsOf (zeros P.andSizeBytes)) (mk := bitsOf (pMk E P (Function.update tp k th) key)) (key := bitsOf key) (pt := bitsOf pt) hP h3 hI hl hk hthl hthl'
    (fun i hi => pMk_bit hP hi) (fun i hi => ?_) (fun r hr i hi => ?_) (fun hk15 r hr i hi => ?_) p hp.1 hp.2
  · rw [← hin i hi, pMk_bit hP hi]
  · have e := congrArg (fun b => bitsOf b (P.stateSizeBits * r + i)) hm
    beta_reduce at e
    have hpp := msg_pos hr hi
    rw [bitsOf_ofBits _ (by omega), bitsOf_ofBits _ (by omega), onMsg_at hr hi, onMsg_at hr hi] at e
    rw [onShare_mk (mk' := bitsOf (pMk E P (Function.update tp k th') key)) (fun i hi => (hin i hi).symm)]
    exact e
  · have e := congrArg (fun x => bitsOf x.aux (P.stateSizeBits * r + i)) h
    dsimp only [pubOf] at e
    have hpp := msg_pos hr hi
    rw [if_pos hk15, if_pos hk15, bitsOf_ofBits _ (by omega), bitsOf_ofBits _ (by omega), auxBitsOf_at hr hi, auxBitsOf_at hr hi] at e
    exact e

/-- The verifier's run on accepted data determines a tape for every key. -/
theorem pub_exists {tp : ℕ → Buf} {key pt ct : Buf} {k : ℕ} {th : Buf} {x : Published} {m : Buf} (hP : ParamsWF P) (h3 : P3WF P) (hI : InvOK P (E.lowmc P))
    (hl : ∀ j < 16, (tp j).length = 2 * P.andSizeBytes) (hk : k < 16) (hkey : PadZero key P.stateSizeBits)
    (hrel : ofBits ((lowmcOf P (E.lowmc P)).enc (bitsOf key) (bitsOf pt)) P.stateSizeBytes = ct.take P.stateSizeBytes)
    (hx : Shape P k x m) (hout : ofBits (rState E P tp x.aux x.input m pt k P.numRounds) P.stateSizeBytes = ct.take P.stateSizeBytes)
    (hms : x.msgs = arrN 16 fun j => ofBits (onMsg P (E.lowmc P) (fun j => bitsOf (rT P tp x.aux k j)) (fun j => bitsOf (rM P m k j)) (some k) (bitsOf x.input) (bitsOf pt) j)
      P.andSizeBytes)
    (hthl : th.length = 2 * P.andSizeBytes)
    (hth : ∀ p, UsedBit P k p → bitsOf th p =
      hidTape3 P tp k (rState E P tp x.aux x.input m pt k) ((lowmcOf P (E.lowmc P)).state (bitsOf key) (bitsOf pt)) (fun r i => bitsOf m (P.stateSizeBits * r + i)) p) :
    pubOf E P (Function.update tp k th) key pt k = x := by
  have htape := h3.tape
  have hw := hP.words
  have hb := hP.bytes
  have hbw := h3.bytes
  have htot := tape_total h3
  have hct : ∀ i < P.stateSizeBits, onState P (E.lowmc P) (fun j => bitsOf (rT P tp x.aux k j)) (fun j => bitsOf (rM P m k j)) (some k) (bitsOf x.input) (bitsOf pt) P.numRounds i =
      (lowmcOf P (E.lowmc P)).enc (bitsOf key) (bitsOf pt) i := fun i hi => by
    have e := congrArg (fun b => bitsOf b i) (hout.trans hrel.symm)
    beta_reduce at e
    rw [bitsOf_ofBits _ (by omega), bitsOf_ofBits _ (by omega)] at e
    exact e
  have hrm : (fun r i => bitsOf (rM P m k k) (P.stateSizeBits * r + i)) = fun r i => bitsOf m (P.stateSizeBits * r + i) := by rw [rM, if_pos rfl]
  obtain ⟨g1, g2, g3⟩ := hidden_exists (C := E.lowmc P) (mu' := fun _ => bitsOf (zeros P.andSizeBytes)) (tb := fun j => bitsOf (rT P tp x.aux k j)) (mu := fun j => bitsOf (rM P m k j))
    (mk := bitsOf x.input) (pt := bitsOf pt) (key' := bitsOf key) (th := th) hP h3 hI hl hk (fun j hj hjk p hp hor => by
      unfold rT
      rw [if_neg hjk]
      by_cases e : j = 15
      · subst e
        rw [if_pos rfl, setAuxP_else (hor.resolve_right (by simp)) (by rw [hl 15 hj]; omega)]
      · rw [if_neg e]) hct hthl (fun p hp hor => by
      have := hth p ⟨hp, hor⟩
      rw [← hrm] at this
      exact this)
  have hmk : ∀ i < P.stateSizeBits, bitsOf (pMk E P (Function.update tp k th) key) i = bitsOf x.input i := fun i hi => by
    rw [pMk_bit hP hi, g1 i hi]
  obtain ⟨xa, xi, xm⟩ := x
  unfold pubOf
  congr 1
  · dsimp only at *
    by_cases hk15 : k = 15
    · rw [if_neg (by omega)]; exact (hx.aux15 hk15).symm
    · rw [if_pos hk15]
      obtain ⟨ha1, ha2⟩ := hx.aux hk15
      dsimp only at ha1 ha2
      refine buf_ext (by rw [ofBits_length, ha1]) fun p hp => ?_
      rw [ofBits_length] at hp
      rw [bitsOf_ofBits _ hp]
      by_cases hpn : p < P.stateSizeBits * P.numRounds
      · obtain ⟨r, i, hr, hi, rfl⟩ : ∃ r i, r < P.numRounds ∧ i < P.stateSizeBits ∧ p = P.stateSizeBits * r + i :=
          ⟨p / P.stateSizeBits, p % P.stateSizeBits, Nat.div_lt_of_lt_mul hpn, Nat.mod_lt _ hP.nPos, (Nat.div_add_mod _ _).symm⟩
        rw [auxBitsOf_at hr hi, g3 hk15 r hr i hi]
        unfold rT
        rw [if_neg (fun e => hk15 e.symm), if_pos rfl, setAuxP_at hr hi (by rw [hl 15 (by omega)]; exact htot)]
      · rw [auxBitsOf, if_neg hpn, ha2 p (by omega)]
  · have hi1 := hx.input
    have hi2 := hx.inputPad
    dsimp only at hi1 hi2 hmk ⊢
    refine buf_ext (by rw [hi1, pMk, List.length_take, ofBits_length]; omega) fun p hp => ?_
    rw [pMk, List.length_take, ofBits_length] at hp
    rw [bitsOf_take (by omega)]
    by_cases hpn : p < P.stateSizeBits
    · exact hmk p hpn
    · rw [hi2 p (by omega), pMk, bitsOf_ofBits _ (by omega), Pi.add_apply, kap, mulVec_ge (by omega), hkey p (by omega) (by omega), add_zero]
  · dsimp only at hms hmk ⊢
    rw [hms]
    refine arrN_congr fun j hj => ofBits_congr fun p hp => ?_
    by_cases hpn : p < P.stateSizeBits * P.numRounds
    · obtain ⟨r, i, hr, hi, rfl⟩ : ∃ r i, r < P.numRounds ∧ i < P.stateSizeBits ∧ p = P.stateSizeBits * r + i :=
        ⟨p / P.stateSizeBits, p % P.stateSizeBits, Nat.div_lt_of_lt_mul hpn, Nat.mod_lt _ hP.nPos, (Nat.div_add_mod _ _).symm⟩
      rw [onMsg_at hr hi, onMsg_at hr hi, onShare_mk hmk, g2 r hr j hj i hi]
    · rw [onMsg, onMsg, if_neg hpn, if_neg hpn, bitsOf_zeros, rM]
      split_ifs
      · exact (hx.msgPad p (by omega)).symm
      · rw [bitsOf_zeros]

/-- The verifier accepts published data. -/
theorem pub_accepted {tp : ℕ → Buf} {key pt ct : Buf} {k : ℕ} {z m : Buf} (hP : ParamsWF P) (h3 : P3WF P) (hI : InvOK P (E.lowmc P))
    (hl : ∀ j < 16, (tp j).length = 2 * P.andSizeBytes) (hk : k < 16)
    (hrel : ofBits ((lowmcOf P (E.lowmc P)).enc (bitsOf key) (bitsOf pt)) P.stateSizeBytes = ct.take P.stateSizeBytes)
    (hx : Shape P k (pubOf E P tp key pt k) m) :
    ofBits (rState E P (Function.update tp k z) (pubOf E P tp key pt k).aux (pubOf E P tp key pt k).input m pt k P.numRounds) P.stateSizeBytes = ct.take P.stateSizeBytes ∧
    (pubOf E P tp key pt k).msgs = arrN 16 fun j => ofBits (onMsg P (E.lowmc P) (fun j => bitsOf (rT P (Function.update tp k z) (pubOf E P tp key pt k).aux k j))
      (fun j => bitsOf (rM P m k j)) (some k) (bitsOf (pubOf E P tp key pt k).input) (bitsOf pt) j) P.andSizeBytes := by
  have htape := h3.tape
  have hw := hP.words
  have hb := hP.bytes
  have hbw := h3.bytes
  have htot := tape_total h3
  have hn3 : P.stateSizeBits % 3 = 0 := by have := h3.full; omega
  have hm := hx.msg
  obtain ⟨x, hxd⟩ : ∃ x, x = pubOf E P tp key pt k := ⟨_, rfl⟩
  rw [← hxd] at hx hm ⊢
  have hm' : m = ofBits (onMsg P (E.lowmc P) (fun j => bitsOf (auxTp P (E.lowmc P) tp j)) (fun _ => bitsOf (zeros P.andSizeBytes)) none
    (bitsOf (pMk E P tp key)) (bitsOf pt) k) P.andSizeBytes := by
    rw [hxd] at hm
    dsimp only [pubOf] at hm
    rw [arrN_getElem? hk] at hm
    injection hm with hm
    exact hm.symm
  have hin : ∀ i < P.stateSizeBits, bitsOf (pMk E P tp key) i = bitsOf x.input i := fun i hi => by
    rw [hxd, pub_input_bit hP h3 hi]
  have htb : ∀ j < 16, j ≠ k → ∀ p < P.stateSizeBits * 2 * P.numRounds, bitsOf (auxTp P (E.lowmc P) tp j) p = bitsOf (rT P (Function.update tp k z) x.aux k j) p := by
    intro j hj hjk p hp
    unfold rT
    rw [if_neg hjk]
    by_cases e : j = 15
    · subst e
      have hk15 : k ≠ 15 := fun e => hjk e.symm
      rw [if_pos rfl, Function.update_of_ne hjk]
      have hn : 0 < P.stateSizeBits * 2 := by have := hP.nPos; omega
      obtain ⟨r, q, hq, hpe⟩ : ∃ r q, q < P.stateSizeBits * 2 ∧ p = P.stateSizeBits * 2 * r + q :=
        ⟨p / (P.stateSizeBits * 2), p % (P.stateSizeBits * 2), Nat.mod_lt _ hn, (Nat.div_add_mod _ _).symm⟩
      have hr : r < P.numRounds := by
        by_contra h
        have := Nat.mul_le_mul_left (P.stateSizeBits * 2) (show P.numRounds ≤ r by omega)
        omega
      subst hpe
      by_cases hqn : q < P.stateSizeBits
      · rw [setAuxP_else (by rw [(pos_div hq).2]; exact hqn) (by rw [hl 15 hj]; omega), auxTp_bit (fun j hj => by rw [hl j hj]; omega) hj hqn]
      · obtain ⟨i, rfl⟩ : ∃ i, q = P.stateSizeBits + i := ⟨q - P.stateSizeBits, by omega⟩
        have hi : i < P.stateSizeBits := by omega
        have hpp := msg_pos hr hi
        rw [← Nat.add_assoc, setAuxP_at hr hi (by rw [hl 15 hj]; exact htot), hxd]
        dsimp only [pubOf]
        rw [if_pos hk15, bitsOf_ofBits _ (by omega), auxBitsOf_at hr hi]
    · rw [if_neg e, Function.update_of_ne hjk, auxTp_ne e]
  obtain ⟨g1, g2⟩ := onState_lockstep (C := E.lowmc P) (mk := bitsOf (pMk E P tp key)) (mk' := bitsOf x.input) (pt := bitsOf pt) (pt' := bitsOf pt)
    (mu := fun _ => bitsOf (zeros P.andSizeBytes)) (mu' := fun j => bitsOf (rM P m k j)) hn3 htb hin (fun _ _ => rfl) (fun r hr i hi => by
      have hpp := msg_pos hr hi
      rw [rM, if_pos rfl, hm', bitsOf_ofBits _ (by omega), onMsg_at hr hi])
  constructor
  · rw [← hrel]
    refine ofBits_congr fun i hi => ?_
    by_cases hin' : i < P.stateSizeBits
    · rw [rState, ← g1 _ le_rfl i hin', onState_enc (key := bitsOf key) hP h3 hI (hl 15 (by omega)) (fun i hi => pMk_bit hP hi)]
    · rw [rState, onState_ge hP.rounds (by omega), enc_ge hP.rounds (by omega)]
  · conv_lhs => rw [hxd, pubOf]
    refine arrN_congr fun j hj => ofBits_congr fun p hp => ?_
    by_cases hpn : p < P.stateSizeBits * P.numRounds
    · obtain ⟨r, i, hr, hi, rfl⟩ : ∃ r i, r < P.numRounds ∧ i < P.stateSizeBits ∧ p = P.stateSizeBits * r + i :=
        ⟨p / P.stateSizeBits, p % P.stateSizeBits, Nat.div_lt_of_lt_mul hpn, Nat.mod_lt _ hP.nPos, (Nat.div_add_mod _ _).symm⟩
      rw [onMsg_at hr hi, onMsg_at hr hi, g2 r hr j hj i hi]
    · rw [onMsg, onMsg, if_neg hpn, if_neg hpn, bitsOf_zeros, rM]
      split_ifs
      · exact (hx.msgPad p (by omega)).symm
      · rw [bitsOf_zeros]

end Picnic
