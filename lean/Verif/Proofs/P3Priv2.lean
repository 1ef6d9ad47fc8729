import Verif.Proofs.P3Priv
import Verif.Proofs.P3Verify
import Verif.Model.Picnic3Rep

/-
`publish` and `replay`, and the tapes that lead to given published data.
-/

namespace Picnic

open Finset Spec

variable {E : Env} {P : Params}

theorem onState_mk {C : LowMCConsts} {tb mu : ℕ → ℕ → ZMod 2} {u : Option ℕ} {mk mk' pt : Bits} (h : ∀ i < P.stateSizeBits, mk i = mk' i) (r : ℕ) :
    onState P C tb mu u mk pt r = onState P C tb mu u mk' pt r := by
  induction r with
  | zero => rw [onState, onState, mulVec_congr h]
  | succ r ih => rw [onState, onState, mulVec_congr h, ih]

theorem onShare_mk {C : LowMCConsts} {tb mu : ℕ → ℕ → ZMod 2} {u : Option ℕ} {mk mk' pt : Bits} (h : ∀ i < P.stateSizeBits, mk i = mk' i) (r j i : ℕ) :
    onShare P C tb mu u mk pt r j i = onShare P C tb mu u mk' pt r j i := by
  unfold onShare
  rw [onState_mk h]

section
variable (E P)

/-- The masked key. -/
def pMk (tp : ℕ → Buf) (key : Buf) : Buf := ofBits (kap P (E.lowmc P) tp + bitsOf key) (4 * P.stateSizeWords)

/-- The result of `publish`. -/
def pubOf (tp : ℕ → Buf) (key pt : Buf) (k : ℕ) : Published where
  aux := if k ≠ 15 then ofBits (auxBitsOf P (auxTp P (E.lowmc P) tp 15)) P.andSizeBytes else []
  input := (pMk E P tp key).take P.stateSizeBytes
  msgs := arrN 16 fun j => ofBits (onMsg P (E.lowmc P) (fun j => bitsOf (auxTp P (E.lowmc P) tp j)) (fun _ => bitsOf (zeros P.andSizeBytes)) none
    (bitsOf (pMk E P tp key)) (bitsOf pt) j) P.andSizeBytes

/-- The tapes of the verifier. -/
def rT (tp : ℕ → Buf) (aux : Buf) (k j : ℕ) : Buf := if j = k then zeros (2 * P.andSizeBytes) else if j = 15 then setAuxP P (tp 15) aux else tp j

/-- The messages of the verifier before the simulation. -/
def rM (msg : Buf) (k j : ℕ) : Buf := if j = k then msg else zeros P.andSizeBytes

/-- The states of the verifier. -/
def rState (tp : ℕ → Buf) (aux input msg pt : Buf) (k : ℕ) : ℕ → Bits :=
  onState P (E.lowmc P) (fun j => bitsOf (rT P tp aux k j)) (fun j => bitsOf (rM P msg k j)) (some k) (bitsOf input) (bitsOf pt)

end

theorem publish_ok {t : ℕ} {tp : ℕ → Buf} {key ct pt : Buf} {k : ℕ} (hP : ParamsWF P) (h3 : P3WF P) (hC : ConstsWF P (E.lowmc P)) (hI : InvLen P (E.lowmc P))
    (hInv : InvOK P (E.lowmc P))
    (hl : ∀ j < 16, (tp j).length = 2 * P.andSizeBytes) (hkey : 4 * P.stateSizeWords ≤ key.length) (hpt : 4 * P.stateSizeWords ≤ pt.length)
    (hpk : P.stateSizeBytes ≤ ct.length) :
    publish E P t (tapes16 tp 0) key ct pt k = Outcome.ok (if ofBits ((lowmcOf P (E.lowmc P)).enc (bitsOf key) (bitsOf pt)) P.stateSizeBytes = ct.take P.stateSizeBytes
      then some (pubOf E P tp key pt k) else none) := by
  have hw := hP.words
  have hby := hP.bytes
  have hbw := h3.bytes
  unfold publish
  refine bind_of (computeAuxTape_ok hP h3 hC hI hl (by intro i h; injection h with h; rw [← h, zeros_length]; omega)) ?_
  dsimp only
  rw [Option.map_some]
  simp only [deref]
  rw [ok_bind, h3.parties]
  obtain ⟨inp, hi⟩ : ∃ inp, inp = ofBits (kap P (E.lowmc P) tp) P.stateSizeBytes ++ (zeros (P.stateSizeWords * 4)).drop P.stateSizeBytes := ⟨_, rfl⟩
  rw [← hi]
  have hin : inp = ofBits (kap P (E.lowmc P) tp) (4 * P.stateSizeWords) := by
    rw [hi]
    refine buf_ext (by simp; omega) fun i hi' => ?_
    simp only [List.length_append, ofBits_length, List.length_drop, zeros_length] at hi'
    rw [bitsOf_ofBits _ (by omega)]
    by_cases h : i < 8 * P.stateSizeBytes
    · rw [bitsOf_append_left (by simpa using h), bitsOf_ofBits _ h]
    · obtain ⟨q, rfl⟩ : ∃ q, i = 8 * (ofBits (kap P (E.lowmc P) tp) P.stateSizeBytes).length + q := ⟨i - 8 * P.stateSizeBytes, by simp; omega⟩
      rw [bitsOf_append_right, bitsOf_drop, bitsOf_zeros, kap, mulVec_ge (by simp; omega)]
  have hlen : (auxTp P (E.lowmc P) tp 15).length = 2 * P.andSizeBytes := by rw [auxTp_length]; exact hl 15 (by omega)
  have hon : ∀ sd CC, signOnline E P { seeds := sd, tapes := tapes16 (auxTp P (E.lowmc P) tp) 0, input := inp, C := CC } key ct pt t =
      Outcome.ok (if ofBits ((lowmcOf P (E.lowmc P)).enc (bitsOf key) (bitsOf pt)) P.stateSizeBytes = ct.take P.stateSizeBytes
      then some (pMk E P tp key, msgs16 (fun j => ofBits (onMsg P (E.lowmc P) (fun j => bitsOf (auxTp P (E.lowmc P) tp j)) (fun _ => bitsOf (zeros P.andSizeBytes)) none
    (bitsOf (pMk E P tp key)) (bitsOf pt) j) P.andSizeBytes) (P.stateSizeBits * P.numRounds) none) else none) := by
    intro sd CC
    unfold signOnline
    dsimp only
    rw [hin, xorArray_ofBits hkey, ok_bind]
    have hmk : ofBits (kap P (E.lowmc P) tp + bitsOf key) (4 * P.stateSizeWords) = pMk E P tp key := rfl
    rw [hmk]
    have hrep : allocateMsgs P = msgs16 (fun _ => zeros P.andSizeBytes) 0 none := by
      unfold allocateMsgs
      rw [h3.parties]
      congr 1
    rw [hrep]
    refine bind_of (simulateOnline_ok (u := none) hP h3 hC (by intro q hq; cases hq) (fun j hj => by rw [auxTp_length]; exact hl j hj) (fun j _ => by simp)
      (by rw [pMk, ofBits_length]; omega) hpt hpk) ?_
    dsimp only
    rw [onState_enc (key := bitsOf key) hP h3 hInv (hl 15 (by omega)) (fun i hi => by
      rw [pMk, bitsOf_ofBits _ (by omega), Pi.add_apply, add_comm])]
    rw [pure_eq_ok]
    congr 1
    by_cases h : ofBits ((lowmcOf P (E.lowmc P)).enc (bitsOf key) (bitsOf pt)) P.stateSizeBytes = ct.take P.stateSizeBytes
    · rw [if_pos h, if_pos (beq_iff_eq.2 h)]
    · rw [if_neg h, if_neg (fun e => h (beq_iff_eq.1 e))]
  unfold pubOf
  by_cases hk : k ≠ 15
  · rw [if_pos hk, getAuxBits_ok hP h3 hlen le_rfl, ok_bind, hon, ok_bind, if_pos hk, pure_eq_ok]
    split_ifs <;> rfl
  · rw [if_neg hk, pure_eq_ok, ok_bind, hon, ok_bind, if_neg hk, pure_eq_ok]
    split_ifs <;> rfl

theorem replay_ok {t : ℕ} {tp : ℕ → Buf} {aux input msg ct pt : Buf} {k : ℕ} (hP : ParamsWF P) (h3 : P3WF P) (hC : ConstsWF P (E.lowmc P))
    (hl : ∀ j < 16, (tp j).length = 2 * P.andSizeBytes) (hk : k < 16) (haux : k ≠ 15 → aux.length = P.andSizeBytes) (hin : input.length = P.stateSizeBytes)
    (hm : msg.length = P.andSizeBytes) (hpt : 4 * P.stateSizeWords ≤ pt.length) (hpk : P.stateSizeBytes ≤ ct.length) :
    replay E P t (tapes16 tp 0) aux input msg ct pt k = Outcome.ok
      (ofBits (rState E P tp aux input msg pt k P.numRounds) P.stateSizeBytes == ct.take P.stateSizeBytes,
        msgs16 (fun j => ofBits (onMsg P (E.lowmc P) (fun j => bitsOf (rT P tp aux k j)) (fun j => bitsOf (rM P msg k j)) (some k) (bitsOf input) (bitsOf pt) j)
          P.andSizeBytes) (P.stateSizeBits * P.numRounds) (some k)) := by
  have hby := hP.bytes
  have hol : ∀ j < 16, (rT P tp aux k j).length = 2 * P.andSizeBytes := by
    intro j hj
    unfold rT
    split_ifs
    · simp
    · rw [setAuxP_length]; exact hl 15 (by omega)
    · exact hl j hj
  have hml : ∀ j, (rM P msg k j).length = P.andSizeBytes := by
    intro j
    unfold rM
    split_ifs
    · exact hm
    · simp
  have htail : ∀ c : ℕ → Buf, (∀ j < 16, j ≠ k → c j = rT P tp aux k j) → (c k).length = 2 * P.andSizeBytes →
      (do
        let tp ← rd (arrN 16 c) k
        let tp ← wrN tp 0 (zeros (2 * P.andSizeBytes))
        let ts ← wr (arrN 16 c) k tp
        let m ← rd (List.replicate P.numMPCParties (zeros P.andSizeBytes)) k
        let m ← memcpy m 0 msg 0 P.andSizeBytes
        let ms ← wr (List.replicate P.numMPCParties (zeros P.andSizeBytes)) k m
        let (ok, _, msgs) ← simulateOnline E P t input { tape := ts, pos := 0 } { msgs := ms, pos := 0, unopened := some k } pt ct
        pure (ok, msgs) : M (Bool × Msgs)) = Outcome.ok
      (ofBits (rState E P tp aux input msg pt k P.numRounds) P.stateSizeBytes == ct.take P.stateSizeBytes,
        msgs16 (fun j => ofBits (onMsg P (E.lowmc P) (fun j => bitsOf (rT P tp aux k j)) (fun j => bitsOf (rM P msg k j)) (some k) (bitsOf input) (bitsOf pt) j)
          P.andSizeBytes) (P.stateSizeBits * P.numRounds) (some k)) := by
    intro c hc hck
    rw [rd_arrN hk, ok_bind, wrN_full (by rw [hck]; simp), ok_bind, wr_arrN hk, ok_bind]
    have hrep : List.replicate P.numMPCParties (zeros P.andSizeBytes) = arrN 16 fun _ => zeros P.andSizeBytes := by
      rw [h3.parties]; simp [arrN, List.map_const']
    rw [hrep, rd_arrN hk, ok_bind, memcpy_full hm (by simp), ok_bind, wr_arrN hk, ok_bind]
    have e1 : arrN 16 (Function.update c k (zeros (2 * P.andSizeBytes))) = arrN 16 (rT P tp aux k) := arrN_congr fun j hj => by
      by_cases e : j = k
      · subst e; rw [Function.update_self, rT, if_pos rfl]
      · rw [Function.update_of_ne e, hc j hj e]
    have e2 : arrN 16 (Function.update (fun _ => zeros P.andSizeBytes) k msg) = arrN 16 (rM P msg k) := arrN_congr fun j hj => by
      by_cases e : j = k
      · subst e; rw [Function.update_self, rM, if_pos rfl]
      · rw [Function.update_of_ne e, rM, if_neg e]
    rw [e1, e2]
    refine bind_of (simulateOnline_ok (u := some k) hP h3 hC (by intro q hq; injection hq with hq; omega) hol (fun j _ => hml j)
      (by rw [hin]; omega) hpt hpk) ?_
    rfl
  unfold replay
  rw [h3.parties]
  by_cases hk15 : k ≠ 15
  · rw [if_pos hk15, setAuxBits_ok hP h3 (hl 15 (by omega)) (haux hk15), ok_bind]
    refine htail _ (fun j hj e => ?_) ?_
    · unfold rT
      rw [if_neg e]
      by_cases e15 : j = 15
      · subst e15; rw [Function.update_self, if_pos rfl]
      · rw [Function.update_of_ne e15, if_neg e15]
    · rw [Function.update_of_ne hk15]; exact hl k hk
  · rw [if_neg hk15, pure_eq_ok, ok_bind]
    refine htail _ (fun j hj e => ?_) (hl k hk)
    unfold rT
    rw [if_neg e, if_neg (by omega)]

end Picnic
