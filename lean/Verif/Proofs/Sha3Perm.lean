import Verif.Proofs.Sha3Hash

/-
The one-shot sponge, the permutation with any number of rounds on machines of either byte order, the computed tables.
-/

namespace Picnic.Sha3

open Spec Spec.Keccak

/-! ### the one-shot sponge -/

theorem spongeBlocks_ok {E : Env} {rate : ℕ} {input : Buf} {len : ℕ} (hE : PermWF E) (hr : RateOK rate) (hlen : len ≤ input.length)
    (n : ℕ) : ∀ (off : ℕ) (st : Buf), off ≤ len → len - off < n → (input.take off).foldl (absB E.perm rate) (zeros 200, 0) = (st, 0) → st.length = 200 →
    ∃ st' off', spongeBlocks E input rate len n off st = Outcome.ok (st', off') ∧ off' ≤ len ∧ len - off' < rate ∧
      (input.take off').foldl (absB E.perm rate) (zeros 200, 0) = (st', 0) ∧ st'.length = 200 := by
  have hr0 := hr.pos
  have hr1 := hr.le
  induction n with
  | zero => intro off st _ h; omega
  | succ n ih =>
    intro off st h1 h2 h3 h4
    unfold spongeBlocks
    by_cases hc : len - off ≥ rate
    · rw [if_pos hc, addBytes_ok (by omega) (by omega) h4 (by omega), ok_bind]
      have hl : ((input.drop off).take rate).length = rate := by simp; omega
      refine ih (off + rate) _ (by omega) (by omega) ?_ (hE _ (by rw [xorAt_length, h4]))
      rw [List.take_add, List.foldl_append, h3, foldl_absB_eq _ _ _ _ _ (by omega) (by omega)]
    · rw [if_neg hc]
      exact ⟨st, off, rfl, h1, by omega, h3, h4⟩

theorem spongeOut_ok {E : Env} {rate d : ℕ} {st0 : Buf} (hE : PermWF E) (hr : RateOK rate) (hs0 : st0.length = 200) (n : ℕ) :
    ∀ q, q * rate ≤ d → d - q * rate < n →
    ∃ q', q' * rate ≤ d ∧ d - q' * rate ≤ rate ∧
      spongeOut E rate n (d - q * rate) (iter E.perm q st0) ((List.range (q * rate)).map fun j => streamByte E.perm rate st0 j) =
        Outcome.ok (iter E.perm q' st0, (List.range (q' * rate)).map (fun j => streamByte E.perm rate st0 j), d - q' * rate) := by
  have hr0 := hr.pos
  have hr1 := hr.le
  induction n with
  | zero => intro q _ h; omega
  | succ n ih =>
    intro q h1 h2
    unfold spongeOut
    by_cases hc : d - q * rate > rate
    · rw [if_pos hc, extractBytes_ok (by omega) (by omega) (iter_length hE q st0 hs0), ok_bind, stream_block hE hs0 hr (by omega),
        ← iter_succ' E.perm q st0]
      obtain ⟨q', a1, a2, a3⟩ := ih (q + 1) (by rw [Nat.add_mul]; omega) (by rw [Nat.add_mul]; omega)
      refine ⟨q', a1, a2, ?_⟩
      rw [← a3, Nat.add_mul, Nat.one_mul, ← range_map_append]
      congr 1
      omega
    · rw [if_neg hc]
      exact ⟨q, h1, by omega, rfl⟩

theorem sponge_ok {E : Env} {rate capacity : ℕ} {input : Buf} {len d : ℕ} {s : Byte} (hE : PermWF E) (hr : RateOK rate)
    (hc : 8 * rate + capacity = 1600) (hs : s ≠ 0) (hlen : len ≤ input.length) :
    sponge E (8 * rate) capacity input len s d = Outcome.ok (0, (List.range d).map fun j =>
      streamByte E.perm rate (absorbPadded E.perm rate (padSuffix rate s (input.take len))) j) := by
  have hr0 := hr.pos
  have hr1 := hr.le
  have e3 : 8 * rate / 8 = rate := by omega
  obtain ⟨st, off, b1, b2, b3, b4, b5⟩ := spongeBlocks_ok (len := len) hE hr hlen (len + 1) 0 (zeros 200) (by omega) (by omega) rfl (by simp)
  have hfin := finish_eq hE hr s (input.take len)
  have hfold : (input.take len).foldl (absB E.perm rate) (zeros 200, 0) = (xorAt st 0 ((input.drop off).take (len - off)), len - off) := by
    rw [show len = off + (len - off) by omega, List.take_add, List.foldl_append, b4, foldl_absB_lt _ _ _ _ _ (by simp; omega)]
    simp
    omega
  rw [hfold] at hfin
  simp only at hfin
  have hl0 : (xorAt st 0 ((input.drop off).take (len - off))).length = 200 := by rw [xorAt_length, b5]
  have hmod : (len - off) % 2 ^ 32 = len - off := Nat.mod_eq_of_lt (by omega)
  have hlen2 : (absorbPadded E.perm rate (padSuffix rate s (input.take len))).length = 200 := by
    rw [← hfin]
    unfold finish
    apply hE
    simp only [List.length_set]
    split
    · exact hE _ (by simpa using hl0)
    · simpa using hl0
  obtain ⟨q, c1, c2, c3⟩ := spongeOut_ok (d := d) hE hr hlen2 (d + 1) 0 (by omega) (by omega)
  simp only [Nat.zero_mul, Nat.sub_zero, List.range_zero, List.map_nil, iter] at c3
  have hadd := addBytes_ok (data := input) (doff := off) (offset := 0) (length := len - off) (by omega) (by omega) b5 (by omega)
  generalize xorAt st 0 ((input.drop off).take (len - off)) = S at hfin hl0 hadd
  have hl1 : (if s.toNat ≥ 0x80 ∧ len - off = rate - 1 then E.perm (S.set (len - off) (S.getD (len - off) 0 ^^^ s)) else
      S.set (len - off) (S.getD (len - off) 0 ^^^ s)).length = 200 := by
    split
    · exact hE _ (by simpa using hl0)
    · simpa using hl0
  unfold finish at hfin
  simp only at hfin
  unfold sponge
  rw [if_neg (by rw [hc]; decide), if_neg (by omega), if_neg hs]
  simp only [e3]
  rw [b1, ok_bind]
  simp only [hmod]
  rw [hadd, ok_bind, addByte_ok hl0 (by omega), ok_bind, addByte_ok hl1 (by omega), ok_bind, hfin]
  rw [c3, ok_bind]
  simp only
  rw [Nat.mod_eq_of_lt (show d - q * rate < 2 ^ 32 by omega), extractBytes_ok (by omega) (by omega) (iter_length hE q _ hlen2), ok_bind,
    stream_block hE hlen2 hr (by omega)]
  simp only [Nat.add_zero]
  rw [range_map_append (streamByte E.perm rate (absorbPadded E.perm rate (padSuffix rate s (input.take len)))), show q * rate + (d - q * rate) = d by omega]
  rfl

/-! ### the permutation -/

theorem keccakOnWords_nr (a : ℕ → Lane) (nr : ℕ) (h : nr ≤ 24) :
    ∃ b, keccakOnWords (lanes a) nr = Outcome.ok (lanes b) ∧ StEq (stOf b) (roundsFrom (24 - nr) nr (stOf a)) := by
  unfold keccakOnWords
  obtain ⟨s, h1, b, rfl, h2⟩ := loopFrom_inv
    (fun i s => ∃ b, s = lanes b ∧ StEq (stOf b) (roundsFrom (24 - nr) (i - (24 - nr)) (stOf a)))
    (f := fun i A => keccakRound A i) (lo := 24 - nr) (hi := 24) (s := lanes a) (by omega)
    ⟨a, rfl, by rw [Nat.sub_self]; exact fun x y z _ _ _ => rfl⟩ (by
      rintro i hlo hi s ⟨b, rfl, hb⟩
      refine ⟨_, keccakRound_ok b i hi, _, rfl, ?_⟩
      rw [show i + 1 - (24 - nr) = (i - (24 - nr)) + 1 by omega, roundsFrom, show 24 - nr + (i - (24 - nr)) = i by omega]
      exact (round_st b i hi).trans (round_congr hb i))
  rw [show 24 - (24 - nr) = nr by omega] at h2
  exact ⟨b, h1, h2⟩

theorem roundsFrom_congr {A B : St} (h : StEq A B) (ir n : ℕ) : StEq (roundsFrom ir n A) (roundsFrom ir n B) := by
  induction n with
  | zero => exact h
  | succ n ih => exact round_congr ih _

theorem permuteNrounds_ok {state : Buf} (hs : state.length = 200) (nr : ℕ) (hn : nr ≤ 24) :
    ∃ r, permuteNrounds state nr = Outcome.ok r ∧ r.length = 200 ∧ ∀ i < 1600, bitOf r i = keccakP nr (bitOf state) i := by
  have hc : collect (fun i => ldLane state i) 25 = Outcome.ok (lanes (laneAt state)) :=
    collect_ok (g := laneAt state) (fun i hi => ldLane_ok (by omega))
  have hinit : StEq (stOf (laneAt state)) (ofString (bitOf state)) := by
    intro x y z hx hy hz
    rw [stOf, laneAt_bit _ _ _ hz, ofString, Nat.add_comm x (5 * y)]
  obtain ⟨b, h1, h2⟩ := keccakOnWords_nr (laneAt state) nr hn
  have h3 := h2.trans (roundsFrom_congr hinit (24 - nr) nr)
  refine ⟨(lanes b).flatMap laneBytes, ?_, ?_, ?_⟩
  · unfold permuteNrounds
    rw [hc, ok_bind, h1, ok_bind]; rfl
  · rw [flatMap_laneBytes_length, arr_length]
  · intro i hi
    rw [flatMap_laneBytes_bit]
    have hl : (lanes b).getD (i / 64) 0 = b (i / 64 % 5 + 5 * (i / 320)) := by
      have e : i / 64 % 5 + 5 * (i / 320) = i / 64 := by omega
      rw [e, List.getD_eq_getElem?_getD, List.getElem?_eq_getElem (by rw [arr_length]; omega)]
      simp only [arr, List.getElem_map, List.getElem_range, Option.getD_some]
    rw [hl]
    exact h3 (i / 64 % 5) (i / 320) (i % 64) (by omega) (by omega) (by omega)

theorem roundsFrom_zero (n : ℕ) (A : St) : roundsFrom 0 n A = rounds n A := by
  induction n with
  | zero => rfl
  | succ n ih => rw [roundsFrom, rounds, ih, Nat.zero_add]

theorem keccakP_24 (S : ℕ → Bool) : keccakP 24 S = keccakP24 S := by
  unfold keccakP keccakP24
  rw [show 24 - 24 = 0 from rfl, roundsFrom_zero]

theorem keccakP_congr (nr : ℕ) {S T : ℕ → Bool} (h : ∀ i < 1600, S i = T i) {i : ℕ} (hi : i < 1600) : keccakP nr S i = keccakP nr T i := by
  have hinit : StEq (ofString S) (ofString T) := by
    intro x y z hx hy hz
    exact h _ (by omega)
  exact roundsFrom_congr hinit (24 - nr) nr _ _ _ (by omega) (by omega) (by omega)

/-! ### machines that are not little endian -/

theorem laneOr_bit (x : Lane) (b : Byte) (j z : ℕ) (hz : z < 64) :
    (x ||| (b.setWidth 64 <<< (8 * j))).getLsbD z = (x.getLsbD z || (decide (8 * j ≤ z) && b.getLsbD (z - 8 * j))) := by
  rw [BitVec.getLsbD_or, BitVec.getLsbD_shiftLeft, BitVec.getLsbD_setWidth]
  by_cases h : 8 * j ≤ z
  · simp [h, hz, show ¬ z < 8 * j by omega, show z - 8 * j < 64 by omega]
  · simp [h, show z < 8 * j by omega]

theorem fromBytesToWords_ok {state : Buf} (hs : state.length = 200) : fromBytesToWords state = Outcome.ok (lanes (laneAt state)) := by
  unfold fromBytesToWords
  rw [replicate_arr]
  refine loop_fill (fun _ => 0) (laneAt state) fun i hi a' _ => ?_
  rw [arr_wr _ _ hi, ok_bind]
  obtain ⟨w, h1, v, rfl, h3⟩ := loop_inv
    (fun j w => ∃ v, w = arr 25 (Function.update a' i v) ∧ ∀ z < 64, v.getLsbD z = (decide (z < 8 * j) && bitOf state (64 * i + z)))
    (f := fun j w => do
      let b ← rd state (i * (64 / 8) + j)
      let x ← rd w i
      wr w i (x ||| (b.setWidth 64 <<< (8 * j)))) (n := 64 / 8) (s := arr 25 (Function.update a' i 0)) ⟨0, rfl, by simp⟩ (by
      rintro j hj _ ⟨v, rfl, hv⟩
      have hj8 : j < 8 := hj
      refine ⟨_, by rw [rd_getD (by omega), ok_bind, arr_rd _ hi, ok_bind, arr_wr _ _ hi], _, by rw [Function.update_idem], fun z hz => ?_⟩
      rw [Function.update_self, laneOr_bit _ _ _ _ hz, hv z hz]
      by_cases h1 : z < 8 * j
      · simp [h1, show z < 8 * (j + 1) by omega, show ¬ 8 * j ≤ z by omega]
      · by_cases h2 : z < 8 * (j + 1)
        · simp only [h1, h2, decide_true, decide_false, Bool.false_and, Bool.false_or, Bool.true_and, show 8 * j ≤ z by omega]
          unfold bitOf
          rw [show (64 * i + z) / 8 = i * (64 / 8) + j by omega, show (64 * i + z) % 8 = z - 8 * j by omega]
        · simp only [h1, h2, decide_true, decide_false, Bool.false_and, Bool.false_or, Bool.true_and, show 8 * j ≤ z by omega]
          exact BitVec.getLsbD_of_ge _ _ (by omega))
  rw [h1]
  congr 3
  apply BitVec.eq_of_getLsbD_eq
  intro z hz
  rw [h3 z hz, laneAt_bit _ _ _ hz]
  simp [hz]

theorem fromWordsToBytes_ok {state : Buf} (hs : state.length = 200) (b : ℕ → Lane) :
    fromWordsToBytes state (lanes b) = Outcome.ok ((lanes b).flatMap laneBytes) := by
  have hbyte : ∀ k < 200, ((lanes b).flatMap laneBytes).getD k 0 = (b (k / 8)).extractLsb' (8 * (k % 8)) 8 := by
    intro k hk
    apply BitVec.eq_of_getLsbD_eq
    intro z hz
    have := flatMap_laneBytes_bit (lanes b) (8 * k + z)
    unfold bitOf at this
    rw [show (8 * k + z) / 8 = k by omega, show (8 * k + z) % 8 = z by omega] at this
    rw [this, show (8 * k + z) / 64 = k / 8 by omega, show (8 * k + z) % 64 = 8 * (k % 8) + z by omega, BitVec.getLsbD_extractLsb',
      List.getD_eq_getElem?_getD, List.getElem?_eq_getElem (by rw [arr_length]; omega)]
    simp [arr, hz]
  unfold fromWordsToBytes
  obtain ⟨s, h1, h2, h3⟩ := loop_inv
    (fun i (s : Buf) => s.length = 200 ∧ ∀ k < 8 * i, s.getD k 0 = ((lanes b).flatMap laneBytes).getD k 0)
    (f := fun i s => loop (fun j s => do
      let w ← rd (lanes b) i
      wr s (i * (64 / 8) + j) (((w >>> (8 * j)) &&& 0xFF).setWidth 8)) (64 / 8) s) (n := 25) (s := state) ⟨hs, by simp⟩ (by
      rintro i hi s ⟨hl, hv⟩
      obtain ⟨s', g1, g2, g3⟩ := loop_inv
        (fun j (s : Buf) => s.length = 200 ∧ ∀ k < 8 * i + j, s.getD k 0 = ((lanes b).flatMap laneBytes).getD k 0)
        (f := fun j s => do
          let w ← rd (lanes b) i
          wr s (i * (64 / 8) + j) (((w >>> (8 * j)) &&& 0xFF).setWidth 8)) (n := 64 / 8) (s := s) ⟨hl, by simpa using hv⟩ (by
          rintro j hj s ⟨hl, hv⟩
          have hj8 : j < 8 := hj
          refine ⟨_, by rw [arr_rd _ hi, ok_bind, wr_ok (by omega)], by simp [hl], fun k hk => ?_⟩
          by_cases hkj : k = i * (64 / 8) + j
          · subst hkj
            rw [hbyte _ (by omega), List.getD_eq_getElem?_getD, List.getElem?_set_self (by omega), Option.getD_some]
            apply BitVec.eq_of_getLsbD_eq
            intro z hz
            rw [BitVec.getLsbD_setWidth, BitVec.getLsbD_and, BitVec.getLsbD_ushiftRight, BitVec.getLsbD_extractLsb',
              show (i * (64 / 8) + j) / 8 = i by omega, show (i * (64 / 8) + j) % 8 = j by omega]
            have : (0xFF : Lane).getLsbD z = true := by
              interval_cases z <;> rfl
            rw [this]
            simp [hz]
          · rw [List.getD_eq_getElem?_getD, List.getElem?_set_ne (by omega), ← List.getD_eq_getElem?_getD]
            exact hv k (by omega))
      exact ⟨s', g1, g2, fun k hk => g3 k (by omega)⟩)
  rw [h1]
  congr 1
  have hlen : ((lanes b).flatMap laneBytes).length = 200 := by rw [flatMap_laneBytes_length, arr_length]
  apply List.ext_getElem (by rw [h2, hlen])
  intro k a1 a2
  have := h3 k (by omega)
  rwa [List.getD_eq_getElem?_getD, List.getD_eq_getElem?_getD, List.getElem?_eq_getElem a1, List.getElem?_eq_getElem a2] at this

theorem permuteBigEndian_eq {state : Buf} (hs : state.length = 200) (nr : ℕ) (hn : nr ≤ 24) : permuteBigEndian state nr = permuteNrounds state nr := by
  have hc : collect (fun i => ldLane state i) 25 = Outcome.ok (lanes (laneAt state)) :=
    collect_ok (g := laneAt state) (fun i hi => ldLane_ok (by omega))
  obtain ⟨b, h1, -⟩ := keccakOnWords_nr (laneAt state) nr hn
  unfold permuteBigEndian permuteNrounds
  rw [fromBytesToWords_ok hs, hc, ok_bind, ok_bind, h1, ok_bind, ok_bind, fromWordsToBytes_ok hs]
  rfl

/-! ### the tables -/

theorem roundConstants_eq : initializeRoundConstants = Outcome.ok keccakRoundConstants := by decide +kernel

theorem rhoOffsets_eq : initializeRhoOffsets = Outcome.ok keccakRhoOffsets := by decide +kernel

end Picnic.Sha3
