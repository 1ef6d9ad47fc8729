import Verif.Proofs.P3Aux2

/-
/repo/picnic3_impl.c: the online phase (`mpc_AND`, `mpc_sbox`, `simulateOnline`).
-/

namespace Picnic

open Finset Spec

/-- The messages of 16 parties. -/
abbrev msgs16 (ms : ℕ → Buf) (pos : ℕ) (u : Option ℕ) : Msgs := { msgs := arrN 16 ms, pos := pos, unopened := u }

theorem wordToMsgs_ok {P : Params} {ms : ℕ → Buf} {mp : ℕ} {u : Option ℕ} {f : ℕ → ZMod 2} (h16 : P.numMPCParties = 16)
    (h : ∀ j < 16, mp < 8 * (ms j).length) :
    wordToMsgs P (word16 f) (msgs16 ms mp u) = Outcome.ok (msgs16 (fun j => setBitP (ms j) mp (f j)) (mp + 1) u) := by
  unfold wordToMsgs
  rw [h16]
  dsimp only
  rw [loop_upd (f := ms) (g := fun j => setBitP (ms j) mp (f j)) fun i hi f' hf => by
    rw [getBit_ok (by rw [u16bytes_length]; omega), ok_bind, rd_arrN hi, ok_bind, hf, setBit_ok (h i hi), ok_bind, wr_arrN hi,
      bitsOf_u16bytes _ hi, wbit_word16 _ hi], ok_bind, pure_eq_ok]

theorem mpcAND16_ok {E : Env} {P : Params} {tp ms : ℕ → Buf} {pos mp : ℕ} {u : Option ℕ} {x y : ZMod 2} {fa fb : ℕ → ZMod 2}
    (h16 : P.numMPCParties = 16) (hu : ∀ k, u = some k → k < 16) (ht : ∀ j < 16, pos < 8 * (tp j).length)
    (hm : ∀ j < 16, mp < 8 * (ms j).length) {sh : ℕ → ZMod 2}
    (hsh : ∀ j < 16, sh j = if u = some j then bitsOf (ms j) mp else x * fb j + y * fa j + bitsOf (tp j) pos) :
    mpcAND16 E P (b8 x) (b8 y) (word16 fa) (word16 fb) (tapes16 tp pos) (msgs16 ms mp u) =
      Outcome.ok (b8 (∑ j ∈ range 16, sh j + x * y), tapes16 tp (pos + 1), msgs16 (fun j => setBitP (ms j) mp (sh j)) (mp + 1) u) := by
  unfold mpcAND16
  rw [tapesToWord_ok ht, ok_bind]
  dsimp only
  rw [extend16_eq, extend16_eq, word16_and, word16_and, word16_xor, word16_xor]
  have fin : ∀ w : U16, w = word16 sh → (do
      let msgs ← wordToMsgs P w (msgs16 ms mp u)
      pure ((parity16 w).setWidth 8 ^^^ (b8 x &&& b8 y), tapes16 tp (pos + 1), msgs) : M (Byte × RandomTape × Msgs)) =
      Outcome.ok (b8 (∑ j ∈ range 16, sh j + x * y), tapes16 tp (pos + 1), msgs16 (fun j => setBitP (ms j) mp (sh j)) (mp + 1) u) := by
    rintro w rfl
    rw [wordToMsgs_ok h16 hm, ok_bind, parity16_word, ← b8_mul, ← b8_add, pure_eq_ok]
  cases u with
  | none =>
    dsimp only
    rw [pure_bind]
    refine fin _ (word16_congr fun j hj => ?_)
    rw [hsh j hj, if_neg (by simp)]
  | some k =>
    have hk := hu k rfl
    dsimp only
    rw [rd_arrN hk, ok_bind, getBit_ok (hm k hk), ok_bind, setBit_ok (by rw [u16bytes_length]; omega), ok_bind,
      u16ofBytes_ok (by rw [setBitP_length]; rfl), ok_bind]
    refine fin _ (word16_congr fun j hj => ?_)
    rw [bitsOf_setBitP (by rw [u16bytes_length]; omega), Function.update_apply, hsh j hj]
    by_cases e : j = k
    · subst e; rw [if_pos rfl, if_pos rfl]
    · rw [if_neg e, if_neg (by simpa using fun h => e h.symm), bitsOf_u16bytes _ hj, wbit_word16 _ hj]

/-! ### the online phase as functions on bits -/

/-- Message bit of party `j` at AND gate `i` of an S-box layer with masked input `s`; `base`: position of the masks on the
tapes, `hb`: position of the AND helper bits, `mb`: position on the message lists. -/
def shareB (tb mu : ℕ → ℕ → ZMod 2) (u : Option ℕ) (base hb mb : ℕ) (s : Bits) (j i : ℕ) : ZMod 2 :=
  if u = some j then mu j (mb + i)
  else s (fstIx i) * tb j (base + sndIx i) + s (sndIx i) * tb j (base + fstIx i) + tb j (hb + i)

/-- Public output of AND gate `i`. -/
def andB (tb mu : ℕ → ℕ → ZMod 2) (u : Option ℕ) (base hb mb : ℕ) (s : Bits) (i : ℕ) : ZMod 2 :=
  ∑ j ∈ range 16, shareB tb mu u base hb mb s j i + s (fstIx i) * s (sndIx i)

/-- S-box outputs given the outputs of the AND gates. -/
def sboxB (s ao : Bits) (i : ℕ) : ZMod 2 :=
  if i % 3 = 0 then s (3 * (i / 3) + 2) + s (3 * (i / 3) + 1) + s (3 * (i / 3)) + ao (3 * (i / 3))
  else if i % 3 = 1 then s (3 * (i / 3) + 2) + s (3 * (i / 3) + 1) + ao (3 * (i / 3) + 2)
  else s (3 * (i / 3) + 2) + ao (3 * (i / 3) + 1)

theorem ix3 (k : ℕ) : (3 * k / 3 = k ∧ 3 * k % 3 = 0) ∧ ((3 * k + 1) / 3 = k ∧ (3 * k + 1) % 3 = 1) ∧ ((3 * k + 2) / 3 = k ∧ (3 * k + 2) % 3 = 2) := by
  omega

theorem sboxB_0 (s ao : Bits) (k : ℕ) : sboxB s ao (3 * k) = s (3 * k + 2) + s (3 * k + 1) + s (3 * k) + ao (3 * k) := by
  unfold sboxB; rw [(ix3 k).1.1, (ix3 k).1.2, if_pos rfl]

theorem sboxB_1 (s ao : Bits) (k : ℕ) : sboxB s ao (3 * k + 1) = s (3 * k + 2) + s (3 * k + 1) + ao (3 * k + 2) := by
  unfold sboxB; rw [(ix3 k).2.1.1, (ix3 k).2.1.2, if_neg (by omega), if_pos rfl]

theorem sboxB_2 (s ao : Bits) (k : ℕ) : sboxB s ao (3 * k + 2) = s (3 * k + 2) + ao (3 * k + 1) := by
  unfold sboxB; rw [(ix3 k).2.2.1, (ix3 k).2.2.2, if_neg (by omega), if_neg (by omega)]

theorem fs_0 (k : ℕ) : fstIx (3 * k) = 3 * k + 2 ∧ sndIx (3 * k) = 3 * k + 1 := by
  unfold fstIx sndIx; rw [(ix3 k).1.1, (ix3 k).1.2]; exact ⟨rfl, rfl⟩

theorem fs_1 (k : ℕ) : fstIx (3 * k + 1) = 3 * k + 1 ∧ sndIx (3 * k + 1) = 3 * k := by
  unfold fstIx sndIx; rw [(ix3 k).2.1.1, (ix3 k).2.1.2]; exact ⟨rfl, rfl⟩

theorem fs_2 (k : ℕ) : fstIx (3 * k + 2) = 3 * k ∧ sndIx (3 * k + 2) = 3 * k + 2 := by
  unfold fstIx sndIx; rw [(ix3 k).2.2.1, (ix3 k).2.2.2]; exact ⟨rfl, rfl⟩

theorem mpcSbox16_ok {E : Env} {P : Params} {tp ms : ℕ → Buf} {base hb mb m : ℕ} {u : Option ℕ} {state : Buf} {words : List U16}
    (h16 : P.numMPCParties = 16) (hu : ∀ k, u = some k → k < 16) (ht : ∀ j < 16, hb + 3 * P.numSboxes ≤ 8 * (tp j).length)
    (hm : ∀ j < 16, mb + 3 * P.numSboxes ≤ 8 * (ms j).length) (hs : 3 * P.numSboxes ≤ 8 * state.length)
    (hw : words = arrN m fun i => tword tp (base + i)) (hwl : 3 * P.numSboxes ≤ m) :
    ∃ (state' : Buf) (ms' : ℕ → Buf), mpcSbox16 E P state words (tapes16 tp hb) (msgs16 ms mb u) =
        Outcome.ok (state', tapes16 tp (hb + 3 * P.numSboxes), msgs16 ms' (mb + 3 * P.numSboxes) u) ∧
      state'.length = state.length ∧ (∀ j < 16, (ms' j).length = (ms j).length) ∧
      (∀ i, bitsOf state' i = if i < 3 * P.numSboxes then
        sboxB (bitsOf state) (andB (fun j => bitsOf (tp j)) (fun j => bitsOf (ms j)) u base hb mb (bitsOf state)) i else bitsOf state i) ∧
      (∀ j < 16, ∀ p, bitsOf (ms' j) p = if mb ≤ p ∧ p < mb + 3 * P.numSboxes then
        shareB (fun j => bitsOf (tp j)) (fun j => bitsOf (ms j)) u base hb mb (bitsOf state) j (p - mb) else bitsOf (ms j) p) := by
  subst hw
  obtain ⟨sh, hshd⟩ : ∃ sh, sh = shareB (fun j => bitsOf (tp j)) (fun j => bitsOf (ms j)) u base hb mb (bitsOf state) := ⟨_, rfl⟩
  obtain ⟨ao, haod⟩ : ∃ ao, ao = andB (fun j => bitsOf (tp j)) (fun j => bitsOf (ms j)) u base hb mb (bitsOf state) := ⟨_, rfl⟩
  rw [← hshd, ← haod]
  have hao : ∀ i, ao i = ∑ j ∈ range 16, sh j i + bitsOf state (fstIx i) * bitsOf state (sndIx i) := by
    intro i; rw [haod, hshd, andB]
  have hsh : ∀ j i, sh j i = if u = some j then bitsOf (ms j) (mb + i)
      else bitsOf state (fstIx i) * bitsOf (tp j) (base + sndIx i) + bitsOf state (sndIx i) * bitsOf (tp j) (base + fstIx i) + bitsOf (tp j) (hb + i) := by
    intro j i; rw [hshd, shareB]
  clear hshd haod
  unfold mpcSbox16
  have key := loop_inv (fun k (s : Buf × RandomTape × Msgs) => ∃ ms' : ℕ → Buf, s.1.length = state.length ∧ s.2.1 = tapes16 tp (hb + 3 * k) ∧
      s.2.2 = msgs16 ms' (mb + 3 * k) u ∧ (∀ j < 16, (ms' j).length = (ms j).length) ∧
      (∀ i, bitsOf s.1 i = if i < 3 * k then sboxB (bitsOf state) ao i else bitsOf state i) ∧
      (∀ j < 16, ∀ p, bitsOf (ms' j) p = if mb ≤ p ∧ p < mb + 3 * k then sh j (p - mb) else bitsOf (ms j) p))
    (f := fun k (s : Buf × RandomTape × Msgs) => do
      let i := 3 * k
      let a ← getBit s.1 (i + 2)
      let mask_a ← rd (arrN m fun i => tword tp (base + i)) (i + 2)
      let b ← getBit s.1 (i + 1)
      let mask_b ← rd (arrN m fun i => tword tp (base + i)) (i + 1)
      let c ← getBit s.1 i
      let mask_c ← rd (arrN m fun i => tword tp (base + i)) i
      let (ab, tapes, msgs) ← mpcAND16 E P a b mask_a mask_b s.2.1 s.2.2
      let (bc, tapes, msgs) ← mpcAND16 E P b c mask_b mask_c tapes msgs
      let (ca, tapes, msgs) ← mpcAND16 E P c a mask_c mask_a tapes msgs
      let state ← setBit s.1 (i + 2) (a ^^^ bc)
      let state ← setBit state (i + 1) (a ^^^ b ^^^ ca)
      let state ← setBit state i (a ^^^ b ^^^ c ^^^ ab)
      pure (state, tapes, msgs)) (n := P.numSboxes) (s := (state, tapes16 tp hb, msgs16 ms mb u))
    ⟨ms, rfl, rfl, rfl, fun _ _ => rfl, fun i => by rw [if_neg (by omega)], fun j _ p => by rw [if_neg (by omega)]⟩ (by
      rintro k hk ⟨st, tps, mss⟩ ⟨ms', hsl, e1, e2, hml, hsb, hmb⟩
      dsimp only at hsl e1 e2 hsb ⊢
      subst e1 e2
      have hs0 : ∀ i, 3 * k ≤ i → bitsOf st i = bitsOf state i := fun i hi => by rw [hsb, if_neg (by omega)]
      have hm0 : ∀ j < 16, ∀ p, mb + 3 * k ≤ p → bitsOf (ms' j) p = bitsOf (ms j) p := fun j hj p hp => by rw [hmb j hj, if_neg (by omega)]
      rw [getBit_ok (by omega), ok_bind, rd_arrN (by omega), ok_bind, getBit_ok (by omega), ok_bind, rd_arrN (by omega), ok_bind,
        getBit_ok (by omega), ok_bind, rd_arrN (by omega), ok_bind]
      rw [mpcAND16_ok (sh := fun j => sh j (3 * k)) h16 hu (fun j hj => by have := ht j hj; omega) (fun j hj => by have := hm j hj; rw [hml j hj]; omega) (by
        intro j hj
        rw [hsh, (fs_0 k).1, (fs_0 k).2, hm0 j hj _ (by omega), hs0 _ (by omega), hs0 _ (by omega)]), ok_bind]
      dsimp only
      rw [mpcAND16_ok (sh := fun j => sh j (3 * k + 1)) h16 hu (fun j hj => by have := ht j hj; omega)
        (fun j hj => by have := hm j hj; rw [setBitP_length, hml j hj]; omega) (by
        intro j hj
        have := hm j hj; have := hml j hj
        rw [bitsOf_setBitP (by omega), Function.update_of_ne (by omega), hm0 j hj _ (by omega), hsh, (fs_1 k).1, (fs_1 k).2, hs0 _ (by omega),
          hs0 _ (by omega)]; rfl), ok_bind]
      dsimp only
      rw [mpcAND16_ok (sh := fun j => sh j (3 * k + 2)) h16 hu (fun j hj => by have := ht j hj; omega)
        (fun j hj => by have := hm j hj; rw [setBitP_length, setBitP_length, hml j hj]; omega) (by
        intro j hj
        have := hm j hj; have := hml j hj
        rw [bitsOf_setBitP (by rw [setBitP_length]; omega), Function.update_of_ne (by omega), bitsOf_setBitP (by omega),
          Function.update_of_ne (by omega), hm0 j hj _ (by omega), hsh, (fs_2 k).1, (fs_2 k).2, hs0 _ (by omega),
          hs0 _ (by omega)]; rfl), ok_bind]
      dsimp only
      rw [← b8_add, ← b8_add, ← b8_add, ← b8_add, ← b8_add, setBit_ok (by omega), ok_bind, setBit_ok (by rw [setBitP_length]; omega), ok_bind,
        setBit_ok (by rw [setBitP_length, setBitP_length]; omega), ok_bind]
      refine ⟨_, rfl, fun j => setBitP (setBitP (setBitP (ms' j) (mb + 3 * k) (sh j (3 * k))) (mb + 3 * k + 1) (sh j (3 * k + 1))) (mb + 3 * k + 1 + 1) (sh j (3 * k + 2)),
        by rw [setBitP_length, setBitP_length, setBitP_length, hsl], rfl, rfl, fun j hj => by rw [setBitP_length, setBitP_length, setBitP_length, hml j hj], fun i => ?_, fun j hj p => ?_⟩
      · dsimp only
        rw [bitsOf_setBitP (by rw [setBitP_length, setBitP_length]; omega), bitsOf_setBitP (by rw [setBitP_length]; omega), bitsOf_setBitP (by omega)]
        simp only [Function.update_apply]
        rw [hs0 (3 * k + 2) (by omega), hs0 (3 * k + 1) (by omega), hs0 (3 * k) (by omega)]
        by_cases h0 : i = 3 * k
        · rw [if_pos h0, if_pos (by omega), h0, sboxB_0, hao, (fs_0 k).1, (fs_0 k).2]
        rw [if_neg h0]
        by_cases h1 : i = 3 * k + 1
        · rw [if_pos h1, if_pos (by omega), h1, sboxB_1, hao, (fs_2 k).1, (fs_2 k).2]
        rw [if_neg h1]
        by_cases h2 : i = 3 * k + 2
        · rw [if_pos h2, if_pos (by omega), h2, sboxB_2, hao, (fs_1 k).1, (fs_1 k).2]
        rw [if_neg h2, hsb]
        by_cases h3 : i < 3 * k
        · rw [if_pos h3, if_pos (by omega)]
        · rw [if_neg h3, if_neg (by omega)]
      · have hj1 := hm j hj
        have hj2 := hml j hj
        dsimp only
        rw [bitsOf_setBitP (by rw [setBitP_length, setBitP_length]; omega), bitsOf_setBitP (by rw [setBitP_length]; omega), bitsOf_setBitP (by omega)]
        simp only [Function.update_apply]
        by_cases h2 : p = mb + 3 * k + 1 + 1
        · rw [if_pos h2, if_pos (by omega), show p - mb = 3 * k + 2 by omega]
        rw [if_neg h2]
        by_cases h1 : p = mb + 3 * k + 1
        · rw [if_pos h1, if_pos (by omega), show p - mb = 3 * k + 1 by omega]
        rw [if_neg h1]
        by_cases h0 : p = mb + 3 * k
        · rw [if_pos h0, if_pos (by omega), show p - mb = 3 * k by omega]
        rw [if_neg h0, hmb j hj]
        by_cases hp : mb ≤ p ∧ p < mb + 3 * k
        · rw [if_pos hp, if_pos (by omega)]
        · rw [if_neg hp, if_neg (by omega)])
  obtain ⟨⟨st, tps, mss⟩, e, ms', h1, h2, h3, h4, h5, h6⟩ := key
  dsimp only at h1 h2 h3 h5
  subst h2 h3
  exact ⟨st, ms', e, h1, h4, h5, h6⟩

end Picnic
