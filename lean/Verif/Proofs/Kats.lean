import Verif.Model.Kats
import Verif.Spec.Kats
import Verif.Proofs.Base
import Verif.Proofs.ZkbOob2

/-
Lemmas about the program that reads known-answer tests.
-/

namespace Picnic.Kats

open Spec.Kats

theorem text_count : text "count = " = sCount := by decide
theorem text_seed : text "seed = " = sSeed := by decide
theorem text_mlen : text "mlen = " = sMlen := by decide
theorem text_msg : text "msg = " = sMsg := by decide
theorem text_pk : text "pk = " = sPk := by decide
theorem text_sk : text "sk = " = sSk := by decide
theorem text_smlen : text "smlen = " = sSmlen := by decide
theorem text_sm : text "sm = " = sSm := by decide

theorem hexDigit_lt {c : Byte} {v : ℕ} (h : HexDigit c v) : v < 16 := by
  rcases h with h | h <;> exact (List.getElem?_eq_some_iff.1 h).choose

theorem parseHexC_digit {c : Byte} {v : ℕ} (h : HexDigit c v) : parseHexC c = BitVec.ofNat 8 v := by
  have hv := hexDigit_lt h
  have h1 : ∀ v < 16, ∀ c, (text "0123456789abcdef")[v]? = some c → parseHexC c = BitVec.ofNat 8 v := by decide
  have h2 : ∀ v < 16, ∀ c, (text "0123456789ABCDEF")[v]? = some c → parseHexC c = BitVec.ofNat 8 v := by decide
  rcases h with h | h
  · exact h1 v hv c h
  · exact h2 v hv c h

theorem nibbles {a b : ℕ} (ha : a < 16) (hb : b < 16) :
    BitVec.ofNat 8 a ≠ 0xff ∧ (BitVec.ofNat 8 a : Byte) <<< 4 ||| BitVec.ofNat 8 b = BitVec.ofNat 8 (16 * a + b) := by
  have : ∀ a < 16, ∀ b < 16, BitVec.ofNat 8 a ≠ 0xff ∧ (BitVec.ofNat 8 a : Byte) <<< 4 ||| BitVec.ofNat 8 b = BitVec.ofNat 8 (16 * a + b) := by
    decide +kernel
  exact this a ha b hb

theorem isHex_length {cs bs : Buf} (h : IsHex cs bs) : cs.length = 2 * bs.length := by
  induction h with
  | nil => rfl
  | cons _ _ _ ih => simp only [List.length_cons, ih]; omega

theorem isHex_get {cs bs : Buf} (h : IsHex cs bs) : ∀ s (hs : s < bs.length), ∃ a b c d, HexDigit c a ∧ HexDigit d b ∧ cs[2 * s]? = some c ∧
    cs[2 * s + 1]? = some d ∧ bs[s]? = some (BitVec.ofNat 8 (16 * a + b)) := by
  induction h with
  | nil => intro s hs; simp at hs
  | @cons h l a b cs bs h1 h2 _ ih =>
    intro s hs
    cases s with
    | zero => exact ⟨a, b, h, l, h1, h2, rfl, rfl, rfl⟩
    | succ s =>
      obtain ⟨a', b', c, d, q1, q2, q3, q4, q5⟩ := ih s (by simpa using hs)
      refine ⟨a', b', c, d, q1, q2, ?_, ?_, ?_⟩
      · rw [show 2 * (s + 1) = 2 * s + 1 + 1 by ring, List.getElem?_cons_succ, List.getElem?_cons_succ, q3]
      · rw [show 2 * (s + 1) + 1 = 2 * s + 1 + 1 + 1 by ring, List.getElem?_cons_succ, List.getElem?_cons_succ, q4]
      · rw [List.getElem?_cons_succ, q5]

theorem parseHex_ok {cs bs dst pre post : Buf} {off : ℕ} (h : IsHex cs bs) (hoff : pre.length = off) (hd : bs.length ≤ dst.length) :
    parseHex (some dst) (pre ++ cs ++ post) off bs.length = Outcome.ok (some (some (bs ++ dst.drop bs.length))) := by
  unfold parseHex
  obtain ⟨r, e, hr⟩ := loop_inv (fun s (r : Option (Option Buf)) => r = some (some (bs.take s ++ dst.drop s))) (n := bs.length) (s := some (some dst))
    (f := fun s (st : Option (Option Buf)) =>
    match st with
    | none => pure none
    | some dst => do
      let c0 ← rd (pre ++ cs ++ post) (off + 2 * s)
      let c1 ← rd (pre ++ cs ++ post) (off + 2 * s + 1)
      let high := parseHexC c0
      let low := parseHexC c1
      if high = 0xff ∨ low = 0xff then pure none
      else
        match dst with
        | none => .ub .nullDeref
        | some dst => do
          let dst ← wr dst s (high <<< 4 ||| low)
          pure (some (some dst))) (by simp) (by
    rintro s hs _ rfl
    obtain ⟨a, b, c, d, h1, h2, h3, h4, h5⟩ := isHex_get h s hs
    have hl := isHex_length h
    have r1 : rd (pre ++ cs ++ post) (off + 2 * s) = Outcome.ok c := by
      unfold rd
      rw [List.append_assoc, List.getElem?_append_right (by omega), List.getElem?_append_left (by omega), ← hoff, Nat.add_sub_cancel_left, h3]
    have r2 : rd (pre ++ cs ++ post) (off + 2 * s + 1) = Outcome.ok d := by
      unfold rd
      rw [List.append_assoc, List.getElem?_append_right (by omega), List.getElem?_append_left (by omega), ← hoff,
        show pre.length + 2 * s + 1 - pre.length = 2 * s + 1 by omega, h4]
    refine ⟨_, ?_, rfl⟩
    dsimp only
    rw [r1, ok_bind, r2, ok_bind]
    rw [parseHexC_digit h1, parseHexC_digit h2]
    have n1 := nibbles (hexDigit_lt h1) (hexDigit_lt h2)
    have n2 := nibbles (hexDigit_lt h2) (hexDigit_lt h1)
    rw [if_neg (by rintro (q | q); exacts [n1.1 q, n2.1 q]), n1.2, wr_ok (by simp; omega), ok_bind]
    congr 3
    have hb : bs[s] = BitVec.ofNat 8 (16 * a + b) := by
      rw [List.getElem?_eq_getElem hs] at h5
      exact Option.some.inj h5
    rw [List.set_append_right _ _ (by simp), List.take_succ_eq_append_getElem hs, hb, List.append_assoc, List.length_take, Nat.min_eq_left (by omega), Nat.sub_self,
      List.drop_eq_getElem_cons (by omega : s < dst.length)]
    rfl)
  rw [hr, List.take_length] at e
  exact e

theorem isDigit_dec {d : ℕ} (h : d < 10) : isDigit (BitVec.ofNat 8 (0x30 + d)) = true ∧ (BitVec.ofNat 8 (0x30 + d) : Byte).toNat - 0x30 = d := by
  have : ∀ d < 10, isDigit (BitVec.ofNat 8 (0x30 + d)) = true ∧ (BitVec.ofNat 8 (0x30 + d) : Byte).toNat - 0x30 = d := by decide
  exact this d h

theorem dec_value : ∀ l : List ℕ, (∀ d ∈ l, d < 10) →
    (l.reverse.map fun d => (BitVec.ofNat 8 (0x30 + d) : Byte)).foldl (fun a c => 10 * a + (c.toNat - 0x30)) 0 = Nat.ofDigits 10 l
  | [], _ => rfl
  | d :: l, h => by
    rw [List.reverse_cons, List.map_append, List.foldl_append, dec_value l fun x hx => h x (List.mem_cons_of_mem _ hx), Nat.ofDigits_cons]
    simp only [List.map_cons, List.map_nil, List.foldl_cons, List.foldl_nil, (isDigit_dec (h d List.mem_cons_self)).2]
    ring

theorem scanZu_dec {n : ℕ} (h0 : n ≠ 0) (hn : n < 2 ^ 64) : scanZu (dec n ++ [0x0a]) = some n := by
  have hd : ∀ d ∈ Nat.digits 10 n, d < 10 := fun d hd => Nat.digits_lt_base (by decide) hd
  have hall : ∀ c ∈ dec n, isDigit c = true := by
    intro c hc
    unfold dec at hc
    rw [List.mem_map] at hc
    obtain ⟨d, hd', rfl⟩ := hc
    exact (isDigit_dec (hd d (List.mem_reverse.1 hd'))).1
  have hne : dec n ≠ [] := by
    unfold dec
    simp only [ne_eq, List.map_eq_nil_iff, List.reverse_eq_nil_iff]
    exact Nat.digits_ne_nil_iff_ne_zero.2 h0
  obtain ⟨c, t, hct⟩ := List.exists_cons_of_ne_nil hne
  have hc : isDigit c = true := hall c (by rw [hct]; exact List.mem_cons_self)
  have hcs : isSpace c = false ∧ (some c == some (0x2d : Byte)) = false ∧ (some c == some (0x2b : Byte)) = false := by
    revert hc
    revert c
    intro c _
    revert c
    have : ∀ c : Byte, isDigit c = true → isSpace c = false ∧ (some c == some (0x2d : Byte)) = false ∧ (some c == some (0x2b : Byte)) = false := by
      decide +kernel
    exact fun c _ h => this c h
  have hv : (dec n).foldl (fun a c => 10 * a + (c.toNat - 0x30)) 0 = n := by
    unfold dec
    rw [dec_value _ hd, Nat.ofDigits_digits]
  have htw : (dec n ++ [0x0a]).takeWhile isDigit = dec n := by
    rw [List.takeWhile_append_of_pos hall]
    simp [isDigit]
  unfold scanZu
  have hdw : (dec n ++ [0x0a]).dropWhile isSpace = dec n ++ [0x0a] := by
    rw [hct, List.cons_append, List.dropWhile_cons_of_neg (by simp [hcs.1])]
  have hh : (dec n ++ [0x0a]).head? = some c := by rw [hct]; rfl
  dsimp only
  rw [hdw, hh, hcs.2.1, hcs.2.2]
  simp only [Bool.or_self, Bool.false_eq_true, if_false]
  rw [htw, if_neg hne, hv, if_neg (by omega)]

theorem starts_self (p t : Buf) : starts (p ++ t) p = true := by
  unfold starts
  rw [List.take_left]
  simp

section
variable {pks sks : ℕ} {e : Bool} {tv : TestVector} {rest : List Buf}

theorem not_skip {p : Buf} (t : Buf) (h : 2 ≤ p.length ∧ p.head? ≠ some 0x23) : ¬ ((p ++ t).length ≤ 1 ∨ (p ++ t).head? = some 0x23) := by
  rintro (h' | h')
  · rw [List.length_append] at h'
    omega
  · cases p with
    | nil => simp at h
    | cons a p => exact h.2 h'

theorem read_skip {l : Buf} (h : Skip l) : readTestVector pks sks false tv (l :: rest) = readTestVector pks sks false tv rest := by
  have h' : l.length ≤ 1 ∨ l.head? = some 0x23 := h
  rw [readTestVector, if_pos h']
  rfl

theorem read_count (t : Buf) : readTestVector pks sks e tv ((sCount ++ t) :: rest) = readTestVector pks sks true tv rest := by
  rw [readTestVector, if_neg (not_skip _ (by decide)), if_pos (starts_self _ _)]

theorem read_seed (t : Buf) : readTestVector pks sks e tv ((sSeed ++ t) :: rest) = readTestVector pks sks e tv rest := by
  rw [readTestVector, if_neg (not_skip _ (by decide)), if_neg (by simp [starts, sSeed, sCount]), if_pos (starts_self _ _)]

theorem read_mlen {n : ℕ} (h0 : n ≠ 0) (hn : n < 2 ^ 64) :
    readTestVector pks sks e tv ((sMlen ++ dec n ++ [0x0a]) :: rest) = readTestVector pks sks e { tv with mlen := n } rest := by
  rw [List.append_assoc, readTestVector, if_neg (not_skip _ (by decide)), if_neg (by simp [starts, sMlen, sCount]), if_neg (by simp [starts, sMlen, sSeed]),
    if_pos (starts_self _ _)]
  have : (sMlen ++ (dec n ++ [0x0a])).drop 7 = dec n ++ [0x0a] := rfl
  rw [this, scanZu_dec h0 hn]

theorem calloc_ok {n : ℕ} (h : n < 2 ^ 63) : calloc1 n = some (zeros n) := if_pos h

theorem read_msg {cs bs : Buf} (h : IsHex cs bs) (hm : tv.mlen = bs.length) (h0 : bs.length ≠ 0) (hn : bs.length < 2 ^ 62) :
    readTestVector pks sks e tv ((sMsg ++ cs ++ [0x0a]) :: rest) = readTestVector pks sks e { tv with msg := some bs } rest := by
  have hl := isHex_length h
  rw [readTestVector, if_neg (by rw [List.append_assoc]; exact not_skip _ (by decide)), if_neg (by simp [starts, sMsg, sCount]),
    if_neg (by simp [starts, sMsg, sSeed]), if_neg (by simp [starts, sMsg, sMlen]),
    if_pos ⟨by rw [List.append_assoc]; exact starts_self _ _, by omega, by
      rw [Nat.mod_eq_of_lt (by omega), List.length_append, List.length_append, hl, hm]
      change _ ≤ 6 + _ + 1
      omega⟩, hm, calloc_ok (by omega), List.append_assoc _ _ [0], parseHex_ok (pre := sMsg) h (show _ = 6 from rfl) (by simp [zeros]), ok_bind]
  simp [zeros]

theorem read_pk {cs bs : Buf} (h : IsHex cs bs) (hm : pks = bs.length) (h1 : pks ≤ tv.pk.length) :
    readTestVector pks sks e tv ((sPk ++ cs ++ [0x0a]) :: rest) =
      readTestVector pks sks e { tv with pk := bs ++ tv.pk.drop bs.length } rest := by
  have hl := isHex_length h
  subst hm
  rw [readTestVector, if_neg (by rw [List.append_assoc]; exact not_skip _ (by decide)), if_neg (by simp [starts, sPk, sCount]),
    if_neg (by simp [starts, sPk, sSeed]), if_neg (by simp [starts, sPk, sMlen]), if_neg (by simp [starts, sPk, sMsg]),
    if_pos ⟨by rw [List.append_assoc]; exact starts_self _ _, by
      rw [List.length_append, List.length_append, hl]
      change _ ≤ 5 + _ + 1
      omega⟩, List.append_assoc _ _ [0], parseHex_ok (pre := sPk) h (show _ = 5 from rfl) h1, ok_bind]
  rfl

theorem read_sk {cs bs : Buf} (h : IsHex cs bs) (hm : sks = bs.length) (h1 : sks ≤ tv.sk.length) :
    readTestVector pks sks e tv ((sSk ++ cs ++ [0x0a]) :: rest) =
      readTestVector pks sks e { tv with sk := bs ++ tv.sk.drop bs.length } rest := by
  have hl := isHex_length h
  subst hm
  rw [readTestVector, if_neg (by rw [List.append_assoc]; exact not_skip _ (by decide)), if_neg (by simp [starts, sSk, sCount]),
    if_neg (by simp [starts, sSk, sSeed]), if_neg (by simp [starts, sSk, sMlen]), if_neg (by simp [starts, sSk, sMsg]),
    if_neg (by simp [starts, sSk, sPk]), if_pos ⟨by rw [List.append_assoc]; exact starts_self _ _, by
      rw [List.length_append, List.length_append, hl]
      change _ ≤ 5 + _ + 1
      omega⟩, List.append_assoc _ _ [0], parseHex_ok (pre := sSk) h (show _ = 5 from rfl) h1, ok_bind]
  rfl

theorem read_smlen {n : ℕ} (h0 : n ≠ 0) (hn : n < 2 ^ 64) :
    readTestVector pks sks e tv ((sSmlen ++ dec n ++ [0x0a]) :: rest) = readTestVector pks sks e { tv with smlen := n } rest := by
  rw [List.append_assoc, readTestVector, if_neg (not_skip _ (by decide)), if_neg (by simp [starts, sSmlen, sCount]), if_neg (by simp [starts, sSmlen, sSeed]),
    if_neg (by simp [starts, sSmlen, sMlen]), if_neg (by simp [starts, sSmlen, sMsg]), if_neg (by simp [starts, sSmlen, sPk]),
    if_neg (by simp [starts, sSmlen, sSk]), if_pos (starts_self _ _)]
  have : (sSmlen ++ (dec n ++ [0x0a])).drop 8 = dec n ++ [0x0a] := rfl
  rw [this, scanZu_dec h0 hn]

theorem read_sm {cs bs : Buf} (h : IsHex cs bs) (hm : tv.smlen = bs.length) (h0 : bs.length ≠ 0) (hn : bs.length < 2 ^ 62) (h1 : tv.mlen ≠ 0)
    (h2 : tv.msg.isSome) :
    readTestVector pks sks e tv ((sSm ++ cs ++ [0x0a]) :: rest) = Outcome.ok (some { tv with sm := some bs }, rest) := by
  have hl := isHex_length h
  rw [readTestVector, if_neg (by rw [List.append_assoc]; exact not_skip _ (by decide)), if_neg (by simp [starts, sSm, sCount]),
    if_neg (by simp [starts, sSm, sSeed]), if_neg (by simp [starts, sSm, sMlen]), if_neg (by simp [starts, sSm, sMsg]),
    if_neg (by simp [starts, sSm, sPk]), if_neg (by simp [starts, sSm, sSk]), if_neg (by simp [starts, sSm, sSmlen]),
    if_pos ⟨by rw [List.append_assoc]; exact starts_self _ _, by omega, by
      rw [Nat.mod_eq_of_lt (by omega), List.length_append, List.length_append, hl, hm]
      change _ ≤ 5 + _ + 1
      omega⟩, hm, calloc_ok (by omega), List.append_assoc _ _ [0], parseHex_ok (pre := sSm) h (show _ = 5 from rfl) (by simp [zeros]), ok_bind]
  dsimp only
  rw [if_pos]
  · simp [zeros]
  · simp only [complete, Bool.and_eq_true, Bool.not_eq_true', beq_eq_false_iff_ne]
    exact ⟨⟨⟨h1, by omega⟩, h2⟩, rfl⟩

end

/-- The vector as it is in memory. -/
def vecOf (v : Vec) : TestVector :=
  { mlen := v.msg.length, msg := some v.msg, pk := v.pk ++ (zeros PICNIC_MAX_PUBLICKEY_SIZE).drop v.pk.length,
    sk := v.sk ++ (zeros PICNIC_MAX_PRIVATEKEY_SIZE).drop v.sk.length, smlen := (v.header ++ v.sig).length, sm := some (v.header ++ v.sig) }

theorem read_lines {v : Vec} {ls rest : List Buf} (h : Lines v ls) (hm : v.msg.length ≠ 0) (hm' : v.msg.length < 2 ^ 62)
    (hs : (v.header ++ v.sig).length ≠ 0) (hs' : (v.header ++ v.sig).length < 2 ^ 62) (hpk : v.pk.length ≤ PICNIC_MAX_PUBLICKEY_SIZE)
    (hsk : v.sk.length ≤ PICNIC_MAX_PRIVATEKEY_SIZE) :
    readTestVector v.pk.length v.sk.length false TestVector.zero (ls ++ rest) = Outcome.ok (some (vecOf v), rest) := by
  obtain ⟨skip, count, seed, c1, c2, c3, c4, hskip, h1, h2, h3, h4, rfl⟩ := h
  have hsk' : ∀ (l r : List Buf), (∀ x ∈ l, Skip x) → readTestVector v.pk.length v.sk.length false TestVector.zero (l ++ r) =
      readTestVector v.pk.length v.sk.length false TestVector.zero r := by
    intro l
    induction l with
    | nil => intro r _; rfl
    | cons x l ih =>
      intro r hx
      rw [List.cons_append, read_skip (hx x List.mem_cons_self), ih r fun y hy => hx y (List.mem_cons_of_mem _ hy)]
  rw [List.append_assoc, hsk' _ _ hskip, text_count, text_seed, text_mlen, text_msg, text_pk, text_sk, text_smlen, text_sm]
  simp only [List.cons_append, List.nil_append]
  rw [read_count, read_seed, read_mlen hm (by omega), read_msg h1 rfl hm hm', read_pk h2 rfl (by simpa [TestVector.zero, zeros] using hpk),
    read_sk h3 rfl (by simpa [TestVector.zero, zeros] using hsk), read_smlen hs (by omega), read_sm h4 rfl hs hs' hm rfl]
  rfl

theorem read_skips {pks sks : ℕ} (l r : List Buf) (h : ∀ x ∈ l, Skip x) :
    readTestVector pks sks false TestVector.zero (l ++ r) = readTestVector pks sks false TestVector.zero r := by
  induction l with
  | nil => rfl
  | cons x l ih => rw [List.cons_append, read_skip (h x List.mem_cons_self), ih fun y hy => h y (List.mem_cons_of_mem _ hy)]

theorem starts_iff {l p : Buf} : starts l p = true ↔ p <+: l := by
  unfold starts
  rw [beq_iff_eq, List.prefix_iff_eq_take]
  exact eq_comm

theorem read_unknown {pks sks : ℕ} {l : Buf} {rest : List Buf} (h : Unknown l) :
    readTestVector pks sks false TestVector.zero (l :: rest) = Outcome.ok (none, rest) := by
  obtain ⟨h1, h2⟩ := h
  have h1' : ¬ (l.length ≤ 1 ∨ l.head? = some 0x23) := h1
  have hs : ∀ (s : String) (p : Buf), text s = p → s ∈ ["count = ", "seed = ", "mlen = ", "msg = ", "pk = ", "sk = ", "smlen = ", "sm = "] →
      ¬ starts l p = true := fun s p e hm h => h2 s hm (e ▸ starts_iff.1 h)
  rw [readTestVector, if_neg h1', if_neg (hs _ _ text_count (by simp)), if_neg (hs _ _ text_seed (by simp)), if_neg (hs _ _ text_mlen (by simp)),
    if_neg (fun h => hs _ _ text_msg (by simp) h.1), if_neg (fun h => hs _ _ text_pk (by simp) h.1), if_neg (fun h => hs _ _ text_sk (by simp) h.1),
    if_neg (hs _ _ text_smlen (by simp)), if_neg (fun h => hs _ _ text_sm (by simp) h.1)]
  rfl

/-- The test that is run for a vector: `run_picnic_test` with the arrays of the vector. -/
def judge (E : Env) (J : CycleJunk) (v : Vec) : M Int :=
  runPicnicTest E J v.msg v.msg.length (v.pk ++ (zeros PICNIC_MAX_PUBLICKEY_SIZE).drop v.pk.length) v.pk.length
    (v.sk ++ (zeros PICNIC_MAX_PRIVATEKEY_SIZE).drop v.sk.length) v.sk.length v.sig v.sig.length

theorem runVector_vecOf {E : Env} {J : CycleJunk} {pks sks : ℕ} {v : Vec} (h : Sized pks sks v) : runVector E J pks sks (vecOf v) = judge E J v := by
  have h1 := h.header
  have h2 := h.msg32
  have h3 := h.sig
  unfold runVector judge
  simp only [vecOf, deref, pure_eq_ok, ok_bind]
  have hc : ¬ (v.header ++ v.sig).length < v.msg.length + 4 := by rw [List.length_append]; omega
  simp only [hc, if_false]
  rw [h.pk, h.sk]
  congr 1
  · rw [List.drop_left' (by omega)]
  · rw [List.length_append, show v.header.length + v.sig.length + (2 ^ 64 - (v.msg.length + 4)) = v.sig.length + 2 ^ 64 from by omega, Nat.add_mod_right,
      Nat.mod_eq_of_lt (by omega)]

theorem sized_read {pks sks : ℕ} {v : Vec} {ls rest : List Buf} (h : Sized pks sks v) (hl : Lines v ls) (h1 : pks ≤ PICNIC_MAX_PUBLICKEY_SIZE)
    (h2 : sks ≤ PICNIC_MAX_PRIVATEKEY_SIZE) : readTestVector pks sks false TestVector.zero (ls ++ rest) = Outcome.ok (some (vecOf v), rest) := by
  have a1 := h.header
  have a2 := h.msg32
  have a3 := h.sig
  have a4 := h.msg
  have a5 := h.pk
  have a6 := h.sk
  subst a5 a6
  exact read_lines hl (by omega) (by omega) (by rw [List.length_append]; omega) (by rw [List.length_append]; omega) h1 h2

/-- The loop over the vectors of a file, with further lines after them. -/
theorem run_file {E : Env} {J : ℕ → CycleJunk} {pks sks : ℕ} {vs : List Vec} {lines : List Buf} (h : File vs lines)
    (hs : ∀ v ∈ vs, Sized pks sks v) (h1 : pks ≤ PICNIC_MAX_PUBLICKEY_SIZE) (h2 : sks ≤ PICNIC_MAX_PRIVATEKEY_SIZE) (tail : List Buf) :
    ∀ (fuel k s : ℕ) (res : ℕ → Int), vs.length < fuel →
      (∀ i (hi : i < vs.length), judge E (J (k + i)) vs[i] = Outcome.ok (res i) ∧ (res i = 0 ∨ res i = 1)) →
      ∃ t ≤ vs.length, (t = vs.length ↔ ∀ i < vs.length, res i = 1) ∧
        runVectors E J pks sks fuel (lines ++ tail) k s = runVectors E J pks sks (fuel - vs.length) tail (k + vs.length) (s + t) := by
  induction h with
  | nil hskip =>
    intro fuel k s res hf _
    refine ⟨0, le_rfl, by simp, ?_⟩
    obtain ⟨n, rfl⟩ : ∃ n, fuel = n + 1 := ⟨fuel - 1, by simp at hf; omega⟩
    simp only [List.length_nil, Nat.sub_zero, Nat.add_zero]
    rw [runVectors, runVectors, read_skips _ _ hskip]
  | @cons v vs ls rest hl hF ih =>
    intro fuel k s res hf hr
    obtain ⟨n, rfl⟩ : ∃ n, fuel = n + 1 := ⟨fuel - 1, by omega⟩
    have hv := hs v List.mem_cons_self
    obtain ⟨e0, h0⟩ := hr 0 (by simp)
    obtain ⟨t, ht, hall, e⟩ := ih (fun w hw => hs w (List.mem_cons_of_mem _ hw)) n (k + 1) (s + (res 0).toNat) (fun i => res (i + 1))
      (by simp at hf; omega) (fun i hi => by
        have := hr (i + 1) (by simp; omega)
        rw [List.getElem_cons_succ, show k + (i + 1) = k + 1 + i from by omega] at this
        exact this)
    rw [List.getElem_cons_zero, Nat.add_zero] at e0
    refine ⟨t + (res 0).toNat, ?_, ?_, ?_⟩
    · rw [List.length_cons]
      rcases h0 with h | h <;> rw [h] <;> simp <;> omega
    · rw [List.length_cons]
      constructor
      · intro h i hi
        have : res 0 = 1 := by
          rcases h0 with h' | h'
          · rw [h'] at h; simp at h; omega
          · exact h'
        rw [this] at h
        cases i with
        | zero => exact this
        | succ i => exact hall.1 (by simpa using h) i (by omega)
      · intro h
        rw [h 0 (by omega), hall.2 fun i hi => h (i + 1) (by omega)]
        rfl
    · rw [List.append_assoc, runVectors, sized_read hv hl h1 h2, ok_bind]
      dsimp only
      rw [runVector_vecOf hv, e0, ok_bind, e, List.length_cons]
      congr 1 <;> omega

theorem file_length {vs : List Vec} {lines : List Buf} (h : File vs lines) : vs.length ≤ lines.length := by
  induction h with
  | nil => simp
  | cons hl hF ih =>
    obtain ⟨skip, count, seed, c1, c2, c3, c4, hskip, h1, h2, h3, h4, rfl⟩ := hl
    simp only [List.length_cons, List.length_append, List.length_nil]
    omega

end Picnic.Kats
