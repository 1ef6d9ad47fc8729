import Verif.Proofs.ZkbMpc
import Verif.Proofs.Keys

/-
One parallel repetition of the ZKB++ prover and verifier: closed forms for random tapes, commitments, G, `signRound`
and `verifyRound`.
-/

namespace Picnic

open Spec Spec.Zkb

/-- Arithmetic facts about the ZKB++ parameter sets. -/
structure ZkbWF (P : Params) : Prop where
  parties : P.numMPCParties = 3
  digAnd : P.digestSizeBytes ≤ P.andSizeBytes
  dig : P.digestSizeBytes ≤ 64
  digPos : 0 < P.digestSizeBytes
  seed : P.seedSizeBytes ≤ 32
  salt : P.saltSizeBytes = 32
  state : P.stateSizeBytes ≤ 32
  and : P.andSizeBytes ≤ 256
  words : 4 * P.stateSizeWords ≤ 32
  tmpSign : 6 * P.stateSizeWords * 4 ≤ 9 * P.stateSizeBytes
  tmpVerify : 4 * P.stateSizeWords * 4 ≤ 6 * P.stateSizeBytes
  T : P.numMPCRounds ≤ 500
  Tpos : 0 < P.numMPCRounds
  transform : P.transform = .FS ∨ P.transform = .UR
  gNo : P.transform = .UR → P.unruhGWithoutInputBytes = P.seedSizeBytes + P.andSizeBytes
  gIn : P.transform = .UR → P.unruhGWithInputBytes = P.seedSizeBytes + P.andSizeBytes + P.stateSizeBytes

theorem zkbWF_of {p : ℕ} {P : Params} (h : getParamSet p = some P) (h3 : isPicnic3 p = false) : ZkbWF P := by
  obtain ⟨h1, h2⟩ := getParamSet_bounds h
  interval_cases p <;> first
    | (exfalso; revert h3; decide)
    | (injection h with h; subst h; constructor <;> decide)

/-! ### random tapes -/

/-- A 16-bit little-endian integer. -/
def le16 (x : ℕ) : Buf := u16bytes (BitVec.ofNat 16 x)

@[simp] theorem le16_length (x : ℕ) : (le16 x).length = 2 := rfl

theorem intLE_eq (x : ℕ) : intLE x = (le16 x, 2) := rfl

/-- The random tape of a player, as bytes. -/
def rtape (E : Env) (P : Params) (seed salt : Buf) (k j len : ℕ) : Buf :=
  H E P HASH_PREFIX_NONE (H E P HASH_PREFIX_2 seed P.digestSizeBytes ++ salt ++ le16 k ++ le16 j ++ le16 len) len

@[simp] theorem rtape_length (E : Env) (P : Params) (seed salt : Buf) (k j len : ℕ) :
    (rtape E P seed salt k j len).length = len := by simp [rtape]

theorem wrN_zero {b d : Buf} (h : d.length ≤ b.length) : wrN b 0 d = Outcome.ok (d ++ b.drop d.length) := by
  rw [wrN_ok (by omega)]; simp

theorem createRandomTape_ok {E : Env} {P : Params} {seed salt tape : Buf} {k j len : ℕ} (hE : PermWF E) (hZ : ZkbWF P)
    (hs : seed.length = P.seedSizeBytes) (hsalt : salt.length = P.saltSizeBytes) (hd : P.digestSizeBytes ≤ len)
    (hl : len ≤ tape.length) (hmax : len ≤ 2 ^ 20) :
    createRandomTape E P seed salt k j tape len =
      Outcome.ok (true, rtape E P seed salt k j len ++ tape.drop len) := by
  have := hZ.seed
  have := hZ.dig
  have := hZ.salt
  unfold createRandomTape
  rw [if_neg (by omega), hashAll_ok hE (by simp; omega) (by omega), ok_bind, wrN_zero (by simp; omega), ok_bind,
    hashAll_ok hE (by simp [intLE_eq]; omega) (by omega), ok_bind, wrN_zero (by simp; omega), ok_bind, pure_eq_ok]
  congr 1
  simp only [List.flatMap_cons, List.flatMap_nil, intLE_eq, List.append_nil, H_length, Prod.mk.injEq, true_and]
  rw [List.take_of_length_le (by simp [hs] : seed.length ≤ _), List.take_append_of_le_length (by simp),
    List.take_of_length_le (by simp), List.take_of_length_le (by omega : salt.length ≤ _),
    List.take_of_length_le (by simp), List.take_of_length_le (by simp), List.take_of_length_le (by simp)]
  simp only [rtape, List.append_assoc, List.drop_append, H_length]
  congr 1
  rw [List.drop_eq_nil_of_le (by simp; omega), List.nil_append, List.drop_drop]
  congr 1
  omega

/-- Bits from `n` on cleared. -/
def zpad (n : ℕ) (b : Buf) : Buf := ofBits (trunc n (bitsOf b)) b.length

@[simp] theorem zpad_length (n : ℕ) (b : Buf) : (zpad n b).length = b.length := by simp [zpad]

theorem bitsOf_zpad (n : ℕ) (b : Buf) (i : ℕ) : bitsOf (zpad n b) i = trunc n (bitsOf b) i := by
  by_cases h : i < 8 * b.length
  · rw [zpad, bitsOf_ofBits _ h]
  · rw [bitsOf_ge (by simp; omega)]
    simp only [trunc]
    split_ifs
    · rw [bitsOf_ge (by omega)]
    · rfl

theorem zpad_eq_self {n : ℕ} {b : Buf} (hl : b.length = (n + 7) / 8) (h : PadZero b n) : zpad n b = b := by
  refine buf_ext (by simp) fun i hi => ?_
  rw [bitsOf_zpad, trunc]
  split_ifs with h1
  · rfl
  · rw [h i (by omega) (by simp at hi; omega)]

theorem padZero_zpad (n : ℕ) (b : Buf) : PadZero (zpad n b) n := fun i h1 _ => by
  rw [bitsOf_zpad, trunc, if_neg (by omega)]

theorem zeroTrailingBits_zpad {b : Buf} {n : ℕ} (h : b.length = (n + 7) / 8) :
    zeroTrailingBits b n = Outcome.ok (zpad n b) := by
  obtain ⟨b', h1, h2, h3⟩ := zeroTrailingBits_ok (b := b) (n := n) (by omega)
  rw [h1]
  refine congrArg _ (buf_ext (by simp [h2]) fun i hi => ?_)
  rw [h3, bitsOf_zpad, trunc]
  by_cases hn : n ≤ i
  · rw [if_pos (by omega), if_neg (by omega)]
  · rw [if_neg (by omega), if_pos (by omega)]

/-- Key share of player j < 2, from its seed. -/
def vkey (E : Env) (P : Params) (seed salt : Buf) (k j : ℕ) : Buf :=
  zpad P.stateSizeBits ((rtape E P seed salt k j (P.stateSizeBytes + P.andSizeBytes)).take P.stateSizeBytes)

/-- Tape of player j, from its seed. -/
def vtape (E : Env) (P : Params) (seed salt : Buf) (k j : ℕ) : Buf :=
  if j = 2 then rtape E P seed salt k 2 P.andSizeBytes
  else (rtape E P seed salt k j (P.stateSizeBytes + P.andSizeBytes)).drop P.stateSizeBytes

@[simp] theorem vkey_length (E : Env) (P : Params) (seed salt : Buf) (k j : ℕ) :
    (vkey E P seed salt k j).length = P.stateSizeBytes := by simp [vkey]

@[simp] theorem vtape_length (E : Env) (P : Params) (seed salt : Buf) (k j : ℕ) :
    (vtape E P seed salt k j).length = P.andSizeBytes := by
  unfold vtape; split_ifs <;> simp

/-! ### commitments -/

/-- The commitment to a view. -/
def commitOf (E : Env) (P : Params) (seed : Buf) (v : View) : Buf :=
  H E P HASH_PREFIX_0 (H E P HASH_PREFIX_4 seed P.digestSizeBytes ++ v.inputShare ++ v.communicatedBits ++ v.outputShare)
    P.digestSizeBytes

/-- Exact lengths of the three parts of a view. -/
structure ViewWF (P : Params) (v : View) : Prop where
  inp : v.inputShare.length = P.stateSizeBytes
  comm : v.communicatedBits.length = P.andSizeBytes
  out : v.outputShare.length = P.stateSizeBytes

theorem commitView_ok {E : Env} {P : Params} {seed hash : Buf} {v : View} (hE : PermWF E) (hZ : ZkbWF P)
    (hs : seed.length = P.seedSizeBytes) (hv : ViewWF P v) (hh : hash.length = P.digestSizeBytes) :
    commitView E P seed v hash = Outcome.ok (commitOf E P seed v) := by
  have := hZ.seed
  have := hZ.dig
  have := hZ.state
  have := hZ.and
  have h1 := hv.inp
  have h2 := hv.comm
  have h3 := hv.out
  unfold commitView
  rw [hashAll_ok hE (by simp; omega) (by omega), ok_bind, wrN_zero (by simp; omega), ok_bind,
    hashAll_ok hE (by simp; omega) (by omega), ok_bind, wrN_zero (by simp [hh])]
  congr 1
  simp only [List.flatMap_cons, List.flatMap_nil, List.append_nil, H_length]
  rw [List.take_of_length_le (by simp [hs] : seed.length ≤ _), List.take_append_of_le_length (by simp),
    List.take_of_length_le (by simp), List.take_of_length_le h1.le, List.take_of_length_le h2.le,
    List.take_of_length_le h3.le, List.drop_eq_nil_of_le (by rw [List.length_append, List.length_drop, H_length]; omega),
    List.append_nil]
  simp [commitOf]

/-- Length of the G value of player j. -/
def gLen (P : Params) (j : ℕ) : ℕ :=
  if j = 2 then P.seedSizeBytes + P.andSizeBytes + P.stateSizeBytes else P.seedSizeBytes + P.andSizeBytes

/-- The value G of a view. -/
def gOf (E : Env) (P : Params) (j : ℕ) (seed : Buf) (v : View) : Buf :=
  H E P HASH_PREFIX_NONE (H E P HASH_PREFIX_5 seed P.digestSizeBytes ++ (if j = 2 then v.inputShare else []) ++
    v.communicatedBits ++ le16 (gLen P j)) (gLen P j)

@[simp] theorem gOf_length (E : Env) (P : Params) (j : ℕ) (seed : Buf) (v : View) :
    (gOf E P j seed v).length = gLen P j := by simp [gOf]

theorem gLen_le (P : Params) (j : ℕ) : gLen P j ≤ P.seedSizeBytes + P.andSizeBytes + P.stateSizeBytes := by
  unfold gLen; split_ifs <;> omega

theorem le_gLen (P : Params) (j : ℕ) : P.seedSizeBytes + P.andSizeBytes ≤ gLen P j := by
  unfold gLen; split_ifs <;> omega

theorem unruhG_ok {E : Env} {P : Params} {seed output : Buf} {v : View} {j : ℕ} (hE : PermWF E) (hZ : ZkbWF P)
    (hs : seed.length = P.seedSizeBytes) (hv : ViewWF P v)
    (hh : output.length = P.seedSizeBytes + P.andSizeBytes + P.stateSizeBytes) :
    unruhG E P j seed v output = Outcome.ok (gOf E P j seed v ++ output.drop (gLen P j)) := by
  have := hZ.seed
  have := hZ.dig
  have := hZ.digAnd
  have := hZ.state
  have := hZ.and
  have h1 := hv.inp
  have h2 := hv.comm
  have hl1 := gLen_le P j
  have hl2 := le_gLen P j
  unfold unruhG
  simp only []
  have hlen : (if j = 2 then P.seedSizeBytes + P.andSizeBytes + P.stateSizeBytes else P.seedSizeBytes + P.andSizeBytes) =
    gLen P j := rfl
  rw [hlen, Nat.mod_eq_of_lt (a := gLen P j) (by omega),
    hashAll_ok hE (by simp; omega) (by omega), ok_bind, wrN_zero (by simp; omega), ok_bind]
  rw [hashAll_ok hE (by
    intro p hp
    simp only [List.mem_append, List.mem_cons, List.not_mem_nil, or_false] at hp
    rcases hp with (hp | hp) | hp | hp
    · subst hp; simp; omega
    · split_ifs at hp
      · simp only [List.mem_cons, List.not_mem_nil, or_false] at hp
        subst hp; simp only []; omega
      · simp at hp
    · subst hp; simp only []; omega
    · subst hp; simp [intLE_eq]) (by omega), ok_bind, wrN_zero (by simp; omega)]
  congr 1
  have hmid : (if j = 2 then [(v.inputShare, P.stateSizeBytes)] else []).flatMap (fun p : Buf × ℕ => p.1.take p.2) =
      if j = 2 then v.inputShare else [] := by
    split_ifs
    · simp [h1]
    · rfl
  simp only [List.flatMap_append, List.flatMap_cons, List.flatMap_nil, List.append_nil, H_length, hmid, intLE_eq]
  rw [List.take_of_length_le (by simp [hs] : seed.length ≤ _), List.take_append_of_le_length (by simp),
    List.take_of_length_le (by simp), List.take_of_length_le h2.le, List.take_of_length_le (by simp)]
  simp only [List.drop_append, List.drop_drop, H_length]
  rw [List.drop_eq_nil_of_le (by simp; omega), List.nil_append,
    show P.digestSizeBytes + (gLen P j - P.digestSizeBytes) = gLen P j by omega]
  simp [gOf]

/-! ### the prover's repetition -/

theorem setTape_ok {τ : ℕ → Buf} {pos j soff n : ℕ} {src : Buf} (hj : j < 3) (h1 : soff + n ≤ src.length)
    (h2 : n ≤ (τ j).length) :
    setTape ⟨arrN 3 τ, pos⟩ j src soff n =
      Outcome.ok ⟨arrN 3 (Function.update τ j ((src.drop soff).take n ++ (τ j).drop n)), pos⟩ := by
  unfold setTape
  simp only []
  rw [rd_arrN hj, ok_bind, memcpy_ok h1 (by omega), ok_bind, wr_arrN hj, ok_bind, pure_eq_ok]
  simp only [List.take_zero, List.nil_append, Nat.zero_add]

theorem createTapeInto_ok {E : Env} {P : Params} {seed salt : Buf} {τ : ℕ → Buf} {pos k p j len : ℕ} (hE : PermWF E)
    (hZ : ZkbWF P) (hj : j < 3) (hs : seed.length = P.seedSizeBytes) (hsalt : salt.length = P.saltSizeBytes)
    (hd : P.digestSizeBytes ≤ len) (hl : len ≤ (τ j).length) (hmax : len ≤ 2 ^ 20) :
    createTapeInto E P seed salt k p ⟨arrN 3 τ, pos⟩ j len =
      Outcome.ok (true, ⟨arrN 3 (Function.update τ j (rtape E P seed salt k p len ++ (τ j).drop len)), pos⟩) := by
  unfold createTapeInto
  simp only []
  rw [rd_arrN hj, ok_bind, createRandomTape_ok hE hZ hs hsalt hd hl hmax, ok_bind]
  simp only []
  rw [wr_arrN hj, ok_bind, pure_eq_ok]

theorem signTape_ok {E : Env} {P : Params} {seed salt tmp : Buf} {τ : ℕ → Buf} {pos k j : ℕ} {v : View} (hE : PermWF E)
    (hP : ParamsWF P) (hZ : ZkbWF P) (hj : j < 2) (hs : seed.length = P.seedSizeBytes)
    (hsalt : salt.length = P.saltSizeBytes) (ht : P.stateSizeBytes + P.andSizeBytes ≤ tmp.length)
    (hl : P.andSizeBytes ≤ (τ j).length) (hv : v.inputShare.length = P.stateSizeBytes) :
    ∃ tmp' : Buf, tmp'.length = tmp.length ∧
    signTape E P seed salt k j v tmp ⟨arrN 3 τ, pos⟩ =
      Outcome.ok (some ({ v with inputShare := vkey E P seed salt k j }, tmp',
        ⟨arrN 3 (Function.update τ j (vtape E P seed salt k j ++ (τ j).drop P.andSizeBytes)), pos⟩)) := by
  have := hZ.seed
  have := hZ.digAnd
  have := hZ.state
  have := hZ.and
  have hby := hP.bytes
  unfold signTape
  refine ⟨rtape E P seed salt k j (P.stateSizeBytes + P.andSizeBytes) ++ tmp.drop (P.stateSizeBytes + P.andSizeBytes),
    by simp; omega, ?_⟩
  rw [createRandomTape_ok hE hZ hs hsalt (by omega) ht (by omega), ok_bind]
  simp only [Bool.not_true, Bool.false_eq_true, if_false]
  set r := rtape E P seed salt k j (P.stateSizeBytes + P.andSizeBytes) with hr
  have hrl : r.length = P.stateSizeBytes + P.andSizeBytes := by simp [hr]
  rw [memcpy_ok (by simp; omega) (by omega), ok_bind]
  have e1 : List.take 0 v.inputShare ++ List.take P.stateSizeBytes
      (List.drop 0 (r ++ List.drop (P.stateSizeBytes + P.andSizeBytes) tmp)) ++ List.drop (0 + P.stateSizeBytes) v.inputShare =
      r.take P.stateSizeBytes := by
    simp only [List.take_zero, List.nil_append, List.drop_zero, Nat.zero_add]
    rw [List.take_append_of_le_length (by omega), List.drop_eq_nil_of_le (as := v.inputShare) (by omega), List.append_nil]
  rw [e1, zeroTrailingBits_zpad (by simp; omega), ok_bind, setTape_ok (by omega) (by simp; omega) hl, ok_bind, pure_eq_ok]
  have e2 : List.take P.andSizeBytes (List.drop P.stateSizeBytes
      (r ++ List.drop (P.stateSizeBytes + P.andSizeBytes) tmp)) = vtape E P seed salt k j := by
    rw [vtape, if_neg (by omega), List.drop_append_of_le_length (by omega), List.take_append_of_le_length (by simp; omega),
      List.take_of_length_le (by simp; omega)]
  rw [e2]
  rfl

/-- The key shares of the prover. -/
def shareKeys (E : Env) (P : Params) (sk salt : Buf) (sd : ℕ → Buf) (k j : ℕ) : Buf :=
  if j = 2 then ofBits (bitsOf sk + bitsOf (vkey E P (sd 0) salt k 0) + bitsOf (vkey E P (sd 1) salt k 1)) P.stateSizeBytes
  else vkey E P (sd j) salt k j

/-- A view and a tape as a view of the specification. -/
def View.spec (v : View) (tape : Buf) : Zkb.View := specView v.inputShare v.communicatedBits tape

/-- What is true of the views the prover computes in repetition k. -/
structure HonestViews (E : Env) (P : Params) (sk pt salt : Buf) (sd : ℕ → Buf) (k : ℕ) (views : ℕ → View) : Prop where
  inp : ∀ j < 3, (views j).inputShare = shareKeys E P sk salt sd k j
  wf : ∀ j < 3, ViewWF P (views j)
  out : ∀ j < 3, (views j).outputShare = ofBits (Zkb.output (lowmcOf P (E.lowmc P)) (bitsOf pt) j
    ((views j).spec (vtape E P (sd j) salt k j))) P.stateSizeBytes
  pad : ∀ j < 3, ∀ p, 3 * P.numSboxes * P.numRounds ≤ p → bitsOf (views j).communicatedBits p = 0
  cons : ∀ j < 3, Zkb.Consistent (lowmcOf P (E.lowmc P)) (bitsOf pt) j ((views j).spec (vtape E P (sd j) salt k j))
    ((views ((j + 1) % 3)).spec (vtape E P (sd ((j + 1) % 3)) salt k ((j + 1) % 3)))

theorem arrN_three {α : Type} (f : ℕ → α) : arrN 3 f = [f 0, f 1, f 2] := rfl

theorem viewEq_tape {P : Params} {C : LowMCConsts} {v : View} {t t' : Buf}
    (h : ∀ p < 3 * P.numSboxes * P.numRounds, bitsOf t p = bitsOf t' p) : ViewEq (lowmcOf P C) (v.spec t) (v.spec t') :=
  ⟨fun _ _ => rfl, fun _ _ => rfl, h⟩

theorem xorThree_ofBits {out a b c : Buf} {len : ℕ} (h0 : out.length = len) (h1 : len ≤ a.length)
    (h2 : len ≤ b.length) (h3 : len ≤ c.length) :
    xorThree out a b c len = Outcome.ok (ofBits (bitsOf a + bitsOf b + bitsOf c) len) := by
  obtain ⟨o, e1, e2, e3⟩ := xorThree_ok (out := out) (len := len) (by omega) h1 h2 h3
  rw [e1]
  refine congrArg _ (buf_ext (by simp; omega) fun i hi => ?_)
  rw [e3, if_pos (by omega), bitsOf_ofBits _ (by omega)]
  rfl

theorem signRound_ok {E : Env} {P : Params} {sk pubKey pt salt slab : Buf} {k : ℕ} (hE : PermWF E) (hP : ParamsWF P)
    (hC : ConstsWF P (E.lowmc P)) (hZ : ZkbWF P) (hk : k < P.numMPCRounds)
    (hslab : P.numMPCRounds * P.numMPCParties * P.seedSizeBytes ≤ slab.length) (hsk : P.stateSizeBytes ≤ sk.length)
    (hpk : P.stateSizeBytes ≤ pubKey.length) (hpt : 4 * P.stateSizeWords ≤ pt.length)
    (hsalt : salt.length = P.saltSizeBytes) {sd : ℕ → Buf}
    (hsd : ∀ j, sd j = (slab.drop ((k * 3 + j) * P.seedSizeBytes)).take P.seedSizeBytes) :
    ∃ (views : ℕ → View) (junk : ℕ → Buf), HonestViews E P sk pt salt sd k views ∧
      signRound E P sk pubKey pt salt slab k = Outcome.ok
        (if ofBits (bitsOf (views 0).outputShare + bitsOf (views 1).outputShare + bitsOf (views 2).outputShare)
            P.stateSizeBytes = pubKey.take P.stateSizeBytes then
          some { seeds := arrN 3 sd, views := arrN 3 views, hashes := arrN 3 fun j => commitOf E P (sd j) (views j)
                 gs := if P.transform = .UR then some (arrN 3 fun j => gOf E P j (sd j) (views j) ++ junk j) else none }
        else none) := by
  have hby := hP.bytes
  have hw := hP.words
  have hand := hP.andBytes
  have hzs := hZ.seed
  have hzd := hZ.digAnd
  have hzst := hZ.state
  have hza := hZ.and
  have hsdl : ∀ j < 3, (sd j).length = P.seedSizeBytes := by
    intro j hj
    rw [hsd j]
    have : (k * 3 + j + 1) * P.seedSizeBytes ≤ P.numMPCRounds * P.numMPCParties * P.seedSizeBytes :=
      Nat.mul_le_mul_right _ (by rw [hZ.parties]; omega)
    rw [Nat.add_mul (k * 3 + j), Nat.one_mul] at this
    simp; omega
  unfold signRound
  have hseeds : seedsOf P slab k = Outcome.ok (arrN 3 sd) := by
    unfold seedsOf
    rw [hZ.parties]
    refine collect_arrN fun j hj => ?_
    have : (k * 3 + j + 1) * P.seedSizeBytes ≤ P.numMPCRounds * P.numMPCParties * P.seedSizeBytes :=
      Nat.mul_le_mul_right _ (by rw [hZ.parties]; omega)
    rw [Nat.add_mul (k * 3 + j), Nat.one_mul] at this
    rw [rdN_ok (by omega), hsd j]
  rw [hseeds, ok_bind, rd_arrN (by omega), ok_bind]
  set τ0 : ℕ → Buf := fun j => E.junkBuf siteTape (k * 3 + j) (2 * P.andSizeBytes) with hτ0
  have hal : allocateRandomTape E P k = ⟨arrN 3 τ0, 0⟩ := by unfold allocateRandomTape; rw [hZ.parties]
  obtain ⟨tmp1, hl1, e1⟩ := signTape_ok (E := E) (P := P) (k := k) (j := 0) (τ := τ0) (pos := 0) (salt := salt)
    (tmp := E.junkBuf siteScratch k (max (9 * P.stateSizeBytes) (P.stateSizeBytes + P.andSizeBytes)))
    (v := allocateView P) hE hP hZ (by omega) (hsdl 0 (by omega)) hsalt (by simp) (by simp [hτ0]; omega)
    (by simp [allocateView])
  rw [hal, e1, ok_bind]
  simp only []
  rw [rd_arrN (by omega), ok_bind]
  rw [junkBuf_length] at hl1
  obtain ⟨tmp2, hl2, e2⟩ := signTape_ok (E := E) (P := P) (k := k) (j := 1) (τ := (Function.update τ0 0
    (vtape E P (sd 0) salt k 0 ++ (τ0 0).drop P.andSizeBytes))) (pos := 0) (salt := salt)
    (tmp := tmp1) (v := allocateView P) hE hP hZ (by omega) (hsdl 1 (by omega)) hsalt (by omega)
    (by simp [hτ0, Function.update_apply]; omega) (by simp [allocateView])
  rw [e2, ok_bind]
  simp only []
  rw [rd_arrN (by omega), ok_bind, createTapeInto_ok hE hZ (by omega) (hsdl 2 (by omega)) hsalt hzd
    (by simp [hτ0, Function.update_apply]; omega) (by omega), ok_bind]
  simp only [Bool.not_true, Bool.false_eq_true, if_false]
  rw [xorThree_ofBits (by simp [allocateView]) hsk (by simp) (by simp), ok_bind]
  set τ : ℕ → Buf := fun j => vtape E P (sd j) salt k j ++ (τ0 j).drop P.andSizeBytes with hτ
  have hτe : ∀ j < 3, (Function.update (Function.update (Function.update τ0 0
        (vtape E P (sd 0) salt k 0 ++ (τ0 0).drop P.andSizeBytes)) 1
        (vtape E P (sd 1) salt k 1 ++ (Function.update τ0 0
          (vtape E P (sd 0) salt k 0 ++ (τ0 0).drop P.andSizeBytes) 1).drop P.andSizeBytes)) 2
        (rtape E P (sd 2) salt k 2 P.andSizeBytes ++ (Function.update (Function.update τ0 0
        (vtape E P (sd 0) salt k 0 ++ (τ0 0).drop P.andSizeBytes)) 1
        (vtape E P (sd 1) salt k 1 ++ (Function.update τ0 0
          (vtape E P (sd 0) salt k 0 ++ (τ0 0).drop P.andSizeBytes) 1).drop P.andSizeBytes) 2).drop P.andSizeBytes)) j =
        τ j := by
    intro j hj
    rcases (show j = 0 ∨ j = 1 ∨ j = 2 by omega) with rfl | rfl | rfl <;> simp [hτ, Function.update_apply, vtape]
  rw [arrN_congr hτe]
  set key := shareKeys E P sk salt sd k with hkey
  have hviews : [({ allocateView P with inputShare := vkey E P (sd 0) salt k 0 } : View),
      { allocateView P with inputShare := vkey E P (sd 1) salt k 1 },
      { allocateView P with inputShare := ofBits (bitsOf sk + bitsOf (vkey E P (sd 0) salt k 0) +
          bitsOf (vkey E P (sd 1) salt k 1)) P.stateSizeBytes }] =
      views3 key (fun _ => zeros P.andSizeBytes) (fun _ => zeros P.stateSizeBytes) := rfl
  rw [hviews]
  have hkl : ∀ i < 3, (key i).length = P.stateSizeBytes := by
    intro i hi; simp only [hkey, shareKeys]; split_ifs <;> simp
  obtain ⟨comm, hm, hcl, hcp, hcons⟩ := mpcLowMC_ok (E := E) (P := P) (tag := k) (tape := τ) (key := key)
    (comm := fun _ => zeros P.andSizeBytes) (out := fun _ => zeros P.stateSizeBytes) (plaintext := pt) (slab := tmp2)
    hP hC (by have := hZ.tmpSign; omega) hpt (fun i hi => by rw [hkl i hi]; omega)
    (fun i _ => by simp [hτ]; omega) (fun i _ => by simp; omega) (fun i _ => by simp)
  rw [hm, ok_bind]
  simp only []
  set views : ℕ → View := fun i => ⟨key i, comm i, ofBits (Zkb.output (lowmcOf P (E.lowmc P)) (bitsOf pt) i
    (specView (key i) (comm i) (τ i))) P.stateSizeBytes⟩ with hvs
  have htb : ∀ i, ∀ p < 3 * P.numSboxes * P.numRounds, bitsOf (τ i) p = bitsOf (vtape E P (sd i) salt k i) p := by
    intro i p hp
    rw [hτ]
    exact bitsOf_append_left (by simp; omega)
  have hH : HonestViews E P sk pt salt sd k views := by
    refine ⟨fun j _ => rfl, fun j hj => ⟨hkl j hj, by simpa using hcl j hj, by simp [hvs]⟩, fun j _ => rfl, ?_, ?_⟩
    · intro j hj p hp
      rw [show (views j).communicatedBits = comm j from rfl, hcp j hj p hp, bitsOf_zeros]
    · intro j hj
      exact consistent_congr hP.sboxes (fun _ _ => rfl) (viewEq_tape (v := views j) (htb j))
        (viewEq_tape (v := views ((j + 1) % 3)) (htb _)) (hcons j hj)
  refine ⟨views, fun j => (E.junkBuf siteG (3 * k + j) P.unruhGWithInputBytes).drop (gLen P j), hH, ?_⟩
  have hol : ∀ j < 3, (views j).outputShare.length = P.stateSizeBytes := fun j hj => (hH.wf j hj).out
  rw [show views3 key comm (fun i => ofBits (Zkb.output (lowmcOf P (E.lowmc P)) (bitsOf pt) i
    (specView (key i) (comm i) (τ i))) P.stateSizeBytes) = arrN 3 views from rfl]
  rw [rd_arrN (by omega), ok_bind, rd_arrN (by omega), ok_bind, rd_arrN (by omega), ok_bind]
  obtain ⟨temp, ht1, ht2, ht3⟩ := xorThree_ok (out := zeros LOWMC_MAX_STATE_SIZE) (in1 := (views 0).outputShare)
    (in2 := (views 1).outputShare) (in3 := (views 2).outputShare) (len := P.stateSizeBytes)
    (by simp [LOWMC_MAX_STATE_SIZE]; omega) (by rw [hol 0 (by omega)]) (by rw [hol 1 (by omega)]) (by rw [hol 2 (by omega)])
  have htl : P.stateSizeBytes ≤ temp.length := by rw [ht2]; simp [LOWMC_MAX_STATE_SIZE]; omega
  rw [ht1, ok_bind, memeq_ok htl hpk, ok_bind]
  have htt : temp.take P.stateSizeBytes = ofBits (bitsOf (views 0).outputShare + bitsOf (views 1).outputShare +
      bitsOf (views 2).outputShare) P.stateSizeBytes := by
    refine buf_ext (by simp; omega) fun i hi => ?_
    have hi' : i < 8 * P.stateSizeBytes := by simp at hi; omega
    rw [bitsOf_take hi', ht3, if_pos hi']
    exact (bitsOf_ofBits (bitsOf (views 0).outputShare + bitsOf (views 1).outputShare +
      bitsOf (views 2).outputShare) hi').symm
  rw [htt]
  by_cases hq : ofBits (bitsOf (views 0).outputShare + bitsOf (views 1).outputShare +
      bitsOf (views 2).outputShare) P.stateSizeBytes = pubKey.take P.stateSizeBytes
  swap
  · rw [if_neg hq, show ((ofBits (bitsOf (views 0).outputShare + bitsOf (views 1).outputShare +
      bitsOf (views 2).outputShare) P.stateSizeBytes) == pubKey.take P.stateSizeBytes) = false from
        beq_eq_false_iff_ne.2 hq]
    rfl
  rw [if_pos hq, hq]
  simp only [beq_self_eq_true, Bool.not_true, Bool.false_eq_true, if_false]
  unfold allocateCommitment
  rw [hZ.parties]
  rw [show loop _ 3 (List.map _ (List.range 3)) = _ from
    loop_upd (g := fun j => commitOf E P (sd j) (views j)) fun i hi f' hf => by
      rw [rd_arrN hi, ok_bind, rd_arrN hi, ok_bind, rd_arrN hi, ok_bind, hf,
        commitView_ok hE hZ (hsdl i hi) (hH.wf i hi) (by simp), ok_bind, wr_arrN hi], ok_bind]
  unfold allocateG
  by_cases hU : P.transform = .UR
  · simp only [hU, if_true, deref, ok_bind]
    rw [show loop _ 3 (List.map _ (List.range 3)) = _ from
      loop_upd (g := fun j => gOf E P j (sd j) (views j) ++
          (E.junkBuf siteG (3 * k + j) P.unruhGWithInputBytes).drop (gLen P j)) fun i hi f' hf => by
        rw [rd_arrN hi, ok_bind, rd_arrN hi, ok_bind, rd_arrN hi, ok_bind, hf,
          unruhG_ok hE hZ (hsdl i hi) (hH.wf i hi) (by simp [hZ.gIn hU]), ok_bind, wr_arrN hi], ok_bind]
    rfl
  · simp only [if_neg hU, ok_bind, pure_eq_ok]

/-! ### the verifier's repetition -/

/-- Exact sizes of the parts of a proof. -/
structure ProofWF (P : Params) (proof : Proof) : Prop where
  seed1 : proof.seed1.length = P.seedSizeBytes
  seed2 : proof.seed2.length = P.seedSizeBytes
  inp : proof.inputShare.length = P.stateSizeBytes
  comm : proof.communicatedBits.length = P.andSizeBytes
  com3 : proof.view3Commitment.length = P.digestSizeBytes
  g3 : P.transform = .UR → ∃ g, proof.view3UnruhG = some g ∧
    g.length = P.seedSizeBytes + P.andSizeBytes + P.stateSizeBytes

/-- Seed of the first (p = 0) or second opened player. -/
def Proof.seed (proof : Proof) (p : ℕ) : Buf := if p = 0 then proof.seed1 else proof.seed2

theorem ProofWF.seed_length {P : Params} {proof : Proof} (h : ProofWF P proof) (p : ℕ) :
    (proof.seed p).length = P.seedSizeBytes := by
  unfold Proof.seed; split_ifs
  · exact h.seed1
  · exact h.seed2

/-- Key share of an opened player before the padding bits are cleared. -/
def rawKey (E : Env) (P : Params) (proof : Proof) (salt : Buf) (k c p : ℕ) : Buf :=
  if (c + p) % 3 = 2 then proof.inputShare
  else (rtape E P (proof.seed p) salt k ((c + p) % 3) (P.stateSizeBytes + P.andSizeBytes)).take P.stateSizeBytes

/-- Key share of the first (p = 0) or second (p = 1) opened player for challenge c. -/
def openKey (E : Env) (P : Params) (proof : Proof) (salt : Buf) (k c p : ℕ) : Buf :=
  if (c + p) % 3 = 2 then zpad P.stateSizeBits proof.inputShare
  else vkey E P (proof.seed p) salt k ((c + p) % 3)

/-- Random tape of an opened player. -/
def openTape (E : Env) (P : Params) (proof : Proof) (salt : Buf) (k c p : ℕ) : Buf :=
  vtape E P (proof.seed p) salt k ((c + p) % 3)

@[simp] theorem openTape_length (E : Env) (P : Params) (proof : Proof) (salt : Buf) (k c p : ℕ) :
    (openTape E P proof salt k c p).length = P.andSizeBytes := by simp [openTape]

theorem openKey_length {E : Env} {P : Params} {proof : Proof} (h : ProofWF P proof) (salt : Buf) (k c p : ℕ) :
    (openKey E P proof salt k c p).length = P.stateSizeBytes := by
  unfold openKey; split_ifs
  · simp [h.inp]
  · simp

theorem rawKey_length {E : Env} {P : Params} {proof : Proof} (h : ProofWF P proof) (salt : Buf) (k c p : ℕ) :
    (rawKey E P proof salt k c p).length = P.stateSizeBytes := by
  unfold rawKey; split_ifs
  · exact h.inp
  · simp

theorem zpad_rawKey (E : Env) (P : Params) (proof : Proof) (salt : Buf) (k c p : ℕ) :
    zpad P.stateSizeBits (rawKey E P proof salt k c p) = openKey E P proof salt k c p := by
  unfold rawKey openKey; split_ifs <;> rfl

theorem memcpy_prefix {dst a r : Buf} {n : ℕ} (h1 : a.length = n) (h2 : dst.length = n) :
    memcpy dst 0 (a ++ r) 0 n = Outcome.ok a := by
  rw [memcpy_ok (by simp; omega) (by omega)]
  simp only [List.take_zero, List.nil_append, List.drop_zero, Nat.zero_add]
  rw [List.take_append_of_le_length (by omega), List.take_of_length_le (by omega), List.drop_eq_nil_of_le (by omega),
    List.append_nil]

theorem memcpy_prefix' {dst a r : Buf} {n : ℕ} (h1 : n ≤ a.length) (h2 : dst.length = n) :
    memcpy dst 0 (a ++ r) 0 n = Outcome.ok (a.take n) := by
  rw [memcpy_ok (by simp; omega) (by omega)]
  simp only [List.take_zero, List.nil_append, List.drop_zero, Nat.zero_add]
  rw [List.take_append_of_le_length (by omega), List.drop_eq_nil_of_le (by omega), List.append_nil]

theorem drop_take_append {a r : Buf} {m n : ℕ} (h : a.length = m + n) : ((a ++ r).drop m).take n = a.drop m := by
  rw [List.drop_append_of_le_length (by omega), List.take_append_of_le_length (by simp; omega),
    List.take_of_length_le (by simp; omega)]

theorem verifyProofTapes_ok {E : Env} {P : Params} {proof : Proof} {v1 v2 : View} {c : Byte} {salt tmp : Buf} {k : ℕ}
    {τ : ℕ → Buf} (hE : PermWF E) (hZ : ZkbWF P) (hpr : ProofWF P proof) (hsalt : salt.length = P.saltSizeBytes)
    (hc : c.toNat < 3) (hv1 : v1.inputShare.length = P.stateSizeBytes) (hv2 : v2.inputShare.length = P.stateSizeBytes)
    (ht : P.stateSizeBytes + P.andSizeBytes ≤ tmp.length) (hl : ∀ j < 3, P.andSizeBytes ≤ (τ j).length) :
    ∃ (tmp' : Buf) (τ' : ℕ → Buf),
      verifyProofTapes E P proof v1 v2 c salt k tmp ⟨arrN 3 τ, 0⟩ = Outcome.ok
        ({ v1 with inputShare := rawKey E P proof salt k c.toNat 0 },
          { v2 with inputShare := rawKey E P proof salt k c.toNat 1 }, tmp', ⟨arrN 3 τ', 0⟩) ∧
      tmp'.length = tmp.length ∧
      (∃ r, τ' 0 = openTape E P proof salt k c.toNat 0 ++ r) ∧ (∃ r, τ' 1 = openTape E P proof salt k c.toNat 1 ++ r) := by
  have hzs := hZ.seed
  have hzd := hZ.digAnd
  have hzst := hZ.state
  have hza := hZ.and
  have h1 := hpr.seed1
  have h2 := hpr.seed2
  have hinp := hpr.inp
  have hl0 := hl 0 (by omega)
  have hl1 := hl 1 (by omega)
  unfold verifyProofTapes
  simp only []
  by_cases h0 : c = 0
  · have hcn : c.toNat = 0 := by rw [h0]; rfl
    rw [if_pos h0, createRandomTape_ok hE hZ h1 hsalt (by omega) ht (by omega), ok_bind]
    simp only []
    rw [memcpy_prefix' (by simp) hv1, ok_bind, setTape_ok (by omega) (by simp) hl0, ok_bind]
    simp only [if_true]
    rw [createRandomTape_ok hE hZ h2 hsalt (by omega) (by simp) (by omega), ok_bind]
    simp only [Bool.not_true, Bool.false_eq_true, if_false]
    rw [memcpy_prefix' (by simp) hv2, ok_bind, setTape_ok (by omega) (by simp)
      (by simpa [Function.update_apply] using hl1), ok_bind, pure_eq_ok,
      drop_take_append (by simp), drop_take_append (by simp)]
    rw [hcn]
    refine ⟨_, _, rfl, ?_, ?_, ?_⟩
    · simp only [List.length_append, List.length_drop, rtape_length]; omega
    · exact ⟨(τ 0).drop P.andSizeBytes, by simp [Function.update_apply, openTape, vtape, Proof.seed]⟩
    · exact ⟨(τ 1).drop P.andSizeBytes, by simp [Function.update_apply, openTape, vtape, Proof.seed]⟩
  by_cases h1' : c = 1
  · have hcn : c.toNat = 1 := by rw [h1']; rfl
    rw [if_neg h0, if_pos h1', createRandomTape_ok hE hZ h1 hsalt (by omega) ht (by omega), ok_bind]
    simp only []
    rw [memcpy_prefix' (by simp) hv1, ok_bind, setTape_ok (by omega) (by simp) hl0, ok_bind]
    simp only [if_true]
    rw [createTapeInto_ok hE hZ (by omega) h2 hsalt (by omega) (by simpa [Function.update_apply] using hl1) (by omega),
      ok_bind]
    simp only [Bool.not_true, Bool.false_eq_true, if_false]
    rw [memcpy_full hinp hv2, ok_bind, pure_eq_ok, drop_take_append (by simp)]
    rw [hcn]
    refine ⟨_, _, rfl, ?_, ?_, ?_⟩
    · simp only [List.length_append, List.length_drop, rtape_length]; omega
    · exact ⟨(τ 0).drop P.andSizeBytes, by simp [Function.update_apply, openTape, vtape, Proof.seed]⟩
    · exact ⟨(τ 1).drop P.andSizeBytes, by simp [Function.update_apply, openTape, vtape, Proof.seed]⟩
  · have hcn : c.toNat = 2 := by
      have a : c.toNat ≠ 0 := fun h => h0 (BitVec.eq_of_toNat_eq h)
      have b : c.toNat ≠ 1 := fun h => h1' (BitVec.eq_of_toNat_eq h)
      omega
    have h2' : c = 2 := BitVec.eq_of_toNat_eq hcn
    rw [if_neg h0, if_neg h1', if_pos h2', createTapeInto_ok hE hZ (by omega) h1 hsalt (by omega) hl0 (by omega), ok_bind]
    simp only [if_true]
    rw [memcpy_full hinp hv1, ok_bind, createRandomTape_ok hE hZ h2 hsalt (by omega) ht (by omega), ok_bind]
    simp only [Bool.not_true, Bool.false_eq_true, if_false]
    rw [memcpy_prefix' (by simp) hv2, ok_bind, setTape_ok (by omega) (by simp)
      (by simpa [Function.update_apply] using hl1), ok_bind, pure_eq_ok, drop_take_append (by simp)]
    rw [hcn]
    refine ⟨_, _, rfl, ?_, ?_, ?_⟩
    · simp only [List.length_append, List.length_drop, rtape_length]; omega
    · exact ⟨(τ 0).drop P.andSizeBytes, by simp [Function.update_apply, openTape, vtape, Proof.seed]⟩
    · exact ⟨(τ 1).drop P.andSizeBytes, by simp [Function.update_apply, openTape, vtape, Proof.seed]⟩

/-- What the verifier computes from an opened proof: the two views. -/
structure OpenedViews (E : Env) (P : Params) (proof : Proof) (salt pt : Buf) (k c : ℕ) (v1 v2 : View) : Prop where
  inp1 : v1.inputShare = openKey E P proof salt k c 0
  inp2 : v2.inputShare = openKey E P proof salt k c 1
  comm2 : v2.communicatedBits = proof.communicatedBits
  len1 : v1.communicatedBits.length = P.andSizeBytes
  pad1 : ∀ p, 3 * P.numSboxes * P.numRounds ≤ p → bitsOf v1.communicatedBits p = 0
  out1 : v1.outputShare = ofBits (Zkb.output (lowmcOf P (E.lowmc P)) (bitsOf pt) c
    (v1.spec (openTape E P proof salt k c 0))) P.stateSizeBytes
  out2 : v2.outputShare = ofBits (Zkb.output (lowmcOf P (E.lowmc P)) (bitsOf pt) ((c + 1) % 3)
    (v2.spec (openTape E P proof salt k c 1))) P.stateSizeBytes
  cons : Zkb.Consistent (lowmcOf P (E.lowmc P)) (bitsOf pt) c (v1.spec (openTape E P proof salt k c 0))
    (v2.spec (openTape E P proof salt k c 1))

theorem OpenedViews.wf1 {E : Env} {P : Params} {proof : Proof} {salt pt : Buf} {k c : ℕ} {v1 v2 : View}
    (hpr : ProofWF P proof) (h : OpenedViews E P proof salt pt k c v1 v2) : ViewWF P v1 :=
  ⟨by rw [h.inp1, openKey_length hpr], h.len1, by rw [h.out1]; simp⟩

theorem OpenedViews.wf2 {E : Env} {P : Params} {proof : Proof} {salt pt : Buf} {k c : ℕ} {v1 v2 : View}
    (hpr : ProofWF P proof) (h : OpenedViews E P proof salt pt k c v1 v2) : ViewWF P v2 :=
  ⟨by rw [h.inp2, openKey_length hpr], by rw [h.comm2, hpr.comm], by rw [h.out2]; simp⟩

theorem verifyProof_ok {E : Env} {P : Params} {proof : Proof} {c : Byte} {salt tmp pt : Buf} {k : ℕ}
    {τ : ℕ → Buf} {pos : ℕ} (hE : PermWF E) (hP : ParamsWF P) (hC : ConstsWF P (E.lowmc P)) (hZ : ZkbWF P)
    (hpr : ProofWF P proof) (hsalt : salt.length = P.saltSizeBytes) (hc : c.toNat < 3)
    (hpt : 4 * P.stateSizeWords ≤ pt.length)
    (ht : tmp.length = max (6 * P.stateSizeBytes) (P.stateSizeBytes + P.andSizeBytes))
    (hl : ∀ j < 3, P.andSizeBytes ≤ (τ j).length) :
    ∃ v1 v2 tape', verifyProof E P proof (allocateView P) (allocateView P) c salt k tmp pt ⟨arrN 3 τ, pos⟩ =
        Outcome.ok (v1, v2, tape') ∧ OpenedViews E P proof salt pt k c.toNat v1 v2 := by
  have hby := hP.bytes
  have hand := hP.andBytes
  have htv := hZ.tmpVerify
  unfold verifyProof
  rw [memcpy_full hpr.comm (by simp [allocateView]), ok_bind]
  simp only []
  obtain ⟨tmp', τ', e1, e2, ⟨r0, e3⟩, ⟨r1, e4⟩⟩ := verifyProofTapes_ok (E := E) (P := P) (proof := proof) (c := c)
    (v1 := allocateView P) (v2 := { allocateView P with communicatedBits := proof.communicatedBits }) (salt := salt)
    (tmp := tmp) (k := k) (τ := τ) hE hZ hpr hsalt hc (by simp [allocateView]) (by simp [allocateView]) (by omega) hl
  rw [e1, ok_bind]
  simp only []
  rw [zeroTrailingBits_zpad (by rw [rawKey_length hpr]; omega), ok_bind,
    zeroTrailingBits_zpad (by rw [rawKey_length hpr]; omega), ok_bind, zpad_rawKey, zpad_rawKey]
  obtain ⟨comm, m1, m2, m3, m4⟩ := mpcLowMCVerify_ok (E := E) (P := P) (tag := k) (tp := arrN 3 τ') (t0 := τ' 0)
    (t1 := τ' 1) (v1 := { allocateView P with inputShare := openKey E P proof salt k c.toNat 0 })
    (v2 := { allocateView P with inputShare := openKey E P proof salt k c.toNat 1,
                                  communicatedBits := proof.communicatedBits })
    (plaintext := pt) (tmp := tmp') (c := c) hP hC hc (by omega) hpt (rd_arrN (by omega)) (rd_arrN (by omega))
    (by simp only [openKey_length hpr]; omega) (by simp only [openKey_length hpr]; omega)
    (by rw [e3]; simp; omega) (by rw [e4]; simp; omega) (by simp [allocateView]; omega)
    (by simp only [hpr.comm]; omega) (by simp [allocateView]) (by simp [allocateView])
  have t0 : ∀ p < 3 * P.numSboxes * P.numRounds, bitsOf (τ' 0) p = bitsOf (openTape E P proof salt k c.toNat 0) p :=
    fun p hp => by rw [e3, bitsOf_append_left (by simp; omega)]
  have t1 : ∀ p < 3 * P.numSboxes * P.numRounds, bitsOf (τ' 1) p = bitsOf (openTape E P proof salt k c.toNat 1) p :=
    fun p hp => by rw [e4, bitsOf_append_left (by simp; omega)]
  refine ⟨_, _, _, m1, ⟨rfl, rfl, rfl, ?_, ?_, rfl, rfl, ?_⟩⟩
  · simpa [allocateView] using m2
  · intro p hp
    rw [m3 p hp]
    simp [allocateView, bitsOf_zeros]
  · refine consistent_congr hP.sboxes (fun _ _ => rfl) ?_ ?_ m4
    · exact ⟨fun _ _ => rfl, fun _ _ => rfl, t0⟩
    · exact ⟨fun _ _ => rfl, fun _ _ => rfl, t1⟩

/-- Entry of party j in an array assembled from the two opened and the remaining party. -/
def pick {α : Type} (c : ℕ) (a b d : α) (j : ℕ) : α := if j = c then a else if j = (c + 1) % 3 then b else d

theorem pick_upd {α : Type} {f : ℕ → α} {a b d : α} {c : ℕ} (hc : c < 3) : ∀ j < 3,
    Function.update (Function.update (Function.update f c a) ((c + 1) % 3) b) ((c + 2) % 3) d j = pick c a b d j := by
  intro j hj
  simp only [pick, Function.update_apply]
  by_cases h1 : j = c
  · rw [if_neg (by omega), if_neg (by omega), if_pos h1, if_pos h1]
  · by_cases h2 : j = (c + 1) % 3
    · rw [if_neg (by omega), if_pos h2, if_neg h1, if_pos h2]
    · rw [if_pos (by omega), if_neg h1, if_neg h2]

theorem getChallenge_ok {b : Buf} {i : ℕ} (h : 2 * i + 1 < 8 * b.length) :
    ∃ c, getChallenge b i = Outcome.ok c ∧ c.toNat = 2 * (bitsOf b (2 * i + 1)).val + (bitsOf b (2 * i)).val := by
  unfold getChallenge
  rw [getBit_ok h, ok_bind, getBit_ok (by omega), ok_bind, pure_eq_ok]
  refine ⟨_, rfl, ?_⟩
  rcases zmod2_cases (bitsOf b (2 * i + 1)) with h1 | h1 <;> rcases zmod2_cases (bitsOf b (2 * i)) with h2 | h2 <;>
    rw [h1, h2] <;> decide

theorem verifyRound_ok {E : Env} {P : Params} {sig : Signature} {proof : Proof} {pubKey pt : Buf} {k : ℕ} {c : Byte}
    (hE : PermWF E) (hP : ParamsWF P) (hC : ConstsWF P (E.lowmc P)) (hZ : ZkbWF P)
    (hrd : rd sig.proofs k = Outcome.ok proof) (hch : getChallenge sig.challengeBits k = Outcome.ok c)
    (hpr : ProofWF P proof) (hsalt : sig.salt.length = P.saltSizeBytes) (hc : c.toNat < 3)
    (hpt : 4 * P.stateSizeWords ≤ pt.length) (hpk : P.stateSizeBytes ≤ pubKey.length) :
    ∃ (v1 v2 : View) (g3 : Buf) (junk : ℕ → Buf), OpenedViews E P proof sig.salt pt k c.toNat v1 v2 ∧
      (P.transform = .UR → proof.view3UnruhG = some g3) ∧
      verifyRound E P sig pubKey pt k = Outcome.ok
        { hashes := arrN 3 (pick c.toNat (commitOf E P proof.seed1 v1) (commitOf E P proof.seed2 v2) proof.view3Commitment)
          gs := if P.transform = .UR then some (arrN 3 fun j =>
              (pick c.toNat (gOf E P c.toNat proof.seed1 v1) (gOf E P ((c.toNat + 1) % 3) proof.seed2 v2)
                (g3.take (gLen P ((c.toNat + 2) % 3)))) j ++ junk j) else none
          outputs := arrN 3 (pick c.toNat v1.outputShare v2.outputShare
            (ofBits (bitsOf v1.outputShare + bitsOf v2.outputShare + bitsOf pubKey) P.stateSizeBytes)) } := by
  unfold verifyRound
  rw [hrd, ok_bind, hch, ok_bind]
  simp only []
  have hal : allocateRandomTape E P k = ⟨arrN 3 fun j => E.junkBuf siteTape (k * 3 + j) (2 * P.andSizeBytes), 0⟩ := by
    unfold allocateRandomTape; rw [hZ.parties]
  obtain ⟨v1, v2, tape', e1, hO⟩ := verifyProof_ok (E := E) (P := P) (proof := proof) (c := c) (salt := sig.salt)
    (tmp := E.junkBuf siteScratch k (max (6 * P.stateSizeBytes) (P.stateSizeBytes + P.andSizeBytes))) (pt := pt) (k := k)
    (τ := fun j => E.junkBuf siteTape (k * 3 + j) (2 * P.andSizeBytes)) (pos := 0) hE hP hC hZ hpr hsalt hc hpt (by simp)
    (fun j _ => by simp; omega)
  rw [hal, e1, ok_bind]
  simp only []
  rw [ok_bind]
  have w1 := hO.wf1 hpr
  have w2 := hO.wf2 hpr
  have c1 : (c.toNat + 1) % 3 < 3 := Nat.mod_lt _ (by omega)
  have c2 : (c.toNat + 2) % 3 < 3 := Nat.mod_lt _ (by omega)
  unfold allocateCommitment
  rw [hZ.parties]
  have hu : ∀ (f : ℕ → Buf) a, Function.update f c.toNat a ((c.toNat + 1) % 3) = f ((c.toNat + 1) % 3) := fun f a =>
    Function.update_of_ne (by omega) _ _
  have hu2 : ∀ (f : ℕ → Buf) a b, Function.update (Function.update f c.toNat a) ((c.toNat + 1) % 3) b ((c.toNat + 2) % 3) =
      f ((c.toNat + 2) % 3) := fun f a b => by
    rw [Function.update_of_ne (by omega), Function.update_of_ne (by omega)]
  rw [show (List.range 3).map (fun j => E.junkBuf siteCommit (k * 3 + j) P.digestSizeBytes) =
    arrN 3 fun j => E.junkBuf siteCommit (k * 3 + j) P.digestSizeBytes from rfl]
  rw [rd_arrN hc, ok_bind, commitView_ok hE hZ hpr.seed1 w1 (by simp), ok_bind, wr_arrN hc, ok_bind, rd_arrN c1, ok_bind,
    hu, commitView_ok hE hZ hpr.seed2 w2 (by simp), ok_bind, wr_arrN c1, ok_bind, rd_arrN c2, ok_bind, hu2,
    memcpy_full hpr.com3 (by simp), ok_bind, wr_arrN c2, ok_bind, arrN_congr (pick_upd hc)]
  have hout : ∀ {β : Type} (F : List Buf → M β), (do
      let outputs ← wr (List.replicate 3 ([] : Buf)) c.toNat v1.outputShare
      let outputs ← wr outputs ((c.toNat + 1) % 3) v2.outputShare
      let view3Output ← xorThree (zeros P.stateSizeBytes) v1.outputShare v2.outputShare pubKey P.stateSizeBytes
      let outputs ← wr outputs ((c.toNat + 2) % 3) view3Output
      F outputs) = F (arrN 3 (pick c.toNat v1.outputShare v2.outputShare
            (ofBits (bitsOf v1.outputShare + bitsOf v2.outputShare + bitsOf pubKey) P.stateSizeBytes))) := by
    intro β F
    rw [show List.replicate 3 ([] : Buf) = arrN 3 fun _ => [] from rfl, wr_arrN hc, ok_bind, wr_arrN c1, ok_bind,
      xorThree_ofBits (by simp) (by rw [w1.out]) (by rw [w2.out]) hpk, ok_bind, wr_arrN c2, ok_bind,
      arrN_congr (pick_upd hc)]
  unfold allocateG
  by_cases hU : P.transform = .UR
  · obtain ⟨g3, hg3, hg3l⟩ := hpr.g3 hU
    have hgi := hZ.gIn hU
    have hgn := hZ.gNo hU
    have hlen : (if c = 0 then P.unruhGWithInputBytes else P.unruhGWithoutInputBytes) = gLen P ((c.toNat + 2) % 3) := by
      by_cases h0 : c = 0
      · have : c.toNat = 0 := by rw [h0]; rfl
        rw [if_pos h0, gLen, if_pos (by omega), hgi]
      · have : c.toNat ≠ 0 := fun h => h0 (BitVec.eq_of_toNat_eq h)
        rw [if_neg h0, gLen, if_neg (by omega), hgn]
    refine ⟨v1, v2, g3, fun j => (E.junkBuf siteG (3 * k + j) P.unruhGWithInputBytes).drop (gLen P j), hO,
      fun _ => hg3, ?_⟩
    have hgl := gLen_le P ((c.toNat + 2) % 3)
    simp only [hU, if_true, deref, ok_bind, hlen, hg3]
    rw [show (List.range 3).map (fun j => E.junkBuf siteG (3 * k + j) P.unruhGWithInputBytes) =
      arrN 3 fun j => E.junkBuf siteG (3 * k + j) P.unruhGWithInputBytes from rfl]
    rw [rd_arrN hc, ok_bind, unruhG_ok hE hZ hpr.seed1 w1 (by simp [hgi]), ok_bind, wr_arrN hc, ok_bind, rd_arrN c1,
      ok_bind, hu, unruhG_ok hE hZ hpr.seed2 w2 (by simp [hgi]), ok_bind, wr_arrN c1, ok_bind, rd_arrN c2, ok_bind, hu2,
      memcpy_ok (by omega) (by simp; omega), ok_bind, wr_arrN c2, ok_bind, arrN_congr (pick_upd hc)]
    simp only [pure_eq_ok, ok_bind]
    rw [hout]
    congr 2
    congr 1
    apply arrN_congr
    intro j hj
    simp only [pick, List.take_zero, List.nil_append, List.drop_zero, Nat.zero_add]
    by_cases h1 : j = c.toNat
    · rw [if_pos h1, if_pos h1, h1]
    · rw [if_neg h1, if_neg h1]
      by_cases h2 : j = (c.toNat + 1) % 3
      · rw [if_pos h2, if_pos h2, h2]
      · rw [if_neg h2, if_neg h2, show (c.toNat + 2) % 3 = j by omega]
  · refine ⟨v1, v2, [], fun _ => [], hO, fun h => absurd h hU, ?_⟩
    simp only [if_neg hU, ok_bind, pure_eq_ok]
    rw [hout]

end Picnic
