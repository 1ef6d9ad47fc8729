import Verif.Proofs.ZkbRound
import Verif.Spec.Challenge
import Mathlib.Data.List.GetD

/-
The challenge computation `H3`.
-/

namespace Picnic

open Spec Spec.Challenge

/-! ### the specification -/

theorem trits_lt {d : Buf} {x : ℕ} (h : x ∈ trits d) : x < 3 := by
  simpa using (List.mem_filter.1 h).2

theorem stream_lt {next : Buf → Buf} {d : Buf} {n x : ℕ} (h : x ∈ stream next d n) : x < 3 := by
  induction n generalizing d with
  | zero => simp [stream] at h
  | succ n ih =>
    rcases List.mem_append.1 h with h | h
    · exact trits_lt h
    · exact ih h

theorem stream_prefix (next : Buf → Buf) (d : Buf) (n k : ℕ) : ∃ l, stream next d (n + k) = stream next d n ++ l := by
  induction n generalizing d with
  | zero => exact ⟨stream next d k, by simp [stream]⟩
  | succ n ih =>
    obtain ⟨l, h⟩ := ih (next d)
    exact ⟨l, by rw [show n + 1 + k = (n + k) + 1 by omega, stream, stream, h, List.append_assoc]⟩

theorem isChallenge_unique {T : ℕ} {next : Buf → Buf} {d : Buf} {l l' : List ℕ} (h : IsChallenge T next d l)
    (h' : IsChallenge T next d l') : l = l' := by
  obtain ⟨n, h1, rfl⟩ := h
  obtain ⟨m, h2, rfl⟩ := h'
  rcases Nat.le_total n m with h | h
  · obtain ⟨l, e⟩ := stream_prefix next d n (m - n)
    rw [show n + (m - n) = m by omega] at e
    rw [e, List.take_append_of_le_length h1]
  · obtain ⟨l, e⟩ := stream_prefix next d m (n - m)
    rw [show m + (n - m) = n by omega] at e
    rw [e, List.take_append_of_le_length h2]

/-- The encoding of a challenge sequence: two bits per value, low bit first, zero padding. -/
def encTrits (T : ℕ) (l : List ℕ) : Buf :=
  ofBits (fun p => if p < 2 * T then ((l.getD (p / 2) 0 / 2 ^ (p % 2) : ℕ) : ZMod 2) else 0) (numBytes (2 * T))

@[simp] theorem encTrits_length (T : ℕ) (l : List ℕ) : (encTrits T l).length = numBytes (2 * T) := by simp [encTrits]

/-! ### one digest -/

/-- Reading one value. -/
def tritStep (T : ℕ) (acc : List ℕ) (x : ℕ) : List ℕ := if acc.length = T then acc else if x < 3 then acc ++ [x] else acc

theorem tritStep_foldl {T : ℕ} (L : List ℕ) (acc : List ℕ) (h : acc.length ≤ T) :
    L.foldl (tritStep T) acc = (acc ++ L.filter (· < 3)).take T := by
  induction L generalizing acc with
  | nil => simp [List.take_of_length_le h]
  | cons x L ih =>
    rw [List.foldl_cons]
    by_cases h1 : acc.length = T
    · rw [show tritStep T acc x = acc from if_pos h1, ih acc h, List.take_append_of_le_length (by omega),
        List.take_append_of_le_length (by omega)]
    · by_cases h2 : x < 3
      · rw [show tritStep T acc x = acc ++ [x] from by rw [tritStep, if_neg h1, if_pos h2], ih _ (by simp; omega)]
        simp [h2]
      · rw [show tritStep T acc x = acc from by rw [tritStep, if_neg h1, if_neg h2], ih _ h]
        simp [h2]

/-- The state of the scanning loops when the values `acc` have been read. -/
structure H3OK (P : Params) (acc : List ℕ) (st : H3State) : Prop where
  le : acc.length ≤ P.numMPCRounds
  round : st.round = acc.length
  done : st.done = decide (acc.length = P.numMPCRounds)
  len : st.challengeBits.length = numBytes (2 * P.numMPCRounds)
  bits : ∀ p < 2 * acc.length, bitsOf st.challengeBits p = ((acc.getD (p / 2) 0 / 2 ^ (p % 2) : ℕ) : ZMod 2)
  pad : ∀ p, 2 * P.numMPCRounds ≤ p → bitsOf st.challengeBits p = 0

theorem setChallenge_ok {b : Buf} {r : ℕ} {t : Byte} (ht : t.toNat < 3) (h : 2 * r + 1 < 8 * b.length) :
    setChallenge b r t = Outcome.ok (setBitP (setBitP b (2 * r) ((t.toNat : ℕ) : ZMod 2)) (2 * r + 1)
      ((t.toNat / 2 : ℕ) : ZMod 2)) := by
  have e : t &&& 1 = b8 ((t.toNat : ℕ) : ZMod 2) ∧ (t >>> 1) &&& 1 = b8 ((t.toNat / 2 : ℕ) : ZMod 2) := by
    rcases (show t.toNat = 0 ∨ t.toNat = 1 ∨ t.toNat = 2 by omega) with h | h | h
    · rw [show t = 0 from BitVec.eq_of_toNat_eq h]; decide
    · rw [show t = 1 from BitVec.eq_of_toNat_eq h]; decide
    · rw [show t = 2 from BitVec.eq_of_toNat_eq h]; decide
  unfold setChallenge
  rw [e.1, e.2, setBit_ok (by omega), ok_bind, setBit_ok (by simp; omega)]

theorem h3_step {P : Params} {acc : List ℕ} {st : H3State} {pair : Byte} (h : H3OK P acc st) :
    ∃ st', (if st.done then (pure st : M H3State) else
        if pair.toNat < 3 then do
          let ch ← setChallenge st.challengeBits st.round pair
          pure { challengeBits := ch, round := st.round + 1, done := st.round + 1 = P.numMPCRounds }
        else pure st) = Outcome.ok st' ∧ H3OK P (tritStep P.numMPCRounds acc pair.toNat) st' := by
  have hn := numBytes_eq (2 * P.numMPCRounds)
  by_cases hd : acc.length = P.numMPCRounds
  · rw [h.done, decide_eq_true hd, if_pos rfl, tritStep, if_pos hd]
    exact ⟨st, rfl, h⟩
  rw [h.done, decide_eq_false hd, if_neg (by simp), tritStep, if_neg hd]
  have hle := h.le
  by_cases hp : pair.toNat < 3
  swap
  · rw [if_neg hp, if_neg hp]
    exact ⟨st, rfl, h⟩
  rw [if_pos hp, if_pos hp, h.round, setChallenge_ok hp (by rw [h.len]; omega), ok_bind, pure_eq_ok]
  have hl := h.len
  refine ⟨_, rfl, ⟨by simp; omega, by simp, by simp, by simp [hl], ?_, ?_⟩⟩
  · intro p hp2
    simp only [List.length_append, List.length_singleton] at hp2
    rw [bitsOf_setBitP (by simp; omega), bitsOf_setBitP (by omega)]
    simp only [Function.update_apply]
    by_cases h1 : p = 2 * acc.length + 1
    · rw [if_pos h1, h1, show (2 * acc.length + 1) / 2 = acc.length by omega, show (2 * acc.length + 1) % 2 = 1 by omega]
      simp
    · rw [if_neg h1]
      by_cases h2 : p = 2 * acc.length
      · rw [if_pos h2, h2, show (2 * acc.length) / 2 = acc.length by omega, show (2 * acc.length) % 2 = 0 by omega]
        simp
      · rw [if_neg h2, h.bits p (by omega), List.getD_append _ _ _ _ (by omega)]
  · intro p hp2
    rw [bitsOf_setBitP (by simp; omega), bitsOf_setBitP (by omega)]
    simp only [Function.update_apply]
    rw [if_neg (by omega), if_neg (by omega), h.pad p hp2]

theorem pair_eq (b : Byte) (j : ℕ) (hj : j < 4) : ((b >>> (6 - 2 * j)) &&& 0x03).toNat = (pairs b).getD j 0 := by
  have : ∀ b : Byte, ∀ j < 4, ((b >>> (6 - 2 * j)) &&& 0x03).toNat = (pairs b).getD j 0 := by decide
  exact this b j hj

theorem h3Scan_ok {P : Params} {acc : List ℕ} {st : H3State} {hash : Buf} (h : H3OK P acc st)
    (hl : hash.length = P.digestSizeBytes) :
    ∃ st', h3Scan P hash st = Outcome.ok st' ∧ H3OK P ((acc ++ trits hash).take P.numMPCRounds) st' := by
  unfold h3Scan
  have key : ∀ n ≤ P.digestSizeBytes, ∃ st', loop (fun i st =>
    if st.done then (pure st : M H3State) else do
      let byte ← rd hash i
      loop (fun j st =>
        if st.done then pure st else
          let bitPair := (byte >>> (6 - 2 * j)) &&& 0x03
          if bitPair.toNat < 3 then do
            let ch ← setChallenge st.challengeBits st.round bitPair
            pure { challengeBits := ch, round := st.round + 1, done := st.round + 1 = P.numMPCRounds }
          else pure st) 4 st) n st = Outcome.ok st' ∧
      H3OK P (((hash.take n).flatMap pairs).foldl (tritStep P.numMPCRounds) acc) st' := by
    intro n
    induction n with
    | zero => intro _; exact ⟨st, rfl, by simpa using h⟩
    | succ n ih =>
      intro hn
      obtain ⟨s1, e1, h1⟩ := ih (by omega)
      have hnl : n < hash.length := by omega
      rw [loop_succ, e1, ok_bind, List.take_succ_eq_append_getElem hnl, List.flatMap_append, List.foldl_append]
      simp only [List.flatMap_cons, List.flatMap_nil, List.append_nil]
      set acc1 := ((hash.take n).flatMap pairs).foldl (tritStep P.numMPCRounds) acc with ha
      have hstop : ∀ L : List ℕ, ∀ a : List ℕ, a.length = P.numMPCRounds → L.foldl (tritStep P.numMPCRounds) a = a := by
        intro L
        induction L with
        | nil => intros; rfl
        | cons x L ih => intro a h; rw [List.foldl_cons, show tritStep P.numMPCRounds a x = a from if_pos h, ih a h]
      by_cases hd : acc1.length = P.numMPCRounds
      · rw [h1.done, decide_eq_true hd, if_pos rfl, hstop _ _ hd]
        exact ⟨s1, rfl, h1⟩
      rw [h1.done, decide_eq_false hd, if_neg (by simp), rd_ok hnl, ok_bind]
      obtain ⟨s2, e2, h2⟩ := loop_inv (fun j s => H3OK P (((pairs hash[n]).take j).foldl (tritStep P.numMPCRounds) acc1) s)
        (f := fun j st =>
        if st.done then (pure st : M H3State) else
          let bitPair := (hash[n] >>> (6 - 2 * j)) &&& 0x03
          if bitPair.toNat < 3 then do
            let ch ← setChallenge st.challengeBits st.round bitPair
            pure { challengeBits := ch, round := st.round + 1, done := st.round + 1 = P.numMPCRounds }
          else pure st) (n := 4) (s := s1) (by simpa using h1) (by
        intro j hj s hs
        obtain ⟨s', e, h'⟩ := h3_step (pair := (hash[n] >>> (6 - 2 * j)) &&& 0x03) hs
        refine ⟨s', e, ?_⟩
        have hj' : j < (pairs hash[n]).length := hj
        rw [List.take_succ_eq_append_getElem hj', List.foldl_append, List.foldl_cons, List.foldl_nil]
        rw [pair_eq _ _ hj, List.getD_eq_getElem _ _ hj'] at h'
        exact h')
      exact ⟨s2, e2, h2⟩
  obtain ⟨st', e, h'⟩ := key P.digestSizeBytes (le_refl _)
  refine ⟨st', e, ?_⟩
  rw [List.take_of_length_le hl.le, tritStep_foldl _ _ h.le] at h'
  exact h'

/-- The digest after `d` in the chain. -/
def nextDigest (E : Env) (P : Params) (d : Buf) : Buf := H E P HASH_PREFIX_1 d P.digestSizeBytes

theorem h3Loop_ok {E : Env} {P : Params} (hE : PermWF E) (hdig : P.digestSizeBytes ≤ 64) (n : ℕ) :
    ∀ (hash : Buf) (acc : List ℕ) (st : H3State), hash.length = P.digestSizeBytes → H3OK P acc st →
      acc.length < P.numMPCRounds →
      h3Loop E P n hash st =
        if P.numMPCRounds ≤ (acc ++ stream (nextDigest E P) hash n).length then
          Outcome.ok (encTrits P.numMPCRounds ((acc ++ stream (nextDigest E P) hash n).take P.numMPCRounds))
        else Outcome.diverge := by
  induction n with
  | zero =>
    intro hash acc st _ _ h
    rw [if_neg (by simp [stream]; omega)]
    rfl
  | succ n ih =>
    intro hash acc st hl h hlt
    have hn := numBytes_eq (2 * P.numMPCRounds)
    rw [h3Loop]
    obtain ⟨s1, e1, h1⟩ := h3Scan_ok h hl
    rw [e1, ok_bind]
    by_cases hd : P.numMPCRounds ≤ (acc ++ trits hash).length
    · have hlen : ((acc ++ trits hash).take P.numMPCRounds).length = P.numMPCRounds := by
        rw [List.length_take]; omega
      rw [h1.done, decide_eq_true hlen, if_pos rfl, pure_eq_ok, stream, ← List.append_assoc,
        if_pos (by rw [List.length_append]; omega), List.take_append_of_le_length hd]
      congr 1
      refine buf_ext (by rw [h1.len, encTrits_length]) fun p hp => ?_
      rw [h1.len] at hp
      rw [encTrits, bitsOf_ofBits _ hp]
      by_cases h2 : p < 2 * P.numMPCRounds
      · rw [if_pos h2, h1.bits p (by rw [hlen]; exact h2)]
      · rw [if_neg h2, h1.pad p (by omega)]
    · have e2 : (acc ++ trits hash).take P.numMPCRounds = acc ++ trits hash := List.take_of_length_le (by omega)
      rw [e2] at h1
      rw [h1.done, decide_eq_false (by omega), if_neg (by simp), hashAll_ok hE (by simp; omega) (by omega), ok_bind]
      simp only [List.flatMap_cons, List.flatMap_nil, List.append_nil]
      rw [List.take_of_length_le hl.le, ih _ (acc ++ trits hash) s1 (by simp) h1 (by omega), stream, List.append_assoc]
      rfl

/-! ### the hash input -/

/-- The concatenation of the first `len j` bytes of all entries (i, j). -/
def tripleBytes (T : ℕ) (xs : ℕ → ℕ → Buf) (len : ℕ → ℕ) : Buf :=
  (List.range T).flatMap fun i => (List.range 3).flatMap fun j => (xs i j).take (len j)

theorem hashUpdateTriples_ok {E : Env} {rate T : ℕ} {m : Buf} {inst : HashInstance} {rows : List (List Buf)}
    {xs : ℕ → ℕ → Buf} {len : ℕ → ℕ} (hE : PermWF E) (hr : RateOK rate) (h : Absorbed E rate m inst)
    (hrows : rows = arrN T fun i => arrN 3 (xs i))
    (hlen : ∀ i < T, ∀ j < 3, len j ≤ (xs i j).length ∧ len j + 200 ≤ 2 ^ 32) :
    ∃ inst', hashUpdateTriples E inst rows T len = Outcome.ok inst' ∧ Absorbed E rate (m ++ tripleBytes T xs len) inst' := by
  unfold hashUpdateTriples
  obtain ⟨s, e, h'⟩ := loop_inv (fun i s => Absorbed E rate (m ++ tripleBytes i xs len) s)
    (f := fun i ctx => do
      let row ← rd rows i
      loop (fun j ctx => do
        let b ← rd row j
        hashUpdate E ctx b (len j)) 3 ctx) (n := T) (s := inst) (by simpa [tripleBytes] using h) (by
    intro i hi s hs
    rw [hrows, rd_arrN hi, ok_bind]
    obtain ⟨s2, e2, h2⟩ := loop_inv (fun j s => Absorbed E rate (m ++ tripleBytes i xs len ++
        (List.range j).flatMap fun j => (xs i j).take (len j)) s)
      (f := fun j ctx => do
        let b ← rd (arrN 3 (xs i)) j
        hashUpdate E ctx b (len j)) (n := 3) (s := s) (by simpa using hs) (by
      intro j hj s hs
      rw [rd_arrN hj, ok_bind]
      obtain ⟨s3, e3, h3⟩ := hashUpdate_ok hE hr hs (hlen i hi j hj).1 (hlen i hi j hj).2
      refine ⟨s3, e3, ?_⟩
      rw [List.range_succ, List.flatMap_append]
      simpa using h3)
    refine ⟨s2, e2, ?_⟩
    have : tripleBytes (i + 1) xs len = tripleBytes i xs len ++ (List.range 3).flatMap fun j => (xs i j).take (len j) := by
      simp only [tripleBytes, List.range_succ, List.flatMap_append, List.flatMap_cons, List.flatMap_nil, List.append_nil]
    rw [this, ← List.append_assoc]
    exact h2)
  exact ⟨s, e, h'⟩

/-- Number of bytes of the G value of party j that are hashed. -/
def gHashLen (P : Params) (j : ℕ) : ℕ := if j = 2 then P.unruhGWithInputBytes else P.unruhGWithoutInputBytes

/-- The input of the challenge hash. -/
def h3Input (P : Params) (ct pt : Buf) (outs coms gs : ℕ → ℕ → Buf) (salt msg : Buf) : Buf :=
  tripleBytes P.numMPCRounds outs (fun _ => P.stateSizeBytes) ++
  tripleBytes P.numMPCRounds coms (fun _ => P.digestSizeBytes) ++
  (if P.transform = .UR then tripleBytes P.numMPCRounds gs (gHashLen P) else []) ++
  ct.take P.stateSizeBytes ++ pt.take P.stateSizeBytes ++ salt ++ msg

/-- The challenge digest. -/
def h3Digest (E : Env) (P : Params) (m : Buf) : Buf := H E P HASH_PREFIX_1 m P.digestSizeBytes

/-- The challenge for a digest, with `E.fuel` digests available. -/
def expandTrits (E : Env) (P : Params) (d : Buf) : M Buf :=
  if P.numMPCRounds ≤ (stream (nextDigest E P) d E.fuel).length then
    Outcome.ok (encTrits P.numMPCRounds ((stream (nextDigest E P) d E.fuel).take P.numMPCRounds))
  else Outcome.diverge

theorem H3_ok {E : Env} {P : Params} {ct pt ch salt msg : Buf} {outs coms gs : ℕ → ℕ → Buf} {rowsO rowsC : List (List Buf)}
    {rowsG : Option (List (List Buf))} {mlen : ℕ} (hE : PermWF E) (hZ : ZkbWF P)
    (hct : P.stateSizeBytes ≤ ct.length) (hpt : P.stateSizeBytes ≤ pt.length)
    (hch : ch.length = numBytes (2 * P.numMPCRounds)) (hsalt : salt.length = P.saltSizeBytes)
    (hmsg : mlen ≤ msg.length) (hm32 : mlen + 200 ≤ 2 ^ 32)
    (hO : rowsO = arrN P.numMPCRounds fun i => arrN 3 (outs i))
    (hCm : rowsC = arrN P.numMPCRounds fun i => arrN 3 (coms i))
    (hG : P.transform = .UR → rowsG = some (arrN P.numMPCRounds fun i => arrN 3 (gs i)))
    (hOl : ∀ i < P.numMPCRounds, ∀ j < 3, P.stateSizeBytes ≤ (outs i j).length)
    (hCl : ∀ i < P.numMPCRounds, ∀ j < 3, P.digestSizeBytes ≤ (coms i j).length)
    (hGl : P.transform = .UR → ∀ i < P.numMPCRounds, ∀ j < 3, gHashLen P j ≤ (gs i j).length) :
    H3 E P ct pt rowsO rowsC ch salt msg mlen rowsG =
      expandTrits E P (h3Digest E P (h3Input P ct pt outs coms gs salt (msg.take mlen))) := by
  have hn := numBytes_eq (2 * P.numMPCRounds)
  have hT := hZ.Tpos
  have hst := hZ.state
  have hdg := hZ.dig
  have hsl := hZ.salt
  have hsd := hZ.seed
  have han := hZ.and
  have hr := rateOf_ok P
  unfold H3
  rw [Nat.mul_comm P.numMPCRounds 2, wr_ok (by omega), ok_bind]
  obtain ⟨i0, e0, a0⟩ := hashInit_ok hE P HASH_PREFIX_1
  rw [e0, ok_bind]
  obtain ⟨i1, e1, a1⟩ := hashUpdateTriples_ok (len := fun _ => P.stateSizeBytes) hE hr a0 hO
    (fun i hi j hj => ⟨hOl i hi j hj, by omega⟩)
  rw [e1, ok_bind]
  obtain ⟨i2, e2, a2⟩ := hashUpdateTriples_ok (len := fun _ => P.digestSizeBytes) hE hr a1 hCm
    (fun i hi j hj => ⟨hCl i hi j hj, by omega⟩)
  rw [e2, ok_bind]
  obtain ⟨i3, e3, a3⟩ : ∃ i3, (∀ k : HashInstance → M Buf, (if P.transform = .UR then do
      let gs ← deref rowsG
      let ctx ← hashUpdateTriples E i2 gs P.numMPCRounds
        (fun j => if j = 2 then P.unruhGWithInputBytes else P.unruhGWithoutInputBytes)
      k ctx
    else do
      let ctx ← pure i2
      k ctx) = k i3) ∧ Absorbed E (rateOf P) (prefixBytes HASH_PREFIX_1 ++
      tripleBytes P.numMPCRounds outs (fun _ => P.stateSizeBytes) ++
      tripleBytes P.numMPCRounds coms (fun _ => P.digestSizeBytes) ++
      (if P.transform = .UR then tripleBytes P.numMPCRounds gs (gHashLen P) else [])) i3 := by
    by_cases hU : P.transform = .UR
    · simp only [hU, if_true, hG hU, deref, ok_bind]
      obtain ⟨i3, e3, a3⟩ := hashUpdateTriples_ok (len := gHashLen P) hE hr a2 rfl fun i hi j hj => ⟨hGl hU i hi j hj, by
        have := hZ.gIn hU
        have := hZ.gNo hU
        unfold gHashLen
        split_ifs <;> omega⟩
      exact ⟨i3, fun k => bind_of e3 rfl, a3⟩
    · simp only [if_neg hU, List.append_nil]
      exact ⟨i2, fun k => rfl, a2⟩
  refine Eq.trans (e3 _) ?_
  obtain ⟨i4, e4, a4⟩ := hashUpdate_ok (len := P.stateSizeBytes) hE hr a3 hct (by omega)
  rw [e4, ok_bind]
  obtain ⟨i5, e5, a5⟩ := hashUpdate_ok (len := P.stateSizeBytes) hE hr a4 hpt (by omega)
  rw [e5, ok_bind]
  obtain ⟨i6, e6, a6⟩ := hashUpdate_ok (len := P.saltSizeBytes) hE hr a5 hsalt.ge (by omega)
  rw [e6, ok_bind]
  obtain ⟨i7, e7, a7⟩ := hashUpdate_ok (len := mlen) hE hr a6 hmsg hm32
  rw [e7, ok_bind]
  obtain ⟨i8, i9, e8, e9⟩ := hashFinish_ok (n := P.digestSizeBytes) hE a7 (by omega)
  rw [e8, ok_bind, e9, ok_bind]
  simp only []
  have hdig : shake E.perm (rateOf P) (prefixBytes HASH_PREFIX_1 ++ tripleBytes P.numMPCRounds outs (fun _ => P.stateSizeBytes) ++
      tripleBytes P.numMPCRounds coms (fun _ => P.digestSizeBytes) ++
      (if P.transform = .UR then tripleBytes P.numMPCRounds gs (gHashLen P) else []) ++ ct.take P.stateSizeBytes ++
      pt.take P.stateSizeBytes ++ salt.take P.saltSizeBytes ++ msg.take mlen) P.digestSizeBytes =
      h3Digest E P (h3Input P ct pt outs coms gs salt (msg.take mlen)) := by
    rw [List.take_of_length_le hsalt.le]
    simp only [h3Digest, H, h3Input, List.append_assoc]
  rw [hdig, h3Loop_ok hE hdg _ _ [] _ (by simp [h3Digest]) ?_ (by simpa using hT)]
  · simp [expandTrits]
  · refine ⟨by simp, rfl, by simp; omega, by simp [hch], by simp, ?_⟩
    intro p hp
    simp only []
    by_cases h : p < 8 * ch.length
    · have hp8 : p / 8 = numBytes (2 * P.numMPCRounds) - 1 := by omega
      have hl : (numBytes (2 * P.numMPCRounds) - 1) < ch.length := by omega
      simp only [bitsOf, hp8, List.getD_eq_getElem?_getD, List.getElem?_set_self hl, Option.getD_some]
      simp [byteBit]
    · exact bitsOf_ge (by simp; omega)

end Picnic
