import Verif.Proofs.P3Hash
import Verif.Proofs.H3

/-
/repo/picnic3_impl.c: `expandChallengeHash`.
-/

namespace Picnic

open Finset Spec Spec.Challenge

/-! ### chunks -/

theorem bit_eq (d : Buf) (i : ℕ) : (bitsOf d i).val = bit d i := by
  have key : ∀ x : Byte, ∀ k < 8, (byteBit x k).val = x.toNat / 2 ^ (7 - k) % 2 := by decide +kernel
  unfold bitsOf bit
  exact key _ _ (by omega)

theorem b8_toNat (x : ZMod 2) : (b8 x).toNat = x.val := by
  rcases zmod2_cases x with rfl | rfl <;> decide

theorem bit_lt (d : Buf) (i : ℕ) : bit d i < 2 := by unfold bit; omega

theorem chunkSum_lt (d : Buf) (o : ℕ) (j : ℕ) : ∑ q ∈ range j, bit d (o + q) * 2 ^ q < 2 ^ j := by
  induction j with
  | zero => simp
  | succ j ih =>
    rw [sum_range_succ, pow_succ]
    have := bit_lt d (o + j)
    have h2 : bit d (o + j) * 2 ^ j ≤ 1 * 2 ^ j := Nat.mul_le_mul_right _ (by omega)
    omega

theorem bitsToChunks_ok {b cap : ℕ} {d rest : Buf} (hb : b ≤ 16) (h0 : 0 < b) (hle : b ≤ d.length * 8) (hcap : d.length * 8 / b ≤ cap) :
    bitsToChunks b (d ++ rest) d.length cap = Outcome.ok (chunks b d) := by
  unfold bitsToChunks
  have hass : assertM (!decide (b > d.length * 8)) = Outcome.ok () := by
    unfold assertM; rw [if_pos (by simpa using hle)]
  rw [hass, ok_bind]
  dsimp only
  rw [chunks, collect_ok (g := chunk b d) fun i hi => by
    rw [if_pos (by omega)]
    refine (loop_seq (fun j => ∑ q ∈ range j, bit d (i * b + q) * 2 ^ q) (by simp) fun j hj => ?_).trans rfl
    have hib : i * b + b ≤ d.length * 8 := by
      have h1 : (i + 1) * b ≤ d.length * 8 / b * b := Nat.mul_le_mul_right _ hi
      have h2 := Nat.div_mul_le_self (d.length * 8) b
      rw [Nat.succ_mul] at h1
      omega
    rw [getBit_ok (by rw [List.length_append]; omega), ok_bind, bitsOf_append_left (by omega), b8_toNat, bit_eq]
    have hlt := chunkSum_lt d (i * b) (j + 1)
    rw [sum_range_succ] at hlt
    have hp : 2 ^ (j + 1) ≤ 2 ^ b := Nat.pow_le_pow_right (by omega) hj
    have hp2 : 2 ^ b ≤ 2 ^ 16 := Nat.pow_le_pow_right (by omega) hb
    rw [Nat.mod_eq_of_lt (by omega), sum_range_succ]
    simp only [assertM]
    rw [if_pos (decide_eq_true (by omega)), ok_bind]
    rfl]

/-! ### scanning -/

/-- One step of the scan for opened rounds. -/
def stepC (T u : ℕ) (acc : List ℕ) (c : ℕ) : List ℕ :=
  if acc.length = u then acc else if c < T then (if c ∈ acc then acc else acc ++ [c]) else acc

/-- One step of the scan for parties. -/
def stepP (N u : ℕ) (acc : List ℕ) (c : ℕ) : List ℕ := if acc.length = u then acc else if c < N then acc ++ [c] else acc

theorem stepC_length {T u : ℕ} {acc : List ℕ} {c : ℕ} (h : acc.length ≤ u) : (stepC T u acc c).length ≤ u := by
  unfold stepC
  split_ifs <;> (try rw [List.length_append, List.length_singleton]) <;> omega

theorem stepP_length {N u : ℕ} {acc : List ℕ} {c : ℕ} (h : acc.length ≤ u) : (stepP N u acc c).length ≤ u := by
  unfold stepP
  split_ifs <;> (try rw [List.length_append, List.length_singleton]) <;> omega

theorem foldl_length {u : ℕ} {f : List ℕ → ℕ → List ℕ} (hf : ∀ acc c, acc.length ≤ u → (f acc c).length ≤ u) (l : List ℕ) :
    ∀ acc, acc.length ≤ u → (l.foldl f acc).length ≤ u := by
  induction l with
  | nil => exact fun acc h => h
  | cons x l ih => exact fun acc h => ih _ (hf acc x h)

theorem scanC_ok {P : Params} (l : List ℕ) : ∀ acc : List ℕ, acc.length ≤ P.numOpenedRounds →
    scanC P l acc = Outcome.ok (l.foldl (stepC P.numMPCRounds P.numOpenedRounds) acc) := by
  induction l with
  | nil => intro acc _; rfl
  | cons c l ih =>
    intro acc h
    unfold scanC
    rw [List.foldlM_cons, List.foldl_cons]
    have hstep : (if acc.length = P.numOpenedRounds then pure acc
        else if c < P.numMPCRounds then appendUnique P.numOpenedRounds acc c
        else pure acc : M (List ℕ)) = Outcome.ok (stepC P.numMPCRounds P.numOpenedRounds acc c) := by
      unfold stepC appendUnique
      by_cases h1 : acc.length = P.numOpenedRounds
      · rw [if_pos h1, if_pos h1]; rfl
      · rw [if_neg h1, if_neg h1]
        by_cases h2 : c < P.numMPCRounds
        · rw [if_pos h2, if_pos h2]
          by_cases h3 : c ∈ acc
          · rw [if_pos (by simpa using h3), if_pos h3]; rfl
          · rw [if_neg (by simpa using h3), if_pos (by omega), if_neg h3]; rfl
        · rw [if_neg h2, if_neg h2]; rfl
    rw [hstep, ok_bind]
    exact ih _ (stepC_length h)

theorem scanP_ok {P : Params} (l : List ℕ) : ∀ acc : List ℕ, acc.length ≤ P.numOpenedRounds →
    scanP P l acc = Outcome.ok (l.foldl (stepP P.numMPCParties P.numOpenedRounds) acc) := by
  induction l with
  | nil => intro acc _; rfl
  | cons c l ih =>
    intro acc h
    unfold scanP
    rw [List.foldlM_cons, List.foldl_cons]
    have hstep : (if acc.length = P.numOpenedRounds then pure acc
        else if c < P.numMPCParties then
          if acc.length < P.numOpenedRounds then pure (acc ++ [c]) else .ub .oobWrite
        else pure acc : M (List ℕ)) = Outcome.ok (stepP P.numMPCParties P.numOpenedRounds acc c) := by
      unfold stepP
      by_cases h1 : acc.length = P.numOpenedRounds
      · rw [if_pos h1, if_pos h1]; rfl
      · rw [if_neg h1, if_neg h1]
        by_cases h2 : c < P.numMPCParties
        · rw [if_pos h2, if_pos h2, if_pos (by omega)]; rfl
        · rw [if_neg h2, if_neg h2]; rfl
    rw [hstep, ok_bind]
    exact ih _ (stepP_length h)

/-! ### the chain of digests -/

/-- The loops over digests; `none` if the iterations granted do not suffice. -/
def fillR (u : ℕ) (next : Buf → Buf) (sc : Buf → List ℕ → List ℕ) : ℕ → Buf → List ℕ → Option (Buf × List ℕ)
  | 0, d, acc => if acc.length < u then none else some (d, acc)
  | n + 1, d, acc => if acc.length < u then fillR u next sc n (next d) (sc d acc) else some (d, acc)

theorem fillR_mono {u : ℕ} {next : Buf → Buf} {sc : Buf → List ℕ → List ℕ} {r : Buf × List ℕ} : ∀ (n : ℕ) (d : Buf) (acc : List ℕ),
    fillR u next sc n d acc = some r → ∀ m, n ≤ m → fillR u next sc m d acc = some r := by
  intro n
  induction n with
  | zero =>
    intro d acc h m _
    rw [fillR] at h
    by_cases hl : acc.length < u
    · rw [if_pos hl] at h; cases h
    · rw [if_neg hl] at h
      cases m with
      | zero => rw [fillR, if_neg hl, h]
      | succ m => rw [fillR, if_neg hl, h]
  | succ n ih =>
    intro d acc h m hm
    obtain ⟨m, rfl⟩ : ∃ k, m = k + 1 := ⟨m - 1, by omega⟩
    rw [fillR] at h ⊢
    by_cases hl : acc.length < u
    · rw [if_pos hl] at h ⊢
      exact ih _ _ h m (by omega)
    · rw [if_neg hl] at h ⊢
      exact h

/-- The accumulator after `k` passes. -/
def accAt (next : Buf → Buf) (sc : Buf → List ℕ → List ℕ) : ℕ → Buf → List ℕ → List ℕ
  | 0, _, acc => acc
  | k + 1, d, acc => accAt next sc k (next d) (sc d acc)

theorem fillR_spec {u : ℕ} {next : Buf → Buf} {sc : Buf → List ℕ → List ℕ} : ∀ (n : ℕ) (d d' : Buf) (acc l : List ℕ),
    fillR u next sc n d acc = some (d', l) → ∃ k ≤ n, d' = next^[k] d ∧ l = accAt next sc k d acc ∧ u ≤ l.length ∧
      ∀ k' < k, (accAt next sc k' d acc).length < u := by
  intro n
  induction n with
  | zero =>
    intro d d' acc l h
    rw [fillR] at h
    by_cases hl : acc.length < u
    · rw [if_pos hl] at h; cases h
    · rw [if_neg hl] at h
      injection h with h; injection h with h1 h2
      exact ⟨0, le_rfl, h1.symm, h2.symm, by rw [← h2]; omega, fun k' hk => by omega⟩
  | succ n ih =>
    intro d d' acc l h
    rw [fillR] at h
    by_cases hl : acc.length < u
    · rw [if_pos hl] at h
      obtain ⟨k, h1, h2, h3, h4, h5⟩ := ih _ _ _ _ h
      refine ⟨k + 1, by omega, by rw [Function.iterate_succ_apply]; exact h2, h3, h4, fun k' hk => ?_⟩
      cases k' with
      | zero => exact hl
      | succ k' => exact h5 k' (by omega)
    · rw [if_neg hl] at h
      injection h with h; injection h with h1 h2
      exact ⟨0, by omega, h1.symm, h2.symm, by rw [← h2]; omega, fun k' hk => by omega⟩

theorem fillR_exists {u : ℕ} {next : Buf → Buf} {sc : Buf → List ℕ → List ℕ} : ∀ (n k : ℕ) (d : Buf) (acc : List ℕ),
    k ≤ n → u ≤ (accAt next sc k d acc).length → ∃ r, fillR u next sc n d acc = some r := by
  intro n
  induction n with
  | zero =>
    intro k d acc hk h
    obtain rfl : k = 0 := by omega
    exact ⟨_, by rw [fillR, if_neg (by rw [accAt] at h; omega)]⟩
  | succ n ih =>
    intro k d acc hk h
    rw [fillR]
    by_cases hl : acc.length < u
    · rw [if_pos hl]
      cases k with
      | zero => rw [accAt] at h; omega
      | succ k => exact ih k _ _ (by omega) h
    · exact ⟨_, if_neg hl⟩

/-- The scans as functions of the digest. -/
def scC (P : Params) (d : Buf) (acc : List ℕ) : List ℕ :=
  (chunks (ceilLog2 P.numMPCRounds) d).foldl (stepC P.numMPCRounds P.numOpenedRounds) acc
def scP (P : Params) (d : Buf) (acc : List ℕ) : List ℕ :=
  (chunks (ceilLog2 P.numMPCParties) d).foldl (stepP P.numMPCParties P.numOpenedRounds) acc

theorem rehash_ok {E : Env} {P : Params} {d rest : Buf} (hE : PermWF E) (h3 : P3WF P) (hd : d.length = P.digestSizeBytes) :
    rehash E P (d ++ rest) = Outcome.ok (nextDigest E P d ++ rest) := by
  have h5 := h3.dig
  unfold rehash
  rw [hashAll_ok hE (by simp; omega) (by omega), ok_bind]
  simp only [List.flatMap_cons, List.flatMap_nil, List.append_nil]
  rw [List.take_append_of_le_length hd.ge, List.take_of_length_le hd.le]
  show wrN (d ++ rest) 0 (nextDigest E P d) = _
  have hl : (nextDigest E P d).length = P.digestSizeBytes := H_length _ _ _ _ _
  rw [wrN_ok (by rw [hl, List.length_append]; omega), List.take_zero, List.nil_append, Nat.zero_add, List.drop_append_of_le_length (by omega),
    List.drop_eq_nil_of_le (by omega), List.nil_append]

theorem p3_bits {P : Params} (h3 : P3WF P) : 8 ≤ ceilLog2 P.numMPCRounds ∧ ceilLog2 P.numMPCRounds ≤ 10 ∧ ceilLog2 P.numMPCParties = 4 := by
  have h1 := h3.T
  have h2 := h3.Tpos
  rw [h3.parties]
  have hT := fun k => ceilLog2_spec (n := P.numMPCRounds) (by omega) (by omega) k
  have h16 := fun k => ceilLog2_spec (n := 16) (by omega) (by omega) k
  refine ⟨?_, (hT 10).2 (by omega), ?_⟩
  · by_contra h
    have := (hT 7).1 (by omega)
    omega
  · have e1 := (h16 4).2 (by omega)
    have e2 : ¬ ceilLog2 16 ≤ 3 := fun h => by have := (h16 3).1 h; omega
    omega

theorem fillC_ok {E : Env} {P : Params} {rest : Buf} {cap : ℕ} (hE : PermWF E) (h3 : P3WF P) (hcap : P.digestSizeBytes * 2 ≤ cap) :
    ∀ (n : ℕ) (d : Buf) (acc : List ℕ), d.length = P.digestSizeBytes → acc.length ≤ P.numOpenedRounds →
    fillC E P (ceilLog2 P.numMPCRounds) cap n (d ++ rest) acc = match fillR P.numOpenedRounds (nextDigest E P) (scC P) n d acc with
      | none => Outcome.diverge
      | some (d', l) => Outcome.ok (d' ++ rest, l) := by
  obtain ⟨hb1, hb2, _⟩ := p3_bits h3
  have h5 := h3.digPos
  intro n
  induction n with
  | zero =>
    intro d acc hd ha
    rw [fillC, fillR]
    by_cases h : acc.length < P.numOpenedRounds
    · rw [if_pos h, if_pos h]
    · rw [if_neg h, if_neg h]; rfl
  | succ n ih =>
    intro d acc hd ha
    rw [fillC, fillR]
    by_cases h : acc.length < P.numOpenedRounds
    · rw [if_pos h, if_pos h, ← hd, bitsToChunks_ok (by omega) (by omega) (by omega) (by
        calc d.length * 8 / ceilLog2 P.numMPCRounds ≤ d.length * 8 / 8 := Nat.div_le_div_left hb1 (by omega)
          _ ≤ cap := by omega), ok_bind, scanC_ok _ _ ha, ok_bind, rehash_ok hE h3 hd, ok_bind]
      exact ih _ _ (H_length _ _ _ _ _) (foldl_length (fun _ _ => stepC_length) _ _ ha)
    · rw [if_neg h, if_neg h]; rfl

theorem fillP_ok {E : Env} {P : Params} {rest : Buf} {cap : ℕ} (hE : PermWF E) (h3 : P3WF P) (hcap : P.digestSizeBytes * 2 ≤ cap) :
    ∀ (n : ℕ) (d : Buf) (acc : List ℕ), d.length = P.digestSizeBytes → acc.length ≤ P.numOpenedRounds →
    fillP E P (ceilLog2 P.numMPCParties) cap n (d ++ rest) acc = match fillR P.numOpenedRounds (nextDigest E P) (scP P) n d acc with
      | none => Outcome.diverge
      | some (d', l) => Outcome.ok (d' ++ rest, l) := by
  obtain ⟨_, _, hb⟩ := p3_bits h3
  have h5 := h3.digPos
  intro n
  induction n with
  | zero =>
    intro d acc hd ha
    rw [fillP, fillR]
    by_cases h : acc.length < P.numOpenedRounds
    · rw [if_pos h, if_pos h]
    · rw [if_neg h, if_neg h]; rfl
  | succ n ih =>
    intro d acc hd ha
    rw [fillP, fillR]
    by_cases h : acc.length < P.numOpenedRounds
    · rw [if_pos h, if_pos h, ← hd, bitsToChunks_ok (by omega) (by omega) (by omega) (by
        rw [hb]; omega), ok_bind, scanP_ok _ _ ha, ok_bind, rehash_ok hE h3 hd, ok_bind]
      exact ih _ _ (H_length _ _ _ _ _) (foldl_length (fun _ _ => stepP_length) _ _ ha)
    · rw [if_neg h, if_neg h]; rfl

/-- The challenge for the digest `d`, with `fuel` digests available for each of the two lists. -/
def expandR (E : Env) (P : Params) (fuel : ℕ) (d : Buf) : Option (List ℕ × List ℕ) :=
  match fillR P.numOpenedRounds (nextDigest E P) (scC P) fuel d [] with
  | none => none
  | some (d1, C) => match fillR P.numOpenedRounds (nextDigest E P) (scP P) fuel d1 [] with
    | none => none
    | some (_, Q) => some (C, Q)

theorem iterate_next_length {E : Env} {P : Params} {d : Buf} (hd : d.length = P.digestSizeBytes) (k : ℕ) : ((nextDigest E P)^[k] d).length = P.digestSizeBytes := by
  cases k with
  | zero => exact hd
  | succ k => rw [Function.iterate_succ_apply']; exact H_length _ _ _ _ _

theorem expandChallengeHash_ok {E : Env} {P : Params} {d : Buf} (hE : PermWF E) (h3 : P3WF P) (hd : d.length = P.digestSizeBytes) :
    expandChallengeHash E P d = match expandR E P E.fuel d with
      | none => Outcome.diverge
      | some r => Outcome.ok r := by
  obtain ⟨hb1, hb2, hb⟩ := p3_bits h3
  have h5 := h3.dig
  have hcap : P.digestSizeBytes * 2 ≤ P.digestSizeBytes * 8 / min (ceilLog2 P.numMPCRounds) (ceilLog2 P.numMPCParties) := by
    rw [hb, Nat.min_eq_right (by omega)]; omega
  unfold expandChallengeHash
  dsimp only
  rw [memcpy_ok (by omega) (by simp [MAX_DIGEST_SIZE]; omega), ok_bind]
  simp only [List.take_zero, List.nil_append, List.drop_zero, Nat.zero_add]
  rw [List.take_of_length_le hd.le, fillC_ok hE h3 hcap _ _ _ hd (by simp)]
  unfold expandR
  cases h1 : fillR P.numOpenedRounds (nextDigest E P) (scC P) E.fuel d [] with
  | none => rfl
  | some r =>
    obtain ⟨d1, C⟩ := r
    obtain ⟨k, _, hk, _⟩ := fillR_spec _ _ _ _ _ h1
    dsimp only
    rw [ok_bind]
    dsimp only
    rw [fillP_ok hE h3 hcap _ _ _ (by rw [hk]; exact iterate_next_length hd k) (by simp)]
    cases h2 : fillR P.numOpenedRounds (nextDigest E P) (scP P) E.fuel d1 [] with
    | none => rfl
    | some r => obtain ⟨d2, Q⟩ := r; rfl

theorem expandR_mono {E : Env} {P : Params} {n m : ℕ} {d : Buf} {r : List ℕ × List ℕ} (h : expandR E P n d = some r) (hnm : n ≤ m) :
    expandR E P m d = some r := by
  unfold expandR at h ⊢
  cases h1 : fillR P.numOpenedRounds (nextDigest E P) (scC P) n d [] with
  | none => rw [h1] at h; cases h
  | some r1 =>
    obtain ⟨d1, C⟩ := r1
    rw [h1] at h
    rw [fillR_mono _ _ _ h1 m hnm]
    dsimp only at h ⊢
    cases h2 : fillR P.numOpenedRounds (nextDigest E P) (scP P) n d1 [] with
    | none => rw [h2] at h; cases h
    | some r2 =>
      rw [h2] at h
      rw [fillR_mono _ _ _ h2 m hnm]
      exact h

/-! ### relation to the specification -/

theorem firstsFrom_prefix (l : List ℕ) : ∀ acc : List ℕ, ∃ r, l.foldl (fun acc x => if x ∈ acc then acc else acc ++ [x]) acc = acc ++ r := by
  induction l with
  | nil => exact fun acc => ⟨[], by simp⟩
  | cons x l ih =>
    intro acc
    rw [List.foldl_cons]
    by_cases h : x ∈ acc
    · rw [if_pos h]; exact ih acc
    · rw [if_neg h]
      obtain ⟨r, hr⟩ := ih (acc ++ [x])
      exact ⟨x :: r, by rw [hr, List.append_assoc, List.singleton_append]⟩

theorem foldl_stepC {T u : ℕ} (l : List ℕ) : ∀ acc : List ℕ, acc.length ≤ u → l.foldl (stepC T u) acc =
    ((l.filter (· < T)).foldl (fun acc x => if x ∈ acc then acc else acc ++ [x]) acc).take u := by
  induction l with
  | nil => intro acc h; simp [List.take_of_length_le h]
  | cons x l ih =>
    intro acc h
    rw [List.foldl_cons, ih _ (stepC_length h)]
    by_cases h1 : acc.length = u
    · have e : ∀ L : List ℕ, (L.foldl (fun acc x => if x ∈ acc then acc else acc ++ [x]) acc).take u = acc := by
        intro L
        obtain ⟨r, hr⟩ := firstsFrom_prefix L acc
        rw [hr, List.take_append_of_le_length (by omega), List.take_of_length_le (by omega)]
      rw [stepC, if_pos h1, e, e]
    · rw [stepC, if_neg h1]
      by_cases h2 : x < T
      · rw [if_pos h2, List.filter_cons_of_pos (by simpa using h2), List.foldl_cons]
      · rw [if_neg h2, List.filter_cons_of_neg (by simpa using h2)]

theorem foldl_stepP {N u : ℕ} (l : List ℕ) : ∀ acc : List ℕ, acc.length ≤ u → l.foldl (stepP N u) acc = (acc ++ l.filter (· < N)).take u := by
  induction l with
  | nil => intro acc h; simp [List.take_of_length_le h]
  | cons x l ih =>
    intro acc h
    rw [List.foldl_cons, ih _ (stepP_length h)]
    by_cases h1 : acc.length = u
    · rw [stepP, if_pos h1, List.take_append_of_le_length (by omega), List.take_append_of_le_length (by omega)]
    · rw [stepP, if_neg h1]
      by_cases h2 : x < N
      · rw [if_pos h2, List.filter_cons_of_pos (by simpa using h2), List.append_assoc, List.singleton_append]
      · rw [if_neg h2, List.filter_cons_of_neg (by simpa using h2)]

/-- All chunks of the first `k` digests. -/
def allChunks (b : ℕ) (next : Buf → Buf) : Buf → ℕ → List ℕ
  | _, 0 => []
  | d, k + 1 => chunks b d ++ allChunks b next (next d) k

theorem filter_allChunks (b N : ℕ) (next : Buf → Buf) (d : Buf) (k : ℕ) : (allChunks b next d k).filter (· < N) = stream3 b N next d k := by
  induction k generalizing d with
  | zero => rfl
  | succ k ih => rw [allChunks, stream3, List.filter_append, ih]

theorem accAt_C {P : Params} {next : Buf → Buf} (k : ℕ) : ∀ (d : Buf) (acc : List ℕ), accAt next (scC P) k d acc =
    (allChunks (ceilLog2 P.numMPCRounds) next d k).foldl (stepC P.numMPCRounds P.numOpenedRounds) acc := by
  induction k with
  | zero => intro d acc; rfl
  | succ k ih => intro d acc; rw [accAt, allChunks, List.foldl_append, ih]; rfl

theorem accAt_P {P : Params} {next : Buf → Buf} (k : ℕ) : ∀ (d : Buf) (acc : List ℕ), accAt next (scP P) k d acc =
    (allChunks (ceilLog2 P.numMPCParties) next d k).foldl (stepP P.numMPCParties P.numOpenedRounds) acc := by
  induction k with
  | zero => intro d acc; rfl
  | succ k ih => intro d acc; rw [accAt, allChunks, List.foldl_append, ih]; rfl

theorem accAt_C' {P : Params} {next : Buf → Buf} (k : ℕ) (d : Buf) : accAt next (scC P) k d [] =
    (firsts (stream3 (ceilLog2 P.numMPCRounds) P.numMPCRounds next d k)).take P.numOpenedRounds := by
  rw [accAt_C, foldl_stepC _ _ (by simp), filter_allChunks]; rfl

theorem accAt_P' {P : Params} {next : Buf → Buf} (k : ℕ) (d : Buf) : accAt next (scP P) k d [] =
    (stream3 (ceilLog2 P.numMPCParties) P.numMPCParties next d k).take P.numOpenedRounds := by
  rw [accAt_P, foldl_stepP _ _ (by simp), filter_allChunks, List.nil_append]

theorem expandR_spec {E : Env} {P : Params} {n : ℕ} {d : Buf} {C Q : List ℕ} (h3 : P3WF P) (h : expandR E P n d = some (C, Q)) :
    IsChallenge3 P.numMPCRounds P.numMPCParties P.numOpenedRounds (nextDigest E P) d C Q := by
  have hT1 := h3.Tpos
  have hT2 := h3.T
  have h16 := h3.parties
  unfold expandR at h
  cases h1 : fillR P.numOpenedRounds (nextDigest E P) (scC P) n d [] with
  | none => rw [h1] at h; cases h
  | some r1 =>
    obtain ⟨d1, C'⟩ := r1
    rw [h1] at h
    dsimp only at h
    cases h2 : fillR P.numOpenedRounds (nextDigest E P) (scP P) n d1 [] with
    | none => rw [h2] at h; cases h
    | some r2 =>
      obtain ⟨d2, Q'⟩ := r2
      rw [h2] at h
      injection h with h
      injection h with e1 e2
      subst e1 e2
      obtain ⟨k, _, a1, a2, a3, a4⟩ := fillR_spec _ _ _ _ _ h1
      obtain ⟨m, _, b1, b2, b3, b4⟩ := fillR_spec _ _ _ _ _ h2
      rw [accAt_C'] at a2
      rw [accAt_P', a1] at b2
      refine ⟨ceilLog2 P.numMPCRounds, ceilLog2 P.numMPCParties, k, m, ceilLog2_spec (by omega) (by omega), ceilLog2_spec (by omega) (by omega),
        ?_, fun k' hk' => ?_, a2, ?_, b2⟩
      · rw [a2, List.length_take] at a3; omega
      · have := a4 k' hk'
        rw [accAt_C', List.length_take] at this
        omega
      · rw [b2, List.length_take] at b3; omega

/-- A challenge according to the specification is found with enough iterations. -/
theorem expandR_complete {E : Env} {P : Params} {d : Buf} {C Q : List ℕ} (h3 : P3WF P)
    (h : IsChallenge3 P.numMPCRounds P.numMPCParties P.numOpenedRounds (nextDigest E P) d C Q) : ∃ n, expandR E P n d = some (C, Q) := by
  have hT1 := h3.Tpos
  have hT2 := h3.T
  have h16 := h3.parties
  obtain ⟨bC, bP, k, m, hbC, hbP, a1, a2, a3, b1, b2⟩ := h
  obtain rfl : bC = ceilLog2 P.numMPCRounds := le_antisymm ((hbC _).2 ((ceilLog2_spec (by omega) (by omega) _).1 le_rfl))
    ((ceilLog2_spec (by omega) (by omega) _).2 ((hbC _).1 le_rfl))
  obtain rfl : bP = ceilLog2 P.numMPCParties := le_antisymm ((hbP _).2 ((ceilLog2_spec (by omega) (by omega) _).1 le_rfl))
    ((ceilLog2_spec (by omega) (by omega) _).2 ((hbP _).1 le_rfl))
  obtain ⟨⟨d1, C'⟩, h1⟩ := fillR_exists (u := P.numOpenedRounds) (next := nextDigest E P) (sc := scC P) (k + m) k d [] (by omega)
    (by rw [accAt_C', List.length_take]; omega)
  obtain ⟨k', _, c1, c2, c3, c4⟩ := fillR_spec _ _ _ _ _ h1
  have hk : k' = k := by
    rcases Nat.lt_trichotomy k' k with h | h | h
    · have := a2 k' h
      rw [c2, accAt_C', List.length_take] at c3
      omega
    · exact h
    · have := c4 k h
      rw [accAt_C', List.length_take] at this
      omega
  subst hk
  obtain ⟨⟨d2, Q'⟩, h2⟩ := fillR_exists (u := P.numOpenedRounds) (next := nextDigest E P) (sc := scP P) (k' + m) m d1 [] (by omega)
    (by rw [accAt_P', List.length_take, c1]; omega)
  obtain ⟨m', _, e1, e2, e3, e4⟩ := fillR_spec _ _ _ _ _ h2
  refine ⟨k' + m, ?_⟩
  unfold expandR
  rw [h1]
  dsimp only
  rw [h2]
  dsimp only
  have eC : C' = C := by rw [c2, accAt_C', a3]
  have eQ : Q' = Q := by
    rw [e2, accAt_P', b2, c1]
    rw [e2, accAt_P', c1, List.length_take] at e3
    have pre : ∀ (x y : ℕ) (q : Buf), x ≤ y → ∃ r, stream3 (ceilLog2 P.numMPCParties) P.numMPCParties (nextDigest E P) q y =
        stream3 (ceilLog2 P.numMPCParties) P.numMPCParties (nextDigest E P) q x ++ r := by
      intro x
      induction x with
      | zero => intro y q _; exact ⟨_, by rw [stream3, List.nil_append]⟩
      | succ x ih =>
        intro y q hxy
        obtain ⟨y, rfl⟩ : ∃ z, y = z + 1 := ⟨y - 1, by omega⟩
        obtain ⟨r, hr⟩ := ih y (nextDigest E P q) (by omega)
        exact ⟨r, by rw [stream3, stream3, hr, List.append_assoc]⟩
    rcases Nat.le_total m m' with h | h
    · obtain ⟨r, hr⟩ := pre m m' ((nextDigest E P)^[k'] d) h
      rw [hr, List.take_append_of_le_length b1]
    · obtain ⟨r, hr⟩ := pre m' m ((nextDigest E P)^[k'] d) h
      rw [hr, List.take_append_of_le_length (by omega)]
  rw [eC, eQ]

theorem firsts_nodup (l : List ℕ) : (firsts l).Nodup ∧ ∀ x ∈ firsts l, x ∈ l := by
  have key : ∀ (l : List ℕ) (acc : List ℕ), acc.Nodup → (l.foldl (fun acc x => if x ∈ acc then acc else acc ++ [x]) acc).Nodup ∧
      ∀ x ∈ l.foldl (fun acc x => if x ∈ acc then acc else acc ++ [x]) acc, x ∈ acc ∨ x ∈ l := by
    intro l
    induction l with
    | nil => exact fun acc h => ⟨h, fun x hx => Or.inl hx⟩
    | cons a l ih =>
      intro acc h
      rw [List.foldl_cons]
      by_cases ha : a ∈ acc
      · rw [if_pos ha]
        obtain ⟨h1, h2⟩ := ih acc h
        exact ⟨h1, fun x hx => (h2 x hx).imp_right (List.mem_cons_of_mem _)⟩
      · rw [if_neg ha]
        obtain ⟨h1, h2⟩ := ih (acc ++ [a]) (by
          rw [List.nodup_append]
          exact ⟨h, by simp, fun x hx y hy => by rw [List.mem_singleton] at hy; subst hy; exact fun e => ha (e ▸ hx)⟩)
        refine ⟨h1, fun x hx => ?_⟩
        rcases h2 x hx with h' | h'
        · rcases List.mem_append.1 h' with h' | h'
          · exact Or.inl h'
          · rw [List.mem_singleton] at h'; subst h'; exact Or.inr (by simp)
        · exact Or.inr (List.mem_cons_of_mem _ h')
  obtain ⟨h1, h2⟩ := key l [] (by simp)
  exact ⟨h1, fun x hx => (h2 x hx).resolve_left (by simp)⟩

theorem stream3_lt {b N : ℕ} {next : Buf → Buf} {d : Buf} {k x : ℕ} (h : x ∈ stream3 b N next d k) : x < N := by
  induction k generalizing d with
  | zero => cases h
  | succ k ih =>
    rw [stream3] at h
    rcases List.mem_append.1 h with h | h
    · simpa using (List.mem_filter.1 h).2
    · exact ih h

/-- Shape of a challenge. -/
structure ChalWF (P : Params) (C Q : List ℕ) : Prop where
  lenC : C.length = P.numOpenedRounds
  nodup : C.Nodup
  ltC : ∀ c ∈ C, c < P.numMPCRounds
  lenQ : Q.length = P.numOpenedRounds
  ltQ : ∀ q ∈ Q, q < P.numMPCParties

theorem isChallenge3_wf {P : Params} {next : Buf → Buf} {d : Buf} {C Q : List ℕ}
    (h : IsChallenge3 P.numMPCRounds P.numMPCParties P.numOpenedRounds next d C Q) : ChalWF P C Q := by
  obtain ⟨bC, bP, k, m, _, _, a1, a2, rfl, b1, rfl⟩ := h
  refine ⟨by rw [List.length_take]; omega, ((firsts_nodup _).1).sublist (List.take_sublist _ _), fun c hc => ?_, by rw [List.length_take]; omega, fun q hq => ?_⟩
  · exact stream3_lt ((firsts_nodup _).2 c (List.mem_of_mem_take hc))
  · exact stream3_lt (List.mem_of_mem_take hq)

theorem expandR_wf {E : Env} {P : Params} {n : ℕ} {d : Buf} {C Q : List ℕ} (h3 : P3WF P) (h : expandR E P n d = some (C, Q)) : ChalWF P C Q :=
  isChallenge3_wf (expandR_spec h3 h)

end Picnic
