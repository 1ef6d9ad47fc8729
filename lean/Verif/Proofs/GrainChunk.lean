import Verif.Proofs.GrainCheck

/-
The generator of the constants in chunks, for long sequences.
-/

namespace Picnic.Tables

open Finset Spec Spec.Grain

/-- The bits kept from the pairs `s`, …, `s + N - 1`. -/
def keptFrom (b : ℕ → Bool) (s N : ℕ) : List Bool :=
  (List.range' s N).filterMap fun t => if b (240 + 2 * t) then some (b (240 + 2 * t + 1)) else none

theorem kept_add (b : ℕ → Bool) (s N : ℕ) : kept b (s + N) = kept b s ++ keptFrom b s N := by
  rw [kept, kept, keptFrom, ← List.filterMap_append, List.range_eq_range', List.range_eq_range', ← List.range'_append_1, Nat.zero_add]

/-- At pair `s` the register contains `W`, and `base` bits have been kept. -/
structure At (b : ℕ → Bool) (s base W : ℕ) : Prop where
  reg : ∀ i < 80, b (240 + 2 * s + i) = W.testBit i
  count : (kept b s).length = base

theorem regCheck_from {b : ℕ → Bool} (hb : IsRegister b) {q W B N : ℕ} (hW : ∀ i < 80, b (q + i) = W.testBit i) (h1 : B % 2 ^ 80 = W)
    (h2 : (B ^^^ ((B >>> 13) ^^^ ((B >>> 23) ^^^ ((B >>> 38) ^^^ ((B >>> 51) ^^^ ((B >>> 62) ^^^ (B >>> 80))))))) % 2 ^ N = 0) :
    ∀ i < N + 80, B.testBit i = b (q + i) := by
  intro i
  induction i using Nat.strong_induction_on with
  | _ i ih =>
    intro hi
    by_cases h80 : i < 80
    · rw [hW i h80, ← h1, Nat.testBit_mod_two_pow, decide_eq_true h80, Bool.true_and]
    · obtain ⟨j, rfl⟩ : ∃ j, i = j + 80 := ⟨i - 80, by omega⟩
      have := congrArg (fun x => x.testBit j) h2
      simp only [Nat.testBit_mod_two_pow, Nat.testBit_xor, Nat.testBit_shiftRight, Nat.zero_testBit, decide_eq_true (show j < N by omega),
        Bool.true_and] at this
      rw [Nat.add_comm 13, Nat.add_comm 23, Nat.add_comm 38, Nat.add_comm 51, Nat.add_comm 62, Nat.add_comm 80, ih j (by omega) (by omega),
        ih (j + 13) (by omega) (by omega), ih (j + 23) (by omega) (by omega), ih (j + 38) (by omega) (by omega),
        ih (j + 51) (by omega) (by omega), ih (j + 62) (by omega) (by omega)] at this
      rw [← Nat.add_assoc, hb.2 (q + j)]
      simp only [← Nat.add_assoc] at this
      revert this
      cases B.testBit (j + 80) <;> cases b (q + j) <;> cases b (q + j + 13) <;> cases b (q + j + 23) <;> cases b (q + j + 38) <;>
        cases b (q + j + 51) <;> cases b (q + j + 62) <;> simp

theorem keptN_from {b : ℕ → Bool} {B s T N : ℕ} (hB : ∀ i < 2 * N, B.testBit i = b (240 + 2 * s + i)) (hN : N ≤ 2 ^ T) :
    keptN (B % 2 ^ (2 * N)) 0 (2 ^ T) = keptFrom b s N := by
  have hbit : ∀ i, (B % 2 ^ (2 * N)).testBit i = (decide (i < 2 * N) && B.testBit i) := fun i => by rw [Nat.testBit_mod_two_pow]
  obtain ⟨R, hR⟩ := Nat.exists_eq_add_of_le hN
  rw [hR, keptN_add]
  have e2 : keptN (B % 2 ^ (2 * N)) (0 + N) R = [] := by
    rw [keptN, List.filterMap_eq_nil_iff]
    intro t ht
    rw [List.mem_range'_1] at ht
    rw [hbit, decide_eq_false (by omega)]
    simp
  rw [e2, List.append_nil, keptN, keptFrom, ← Nat.add_zero s, ← List.map_add_range', List.filterMap_map]
  refine List.filterMap_congr fun t ht => ?_
  rw [List.mem_range'_1] at ht
  rw [hbit, hbit, decide_eq_true (by omega), decide_eq_true (by omega), hB _ (by omega), hB _ (by omega)]
  simp only [Function.comp, Bool.true_and, Nat.add_zero]
  rw [show 240 + 2 * (s + t) = 240 + 2 * s + 2 * t by ring, Nat.add_assoc (240 + 2 * s)]

theorem bits_from {b g : ℕ → Bool} (hg : IsKept b g) {s base N : ℕ} (hc : (kept b s).length = base) {k : ℕ} (hk : k < (keptFrom b s N).length) :
    g (base + k) = (keptFrom b s N)[k] := by
  refine hg (s + N) _ _ ?_
  rw [kept_add, ← hc, List.getElem?_append_right (by omega), Nat.add_sub_cancel_left, List.getElem?_eq_getElem hk]

/-! ### Matrices at a distance -/

theorem matAt_shift (n : ℕ) (g : ℕ → Bool) (base pos : ℕ) : matAt n (fun k => g (base + k)) pos = matAt n g (base + pos) := by
  funext i j
  simp only [matAt, Nat.add_assoc]

theorem next_shift {n : ℕ} {g : ℕ → Bool} {base p q : ℕ} (h : Next n (fun k => g (base + k)) p q) : Next n g (base + p) (base + q) := by
  induction h with
  | accept p h => rw [matAt_shift] at h; exact Next.accept _ h
  | reject p q h _ ih => rw [matAt_shift] at h; exact Next.reject _ _ h (by rwa [Nat.add_assoc])

/-- Matrix `t` of the table is the one that the generator makes. -/
def MatOK (n : ℕ) (g : ℕ → Bool) (s : ℕ) (rej : ℕ → List (ℕ × ℕ)) (A : ℕ → ℕ) (t : ℕ) : Prop :=
  Next n g (begin n s rej t) (posAt n s rej t) ∧ ∀ i < n, ∀ j < n, z ((A t).testBit (n * i + j)) = matAt n g (posAt n s rej t) i j

/-- The check, for a sequence from position `base` on. -/
def matCheckAt (n O len base s : ℕ) (rej : ℕ → List (ℕ × ℕ)) (A inv : ℕ → ℕ) (t : ℕ) : Bool :=
  force (begin n s rej t) fun p => Nat.ble base p && (force (inv t) fun I => nextCheck n O I (rej t) (p - base)) &&
    (force (p - base + n * n * (rej t).length) fun q => Nat.beq (A t) (slice n O q) && Nat.ble (q + n * n) len)

theorem matOK_of_check {n O len base s : ℕ} {g : ℕ → Bool} (hn : 0 < n) (hO : ∀ k < len, g (base + k) = O.testBit k) {rej : ℕ → List (ℕ × ℕ)}
    {A inv : ℕ → ℕ} {t : ℕ} (h : matCheckAt n O len base s rej A inv t = true) : MatOK n g s rej A t := by
  simp only [matCheckAt, force_eq, Bool.and_eq_true] at h
  obtain ⟨⟨h0, h1⟩, h2, h3⟩ := h
  have h0 := Nat.le_of_ble_eq_true h0
  have h3 := Nat.le_of_ble_eq_true h3
  have e : base + (begin n s rej t - base) = begin n s rej t := by omega
  have e2 : base + (begin n s rej t - base + n * n * (rej t).length) = posAt n s rej t := by rw [posAt_eq]; omega
  refine ⟨?_, fun i hi j hj => ?_⟩
  · have := next_shift (next_of_check (g := fun k => g (base + k)) hn hO _ h1 h3)
    rwa [e, e2] at this
  · have := matAt_eq (g := fun k => g (base + k)) hn hO h3 hi hj
    rw [matAt_shift, e2] at this
    rw [this, ← Nat.eq_of_beq_eq_true h2]

/-- The round constants, for a sequence from position `base` on. -/
def rcCheckAt (T : NatTables) (C : Certs) (r O len base : ℕ) : Bool :=
  force (rcPos T C r) fun p => Nat.ble base p && (Nat.ble (p - base + T.n * r) len &&
    (List.range r).all fun t => Nat.beq (T.RC t) ((O >>> (p - base + T.n * t)) % 2 ^ T.n))

/-- The round constants of the tables are those that the generator makes. -/
def RcOK (T : NatTables) (C : Certs) (r : ℕ) (g : ℕ → Bool) : Prop :=
  ∀ t < r, ∀ i < T.n, z ((T.RC t).testBit i) = bit (g (rcPos T C r + (T.n * t + i)))

theorem rcOK_of_check {T : NatTables} {C : Certs} {r O len base : ℕ} {g : ℕ → Bool} (hO : ∀ k < len, g (base + k) = O.testBit k)
    (h : rcCheckAt T C r O len base = true) : RcOK T C r g := by
  simp only [rcCheckAt, force_eq, Bool.and_eq_true, List.all_eq_true] at h
  obtain ⟨h0, h1, h2⟩ := h
  have h0 := Nat.le_of_ble_eq_true h0
  have h1 := Nat.le_of_ble_eq_true h1
  intro t ht i hi
  have e := Nat.eq_of_beq_eq_true (h2 t (List.mem_range.2 ht))
  have hti : T.n * t + i < T.n * r := by
    calc T.n * t + i < T.n * t + T.n := by omega
      _ = T.n * (t + 1) := by ring
      _ ≤ T.n * r := Nat.mul_le_mul_left _ (by omega)
  rw [e, Nat.testBit_mod_two_pow, Nat.testBit_shiftRight, decide_eq_true hi, Bool.true_and, Nat.add_assoc, ← hO _ (by omega),
    show base + (rcPos T C r - base + (T.n * t + i)) = rcPos T C r + (T.n * t + i) by omega]
  rfl

theorem generated_of_facts {P : Params} (hP : ParamsWF P) {r : ℕ} (hr : P.numRounds = r) {T : NatTables} (hT : T.n = P.stateSizeBits) {C : Certs}
    {g : ℕ → Bool} (h1 : ∀ t < r, MatOK T.n g 0 C.rejL T.L t) (h2 : RcOK T C r g)
    (h3 : ∀ t ≤ r, MatOK T.n g (rcPos T C r + T.n * r) C.rejK T.K t) : Generated (lowmcOf P (toConsts P.stateSizeWords T)) g := by
  have hw := hP.words
  have hpos := hP.nPos
  have er : (lowmcOf P (toConsts P.stateSizeWords T)).r = r := hr
  have en : (lowmcOf P (toConsts P.stateSizeWords T)).n = T.n := hT.symm
  refine ⟨posAt T.n 0 C.rejL, posAt T.n (rcPos T C r + T.n * r) C.rejK, rcPos T C r, fun t ht => ?_, ?_, fun t ht i hi => ?_, fun t ht => ?_⟩
  · rw [er] at ht
    rw [en]
    obtain ⟨a, b⟩ := h1 t ht
    refine ⟨a, fun i hi j hj => ?_⟩
    rw [← b i hi j hj]
    show matBits P.stateSizeWords (matrixBuf P.stateSizeWords T.n (T.L t)) i j = _
    exact matBits_matrixBuf (by omega) _ hi hj
  · rw [er, en, rcPos]
  · rw [er] at ht
    rw [en] at hi ⊢
    rw [← h2 t ht i hi]
    show trunc P.stateSizeBits (bitsOf (rowBuf P.stateSizeWords T.n (T.RC t))) i = _
    rw [trunc, if_pos (by omega), rowBuf, bitsOf_ofBits _ (by omega), if_pos hi]
  · rw [er] at ht
    rw [en, er]
    obtain ⟨a, b⟩ := h3 t ht
    refine ⟨a, fun i hi j hj => ?_⟩
    rw [← b i hi j hj]
    show matBits P.stateSizeWords (matrixBuf P.stateSizeWords T.n (T.K t)) i j = _
    exact matBits_matrixBuf (by omega) _ hi hj

/-! ### Chunks -/

/-- What is checked in a chunk, for one instance: `nL` linear layers from number `aL` on, the round constants or not, `nK` key matrices from `aK` on. -/
structure Job where
  aL : ℕ
  nL : ℕ
  rc : Bool
  aK : ℕ
  nK : ℕ

/-- The check of an instance in a chunk. -/
def jobCheck (T : NatTables) (C : Certs) (r O len base : ℕ) (j : Job) : Bool :=
  ((List.range' j.aL j.nL).all fun t => matCheckAt T.n O len base 0 C.rejL T.L T.LInv t) &&
  ((!j.rc || rcCheckAt T C r O len base) &&
  ((List.range' j.aK j.nK).all fun t => matCheckAt T.n O len base (rcPos T C r + T.n * r) C.rejK T.K C.kInv t))

/-- What the check of an instance in a chunk shows. -/
structure JobOK (T : NatTables) (C : Certs) (r : ℕ) (g : ℕ → Bool) (j : Job) : Prop where
  L : ∀ t, j.aL ≤ t → t < j.aL + j.nL → MatOK T.n g 0 C.rejL T.L t
  RC : j.rc = true → RcOK T C r g
  K : ∀ t, j.aK ≤ t → t < j.aK + j.nK → MatOK T.n g (rcPos T C r + T.n * r) C.rejK T.K t

theorem jobOK_of_check {T : NatTables} (hn : 0 < T.n) {C : Certs} {r O len base : ℕ} {g : ℕ → Bool} (hO : ∀ k < len, g (base + k) = O.testBit k) {j : Job}
    (h : jobCheck T C r O len base j = true) : JobOK T C r g j := by
  simp only [jobCheck, Bool.and_eq_true, List.all_eq_true, Bool.or_eq_true, Bool.not_eq_true'] at h
  obtain ⟨h1, h2, h3⟩ := h
  refine ⟨fun t a b => matOK_of_check hn hO (h1 t (List.mem_range'_1.2 ⟨a, b⟩)), fun hrc => ?_, fun t a b => matOK_of_check hn hO (h3 t (List.mem_range'_1.2 ⟨a, b⟩))⟩
  rcases h2 with h | h
  · rw [hrc] at h; cases h
  · exact rcOK_of_check hO h

/-- A chunk of 2^21 pairs that starts with `W` in the register, of which `M` pairs come before the next chunk, which starts with `W'`; `cnt` bits are kept
before. -/
def chunkCheck (W M W' cnt base : ℕ) (jobs : ℕ → ℕ → Bool) : Bool :=
  force (regRun W 80 1 16) fun B =>
    Nat.beq (B % 2 ^ 80) W && (Nat.beq ((B ^^^ ((B >>> 13) ^^^ ((B >>> 23) ^^^ ((B >>> 38) ^^^ ((B >>> 51) ^^^ ((B >>> 62) ^^^ (B >>> 80))))))) % 2 ^ 4200000) 0 &&
    (Nat.beq ((B >>> (2 * M)) % 2 ^ 80) W' && (Nat.ble M (2 ^ 21) && (Nat.beq (force (B % 2 ^ (2 * M)) fun S => levelC 21 S 21) cnt &&
    force (B % 2 ^ (2 * 2 ^ 21)) fun S => force (levelC 21 S 21) fun len => force (levelB 21 S 21) fun O => jobs O len))))

theorem chunk_ok {b g : ℕ → Bool} (hb : IsRegister b) (hg : IsKept b g) {s base W M W' cnt : ℕ} {jobs : ℕ → ℕ → Bool} (ha : At b s base W)
    (h : chunkCheck W M W' cnt base jobs = true) :
    At b (s + M) (base + cnt) W' ∧ ∃ O len, (∀ k < len, g (base + k) = O.testBit k) ∧ jobs O len = true := by
  rw [chunkCheck, force_eq] at h
  generalize regRun W 80 1 16 = B at h
  simp only [Bool.and_eq_true] at h
  obtain ⟨h1, h2, h3, h4, h5, h6⟩ := h
  have hB := regCheck_from hb ha.reg (Nat.eq_of_beq_eq_true h1) (Nat.eq_of_beq_eq_true h2)
  have h3 := Nat.eq_of_beq_eq_true h3
  have h4 := Nat.le_of_ble_eq_true h4
  have h5 := Nat.eq_of_beq_eq_true h5
  rw [force_eq] at h5
  have h21 : (2 : ℕ) ^ 21 = 2097152 := by norm_num
  refine ⟨⟨fun i hi => ?_, ?_⟩, ?_⟩
  · rw [← h3, Nat.testBit_mod_two_pow, decide_eq_true hi, Bool.true_and, Nat.testBit_shiftRight, hB _ (by omega)]
    congr 1; omega
  · rw [kept_add, List.length_append, ha.count, ← h5, (level_top _ _).2, keptN_from (fun i hi => hB i (by omega)) h4]
  · rw [force_eq] at h6
    obtain ⟨S, hS⟩ : ∃ S, S = B % 2 ^ (2 * 2 ^ 21) := ⟨_, rfl⟩
    rw [← hS, force_eq] at h6
    obtain ⟨len, hl⟩ : ∃ len, len = levelC 21 S 21 := ⟨_, rfl⟩
    rw [← hl, force_eq] at h6
    obtain ⟨O, hO⟩ : ∃ O, O = levelB 21 S 21 := ⟨_, rfl⟩
    rw [← hO] at h6
    refine ⟨O, len, fun k hk => ?_, h6⟩
    have e := keptN_from (T := 21) (N := 2 ^ 21) (fun i hi => hB i (by omega)) le_rfl
    rw [← hS] at e
    rw [hl, (level_top _ _).2, e] at hk
    rw [hO, (level_top _ _).1, e, num_testBit _ hk, bits_from hg ha.count hk]

/-- The register at the first pair. -/
def startW : ℕ := (regRun (2 ^ 80 - 1) 80 1 3 >>> 240) % 2 ^ 80

theorem at_of_check {b : ℕ → Bool} (hb : IsRegister b) {B : ℕ} (h : regCheck B 300 = true) : At b 0 0 ((B >>> 240) % 2 ^ 80) where
  reg := fun i hi => by
    rw [Nat.testBit_mod_two_pow, decide_eq_true hi, Bool.true_and, Nat.testBit_shiftRight, regCheck_testBit hb h _ (by omega)]
  count := by simp [kept]

theorem startCheck : regCheck (regRun (2 ^ 80 - 1) 80 1 3) 300 = true := by decide +kernel

theorem at_start {b : ℕ → Bool} (hb : IsRegister b) : At b 0 0 startW := at_of_check hb startCheck

end Picnic.Tables
