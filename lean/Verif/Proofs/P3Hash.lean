import Verif.Proofs.P3Correct
import Verif.Proofs.Merkle4

/-
/repo/picnic3_impl.c: random tapes, commitments, aux bits, lists of rounds.
-/

namespace Picnic

open Finset Spec

/-! ### general -/

theorem collectOpt_ok {α : Type} {f : ℕ → M (Option α)} {g : ℕ → Option α} {n : ℕ} (h : ∀ i < n, f i = Outcome.ok (g i)) :
    collectOpt f n = Outcome.ok (if ∀ i < n, (g i).isSome = true then some ((List.range n).filterMap g) else none) := by
  induction n with
  | zero => simp [collectOpt]
  | succ n ih =>
    rw [collectOpt, ih fun i hi => h i (by omega), ok_bind]
    by_cases hn : ∀ i < n, (g i).isSome = true
    · rw [if_pos hn]
      dsimp only
      rw [h n (by omega), ok_bind]
      cases hg : g n with
      | none =>
        dsimp only
        rw [if_neg (fun h' => by have := h' n (by omega); rw [hg] at this; cases this)]; rfl
      | some x =>
        dsimp only
        rw [if_pos (fun i hi => by
          rcases Nat.lt_succ_iff_lt_or_eq.1 hi with h' | rfl
          · exact hn i h'
          · rw [hg]; rfl), List.range_succ, List.filterMap_append, pure_eq_ok]
        simp [hg]
    · rw [if_neg hn]
      dsimp only
      rw [if_neg (fun h' => hn fun i hi => h' i (by omega))]; rfl

theorem filterMap_some {α : Type} {g : ℕ → Option α} {g' : ℕ → α} {n : ℕ} (h : ∀ i < n, g i = some (g' i)) :
    (List.range n).filterMap g = arrN n g' := by
  rw [arrN, ← List.filterMap_eq_map]
  exact List.filterMap_congr fun i hi => by simp [h i (List.mem_range.1 hi)]

/-- All iterations succeed. -/
theorem collectOpt_some {α : Type} {f : ℕ → M (Option α)} {g : ℕ → α} {n : ℕ} (h : ∀ i < n, f i = Outcome.ok (some (g i))) :
    collectOpt f n = Outcome.ok (some (arrN n g)) := by
  rw [collectOpt_ok (g := fun i => some (g i)) h]
  rw [if_pos (show ∀ i < n, (some (g i)).isSome = true from fun _ _ => rfl), filterMap_some (g' := g) fun _ _ => rfl]

theorem getLeaves_mk {D n ds : ℕ} {hv : ℕ → Bool} {vl : ℕ → Buf} : getLeaves (mkTree D n ds hv vl) = arrN n fun j => vl (2 ^ D - 1 + j) := by
  unfold getLeaves
  dsimp only
  rw [Nat.add_sub_cancel]
  apply List.ext_getElem
  · simp [arrN]
  · intro i h1 h2
    simp [arrN]

theorem getLeaf_mk {D n ds j : ℕ} {hv : ℕ → Bool} {vl : ℕ → Buf} (hj : j < n) :
    getLeaf (mkTree D n ds hv vl) j = Outcome.ok (vl (2 ^ D - 1 + j)) := by
  unfold getLeaf
  dsimp only
  rw [Nat.add_sub_cancel, rd_arrN (by omega)]
  simp [assertM, hj]

theorem wrN_full {b d : Buf} (h : d.length = b.length) : wrN b 0 d = Outcome.ok d := by
  rw [wrN_ok (by omega), List.take_zero, List.nil_append, List.drop_eq_nil_of_le (by omega), List.append_nil]

/-! ### lists of rounds -/

theorem containsU16_ok {l : List ℕ} {v : ℕ} : containsU16 l l.length v = Outcome.ok (decide (v ∈ l)) := by
  unfold containsU16
  have : ∀ k ≤ l.length, loop (fun i found => if found then pure true else do
      let x ← rd l i
      pure (x == v)) k false = (Outcome.ok (decide (v ∈ l.take k)) : M Bool) := by
    intro k hk
    induction k with
    | zero => simp [loop]
    | succ k ih =>
      have hmem : v ∈ l.take (k + 1) ↔ v ∈ l.take k ∨ v = l[k] := by
        rw [List.take_succ_eq_append_getElem (by omega), List.mem_append, List.mem_singleton]
      rw [loop_succ, ih (by omega), ok_bind]
      by_cases h : v ∈ l.take k
      · rw [decide_eq_true h, decide_eq_true (hmem.2 (Or.inl h))]; rfl
      · rw [decide_eq_false h]
        simp only [Bool.false_eq_true, if_false]
        rw [rd_ok (by omega), ok_bind, pure_eq_ok]
        congr 1
        by_cases e : l[k] = v
        · rw [decide_eq_true (hmem.2 (Or.inr e.symm))]; simpa using e
        · rw [decide_eq_false (fun h' => (hmem.1 h').elim h fun h' => e h'.symm)]; simpa using e
  have h2 := this l.length le_rfl
  rw [List.take_length] at h2
  exact h2

theorem indexOfU16_ok {l : List ℕ} {v : ℕ} (h : v ∈ l) : indexOfU16 l l.length v = Outcome.ok (l.idxOf v) := by
  unfold indexOfU16
  have key : ∀ k ≤ l.length, loop (fun i (r : Option Nat) => match r with
      | some k => pure (some k)
      | none => do
        let x ← rd l i
        pure (if x = v then some i else none)) k none =
      (Outcome.ok (if l.idxOf v < k then some (l.idxOf v) else none) : M (Option ℕ)) := by
    intro k hk
    induction k with
    | zero => simp [loop]
    | succ k ih =>
      rw [loop_succ, ih (by omega), ok_bind]
      by_cases h1 : l.idxOf v < k
      · rw [if_pos h1, if_pos (by omega)]; rfl
      · rw [if_neg h1]
        dsimp only
        rw [rd_ok (by omega), ok_bind, pure_eq_ok]
        congr 1
        by_cases e : l[k] = v
        · have : l.idxOf v ≤ k := by
            by_contra hc
            have := List.not_of_lt_findIdx (p := (· == v)) (xs := l) (i := k) (by simpa [List.idxOf] using (by omega : k < l.idxOf v))
            rw [e] at this
            simp at this
          rw [if_pos e, if_pos (by omega)]
          congr 1; omega
        · have : l.idxOf v ≠ k := by
            intro hc
            have := List.getElem_idxOf (show l.idxOf v < l.length by rw [List.idxOf_lt_length_iff]; exact h)
            exact e (by simp only [hc] at this; exact this)
          rw [if_neg e, if_neg (by omega)]
  refine bind_of (key _ le_rfl) ?_
  rw [if_pos (List.idxOf_lt_length_iff.2 h)]
  rfl

/-- The rounds that are not opened, in order. -/
def missing (T : ℕ) (C : List ℕ) : List ℕ := (List.range T).filter (fun t => decide (t ∉ C))

theorem mem_missing {T : ℕ} {C : List ℕ} {t : ℕ} : t ∈ missing T C ↔ t < T ∧ t ∉ C := by simp [missing]

theorem missing_length {T : ℕ} {C : List ℕ} (hn : C.Nodup) (hlt : ∀ c ∈ C, c < T) : (missing T C).length + C.length = T := by
  have h1 : (missing T C).length = (T - C.length) := by
    have h2 : (missing T C).toFinset = Finset.range T \ C.toFinset := by
      ext t; simp [missing]
    have h3 : (missing T C).Nodup := List.nodup_range.filter _
    rw [← List.toFinset_card_of_nodup h3, h2, Finset.card_sdiff_of_subset (fun x hx => by simpa using hlt x (by simpa using hx)),
      Finset.card_range, List.toFinset_card_of_nodup hn]
  have h4 : C.length ≤ T := by
    rw [← List.toFinset_card_of_nodup hn, ← Finset.card_range T]
    exact Finset.card_le_card fun x hx => by simpa using hlt x (by simpa using hx)
  omega

theorem getMissingLeavesList_ok {P : Params} {C : List ℕ} (hl : C.length = P.numOpenedRounds) (hn : C.Nodup) (hlt : ∀ c ∈ C, c < P.numMPCRounds) :
    getMissingLeavesList P C = Outcome.ok (missing P.numMPCRounds C) := by
  unfold getMissingLeavesList
  have hm := missing_length hn hlt
  refine loop_seq (fun k => missing k C) rfl fun i hi => ?_
  rw [← hl, containsU16_ok, ok_bind]
  have hs : missing (i + 1) C = missing i C ++ if i ∉ C then [i] else [] := by
    unfold missing
    rw [List.range_succ, List.filter_append]
    congr 1
    by_cases h : i ∈ C <;> simp [h]
  rw [hs]
  by_cases h : i ∈ C
  · simp [h]
  · have hlen : (missing i C).length < P.numMPCRounds - C.length := by
      have h1 : (missing (i + 1) C).length ≤ (missing P.numMPCRounds C).length := by
        unfold missing
        exact ((List.range_sublist.2 hi).filter _).length_le
      rw [hs, if_pos h, List.length_append, List.length_singleton] at h1
      omega
    simp only [h, decide_false, Bool.not_false, if_true, not_false_eq_true]
    rw [if_pos hlen]
    rfl

/-! ### hashes -/

/-- The random tape of party `j` in repetition `t`. -/
def p3Tape (E : Env) (P : Params) (salt : Buf) (t j : ℕ) (seed : Buf) : Buf :=
  H E P HASH_PREFIX_NONE (seed ++ salt ++ le16 t ++ le16 j) (2 * P.andSizeBytes)

theorem p3Tape_length {E : Env} {P : Params} {salt : Buf} {t j : ℕ} {seed : Buf} : (p3Tape E P salt t j seed).length = 2 * P.andSizeBytes :=
  H_length _ _ _ _ _

theorem createRandomTapes_ok {E : Env} {P : Params} {s : ℕ → Buf} {salt : Buf} {t : ℕ} (hE : PermWF E) (h3 : P3WF P)
    (hs : ∀ j < 16, (s j).length = P.seedSizeBytes) (hsalt : salt.length = P.saltSizeBytes) :
    createRandomTapes E P (arrN 16 s) salt t = Outcome.ok (tapes16 (fun j => p3Tape E P salt t j (s j)) 0) := by
  have h1 := h3.seed
  have h2 := h3.salt
  have h4 := h3.and
  unfold createRandomTapes
  dsimp only
  rw [h3.parties, collect_arrN (g := fun j => p3Tape E P salt t j (s j)) fun i hi => by
    rw [rd_arrN hi, ok_bind, hashAll_ok hE (by
      intro p hp
      have := hs i hi
      simp only [List.mem_cons, List.not_mem_nil, or_false, intLE_eq] at hp
      rcases hp with rfl | rfl | rfl | rfl <;> simp <;> omega) (by omega), ok_bind, wrN_full (by rw [H_length, zeros_length])]
    simp only [List.flatMap_cons, List.flatMap_nil, List.append_nil, intLE_eq]
    rw [List.take_of_length_le (hs i hi).le, List.take_of_length_le hsalt.le, List.take_of_length_le (le16_length _).le,
      List.take_of_length_le (le16_length _).le, p3Tape]
    simp only [List.append_assoc], ok_bind]
  rfl

/-- The commitment to the state of party `j` in repetition `t`. -/
def p3Com (E : Env) (P : Params) (salt : Buf) (t j : ℕ) (seed aux : Buf) : Buf :=
  H E P HASH_PREFIX_NONE (seed ++ aux ++ salt ++ le16 t ++ le16 j) P.digestSizeBytes

theorem p3Com_length {E : Env} {P : Params} {salt : Buf} {t j : ℕ} {seed aux : Buf} : (p3Com E P salt t j seed aux).length = P.digestSizeBytes :=
  H_length _ _ _ _ _

theorem commit_ok {E : Env} {P : Params} {digest seed salt : Buf} {aux : Option Buf} {t j : ℕ} (hE : PermWF E) (h3 : P3WF P)
    (hd : digest.length = P.digestSizeBytes) (hs : seed.length = P.seedSizeBytes) (hsalt : salt.length = P.saltSizeBytes)
    (ha : ∀ a, aux = some a → P.andSizeBytes ≤ a.length) :
    commit E P digest seed aux salt t j = Outcome.ok (p3Com E P salt t j seed ((aux.map (·.take P.andSizeBytes)).getD [])) := by
  have h1 := h3.seed
  have h2 := h3.salt
  have h4 := h3.and
  have h5 := h3.dig
  unfold commit
  rw [hashAll_ok hE (by
    intro p hp
    cases aux with
    | none =>
      simp only [List.append_nil, List.cons_append, List.nil_append, List.mem_cons, List.not_mem_nil, or_false, intLE_eq] at hp
      rcases hp with rfl | rfl | rfl | rfl <;> simp <;> omega
    | some a =>
      have := ha a rfl
      simp only [List.cons_append, List.nil_append, List.mem_cons, List.not_mem_nil, or_false, intLE_eq] at hp
      rcases hp with rfl | rfl | rfl | rfl | rfl <;> simp <;> omega) (by omega), ok_bind, wrN_full (by rw [H_length, hd])]
  rw [p3Com]
  cases aux with
  | none =>
    simp only [List.append_nil, List.cons_append, List.nil_append, List.flatMap_cons, List.flatMap_nil, intLE_eq, Option.map_none, Option.getD_none]
    rw [List.take_of_length_le hs.le, List.take_of_length_le hsalt.le, List.take_of_length_le (le16_length _).le,
      List.take_of_length_le (le16_length _).le]
    simp only [List.append_assoc]
  | some a =>
    simp only [List.append_nil, List.cons_append, List.nil_append, List.flatMap_cons, List.flatMap_nil, intLE_eq, Option.map_some, Option.getD_some]
    rw [List.take_of_length_le hs.le, List.take_of_length_le hsalt.le, List.take_of_length_le (le16_length _).le,
      List.take_of_length_le (le16_length _).le]
    simp only [List.append_assoc]

theorem commitInto_ok {E : Env} {P : Params} {c : ℕ → Buf} {D : ℕ} {hv : ℕ → Bool} {vl : ℕ → Buf} {salt : Buf} {aux : Option Buf} {t j : ℕ} (hE : PermWF E) (h3 : P3WF P)
    (hj : j < 16) (hd : (c j).length = P.digestSizeBytes) (hs : (vl (2 ^ D - 1 + j)).length = P.seedSizeBytes) (hsalt : salt.length = P.saltSizeBytes)
    (ha : ∀ a, aux = some a → P.andSizeBytes ≤ a.length) :
    commitInto E P (arrN 16 c) (mkTree D 16 P.seedSizeBytes hv vl) aux salt t j =
      Outcome.ok (arrN 16 (Function.update c j (p3Com E P salt t j (vl (2 ^ D - 1 + j)) ((aux.map (·.take P.andSizeBytes)).getD [])))) := by
  unfold commitInto
  rw [rd_arrN hj, ok_bind, getLeaf_mk hj, ok_bind, commit_ok hE h3 hd hs hsalt ha, ok_bind, wr_arrN hj]

/-- Absorbing a list of buffers. -/
theorem hashLoop_ok {E : Env} {P : Params} {m : Buf} {inst : HashInstance} {N : ℕ} {f : ℕ → Buf} {len : ℕ} (hE : PermWF E)
    (h : Absorbed E (rateOf P) m inst) (hf : ∀ i < N, len ≤ (f i).length) (h32 : len + 200 ≤ 2 ^ 32) :
    ∃ inst', loop (fun i ctx => do
      let h ← rd (arrN N f) i
      hashUpdate E ctx h len) N inst = Outcome.ok inst' ∧
      Absorbed E (rateOf P) (m ++ (List.range N).flatMap fun i => (f i).take len) inst' := by
  refine loop_inv (fun k s => Absorbed E (rateOf P) (m ++ (List.range k).flatMap fun i => (f i).take len) s) (by simpa using h) fun i hi s hs => ?_
  rw [rd_arrN hi, ok_bind]
  obtain ⟨s', h1, h2⟩ := hashUpdate_ok hE (rateOf_ok P) hs (hf i hi) h32
  refine ⟨s', h1, ?_⟩
  rw [List.range_succ, List.flatMap_append]
  simpa using h2

/-- Concatenation of N buffers. -/
def cat (N : ℕ) (f : ℕ → Buf) : Buf := (List.range N).flatMap f

theorem cat_congr {N : ℕ} {f g : ℕ → Buf} (h : ∀ i < N, f i = g i) : cat N f = cat N g := by
  unfold cat
  exact List.flatMap_congr fun i hi => h i (List.mem_range.1 hi)

theorem cat_length {N s : ℕ} {f : ℕ → Buf} (h : ∀ i < N, (f i).length = s) : (cat N f).length = N * s := by
  have := flatMap_blocks_length (rv := List.range N) (vl := f) (s := s) fun i hi => h i (List.mem_range.1 hi)
  rwa [List.length_range] at this

theorem commitH_ok {E : Env} {P : Params} {digest : Buf} {c : ℕ → Buf} (hE : PermWF E) (h3 : P3WF P) (hd : digest.length = P.digestSizeBytes)
    (hc : ∀ j < 16, (c j).length = P.digestSizeBytes) :
    commitH E P digest (arrN 16 c) = Outcome.ok (H E P HASH_PREFIX_NONE (cat 16 c) P.digestSizeBytes) := by
  have h5 := h3.dig
  unfold commitH
  rw [h3.parties]
  obtain ⟨i0, e0, a0⟩ := hashInit_ok hE P HASH_PREFIX_NONE
  rw [e0, ok_bind]
  obtain ⟨i1, e1, a1⟩ := hashLoop_ok (N := 16) (f := c) (len := P.digestSizeBytes) hE a0 (fun j hj => (hc j hj).ge) (by omega)
  rw [e1, ok_bind]
  obtain ⟨i2, i3, e2, e3⟩ := hashFinish_ok (n := P.digestSizeBytes) hE a1 (by omega)
  rw [e2, ok_bind, e3, ok_bind]
  dsimp only
  have e : shake E.perm (rateOf P) (prefixBytes HASH_PREFIX_NONE ++ (List.range 16).flatMap fun i => (c i).take P.digestSizeBytes) P.digestSizeBytes =
      H E P HASH_PREFIX_NONE (cat 16 c) P.digestSizeBytes := by
    unfold H
    rw [show ((List.range 16).flatMap fun i => (c i).take P.digestSizeBytes) = cat 16 c from
      cat_congr fun i hi => List.take_of_length_le (hc i hi).le]
  rw [e, wrN_full (by rw [H_length, hd])]

theorem p3_numBytes {P : Params} (h3 : P3WF P) : numBytes (P.stateSizeBits * P.numRounds) = P.andSizeBytes := by
  rw [numBytes_eq]
  have h1 := h3.tape
  have h2 := h3.and_le
  omega

theorem commitV_ok {E : Env} {P : Params} {digest input : Buf} {ms : ℕ → Buf} {u : Option ℕ} (hE : PermWF E) (h3 : P3WF P) (hd : digest.length = P.digestSizeBytes)
    (hin : P.stateSizeBytes ≤ input.length) (hm : ∀ j < 16, (ms j).length = P.andSizeBytes) :
    commitV E P digest input (msgs16 ms (P.stateSizeBits * P.numRounds) u) =
      Outcome.ok (H E P HASH_PREFIX_NONE (input.take P.stateSizeBytes ++ cat 16 ms) P.digestSizeBytes) := by
  have h5 := h3.dig
  have h6 := h3.words
  have h7 := h3.bytes
  have h8 := h3.and
  unfold commitV
  rw [h3.parties, p3_numBytes h3]
  obtain ⟨i0, e0, a0⟩ := hashInit_ok hE P HASH_PREFIX_NONE
  rw [e0, ok_bind]
  obtain ⟨j0, f0, b0⟩ := hashUpdate_ok hE (rateOf_ok P) a0 hin (by omega)
  rw [f0, ok_bind]
  obtain ⟨i1, e1, a1⟩ := hashLoop_ok (N := 16) (f := ms) (len := P.andSizeBytes) hE b0 (fun j hj => (hm j hj).ge) (by omega)
  rw [e1, ok_bind]
  obtain ⟨i2, i3, e2, e3⟩ := hashFinish_ok (n := P.digestSizeBytes) hE a1 (by omega)
  rw [e2, ok_bind, e3, ok_bind]
  dsimp only
  have e : shake E.perm (rateOf P) (prefixBytes HASH_PREFIX_NONE ++ input.take P.stateSizeBytes ++ (List.range 16).flatMap fun i => (ms i).take P.andSizeBytes) P.digestSizeBytes =
      H E P HASH_PREFIX_NONE (input.take P.stateSizeBytes ++ cat 16 ms) P.digestSizeBytes := by
    unfold H
    rw [show ((List.range 16).flatMap fun i => (ms i).take P.andSizeBytes) = cat 16 ms from
      cat_congr fun i hi => List.take_of_length_le (hm i hi).le, List.append_assoc]
  rw [e, wrN_full (by rw [H_length, hd])]

/-- The input of the challenge hash. -/
def hcpInput (P : Params) (ch : ℕ → Buf) (hCv salt pk pt msg : Buf) : Buf :=
  cat P.numMPCRounds ch ++ hCv ++ salt ++ pk ++ pt ++ msg

theorem HCPhash_ok {E : Env} {P : Params} {dst hCv salt pk pt msg : Buf} {ch : ℕ → Buf} {mlen : ℕ} (hE : PermWF E) (h3 : P3WF P)
    (hd : P.digestSizeBytes ≤ dst.length) (hc : ∀ t < P.numMPCRounds, (ch t).length = P.digestSizeBytes) (hv : hCv.length = P.digestSizeBytes)
    (hsalt : salt.length = P.saltSizeBytes) (hpk : P.stateSizeBytes ≤ pk.length) (hpt : P.stateSizeBytes ≤ pt.length) (hm : mlen ≤ msg.length)
    (hm2 : mlen + 200 ≤ 2 ^ 32) :
    HCPhash E P dst (arrN P.numMPCRounds ch) hCv salt pk pt msg mlen = Outcome.ok
      (H E P HASH_PREFIX_NONE (hcpInput P ch hCv salt (pk.take P.stateSizeBytes) (pt.take P.stateSizeBytes) (msg.take mlen)) P.digestSizeBytes ++
        dst.drop P.digestSizeBytes) := by
  have h5 := h3.dig
  have h6 := h3.words
  have h7 := h3.bytes
  have h8 := h3.salt
  have h9 := h3.u
  have h10 := h3.Tpos
  unfold HCPhash
  have hass : assertM (decide (P.numOpenedRounds < P.numMPCRounds)) = Outcome.ok () := by
    unfold assertM; rw [if_pos (decide_eq_true (by omega))]
  rw [hass, ok_bind]
  obtain ⟨i0, e0, a0⟩ := hashInit_ok hE P HASH_PREFIX_NONE
  rw [e0, ok_bind]
  obtain ⟨i1, e1, a1⟩ := hashLoop_ok (N := P.numMPCRounds) (f := ch) (len := P.digestSizeBytes) hE a0 (fun j hj => (hc j hj).ge) (by omega)
  rw [e1, ok_bind]
  obtain ⟨i2, e2, a2⟩ := hashUpdate_ok hE (rateOf_ok P) a1 hv.ge (by omega)
  rw [e2, ok_bind]
  obtain ⟨i3, e3, a3⟩ := hashUpdate_ok hE (rateOf_ok P) a2 hsalt.ge (by omega)
  rw [e3, ok_bind]
  obtain ⟨i4, e4, a4⟩ := hashUpdate_ok hE (rateOf_ok P) a3 hpk (by omega)
  rw [e4, ok_bind]
  obtain ⟨i5, e5, a5⟩ := hashUpdate_ok hE (rateOf_ok P) a4 hpt (by omega)
  rw [e5, ok_bind]
  obtain ⟨i6, e6, a6⟩ := hashUpdate_ok hE (rateOf_ok P) a5 hm hm2
  rw [e6, ok_bind]
  obtain ⟨j2, j3, f2, f3⟩ := hashFinish_ok (n := P.digestSizeBytes) hE a6 (by omega)
  rw [f2, ok_bind, f3, ok_bind]
  dsimp only
  rw [show ((List.range P.numMPCRounds).flatMap fun i => (ch i).take P.digestSizeBytes) = cat P.numMPCRounds ch from
      cat_congr fun i hi => List.take_of_length_le (hc i hi).le, List.take_of_length_le hv.le, List.take_of_length_le hsalt.le]
  have e : shake E.perm (rateOf P) (prefixBytes HASH_PREFIX_NONE ++ cat P.numMPCRounds ch ++ hCv ++ salt ++ pk.take P.stateSizeBytes ++ pt.take P.stateSizeBytes ++ msg.take mlen) P.digestSizeBytes =
      H E P HASH_PREFIX_NONE (hcpInput P ch hCv salt (pk.take P.stateSizeBytes) (pt.take P.stateSizeBytes) (msg.take mlen)) P.digestSizeBytes := by
    unfold H hcpInput
    simp only [List.append_assoc]
  rw [e, wrN_ok (by rw [H_length]; omega), List.take_zero, List.nil_append, H_length, Nat.zero_add]

/-! ### aux bits -/

/-- The bits of the last tape that carry the aux information. -/
def auxBitsOf (P : Params) (t : Buf) (p : ℕ) : ZMod 2 :=
  if p < P.stateSizeBits * P.numRounds then
    bitsOf t (P.stateSizeBits + P.stateSizeBits * 2 * (p / P.stateSizeBits) + p % P.stateSizeBits)
  else 0

theorem getAuxBits_ok {P : Params} {tp : ℕ → Buf} {pos len : ℕ} (hP : ParamsWF P) (h3 : P3WF P) (hl : (tp 15).length = 2 * P.andSizeBytes)
    (hlen : P.andSizeBytes ≤ len) :
    getAuxBits P (zeros len) (tapes16 tp pos) = Outcome.ok (ofBits (auxBitsOf P (tp 15)) len) := by
  have hnp := hP.nPos
  have htp := h3.tape
  unfold getAuxBits
  dsimp only
  rw [h3.parties, rd_arrN (by omega), ok_bind]
  obtain ⟨n, hn⟩ : ∃ n, n = P.stateSizeBits := ⟨_, rfl⟩
  rw [← hn]
  rw [← hn] at htp
  refine (loop_seq (fun r => ofBits (fun p => if p < n * r then auxBitsOf P (tp 15) p else 0) len) ?_ fun r hr => ?_).trans ?_
  · rw [Nat.mul_zero]
    refine buf_ext (by simp) fun i hi => ?_
    rw [bitsOf_ofBits _ (by simpa using hi), if_neg (by omega), bitsOf_zeros]
  · have hrn : n * (r + 1) = n * r + n := Nat.mul_succ _ _
    have h1 : n * (r + 1) ≤ n * P.numRounds := Nat.mul_le_mul_left _ hr
    have h2 : n * 2 * r = 2 * (n * r) := by ring
    have key : ∀ i ≤ n, loop (fun i output => do
        let b ← getBit (tp 15) (n + n * 2 * r + i)
        setBit output (n * r + i) b) i (ofBits (fun p => if p < n * r then auxBitsOf P (tp 15) p else 0) len) =
        (Outcome.ok (ofBits (fun p => if p < n * r + i then auxBitsOf P (tp 15) p else 0) len) : M Buf) := by
      intro i hi
      refine loop_seq (fun i => ofBits (fun p => if p < n * r + i then auxBitsOf P (tp 15) p else 0) len) rfl fun j hj => ?_
      rw [getBit_ok (by rw [hl]; omega), ok_bind, setBit_ok (by rw [ofBits_length]; omega)]
      congr 1
      refine buf_ext (by simp) fun q hq => ?_
      rw [setBitP_length, ofBits_length] at hq
      rw [bitsOf_setBitP (by rw [ofBits_length]; omega), bitsOf_ofBits _ hq, Function.update_apply]
      by_cases e : q = n * r + j
      · rw [if_pos e, if_pos (by omega), auxBitsOf, ← hn, if_pos (by omega), e, (mul_div_mod (by omega : j < n)).1, (mul_div_mod (by omega : j < n)).2]
      · rw [if_neg e, bitsOf_ofBits _ hq]
        by_cases e2 : q < n * r + j
        · rw [if_pos e2, if_pos (by omega)]
        · rw [if_neg e2, if_neg (by omega)]
    rw [key n le_rfl, hrn]
  · refine congrArg Outcome.ok (ofBits_congr fun i hi => ?_)
    by_cases h : i < n * P.numRounds
    · rw [if_pos h]
    · rw [if_neg h, auxBitsOf, ← hn, if_neg h]

/-- The last tape after `setAuxBits`. -/
def setAuxP (P : Params) (t input : Buf) : Buf :=
  ofBits (fun p => if p < P.stateSizeBits * 2 * P.numRounds ∧ P.stateSizeBits ≤ p % (P.stateSizeBits * 2) then
    bitsOf input (P.stateSizeBits * (p / (P.stateSizeBits * 2)) + (p % (P.stateSizeBits * 2) - P.stateSizeBits)) else bitsOf t p) t.length

theorem setAuxP_length {P : Params} {t input : Buf} : (setAuxP P t input).length = t.length := ofBits_length _ _

theorem setAuxBits_ok {P : Params} {tp : ℕ → Buf} {pos : ℕ} {input : Buf} (hP : ParamsWF P) (h3 : P3WF P) (hl : (tp 15).length = 2 * P.andSizeBytes)
    (hin : input.length = P.andSizeBytes) :
    setAuxBits P (tapes16 tp pos) input = Outcome.ok (tapes16 (Function.update tp 15 (setAuxP P (tp 15) input)) pos) := by
  have hnp := hP.nPos
  have htp := h3.tape
  unfold setAuxBits
  dsimp only
  rw [h3.parties, rd_arrN (by omega), ok_bind]
  obtain ⟨n, hn⟩ : ∃ n, n = P.stateSizeBits := ⟨_, rfl⟩
  rw [← hn]
  rw [← hn] at htp
  have key := loop_inv (fun r (z : Buf) => z.length = (tp 15).length ∧ ∀ p, bitsOf z p = if p < n * 2 * r ∧ n ≤ p % (n * 2) then
      bitsOf input (n * (p / (n * 2)) + (p % (n * 2) - n)) else bitsOf (tp 15) p)
    (f := fun j t => loop (fun i t => do
      let b ← getBit input (n * j + i)
      setBit t (n + n * 2 * j + i) b) n t) (n := P.numRounds) (s := tp 15) ⟨rfl, fun p => by rw [if_neg (by omega)]⟩ (by
    rintro r hr z ⟨hz, hzb⟩
    have hrn : n * (r + 1) = n * r + n := Nat.mul_succ _ _
    have h1 : n * (r + 1) ≤ n * P.numRounds := Nat.mul_le_mul_left _ hr
    have h2 : n * 2 * r = 2 * (n * r) := by ring
    have h2' : n * 2 * (r + 1) = 2 * (n * r) + 2 * n := by ring
    have key2 := loop_inv (fun i (z' : Buf) => z'.length = (tp 15).length ∧ ∀ p, bitsOf z' p = if n + n * 2 * r ≤ p ∧ p < n + n * 2 * r + i then
        bitsOf input (n * r + (p - (n + n * 2 * r))) else bitsOf z p)
      (f := fun i t => do
        let b ← getBit input (n * r + i)
        setBit t (n + n * 2 * r + i) b) (n := n) (s := z) ⟨hz, fun p => by rw [if_neg (by omega)]⟩ (by
      rintro i hi z' ⟨hz', hzb'⟩
      rw [getBit_ok (by rw [hin]; omega), ok_bind, setBit_ok (by rw [hz', hl]; omega)]
      refine ⟨_, rfl, by rw [setBitP_length, hz'], fun p => ?_⟩
      rw [bitsOf_setBitP (by rw [hz', hl]; omega), Function.update_apply]
      by_cases e : p = n + n * 2 * r + i
      · rw [if_pos e, if_pos (by omega), e, Nat.add_sub_cancel_left]
      · rw [if_neg e, hzb']
        by_cases e2 : n + n * 2 * r ≤ p ∧ p < n + n * 2 * r + i
        · rw [if_pos e2, if_pos (by omega)]
        · rw [if_neg e2, if_neg (by omega)])
    obtain ⟨z', f1, f2, f3⟩ := key2
    refine ⟨z', f1, f2, fun p => ?_⟩
    rw [f3, hzb]
    by_cases hp1 : n + n * 2 * r ≤ p ∧ p < n + n * 2 * r + n
    · have hdm := pos_div (n := n) (r := r) (q := p - n * 2 * r) (by omega)
      rw [show n * 2 * r + (p - n * 2 * r) = p by omega] at hdm
      rw [if_pos hp1, hdm.1, hdm.2, if_pos (by omega), show p - (n + n * 2 * r) = p - n * 2 * r - n by omega]
    · rw [if_neg hp1]
      by_cases hp2 : p < n * 2 * r
      · by_cases hp3 : n ≤ p % (n * 2)
        · rw [if_pos ⟨hp2, hp3⟩, if_pos ⟨by omega, hp3⟩]
        · rw [if_neg (by omega), if_neg (by omega)]
      · rw [if_neg (by omega)]
        by_cases hp4 : p < n * 2 * r + n * 2
        · have hdm := pos_div (n := n) (r := r) (q := p - n * 2 * r) (by omega)
          rw [show n * 2 * r + (p - n * 2 * r) = p by omega] at hdm
          rw [hdm.1, hdm.2, if_neg (by omega)]
        · rw [if_neg (by omega)])
  obtain ⟨z, f1, f2, f3⟩ := key
  rw [f1, ok_bind, wr_arrN (by omega), ok_bind, pure_eq_ok]
  have e : z = setAuxP P (tp 15) input := by
    refine buf_ext (by rw [f2, setAuxP_length]) fun i hi => ?_
    rw [f3, setAuxP, bitsOf_ofBits _ (by rw [← f2]; exact hi), ← hn]
  rw [e]

end Picnic
