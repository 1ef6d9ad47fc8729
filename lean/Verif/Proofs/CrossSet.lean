import Verif.Spec.CrossSet
import Verif.Proofs.Binding1
import Verif.Proofs.Binding3

/-
The strings that are hashed for the challenge have, for a given length of the message, different lengths with different
parameter sets; two pairs of sets are an exception.
-/

namespace Spec.Picnic1

open Spec.Challenge Picnic

variable {I I' : Inst} {ct pt msg sig ct' pt' msg' sig' : Bytes} {x y : Transcript}

theorem all_len {f : ℕ → ℕ → Bytes} {L : ℕ → ℕ} (hf : ∀ t < I.T, ∀ j < 3, (f t j).length = L j) :
    (I.all f).length = I.T * (L 0 + L 1 + L 2) := by
  unfold Inst.all
  rw [List.length_flatMap, List.map_congr_left (g := fun _ => L 0 + L 1 + L 2)]
  · simp
  · intro t ht
    have ht := List.mem_range.1 ht
    simp only [List.length_append, hf t ht 0 (by omega), hf t ht 1 (by omega), hf t ht 2 (by omega)]

/-- Lengths of the parts of the string that is hashed for the challenge. -/
theorem parts_length (h : I.TranscriptOf ct pt msg sig x) :
    (I.all (fun t => arrange (x.e.getD t 0) (x.a t).out (x.b t).out
        (ofBits I.blk (toBits (x.a t).out + toBits (x.b t).out + toBits ct)))).length = I.T * (3 * I.blk) ∧
    (∀ t < I.T, ∀ j < 3, (arrange (x.e.getD t 0) (I.commit (x.a t)) (I.commit (x.b t)) (x.o t).com j).length = I.digest) ∧
    (I.all (fun t => arrange (x.e.getD t 0) (I.commit (x.a t)) (I.commit (x.b t)) (x.o t).com)).length = I.T * (3 * I.digest) ∧
    (if I.unruh then I.all (fun t => arrange (x.e.getD t 0) (I.G (x.e.getD t 0) (x.a t)) (I.G ((x.e.getD t 0 + 1) % 3) (x.b t)) (x.o t).g)
      else []).length = if I.unruh then I.T * (I.gLen 0 + I.gLen 1 + I.gLen 2) else 0 := by
  obtain ⟨rfl, hs, hO, hch⟩ := h
  have e3 : ∀ t, x.e.getD t 0 < 3 := getD_lt hch.facts.2
  have lx := fun t ht => opened_lengths (e3 t) (hO t ht).1 (hO t ht).2.2
  have lc : ∀ t < I.T, ∀ j < 3, (arrange (x.e.getD t 0) (I.commit (x.a t)) (I.commit (x.b t)) (x.o t).com j).length = I.digest := fun t ht =>
    arrange_length (e3 t) (L := fun _ => I.digest) (I.hash_len _ _) (I.hash_len _ _) (hO t ht).1.com
  refine ⟨?_, lc, ?_, ?_⟩
  · rw [all_len (L := fun _ => I.blk) fun t ht => arrange_length (e3 t) (L := fun _ => I.blk) (lx t ht).1.2.2 (lx t ht).2.2.2
      (by rw [ofBits_eq, ofBits_length])]
    ring
  · rw [all_len (L := fun _ => I.digest) lc]
    ring
  · split_ifs with hu
    · exact all_len (L := I.gLen) fun t ht => arrange_length (e3 t) (L := I.gLen) (I.hash_len _ _) (I.hash_len _ _)
        (by rw [(hO t ht).1.g, if_pos hu])
    · rfl

/-- The length of the string without the message, by parameter set. -/
def overhead (p : ℕ) : ℕ :=
  match table p with
  | some (n, m, r, T, seed, digest, _, unruh) =>
    1 + T * (3 * bytesFor n) + T * (3 * digest) +
      (if unruh then T * (3 * (seed + bytesFor (3 * m * r)) + bytesFor n) else 0) + 2 * bytesFor n + 32
  | none => 0

theorem challengeString_length {p : ℕ} (hI : I.Is p) (hct : ct.length = I.blk) (hpt : pt.length = I.blk)
    (h : I.TranscriptOf ct pt msg sig x) : (I.challengeString ct pt msg x).length = overhead p + msg.length := by
  obtain ⟨h1, -, h2, h3⟩ := parts_length h
  have hg : I.gLen 0 + I.gLen 1 + I.gLen 2 = 3 * (I.seed + I.gate) + I.blk := by
    simp only [Inst.gLen]; norm_num; ring
  rw [hg] at h3
  unfold Inst.challengeString
  simp only [List.length_append, h1, h2, h3, hct, hpt, h.2.1, List.length_cons, List.length_nil]
  unfold overhead
  rw [hI]
  simp only [Inst.blk, Inst.gate]
  omega

theorem is_mem {p : ℕ} (hI : I.Is p) : p ∈ [1, 2, 3, 4, 5, 6, 10, 11, 12] := by
  unfold Inst.Is table at hI
  split at hI <;> first | decide | cases hI

/-- The sets with the same lengths. -/
theorem overhead_eq : ∀ p ∈ [1, 2, 3, 4, 5, 6, 10, 11, 12], ∀ p' ∈ [1, 2, 3, 4, 5, 6, 10, 11, 12], p ≠ p' → overhead p = overhead p' →
    (p, p') ∈ [(3, 11), (11, 3), (5, 12), (12, 5)] := by
  decide

theorem chal_take {b : Bytes} {k i : ℕ} (h : 2 * i + 1 < 8 * k) : chal (b.take k) i = chal b i := by
  rw [chal, chal, bitsOf_take (by omega), bitsOf_take (by omega)]

/-- The first values of the challenge from the first bytes of a signature. -/
theorem values_of (h : I.TranscriptOf ct pt msg sig x) {k i : ℕ} (hi : i < I.T) (hk : 2 * i + 1 < 8 * k) :
    chal (sig.take k) i = x.e.getD i 0 := by
  obtain ⟨rfl, hs, hO, hch⟩ := h
  rw [chal_take hk]
  have h1 : (I.encodeChallenge x.e).length = bytesFor (2 * I.T) := encodeChallenge_length _
  have h2 : chal (I.encode x.e x.salt x.o) i = chal (I.encodeChallenge x.e) i := by
    have := chal_take (b := I.encode x.e x.salt x.o) (k := bytesFor (2 * I.T)) (i := i) (by unfold bytesFor; omega)
    rw [← this]
    unfold Inst.encode
    rw [List.append_assoc, List.take_append_of_le_length h1.ge, List.take_of_length_le h1.le]
  rw [h2, encodeChallenge_enc, chal_encTrits hch.facts.2 hi]

/-- Two verifications with different parameter sets and the same challenge. -/
theorem cross_clash {p p' : ℕ} (hI : I.Is p) (hI' : I'.Is p') (hne : p ≠ p') (hf : I.f = I'.f) (hct : ct.length = I.blk)
    (hpt : pt.length = I.blk) (hct' : ct'.length = I'.blk) (hpt' : pt'.length = I'.blk) (hm : msg.length = msg'.length)
    (h : I.TranscriptOf ct pt msg sig x) (h' : I'.TranscriptOf ct' pt' msg' sig' y)
    (hd : ∀ k, k ≤ bytesFor (2 * I.T) → k ≤ bytesFor (2 * I'.T) → sig.take k = sig'.take k) :
    CrossClash I I' ct pt msg x ct' pt' msg' y := by
  have he : ∀ t, t < I.T → t < I'.T → x.e.getD t 0 = y.e.getD t 0 := by
    intro t h1 h2
    have hk := hd (min (bytesFor (2 * I.T)) (bytesFor (2 * I'.T))) (min_le_left _ _) (min_le_right _ _)
    have hb : 2 * t + 1 < 8 * min (bytesFor (2 * I.T)) (bytesFor (2 * I'.T)) := by
      unfold bytesFor
      rcases min_choice ((2 * I.T + 7) / 8) ((2 * I'.T + 7) / 8) with e | e <;> rw [e] <;> omega
    rw [← values_of h h1 hb, ← values_of h' h2 hb, hk]
  by_cases hs : I.challengeString ct pt msg x = I'.challengeString ct' pt' msg' y
  · have hl := congrArg List.length hs
    rw [challengeString_length hI hct hpt h, challengeString_length hI' hct' hpt' h', hm] at hl
    have hpp := overhead_eq p (is_mem hI) p' (is_mem hI') hne (by omega)
    obtain ⟨hT, hb, hdg, hr, hg, hT0⟩ : I.T = I'.T ∧ I.blk = I'.blk ∧ I.digest = I'.digest ∧ I.rate = I'.rate ∧ I.gate ≠ I'.gate ∧ 0 < I.T := by
      unfold Inst.blk Inst.gate
      unfold Inst.Is at hI hI'
      simp only [List.mem_cons, Prod.mk.injEq, List.not_mem_nil, or_false] at hpp
      rcases hpp with ⟨rfl, rfl⟩ | ⟨rfl, rfl⟩ | ⟨rfl, rfl⟩ | ⟨rfl, rfl⟩ <;>
      · simp only [table, Option.some.injEq, Prod.mk.injEq] at hI hI'
        obtain ⟨a1, a2, a3, a4, a5, a6, a7, a8⟩ := hI
        obtain ⟨b1, b2, b3, b4, b5, b6, b7, b8⟩ := hI'
        rw [← a1, ← a2, ← a3, ← a4, ← a6, ← a7, ← b1, ← b2, ← b3, ← b4, ← b6, ← b7]
        decide
    obtain ⟨l1, c1, l2, -⟩ := parts_length h
    obtain ⟨l1', c1', l2', -⟩ := parts_length h'
    unfold Inst.challengeString at hs
    simp only [List.append_assoc] at hs
    obtain ⟨-, hs⟩ := List.append_inj hs rfl
    obtain ⟨-, hs⟩ := List.append_inj hs (by rw [l1, l1', hT, hb])
    obtain ⟨hc, -⟩ := List.append_inj hs (by rw [l2, l2', hT, hdg])
    have hall : I'.all (fun t => arrange (y.e.getD t 0) (I'.commit (y.a t)) (I'.commit (y.b t)) (y.o t).com) =
        I.all (fun t => arrange (y.e.getD t 0) (I'.commit (y.a t)) (I'.commit (y.b t)) (y.o t).com) := by
      unfold Inst.all; rw [hT]
    rw [hall] at hc
    have e3 : x.e.getD 0 0 < 3 := getD_lt h.2.2.2.facts.2 0
    have hq := all_inj (L := fun _ => I.digest) c1 (by rw [hT, hdg]; exact c1') hc 0 hT0 (x.e.getD 0 0) e3
    rw [arrange_0, he 0 hT0 (hT ▸ hT0), arrange_0] at hq
    have hh : ∀ s n, I.hash s n = I'.hash s n := fun s n => by unfold Inst.hash; rw [hf, hr]
    refine .view hr hdg (fun hv => ?_) ?_
    · have hl := congrArg List.length hv
      have o1 := (opened_lengths e3 (h.2.2.1 0 hT0).1 (h.2.2.1 0 hT0).2.2).1
      have o2 := (opened_lengths (getD_lt h'.2.2.2.facts.2 0) (h'.2.2.1 0 (hT ▸ hT0)).1 (h'.2.2.1 0 (hT ▸ hT0)).2.2).1
      unfold Inst.viewString at hl
      simp only [List.length_append, I.hash_len, I'.hash_len, o1.1, o1.2.1, o1.2.2, o2.1, o2.2.1, o2.2.2, hb, hdg] at hl
      omega
    · have q1 : I.commit (x.a 0) = I.hash (I.viewString (x.a 0)) I.digest := rfl
      have q2 : I'.commit (y.a 0) = I'.hash (I'.viewString (y.a 0)) I'.digest := rfl
      rw [hh (I'.viewString (y.a 0)), ← q1, hq, q2, hdg]
  · exact .challenge hs h.2.2.2 h'.2.2.2 he

end Spec.Picnic1

namespace Spec.Picnic3

open Spec.Challenge Spec.Tree Spec.Picnic1 Picnic

variable {I : Inst} {ct pt msg sig salt : Bytes} {a : Transcript}

/-- The length of the string without the message, by parameter set. -/
def overhead (p : ℕ) : ℕ :=
  match table p with
  | some (n, _, _, T, _, _, digest, _) => T * digest + digest + 32 + 2 * bytesFor n
  | none => 0

theorem root_length (hu : 1 ≤ I.u) (h : I.TranscriptOf ct pt msg sig salt a) : (a.h 1).length = I.digest := by
  have hA := h.accepts
  have hC : a.C ≠ [] := by
    intro hn
    have := (isChallenge3_range h.2.2.1).1
    rw [hn] at this
    simp at this
    omega
  obtain ⟨t, ht⟩ := List.exists_mem_of_ne_nil _ hC
  have hp := (hA.path ht (k := I.depth) le_rfl).1
  have htT := (hA.2 t ht).1
  have hT : I.T ≤ 2 ^ I.depth := Nat.le_pow_clog (by decide) _
  rwa [Nat.add_div_left _ (by positivity), Nat.div_eq_of_lt (by omega)] at hp

theorem challengeString_length {p : ℕ} (hI : I.Is p) (hct : ct.length = I.blk) (hpt : pt.length = I.blk)
    (h : I.TranscriptOf ct pt msg sig salt a) : (I.challengeString ct pt msg salt a).length = overhead p + msg.length := by
  have hu : 1 ≤ I.u := by
    unfold Inst.Is table at hI
    split at hI <;> simp only [Option.some.injEq, Prod.mk.injEq, reduceCtorEq] at hI <;> omega
  have hr := root_length hu h
  have hc : ((List.range I.T).flatMap (fun t => I.comDigest (a.v t))).length = I.T * I.digest := by
    rw [List.length_flatMap, List.map_congr_left (g := fun _ => I.digest)]
    · simp
    · intro t _
      exact hash_length _ _
  unfold Inst.challengeString
  simp only [List.length_append, hc, hr, hct, hpt, h.1]
  unfold overhead
  rw [hI]
  simp only [Inst.blk]
  omega

theorem is_mem {p : ℕ} (hI : I.Is p) : p ∈ [7, 8, 9] := by
  unfold Inst.Is table at hI
  split at hI <;> first | decide | cases hI

theorem overhead_ne : ∀ p ∈ [7, 8, 9], ∀ p' ∈ [7, 8, 9], p ≠ p' → overhead p ≠ overhead p' := by decide

theorem overhead_mixed : ∀ p ∈ [1, 2, 3, 4, 5, 6, 10, 11, 12], ∀ p' ∈ [7, 8, 9], Picnic1.overhead p ≠ overhead p' := by decide

/-- A signature starts with the digest. -/
theorem take_digest (h : I.TranscriptOf ct pt msg sig salt a) :
    sig.take I.digest = I.hash (I.challengeString ct pt msg salt a) I.digest := by
  obtain ⟨-, -, -, rfl⟩ := h
  exact encode_digest (hash_length _ _)

end Spec.Picnic3
