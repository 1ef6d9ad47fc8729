import Verif.Model.Endian
import Verif.Props.P3Example

/-
C35: the challenge of Picnic3 on big endian machines.

`bitsToChunks` assembles each chunk as a number and then applies `fromLittleEndian`.  On a big endian machine this swaps the
bytes of the number, and almost all results are out of range.
-/

namespace Picnic

open Spec Spec.Challenge Finset

/-- C35, the part that holds: the bytes hashed for a 16 bit number are the same on both kinds of machines, the low byte first. -/
theorem C35_hashedInt (be : Bool) (x : U16) :
    hashedIntLE be x = [BitVec.ofNat 8 (x.toNat % 256), BitVec.ofNat 8 (x.toNat / 256)] := by
  have h0 : x.extractLsb' 0 8 = BitVec.ofNat 8 (x.toNat % 256) := by
    apply BitVec.eq_of_toNat_eq
    simp [BitVec.extractLsb'_toNat]
  have h8 : x.extractLsb' 8 8 = BitVec.ofNat 8 (x.toNat / 256) := by
    apply BitVec.eq_of_toNat_eq
    simp [BitVec.extractLsb'_toNat, Nat.shiftRight_eq_div_pow]
  cases be
  · simp only [hashedIntLE, memU16, toLittleEndian, Bool.false_eq_true, if_false, h0, h8]
  · rw [← h0, ← h8]
    simp only [hashedIntLE, memU16, toLittleEndian, if_true, swap16]
    congr 1
    · ext i hi
      simp only [BitVec.getElem_extractLsb', BitVec.getLsbD_or, BitVec.getLsbD_shiftLeft, BitVec.getLsbD_ushiftRight]
      have : x.getLsbD (8 + (8 + i)) = false := BitVec.getLsbD_of_ge _ _ (by omega)
      simp [this]; omega
    · congr 1
      ext i hi
      simp only [BitVec.getElem_extractLsb', BitVec.getLsbD_or, BitVec.getLsbD_shiftLeft, BitVec.getLsbD_ushiftRight]
      simp; omega

/-- What `fromLittleEndian` does to a number below 2^16. -/
def fromLE (be : Bool) (c : ℕ) : ℕ := (fromLittleEndian be (BitVec.ofNat 16 c)).toNat

theorem fromLE_false {c : ℕ} (h : c < 2 ^ 16) : fromLE false c = c := by
  simp only [fromLE, fromLittleEndian, Bool.false_eq_true, if_false, BitVec.toNat_ofNat]
  exact Nat.mod_eq_of_lt h

theorem chunk_lt (b : ℕ) (d : Buf) (i : ℕ) : chunk b d i < 2 ^ b := chunkSum_lt d (i * b) b

theorem bitsToChunksE_ok {be : Bool} {b cap : ℕ} {d rest : Buf} (hb : b ≤ 16) (h0 : 0 < b) (hle : b ≤ d.length * 8)
    (hcap : d.length * 8 / b ≤ cap) :
    bitsToChunksE be b (d ++ rest) d.length cap = Outcome.ok ((chunks b d).map (fromLE be)) := by
  have hall := bitsToChunks_ok (rest := rest) hb h0 hle hcap
  unfold bitsToChunks at hall
  unfold bitsToChunksE
  have hass : assertM (!decide (b > d.length * 8)) = Outcome.ok () := by
    unfold assertM; rw [if_pos (by simpa using hle)]
  rw [hass, ok_bind] at hall ⊢
  dsimp only at hall ⊢
  obtain ⟨hl, hi⟩ := collect_eq_ok hall
  rw [chunks, List.map_map]
  refine collect_ok fun i hin => ?_
  have e := hi i (by rw [hl]; exact hin)
  rw [if_pos (by omega)] at e ⊢
  refine bind_of e ?_
  simp only [chunks, List.getElem_map, List.getElem_range, pure_eq_ok, Function.comp_apply]
  rfl

theorem chunks_fromLE_false {b : ℕ} (hb : b ≤ 16) (d : Buf) : (chunks b d).map (fromLE false) = chunks b d := by
  unfold chunks
  rw [List.map_map]
  refine List.map_congr_left fun i _ => ?_
  exact fromLE_false ((chunk_lt b d i).trans_le (Nat.pow_le_pow_right (by omega) hb))

theorem fillCE_false {E : Env} {P : Params} {rest : Buf} {cap : ℕ} (hE : PermWF E) (h3 : P3WF P) (hcap : P.digestSizeBytes * 2 ≤ cap) :
    ∀ (n : ℕ) (d : Buf) (acc : List ℕ), d.length = P.digestSizeBytes → acc.length ≤ P.numOpenedRounds →
    fillCE false E P (ceilLog2 P.numMPCRounds) cap n (d ++ rest) acc = fillC E P (ceilLog2 P.numMPCRounds) cap n (d ++ rest) acc := by
  obtain ⟨hb1, hb2, _⟩ := p3_bits h3
  have h5 := h3.digPos
  intro n
  induction n with
  | zero => intro d acc hd ha; rw [fillC, fillCE]
  | succ n ih =>
    intro d acc hd ha
    rw [fillC, fillCE]
    have hc : d.length * 8 / ceilLog2 P.numMPCRounds ≤ cap := by
        calc d.length * 8 / ceilLog2 P.numMPCRounds ≤ d.length * 8 / 8 := Nat.div_le_div_left hb1 (by omega)
          _ ≤ cap := by omega
    by_cases h : acc.length < P.numOpenedRounds
    · rw [if_pos h, if_pos h, ← hd, bitsToChunks_ok (by omega) (by omega) (by omega) hc, bitsToChunksE_ok (by omega) (by omega) (by omega) hc,
        chunks_fromLE_false (by omega), ok_bind, ok_bind, scanC_ok _ _ ha, ok_bind, ok_bind, rehash_ok hE h3 hd, ok_bind, ok_bind]
      exact ih _ _ (H_length _ _ _ _ _) (foldl_length (fun _ _ => stepC_length) _ _ ha)
    · rw [if_neg h, if_neg h]

theorem fillPE_false {E : Env} {P : Params} {rest : Buf} {cap : ℕ} (hE : PermWF E) (h3 : P3WF P) (hcap : P.digestSizeBytes * 2 ≤ cap) :
    ∀ (n : ℕ) (d : Buf) (acc : List ℕ), d.length = P.digestSizeBytes → acc.length ≤ P.numOpenedRounds →
    fillPE false E P (ceilLog2 P.numMPCParties) cap n (d ++ rest) acc = fillP E P (ceilLog2 P.numMPCParties) cap n (d ++ rest) acc := by
  obtain ⟨_, _, hb1⟩ := p3_bits h3
  have h5 := h3.digPos
  intro n
  induction n with
  | zero => intro d acc hd ha; rw [fillP, fillPE]
  | succ n ih =>
    intro d acc hd ha
    rw [fillP, fillPE]
    have hc : d.length * 8 / ceilLog2 P.numMPCParties ≤ cap := by rw [hb1]; omega
    by_cases h : acc.length < P.numOpenedRounds
    · rw [if_pos h, if_pos h, ← hd, bitsToChunks_ok (by omega) (by omega) (by omega) hc, bitsToChunksE_ok (by omega) (by omega) (by omega) hc,
        chunks_fromLE_false (by omega), ok_bind, ok_bind, scanP_ok _ _ ha, ok_bind, ok_bind, rehash_ok hE h3 hd, ok_bind, ok_bind]
      exact ih _ _ (H_length _ _ _ _ _) (foldl_length (fun _ _ => stepP_length) _ _ ha)
    · rw [if_neg h, if_neg h]

theorem expand_memcpy {E : Env} {P : Params} {d : Buf} (h3 : P3WF P) (hd : d.length = P.digestSizeBytes) :
    memcpy (E.junkBuf siteHash 0 MAX_DIGEST_SIZE) 0 d 0 P.digestSizeBytes =
      Outcome.ok (d ++ (E.junkBuf siteHash 0 MAX_DIGEST_SIZE).drop P.digestSizeBytes) := by
  have h5 := h3.dig
  rw [memcpy_ok (by omega) (by simp [MAX_DIGEST_SIZE]; omega)]
  simp [← hd]

/-- On a little endian machine this is the expansion of Picnic3.lean. -/
theorem expandChallengeHashE_le (E : Env) (P : Params) (d : Buf) (hE : PermWF E) (h3 : P3WF P) (hd : d.length = P.digestSizeBytes) :
    expandChallengeHashE false E P d = expandChallengeHash E P d := by
  obtain ⟨hb1, hb2, hb3⟩ := p3_bits h3
  have h5 := h3.digPos
  unfold expandChallengeHashE expandChallengeHash
  dsimp only
  rw [expand_memcpy h3 hd, ok_bind, ok_bind]
  have hcap : P.digestSizeBytes * 2 ≤ P.digestSizeBytes * 8 / min (ceilLog2 P.numMPCRounds) (ceilLog2 P.numMPCParties) := by
    rw [hb3, Nat.min_eq_right (by omega)]; omega
  rw [fillCE_false hE h3 hcap _ _ _ hd (Nat.zero_le _), fillC_ok hE h3 hcap _ _ _ hd (Nat.zero_le _)]
  cases hx : fillR P.numOpenedRounds (nextDigest E P) (scC P) E.fuel d [] with
  | none => rfl
  | some r =>
    obtain ⟨d', l⟩ := r
    obtain ⟨k, -, rfl, -⟩ := fillR_spec _ _ _ _ _ hx
    dsimp only
    rw [ok_bind, ok_bind]
    dsimp only
    rw [fillPE_false hE h3 hcap _ _ _ (iterate_next_length hd k) (Nat.zero_le _)]

/-- The numbers below `T` that a big endian machine can get from a chunk of `b` bits. -/
def reach (b T : ℕ) : Finset ℕ := ((range (2 ^ b)).filter fun v => fromLE true v < T).image (fromLE true)

theorem foldl_reach {b T u : ℕ} (l : List ℕ) (hl : ∀ c ∈ l, ∃ v < 2 ^ b, c = fromLE true v) : ∀ acc : List ℕ, acc.Nodup → (∀ x ∈ acc, x ∈ reach b T) →
    (l.foldl (stepC T u) acc).Nodup ∧ ∀ x ∈ l.foldl (stepC T u) acc, x ∈ reach b T := by
  induction l with
  | nil => intro acc h1 h2; exact ⟨h1, h2⟩
  | cons c l ih =>
    intro acc h1 h2
    rw [List.foldl_cons]
    refine ih (fun x hx => hl x (List.mem_cons_of_mem _ hx)) _ ?_ ?_
    · unfold stepC
      split_ifs with _ _ h3
      · exact h1
      · exact h1
      · rw [List.nodup_append]
        refine ⟨h1, List.nodup_singleton _, ?_⟩
        intro a ha b hb
        rw [List.mem_singleton] at hb
        subst hb
        rintro rfl
        exact h3 ha
      · exact h1
    · unfold stepC
      split_ifs with _ h4 h3
      · exact h2
      · exact h2
      · intro x hx
        rw [List.mem_append, List.mem_singleton] at hx
        rcases hx with hx | rfl
        · exact h2 x hx
        · obtain ⟨v, hv, rfl⟩ := hl x List.mem_cons_self
          exact Finset.mem_image.2 ⟨v, Finset.mem_filter.2 ⟨Finset.mem_range.2 hv, h4⟩, rfl⟩
      · exact h2

theorem fillCE_true {E : Env} {P : Params} {rest : Buf} {cap : ℕ} (hE : PermWF E) (h3 : P3WF P) (hcap : P.digestSizeBytes * 2 ≤ cap)
    (hr : (reach (ceilLog2 P.numMPCRounds) P.numMPCRounds).card < P.numOpenedRounds) :
    ∀ (n : ℕ) (d : Buf) (acc : List ℕ), d.length = P.digestSizeBytes → acc.Nodup →
    (∀ x ∈ acc, x ∈ reach (ceilLog2 P.numMPCRounds) P.numMPCRounds) →
    fillCE true E P (ceilLog2 P.numMPCRounds) cap n (d ++ rest) acc = Outcome.diverge := by
  obtain ⟨hb1, hb2, _⟩ := p3_bits h3
  have h5 := h3.digPos
  have hlen : ∀ acc : List ℕ, acc.Nodup → (∀ x ∈ acc, x ∈ reach (ceilLog2 P.numMPCRounds) P.numMPCRounds) → acc.length < P.numOpenedRounds := by
    intro acc h1 h2
    rw [← List.toFinset_card_of_nodup h1]
    exact (Finset.card_le_card fun x hx => h2 x (List.mem_toFinset.1 hx)).trans_lt hr
  intro n
  induction n with
  | zero =>
    intro d acc hd h1 h2
    rw [fillCE, if_pos (hlen acc h1 h2)]
  | succ n ih =>
    intro d acc hd h1 h2
    have hc : d.length * 8 / ceilLog2 P.numMPCRounds ≤ cap := by
        calc d.length * 8 / ceilLog2 P.numMPCRounds ≤ d.length * 8 / 8 := Nat.div_le_div_left hb1 (by omega)
          _ ≤ cap := by omega
    have h := hlen acc h1 h2
    rw [fillCE, if_pos h, ← hd, bitsToChunksE_ok (by omega) (by omega) (by omega) hc, ok_bind, scanC_ok _ _ h.le, ok_bind,
      rehash_ok hE h3 hd, ok_bind]
    obtain ⟨g1, g2⟩ := foldl_reach (T := P.numMPCRounds) (u := P.numOpenedRounds) ((chunks (ceilLog2 P.numMPCRounds) d).map (fromLE true))
      (b := ceilLog2 P.numMPCRounds) (by
        intro c hc
        obtain ⟨v, hv, rfl⟩ := List.mem_map.1 hc
        obtain ⟨i, -, rfl⟩ := List.mem_map.1 hv
        exact ⟨_, chunk_lt _ _ _, rfl⟩) acc h1 h2
    exact ih _ _ (H_length _ _ _ _ _) g1 g2

theorem reach_card {p : ℕ} {P : Params} (hp : p ∈ picnic3Params) (hP : getParamSet p = some P) :
    (reach (ceilLog2 P.numMPCRounds) P.numMPCRounds).card < P.numOpenedRounds := by
  refine Finset.card_image_le.trans_lt ?_
  simp only [picnic3Params, List.mem_cons, List.not_mem_nil, or_false] at hp
  rcases hp with rfl | rfl | rfl <;> (injection hP with hP; subst hP; decide +kernel)

/-- C35 is false: on a big endian machine the challenge expansion of Picnic3 does not terminate, whatever the digest, whatever
number of iterations is granted, and whatever the hash function does. -/
theorem C35_violated (E : Env) (hE : PermWF E) (p : ℕ) (hp : p ∈ picnic3Params) (P : Params) (hP : getParamSet p = some P) (d : Buf)
    (hd : d.length = P.digestSizeBytes) : expandChallengeHashE true E P d = Outcome.diverge := by
  obtain ⟨P', hP', hi3⟩ := getParamSet_p3 hp
  rw [hP] at hP'
  obtain rfl : P = P' := by simpa using hP'
  have h3 := p3WF_of hP hi3
  obtain ⟨hb1, hb2, hb3⟩ := p3_bits h3
  have h5 := h3.digPos
  unfold expandChallengeHashE
  dsimp only
  have hcap : P.digestSizeBytes * 2 ≤ P.digestSizeBytes * 8 / min (ceilLog2 P.numMPCRounds) (ceilLog2 P.numMPCParties) := by
    rw [hb3, Nat.min_eq_right (by omega)]; omega
  rw [expand_memcpy h3 hd, ok_bind, fillCE_true hE h3 hcap (reach_card hp hP) _ _ _ hd List.nodup_nil (by simp)]
  rfl

/-- C35 (the part that holds): on a little endian machine the expansion yields the challenge of the specification whenever
there is one, given enough iterations; and it has no undefined behaviour.  Missing: big endian machines, see `C35_violated`. -/
theorem C35_partial (E : Env) (hE : PermWF E) (p : ℕ) (hp : p ∈ picnic3Params) (P : Params) (hP : getParamSet p = some P) (d : Buf)
    (hd : d.length = P.digestSizeBytes) :
    (∀ C Q, expandChallengeHashE false E P d = Outcome.ok (C, Q) →
      IsChallenge3 P.numMPCRounds P.numMPCParties P.numOpenedRounds (nextDigest E P) d C Q) ∧
    (∀ C Q, IsChallenge3 P.numMPCRounds P.numMPCParties P.numOpenedRounds (nextDigest E P) d C Q → ∃ n, ∀ m ≥ n,
      expandChallengeHashE false { E with fuel := m } P d = Outcome.ok (C, Q)) := by
  obtain ⟨P', hP', hi3⟩ := getParamSet_p3 hp
  rw [hP] at hP'
  obtain rfl : P = P' := by simpa using hP'
  have h3 := p3WF_of hP hi3
  refine ⟨fun C Q h => ?_, fun C Q h => ?_⟩
  · rw [expandChallengeHashE_le E P d hE h3 hd, expandChallengeHash_ok hE h3 hd] at h
    cases hx : expandR E P E.fuel d with
    | none => rw [hx] at h; cases h
    | some r =>
      obtain ⟨C', Q'⟩ := r
      rw [hx] at h
      injection h with h
      injection h with h1 h2
      subst h1 h2
      exact expandR_spec h3 hx
  · obtain ⟨n, hn⟩ := expandR_complete h3 h
    refine ⟨n, fun m hm => ?_⟩
    have hE' : PermWF { E with fuel := m } := hE
    have e : expandR { E with fuel := m } P m d = some (C, Q) := expandR_mono hn hm
    rw [expandChallengeHashE_le { E with fuel := m } P d hE' h3 hd, expandChallengeHash_ok hE' h3 hd]
    dsimp only
    rw [e]

/-- Concrete case: an environment and a digest for which a little endian machine finds the challenge and a big endian machine does
not terminate. -/
theorem endian_example (p : ℕ) (hp : p ∈ picnic3Params) : ∃ (E : Env) (P : Params) (d : Buf) (C Q : List ℕ), PermWF E ∧ getParamSet p = some P ∧
    d.length = P.digestSizeBytes ∧ expandChallengeHashE false E P d = Outcome.ok (C, Q) ∧ expandChallengeHashE true E P d = Outcome.diverge := by
  obtain ⟨P, hP, -⟩ := getParamSet_p3 hp
  obtain ⟨C, Q, h⟩ := altEnv_challenge hp hP (zeros P.digestSizeBytes)
  obtain ⟨n, hn⟩ := (C35_partial altEnv altEnv_wf.perm p hp P hP (zeros P.digestSizeBytes) (by simp)).2 C Q h
  exact ⟨{ altEnv with fuel := n }, P, zeros P.digestSizeBytes, C, Q, altEnv_wf.perm, hP, by simp, hn n le_rfl,
    C35_violated { altEnv with fuel := n } altEnv_wf.perm p hp P hP _ (by simp)⟩

end Picnic
