import Verif.Proofs.Sha3Perm
import Verif.Props.Example

/-
Property C49: the SHA-3 library beneath the scheme, in general: any rate, any suffix, messages of any number of bits, the one-shot function, the
permutation with any number of rounds and byte order.
-/

namespace Picnic

open Spec Spec.Keccak

namespace Sha3

/-- All calls of `Keccak_HashUpdate`; the Boolean says whether all of them succeeded. -/
def updates (E : Env) : List (Buf × ℕ) → HashInstance → M (HashInstance × Bool)
  | [], inst => pure (inst, true)
  | c :: cs, inst => do
    let (inst, r) ← hashUpdate E inst c.1 c.2
    let (inst, r') ← updates E cs inst
    pure (inst, r && r')

/-- All calls of `Keccak_HashSqueeze`; the outputs are concatenated. -/
def squeezes (E : Env) : List ℕ → HashInstance → M (Buf × Bool)
  | [], _ => pure ([], true)
  | d :: ds, inst => do
    let (inst, o, r) ← hashSqueeze E inst d
    let (o', r') ← squeezes E ds inst
    pure (o ++ o', r && r')

/-- A whole run after initialisation: updates, final, squeezes; the output and whether all calls succeeded. -/
def run (E : Env) (inst : HashInstance) (chunks : List (Buf × ℕ)) (ds : List ℕ) : M (Buf × Bool) := do
  let (inst, r) ← updates E chunks inst
  let (inst, o, r') ← hashFinal E inst
  let (o', r'') ← squeezes E ds inst
  pure (o ++ o', r && r' && r'')

theorem updates_ok {E : Env} {rate : ℕ} {s : Byte} {fol : ℕ} (hE : PermWF E) (hr : RateOK rate) (hs : s ≠ 0) (chunks : List (Buf × ℕ))
    (last : Buf × ℕ) (hc : ∀ c ∈ chunks, c.2 % 8 = 0 ∧ c.2 ≤ 8 * c.1.length ∧ c.2 / 8 + 200 ≤ 2 ^ 32)
    (hl : last.2 ≤ 8 * last.1.length ∧ last.2 / 8 + 200 ≤ 2 ^ 32)
    (hz : ∀ i, last.2 ≤ i → i < 8 * (last.2 / 8) + 8 → bitOf last.1 i = false) :
    ∀ (m : Buf) (inst : HashInstance), Abs E rate m s fol inst →
    ∃ inst' m' s', updates E (chunks ++ [last]) inst = Outcome.ok (inst', true) ∧ Abs E rate m' s' fol inst' ∧ s' ≠ 0 ∧
      toBits m' ++ delimited s'.toNat =
        toBits m ++ ((chunks ++ [last]).map fun c => (toBits c.1).take c.2).flatten ++ delimited s.toNat := by
  induction chunks with
  | nil =>
    intro m inst h
    obtain ⟨inst', m', s', a1, a2, a3, a4⟩ := hashUpdate_bits hE hr hs h hl.1 hl.2 (by
      by_cases h8 : last.2 % 8 = 0
      · exact Or.inr h8
      · refine Or.inl (Nat.lt_pow_two_of_testBit _ fun i hi => ?_)
        by_cases hi8 : i < 8
        · have := hz (8 * (last.2 / 8) + i) (by omega) (by omega)
          unfold bitOf at this
          rw [show (8 * (last.2 / 8) + i) / 8 = last.2 / 8 by omega, show (8 * (last.2 / 8) + i) % 8 = i by omega] at this
          exact this
        · exact BitVec.getLsbD_of_ge (last.1.getD (last.2 / 8) 0) i (by omega))
    refine ⟨inst', m', s', ?_, a2, a3, ?_⟩
    · simp only [updates, List.nil_append, a1, ok_bind, pure_eq_ok]; rfl
    · rw [a4]; simp
  | cons c cs ih =>
    intro m inst h
    have hcc := hc c (by simp)
    obtain ⟨inst1, a1, a2⟩ := hashUpdate_bytes (data := c.1) (len := c.2 / 8) hE hr h (by omega) hcc.2.2
    rw [show 8 * (c.2 / 8) = c.2 by omega] at a1
    obtain ⟨inst', m', s', b1, b2, b3, b4⟩ := ih (fun x hx => hc x (by simp [hx])) _ _ a2
    refine ⟨inst', m', s', ?_, b2, b3, ?_⟩
    · simp only [updates, List.cons_append, a1, b1, ok_bind, pure_eq_ok]; rfl
    · have e : toBits (c.1.take (c.2 / 8)) = (toBits c.1).take c.2 := by
        by_cases hlt : c.2 / 8 < c.1.length
        · rw [toBits_take_partial _ _ hlt, hcc.1]; simp
        · rw [List.take_of_length_le (by omega), List.take_of_length_le (by rw [toBits_length]; omega)]
      rw [b4, toBits_append, e]
      simp

theorem squeezes_ok {E : Env} {rate : ℕ} {st0 : Buf} (hE : PermWF E) (hr : RateOK rate) (hs0 : st0.length = 200)
    (ds : List ℕ) (hd : ∀ d ∈ ds, d + 200 ≤ 2 ^ 32) : ∀ (k : ℕ) (inst : HashInstance), Squeezed E rate st0 k inst →
    squeezes E (ds.map (8 * ·)) inst = Outcome.ok ((List.range ds.sum).map (fun j => streamByte E.perm rate st0 (k + j)), true) := by
  induction ds with
  | nil => intro k inst _; rfl
  | cons d ds ih =>
    intro k inst h
    obtain ⟨i', h1, h2⟩ := hashSqueeze_ok (len := d) hE hr hs0 h (hd d (by simp))
    simp only [squeezes, List.map_cons, h1, ok_bind]
    rw [ih (fun x hx => hd x (by simp [hx])) _ _ h2, ok_bind, pure_eq_ok, List.sum_cons]
    congr 2
    rw [← range_map_append]
    congr 1
    exact List.map_congr_left fun j _ => by rw [Nat.add_assoc]

end Sha3

open Sha3

/-- The permutation used, seen as a function of bit strings. -/
theorem keccakPerm_bits : PermBits keccakPerm (keccakP 24) :=
  ⟨fun _ h => (keccakPerm_spec h).2.1, fun _ h i hi => by rw [keccakP_24]; exact (keccakPerm_spec h).2.2 i hi, fun _ _ h _ hi => keccakP_congr 24 h hi⟩

/-- The input of a run: updates with whole bytes from inside their buffers, then a last update with any number of bits, the unused bits of its
last byte being zero. -/
structure Calls (chunks : List (Buf × ℕ)) (last : Buf × ℕ) : Prop where
  whole : ∀ c ∈ chunks, c.2 % 8 = 0 ∧ c.2 ≤ 8 * c.1.length ∧ c.2 / 8 + 200 ≤ 2 ^ 32
  inside : last.2 ≤ 8 * last.1.length ∧ last.2 / 8 + 200 ≤ 2 ^ 32
  unused : ∀ i, last.2 ≤ i → i < 8 * (last.2 / 8) + 8 → bitOf last.1 i = false

/-- The bits given in a run. -/
def messageBits (chunks : List (Buf × ℕ)) : List Bool := (chunks.map fun c => (toBits c.1).take c.2).flatten

/-- C49 (hash interface): for every rate that is a positive multiple of 8 bits, the capacity that completes it to 1600, every non-zero suffix byte
and every output length, initialisation succeeds; then any sequence of updates with whole bytes, a last update with any number of bits, the final
call and any sequence of squeezes of whole bytes all succeed, stay in bounds, and together deliver the sponge output of FIPS 202 for the message
bits followed by the suffix bits. -/
theorem C49_hash (E : Env) (f : (ℕ → Bool) → ℕ → Bool) (hp : PermBits E.perm f) (rate capacity hashbitlen : ℕ) (suffix : Byte) (hr0 : 0 < rate)
    (hr8 : rate % 8 = 0) (hc : rate + capacity = 1600) (hs : suffix ≠ 0) (hh : hashbitlen < 2 ^ 32) (chunks : List (Buf × ℕ))
    (last : Buf × ℕ) (hin : Calls chunks last) (ds : List ℕ) (hd : ∀ d ∈ ds, d + 200 ≤ 2 ^ 32) :
    ∃ inst out, Sha3.hashInitialize rate capacity hashbitlen suffix = some inst ∧
      Sha3.run E inst (chunks ++ [last]) (ds.map (8 * ·)) = Outcome.ok (out, true) ∧ out.length = hashbitlen / 8 + ds.sum ∧
      toBits out = spongeOf f rate (messageBits (chunks ++ [last]) ++ delimited suffix.toNat) (8 * (hashbitlen / 8 + ds.sum)) := by
  obtain ⟨r, rfl⟩ : ∃ r, rate = 8 * r := ⟨rate / 8, by omega⟩
  have hr : RateOK r := ⟨by omega, by omega⟩
  have hE : PermWF E := hp.len
  obtain ⟨inst, h1, h2⟩ := hashInitialize_ok E hr capacity hashbitlen hc suffix hs
  obtain ⟨i1, m, s, a1, a2, a3, a4⟩ := updates_ok hE hr hs chunks last hin.whole hin.inside hin.unused [] inst h2
  obtain ⟨i2, b1, b2, b3⟩ := Sha3.hashFinal_ok hE hr a3 a2 (by omega)
  have c1 := squeezes_ok hE hr b3 ds hd _ i2 b2
  refine ⟨inst, (List.range (hashbitlen / 8 + ds.sum)).map (streamByte E.perm r (absorbPadded E.perm r (padSuffix r s m))), h1, ?_, ?_, ?_⟩
  · unfold Sha3.run
    rw [a1, ok_bind]
    simp only
    rw [b1, ok_bind]
    simp only
    rw [c1, ok_bind]
    simp only
    rw [range_map_append (streamByte E.perm r (absorbPadded E.perm r (padSuffix r s m)))]
    rfl
  · simp
  · rw [stream_bits hp r hr.pos hr.le _ _ (toBits_padSuffix r hr.pos s a3 m), a4]
    rfl

/-- C49 (one-shot): `KeccakWidth1600_Sponge` computes the same function, for inputs and outputs of any length. -/
theorem C49_oneshot (E : Env) (f : (ℕ → Bool) → ℕ → Bool) (hp : PermBits E.perm f) (rate capacity : ℕ) (suffix : Byte) (hr0 : 0 < rate)
    (hr8 : rate % 8 = 0) (hc : rate + capacity = 1600) (hs : suffix ≠ 0) (input : Buf) (len d : ℕ) (hlen : len ≤ input.length) :
    ∃ out, Sha3.sponge E rate capacity input len suffix d = Outcome.ok (0, out) ∧ out.length = d ∧
      toBits out = spongeOf f rate (toBits (input.take len) ++ delimited suffix.toNat) (8 * d) := by
  obtain ⟨r, rfl⟩ : ∃ r, rate = 8 * r := ⟨rate / 8, by omega⟩
  have hr : RateOK r := ⟨by omega, by omega⟩
  refine ⟨_, sponge_ok hp.len hr hc hs hlen, by simp, ?_⟩
  exact stream_bits hp r hr.pos hr.le _ _ (toBits_padSuffix r hr.pos suffix hs _) d

/-- C49 (arguments): initialisation succeeds exactly for a non-zero suffix and a rate that is a positive multiple of 8 and adds up to 1600 with the
capacity; the one-shot function returns 1, having written nothing, exactly otherwise. -/
theorem C49_arguments (E : Env) (rate capacity hashbitlen : ℕ) (suffix : Byte) (hr : rate < 2 ^ 32) (hc : capacity < 2 ^ 32) (input : Buf)
    (len d : ℕ) :
    ((Sha3.hashInitialize rate capacity hashbitlen suffix).isSome ↔ suffix ≠ 0 ∧ 0 < rate ∧ rate % 8 = 0 ∧ rate + capacity = 1600) ∧
    (¬ (suffix ≠ 0 ∧ 0 < rate ∧ rate % 8 = 0 ∧ rate + capacity = 1600) →
      Sha3.sponge E rate capacity input len suffix d = Outcome.ok (1, [])) := by
  constructor
  · constructor
    · intro h
      by_contra hn
      rw [hashInitialize_none (by
        by_cases h0 : suffix = 0
        · exact Or.inl h0
        · right
          by_contra hn2
          apply hn
          push Not at hn2
          have hle := hn2.2.2.1
          have e := hn2.1
          have : rate + capacity = 1600 := by
            have : (rate + capacity) / 2 ^ 32 * 2 ^ 32 + (rate + capacity) % 2 ^ 32 = rate + capacity := Nat.div_add_mod' _ _
            omega
          exact ⟨h0, by omega, by omega, this⟩)] at h
      cases h
    · rintro ⟨h1, h2, h3, h4⟩
      unfold Sha3.hashInitialize
      rw [if_neg h1, if_neg (by rw [h4]; decide), if_neg (by omega)]
      rfl
  · intro hn
    unfold Sha3.sponge
    split
    · rfl
    · split
      · rfl
      · split
        · rfl
        · next a b c => exact absurd ⟨c, by omega, by omega, by omega⟩ hn

/-- C49 (order of calls): once the output phase has begun, updates and a second final call report failure and change nothing; a squeeze of a number
of bits that is not a multiple of 8 fails likewise. -/
theorem C49_order (E : Env) (inst : HashInstance) (hq : inst.squeezing = true) (data : Buf) (n : ℕ) :
    Sha3.hashUpdate E inst data n = Outcome.ok (inst, false) ∧ Sha3.hashFinal E inst = Outcome.ok (inst, [], false) ∧
      (n % 8 ≠ 0 → Sha3.hashSqueeze E inst n = Outcome.ok (inst, [], false)) := by
  have h1 : ∀ len, spongeAbsorb E inst data len = Outcome.ok (inst, false) := by
    intro len
    unfold spongeAbsorb
    rw [if_pos hq]
    rfl
  refine ⟨?_, ?_, fun hn => ?_⟩
  · unfold Sha3.hashUpdate
    split
    · exact h1 _
    · rw [h1, ok_bind]; rfl
  · unfold Sha3.hashFinal spongeAbsorbLastFewBits
    simp only [hq, if_true]
    split <;> rfl
  · unfold Sha3.hashSqueeze
    rw [if_pos hn]
    rfl

/-- C49 (permutation): with any number of rounds up to 24 the permutation computes Keccak-p[1600, nr] on every state, on machines of either byte
order; with 24 rounds it is the permutation that the hash functions use. -/
theorem C49_permutation (state : Buf) (hs : state.length = 200) (nr : ℕ) (hn : nr ≤ 24) :
    (∃ out, Sha3.permuteNrounds state nr = Outcome.ok out ∧ Sha3.permuteBigEndian state nr = Outcome.ok out ∧ out.length = 200 ∧
      ∀ i < 1600, bitOf out i = keccakP nr (bitOf state) i) ∧
    Sha3.permuteNrounds state 24 = keccakPermute24 state := by
  obtain ⟨r, h1, h2, h3⟩ := permuteNrounds_ok hs nr hn
  exact ⟨⟨r, h1, by rw [permuteBigEndian_eq hs nr hn, h1], h2, h3⟩, rfl⟩

/-- C49 (tables): the code that computes the round constants and rotation offsets yields the static tables. -/
theorem C49_tables : Sha3.initializeRoundConstants = Outcome.ok keccakRoundConstants ∧ Sha3.initializeRhoOffsets = Outcome.ok keccakRhoOffsets :=
  ⟨roundConstants_eq, rhoOffsets_eq⟩

/-- C49 (access to parts of the state): the three functions that nothing calls replace, clear and mask the bytes they are asked to, and no others. -/
theorem C49_bytes (state data out : Buf) (hs : state.length = 200) (offset length : ℕ) (ho : offset < 200) (hl : offset + length ≤ 200)
    (hd : length ≤ data.length) (hout : length ≤ out.length) :
    (∃ s, Sha3.overwriteBytes state data offset length = Outcome.ok s ∧ s.length = 200 ∧
      ∀ i < 200, s.getD i 0 = if offset ≤ i ∧ i < offset + length then data.getD (i - offset) 0 else state.getD i 0) ∧
    (∃ s, Sha3.overwriteWithZeroes state length = Outcome.ok s ∧ s.length = 200 ∧ ∀ i < 200, s.getD i 0 = if i < length then 0 else state.getD i 0) ∧
    (∃ o, Sha3.extractAndAddBytes state data out offset length = Outcome.ok o ∧ o.length = out.length ∧
      ∀ i, o.getD i 0 = if i < length then data.getD i 0 ^^^ state.getD (offset + i) 0 else out.getD i 0) := by
  have h1 : decide (offset < 200) = true := decide_eq_true ho
  have h2 : decide ((offset + length) % 2 ^ 32 ≤ 200) = true := decide_eq_true (by omega)
  refine ⟨?_, ?_, ?_⟩
  · refine ⟨_, by
      unfold Sha3.overwriteBytes
      rw [assertM_true h1, ok_bind, assertM_true h2, ok_bind, memcpy_ok (by omega) (by omega)], ?_, ?_⟩
    · simp only [List.length_append, List.length_take, List.length_drop]; omega
    · intro i hi
      simp only [List.getD_eq_getElem?_getD, List.getElem?_append, List.getElem?_take, List.getElem?_drop, List.length_append, List.length_take,
        List.length_drop, hs]
      rcases lt_trichotomy i offset with h | h | h
      · rw [if_pos (by omega), if_pos (by omega), if_pos h, if_neg (by omega)]
      · subst h
        by_cases hz : 0 < length
        · rw [if_pos (by omega), if_neg (by omega), if_pos (by omega), if_pos (by omega)]
          congr 2; omega
        · rw [if_neg (by omega), if_neg (by omega)]
          congr 2; omega
      · by_cases hz : i < offset + length
        · rw [if_pos (by omega), if_neg (by omega), if_pos (by omega), if_pos (by omega)]
          congr 2; omega
        · rw [if_neg (by omega), if_neg (by omega)]
          congr 2; omega
  · refine ⟨_, by
      unfold Sha3.overwriteWithZeroes
      rw [assertM_true (decide_eq_true (by omega)), ok_bind, wrN_ok (by rw [zeros, List.length_replicate]; omega)], ?_, ?_⟩
    · simp only [zeros, List.length_append, List.length_take, List.length_drop, List.length_replicate]; omega
    · intro i hi
      simp only [zeros, List.take_zero, List.nil_append, List.getD_eq_getElem?_getD, List.getElem?_append, List.getElem?_drop, List.length_replicate,
        List.getElem?_replicate]
      by_cases h : i < length
      · rw [if_pos h, if_pos h, if_pos h]; rfl
      · rw [if_neg h, if_neg h]; congr 2; omega
  · unfold Sha3.extractAndAddBytes
    rw [assertM_true h1, ok_bind, assertM_true h2, ok_bind]
    refine loop_inv (fun k (o : Buf) => o.length = out.length ∧
      ∀ i, o.getD i 0 = if i < k then data.getD i 0 ^^^ state.getD (offset + i) 0 else out.getD i 0) ⟨rfl, fun i => by rw [if_neg (by omega)]⟩ ?_
    rintro k hk o ⟨hlen, ho⟩
    refine ⟨_, by rw [rd_ok (by omega), ok_bind, rd_ok (by omega), ok_bind, wr_ok (by omega)], by rw [List.length_set, hlen], fun i => ?_⟩
    have := ho i
    simp only [List.getD_eq_getElem?_getD] at this ⊢
    rw [List.getElem?_set]
    by_cases h : k = i
    · subst h
      rw [if_pos rfl, if_pos (by omega), if_pos (by omega), List.getElem?_eq_getElem (by omega), List.getElem?_eq_getElem (by omega)]
      rfl
    · rw [if_neg h, this]
      by_cases h' : i < k
      · rw [if_pos h', if_pos (by omega)]
      · rw [if_neg h', if_neg (by omega)]

/-! ### the named functions -/

theorem delimited_06 : delimited (0x06 : Byte).toNat = [false, true] := by decide

theorem delimited_1F : delimited (0x1F : Byte).toNat = [true, true, true, true] := by decide

theorem iterOf_24 (q : ℕ) (S : ℕ → Bool) : iterOf (keccakP 24) q S = squeezeState q S := by
  induction q with
  | zero => rfl
  | succ q ih => rw [iterOf, squeezeState, ih, keccakP_24]

theorem spongeOf_24 (r : ℕ) (N : List Bool) (d : ℕ) : spongeOf (keccakP 24) r N d = Spec.Keccak.sponge r N d := by
  have : absorbOf (keccakP 24) r N = absorb r N := by
    unfold absorbOf absorb
    simp only [keccakP_24]
  unfold spongeOf Spec.Keccak.sponge
  simp only [iterOf_24, this]

/-- C49 (SHA-3): the four hash functions of FIPS 202, for messages of any number of bits given in any pieces. -/
theorem C49_sha3 (E : Env) (hE : E.perm = keccakPerm) (chunks : List (Buf × ℕ)) (last : Buf × ℕ) (hin : Calls chunks last) :
    (∃ inst out, Sha3.hashInitialize 1152 448 224 0x06 = some inst ∧ Sha3.run E inst (chunks ++ [last]) [] = Outcome.ok (out, true) ∧
      toBits out = sha3_224 (messageBits (chunks ++ [last]))) ∧
    (∃ inst out, Sha3.hashInitialize 1088 512 256 0x06 = some inst ∧ Sha3.run E inst (chunks ++ [last]) [] = Outcome.ok (out, true) ∧
      toBits out = sha3_256 (messageBits (chunks ++ [last]))) ∧
    (∃ inst out, Sha3.hashInitialize 832 768 384 0x06 = some inst ∧ Sha3.run E inst (chunks ++ [last]) [] = Outcome.ok (out, true) ∧
      toBits out = sha3_384 (messageBits (chunks ++ [last]))) ∧
    (∃ inst out, Sha3.hashInitialize 576 1024 512 0x06 = some inst ∧ Sha3.run E inst (chunks ++ [last]) [] = Outcome.ok (out, true) ∧
      toBits out = sha3_512 (messageBits (chunks ++ [last]))) := by
  have hp : PermBits E.perm (keccakP 24) := by rw [hE]; exact keccakPerm_bits
  have key : ∀ r c n, 0 < r → r % 8 = 0 → r + c = 1600 → n < 2 ^ 32 → n % 8 = 0 →
      ∃ inst out, Sha3.hashInitialize r c n 0x06 = some inst ∧ Sha3.run E inst (chunks ++ [last]) [] = Outcome.ok (out, true) ∧
        toBits out = spongeOf (keccakP 24) r (messageBits (chunks ++ [last]) ++ [false, true]) n := by
    intro r c n h1 h2 h3 h4 h5
    obtain ⟨inst, out, a1, a2, -, a4⟩ := C49_hash E _ hp r c n 0x06 h1 h2 h3 (by decide) h4 chunks last hin [] (by simp)
    refine ⟨inst, out, a1, a2, ?_⟩
    rw [a4, delimited_06, List.sum_nil, Nat.add_zero, show 8 * (n / 8) = n by omega]
  exact ⟨key 1152 448 224 (by decide) (by decide) (by decide) (by decide) (by decide),
    key 1088 512 256 (by decide) (by decide) (by decide) (by decide) (by decide),
    key 832 768 384 (by decide) (by decide) (by decide) (by decide) (by decide),
    key 576 1024 512 (by decide) (by decide) (by decide) (by decide) (by decide)⟩

/-- C49 (SHAKE): the two extendable-output functions, for messages of any number of bits given in any pieces and any sequence of outputs. -/
theorem C49_shake (E : Env) (hE : E.perm = keccakPerm) (chunks : List (Buf × ℕ)) (last : Buf × ℕ) (hin : Calls chunks last) (ds : List ℕ)
    (hd : ∀ d ∈ ds, d + 200 ≤ 2 ^ 32) :
    (∃ inst out, Sha3.hashInitialize 1344 256 0 0x1F = some inst ∧ Sha3.run E inst (chunks ++ [last]) (ds.map (8 * ·)) = Outcome.ok (out, true) ∧
      toBits out = shake128 (messageBits (chunks ++ [last])) (8 * ds.sum)) ∧
    (∃ inst out, Sha3.hashInitialize 1088 512 0 0x1F = some inst ∧ Sha3.run E inst (chunks ++ [last]) (ds.map (8 * ·)) = Outcome.ok (out, true) ∧
      toBits out = shake256 (messageBits (chunks ++ [last])) (8 * ds.sum)) := by
  have hp : PermBits E.perm (keccakP 24) := by rw [hE]; exact keccakPerm_bits
  have key : ∀ r c, 0 < r → r % 8 = 0 → r + c = 1600 →
      ∃ inst out, Sha3.hashInitialize r c 0 0x1F = some inst ∧ Sha3.run E inst (chunks ++ [last]) (ds.map (8 * ·)) = Outcome.ok (out, true) ∧
        toBits out = Spec.Keccak.sponge r (messageBits (chunks ++ [last]) ++ [true, true, true, true]) (8 * ds.sum) := by
    intro r c h1 h2 h3
    obtain ⟨inst, out, a1, a2, -, a4⟩ := C49_hash E _ hp r c 0 0x1F h1 h2 h3 (by decide) (by decide) chunks last hin ds hd
    refine ⟨inst, out, a1, a2, ?_⟩
    rw [a4, delimited_1F, spongeOf_24, Nat.zero_div, Nat.zero_add]
  exact ⟨key 1344 256 (by decide) (by decide) (by decide), key 1088 512 (by decide) (by decide) (by decide)⟩

/-- A message of 21 bits in two pieces meets the hypotheses. -/
theorem C49_example : Calls [([0xA3, 0x00, 0xFF], 16)] ([0x15], 5) ∧
    messageBits ([([0xA3, 0x00, 0xFF], 16)] ++ [([0x15], 5)]) =
      [true, true, false, false, false, true, false, true, false, false, false, false, false, false, false, false, true, false, true, false, true] := by
  refine ⟨⟨by decide, by decide, ?_⟩, by decide⟩
  intro i h1 h2
  have : 5 ≤ i ∧ i < 8 := ⟨h1, h2⟩
  obtain ⟨h1, h2⟩ := this
  interval_cases i <;> rfl

/-- The known value of SHA3-256 for the bytes A3 00 01 02 03, given in two pieces. -/
theorem C49_known_answer :
    (Sha3.hashInitialize 1088 512 256 0x06).map (fun inst => Sha3.run exEnv inst [([0xA3, 0x00], 16), ([0x01, 0x02, 0x03], 24)] []) =
      some (Outcome.ok ([0xa3, 0xde, 0x9e, 0x1a, 0xaa, 0x25, 0xda, 0x78, 0xbe, 0x16, 0x0b, 0x15, 0x44, 0xb8, 0x42, 0x3a, 0x81, 0x13, 0x94, 0x12, 0xb4, 0x66, 0xbf, 0x04, 0x9d, 0xc6, 0x57, 0xf5, 0x18, 0xa6, 0xf5, 0xc7], true)) := by
  decide +kernel

end Picnic
