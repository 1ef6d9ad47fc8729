import Verif.Model.RandomOther
import Verif.Props.Cycle

/-
Property C48 for the two other random sources: Windows and SUPERCOP.
-/

namespace Picnic

open Spec Spec.Challenge

/-- What the documentation of `BCryptGenRandom` promises: it never stores more than `cb` bytes, and after a success all of them are stored. -/
def BCryptWF (B : BCrypt) : Prop := ∀ k cb, (B.bytes k cb).length ≤ cb ∧ (B.success k cb = true → (B.bytes k cb).length = cb)

theorem windows_eq (B : BCrypt) (hB : BCryptWF B) (k : ℕ) (buf : Buf) (len : ℕ) (hb : len ≤ buf.length) :
    randomBytesWindows B k buf len = Outcome.ok (if len < 2 ^ 32 then
      (if B.success k len = true then 0 else -4, B.bytes k len ++ buf.drop (B.bytes k len).length) else (-3, buf)) := by
  unfold randomBytesWindows
  by_cases hl : len < 2 ^ 32
  · have hm : len % 2 ^ 32 = len := Nat.mod_eq_of_lt hl
    rw [if_neg (by omega), if_pos hl]
    simp only [hm]
    rw [wrN_zero (le_trans (hB k len).1 hb), ok_bind]
    cases B.success k len <;> rfl
  · rw [if_pos (by omega), if_neg hl]
    rfl

/-- **C48**, Windows.  `random_bytes_default` returns 0 exactly if the length fits into 32 bits and `BCryptGenRandom` succeeded; then the buffer
starts with the `len` bytes that it delivered.  It never writes beyond the first `len` bytes, and nothing at all if the length is refused. -/
theorem C48_windows (B : BCrypt) (hB : BCryptWF B) (k : ℕ) (buf : Buf) (len : ℕ) (hb : len ≤ buf.length) :
    ∃ r buf', randomBytesWindows B k buf len = Outcome.ok (r, buf') ∧ buf'.length = buf.length ∧ buf'.drop len = buf.drop len ∧
      (r = 0 ↔ len < 2 ^ 32 ∧ B.success k len = true) ∧ (r = 0 → buf'.take len = B.bytes k len) ∧
      (r = -3 ↔ 2 ^ 32 ≤ len) ∧ (r = -3 → buf' = buf) ∧ (r = 0 ∨ r = -3 ∨ r = -4) := by
  have hle := (hB k len).1
  rw [windows_eq B hB k buf len hb]
  by_cases hl : len < 2 ^ 32
  · rw [if_pos hl]
    have hlen : (B.bytes k len ++ buf.drop (B.bytes k len).length).length = buf.length := by
      rw [List.length_append, List.length_drop]; omega
    have hdrop : (B.bytes k len ++ buf.drop (B.bytes k len).length).drop len = buf.drop len := by
      rw [List.drop_append, List.drop_eq_nil_of_le hle, List.nil_append, List.drop_drop]
      congr 1; omega
    refine ⟨_, _, rfl, hlen, hdrop, ?_, ?_, ?_, ?_, ?_⟩
    · cases B.success k len <;> simp <;> omega
    · intro h
      have hs : B.success k len = true := by
        by_contra hc
        rw [if_neg hc] at h
        omega
      have := (hB k len).2 hs
      rw [List.take_append_of_le_length (by omega), List.take_of_length_le hle]
    · constructor
      · intro h
        cases hs : B.success k len <;> simp [hs] at h
      · intro h; omega
    · intro h
      cases hs : B.success k len <;> simp [hs] at h
    · cases B.success k len <;> simp
  · rw [if_neg hl]
    exact ⟨-3, buf, rfl, rfl, rfl, by simp; omega, by simp, by simp; omega, by simp, by simp⟩

/-- Instances: a request that succeeds, one that fails after three bytes, one that is refused. -/
example : ∃ B : BCrypt, BCryptWF B ∧ randomBytesWindows B 0 (zeros 4) 4 = Outcome.ok (0, [7, 7, 7, 7]) ∧
    randomBytesWindows B 1 (zeros 4) 4 = Outcome.ok (-4, [7, 7, 7, 0]) ∧
    ∀ buf : Buf, randomBytesWindows B 0 buf (2 ^ 32) = Outcome.ok (-3, buf) := by
  refine ⟨⟨fun k _ => k == 0, fun k n => List.replicate (if k = 0 then n else min 3 n) 7⟩, fun k cb => ?_, by decide, by decide, fun buf => rfl⟩
  by_cases hk : k = 0 <;> simp [hk]

theorem windows_rng (B : BCrypt) (hB : BCryptWF B) (k n : ℕ) :
    B.rng k n = if n < 2 ^ 32 ∧ B.success k n = true then some (B.bytes k n) else none := by
  unfold BCrypt.rng
  rw [windows_eq B hB k (zeros n) n (by simp [zeros])]
  by_cases hl : n < 2 ^ 32
  · rw [if_pos hl]
    cases hs : B.success k n
    · simp
    · have h : (zeros n).drop n = [] := List.drop_eq_nil_of_le (by simp [zeros])
      have := (hB k n).2 hs
      simp only [if_true, this, h, List.append_nil]
      rw [if_pos ⟨hl, trivial⟩]
  · rw [if_neg hl, if_neg (fun h => hl h.1)]
    rfl

/-- **C48**, key generation on Windows: from the bytes that `BCryptGenRandom` delivered, or an error if one of the two requests fails. -/
theorem C48_windows_keygen (B : BCrypt) (hB : BCryptWF B) (E : Env) (hE : EnvWF E) (p n : ℕ) (hn : blockBits p = some n)
    (pk0 : PublicKey) (sk0 : PrivateKey) :
    ((∀ k < 2, B.success k (bytesFor n) = true) →
      ∃ pk sk, picnicKeygen E B.rng p (some pk0) (some sk0) = Outcome.ok (0, some pk, some sk) ∧
        ∀ i, msbBit sk.data i = (decide (i < n) && msbBit (B.bytes 0 (bytesFor n)) i)) ∧
    ((∃ k < 2, B.success k (bytesFor n) = false) → ∃ pk sk, picnicKeygen E B.rng p (some pk0) (some sk0) = Outcome.ok (-1, pk, sk)) := by
  have hl : RngLen B.rng := by
    intro k m r h
    rw [windows_rng B hB] at h
    by_cases hc : m < 2 ^ 32 ∧ B.success k m = true
    · rw [if_pos hc] at h
      rw [← Option.some.inj h]; exact (hB k m).2 hc.2
    · rw [if_neg hc] at h; cases h
  have hsmall : bytesFor n < 2 ^ 32 := by
    obtain ⟨P, hP, hPn⟩ := getParamSet_of hn
    have := (paramsWF_of hP).nMax
    rw [hPn] at this; unfold bytesFor; omega
  refine ⟨fun h => ?_, fun h => ?_⟩
  · obtain ⟨pk, sk, e, hg⟩ := genOK E hE B.rng hl p n hn pk0 sk0 (B.bytes 0 (bytesFor n)) (B.bytes 1 (bytesFor n))
      (by rw [windows_rng B hB, if_pos ⟨hsmall, h 0 (by decide)⟩]) (by rw [windows_rng B hB, if_pos ⟨hsmall, h 1 (by decide)⟩])
    exact ⟨pk, sk, e, hg.data⟩
  · refine C07_keygen_error E hE B.rng hl p _ _ (Or.inr (Or.inr (Or.inr ⟨n, hn, ?_⟩)))
    obtain ⟨k, hk, hc⟩ := h
    have hz : B.rng k (bytesFor n) = none := by
      rw [windows_rng B hB, if_neg]
      rintro ⟨-, h2⟩
      rw [h2] at hc; cases hc
    rcases (by omega : k = 0 ∨ k = 1) with rfl | rfl
    · exact Or.inl hz
    · exact Or.inr hz

/-- Both cases occur. -/
example : ∃ B C : BCrypt, BCryptWF B ∧ BCryptWF C ∧ (∀ k < 2, B.success k 17 = true) ∧ (∃ k < 2, C.success k 17 = false) :=
  ⟨⟨fun _ _ => true, fun _ n => List.replicate n 7⟩, ⟨fun k _ => k == 0, fun _ n => List.replicate n 7⟩, fun k cb => by simp, fun k cb => by simp,
    fun k _ => rfl, 1, by decide, rfl⟩

/-- **C48** is violated by the SUPERCOP source: it returns 0 whatever `randombytes` stored.  Key generation then reports success, and the secret
key consists of the bytes that were stored, followed by zeros. -/
theorem C48_supercop_violated (stored : ℕ → ℕ → Buf) (hs : ∀ k n, (stored k n).length ≤ n) (E : Env) (hE : EnvWF E) (p n : ℕ)
    (hn : blockBits p = some n) (pk0 : PublicKey) (sk0 : PrivateKey) :
    (∀ k buf len, len ≤ buf.length → ∃ buf', randomBytesSupercop stored k buf len = Outcome.ok (0, buf')) ∧
    ∃ pk sk, picnicKeygen E (supercopRng stored) p (some pk0) (some sk0) = Outcome.ok (0, some pk, some sk) ∧
      ∀ i, msbBit sk.data i = (decide (i < n) && msbBit (stored 0 (bytesFor n)) i) := by
  have heq : ∀ k buf len, len ≤ List.length buf →
      randomBytesSupercop stored k buf len = Outcome.ok (0, stored k len ++ buf.drop (stored k len).length) := by
    intro k buf len hb
    unfold randomBytesSupercop
    rw [wrN_zero (le_trans (hs k len) hb)]
    rfl
  have hr : ∀ k m, supercopRng stored k m = some (stored k m ++ (zeros m).drop (stored k m).length) := by
    intro k m
    unfold supercopRng
    rw [heq k (zeros m) m (by simp [zeros])]
    rfl
  refine ⟨fun k buf len hb => ⟨_, heq k buf len hb⟩, ?_⟩
  have hl : RngLen (supercopRng stored) := by
    intro k m r h
    rw [hr] at h
    have := hs k m
    rw [← Option.some.inj h, List.length_append, List.length_drop]
    simp [zeros]; omega
  obtain ⟨pk, sk, e, hg⟩ := genOK E hE (supercopRng stored) hl p n hn pk0 sk0 _ _ (hr 0 _) (hr 1 _)
  refine ⟨pk, sk, e, fun i => ?_⟩
  rw [hg.data i]
  congr 1
  unfold msbBit
  congr 1
  rcases lt_or_ge (i / 8) (stored 0 (bytesFor n)).length with h | h
  · rw [List.getD_append _ _ _ _ h]
  · rw [List.getD_append_right _ _ _ _ h, List.getD_eq_default _ _ h]
    simp [zeros, List.getD_eq_getElem?_getD]

/-- Instance: `randombytes` stores nothing, and for every parameter set a key pair with the secret key 0 is reported as generated. -/
theorem C48_supercop_example (E : Env) (hE : EnvWF E) (p n : ℕ) (hn : blockBits p = some n) (pk0 : PublicKey) (sk0 : PrivateKey) :
    ∃ pk sk, picnicKeygen E (supercopRng fun _ _ => []) p (some pk0) (some sk0) = Outcome.ok (0, some pk, some sk) ∧
      ∀ i, msbBit sk.data i = false := by
  obtain ⟨-, pk, sk, e, h⟩ := C48_supercop_violated (fun _ _ => []) (by simp) E hE p n hn pk0 sk0
  exact ⟨pk, sk, e, fun i => by rw [h i]; simp [msbBit]⟩

example : EnvWF exEnv ∧ blockBits 1 = some 128 := ⟨exEnv_wf, rfl⟩

end Picnic
