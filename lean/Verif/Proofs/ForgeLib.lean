import Verif.Proofs.ForgeBase
import Verif.Proofs.RomLib

/-
C63: validity with SHAKE as the oracle is the validity of C37.
-/

namespace Picnic.Rom

open Spec Spec.Zkb Spec.Rom Spec.Picnic1 Spec.Challenge

variable {N M : ℕ} {I : Inst} {ct pt msg sig salt : Bytes} {t : ℕ}

theorem tab_seed {n : ℕ} (hI : I.Is n) (hN : 3 * I.T * (I.digest + I.seed + I.gate + 2 * I.blk) + 2 * I.blk + 33 ≤ N) (hM : I.digest ≤ M) {s : Bytes} (hs : s.length = I.seed) :
    hashUse I (shakeTable I N M) (.tapeSeed s) I.digest = I.hash ([2] ++ s) I.digest ∧ hashUse I (shakeTable I N M) (.comSeed s) I.digest = I.hash ([4] ++ s) I.digest ∧
    hashUse I (shakeTable I N M) (.gSeed s) I.digest = I.hash ([5] ++ s) I.digest := by
  have h1 := rom_sizes hI
  have hl : ∀ k : BitVec 8, ([k] ++ s).length ≤ N := fun k => by
    simp only [List.length_append, List.length_singleton]
    omega
  exact ⟨hash_table (hl 2) hM, hash_table (hl 4) hM, hash_table (hl 5) hM⟩

theorem tab_tape {n : ℕ} (hI : I.Is n) (hN : 3 * I.T * (I.digest + I.seed + I.gate + 2 * I.blk) + 2 * I.blk + 33 ≤ N) (hM : I.digest ≤ M) {s : Bytes} (hs : s.length = I.seed)
    (hsalt : salt.length = 32) (j : ℕ) {len : ℕ} (hlen : len ≤ M) : tapeOf I (shakeTable I N M) s salt t j len = I.tape s salt t j len := by
  unfold tapeOf Inst.tape
  rw [(tab_seed hI hN hM hs).1]
  refine hash_table ?_ hlen
  have h1 := rom_sizes hI
  have hz := zkb_sizes hI
  have hT : 1 ≤ I.T := by
    rcases Nat.eq_zero_or_pos I.T with h | h
    · rw [h] at hz; omega
    · exact h
  have : 3 * 1 * (I.digest + I.seed + I.gate + 2 * I.blk) ≤ 3 * I.T * (I.digest + I.seed + I.gate + 2 * I.blk) :=
    Nat.mul_le_mul_right _ (Nat.mul_le_mul_left _ hT)
  simp only [Use.text, List.length_append, int16_len]
  rw [shake_len]
  omega

theorem tab_opened {n : ℕ} (hI : I.Is n) (hN : 3 * I.T * (I.digest + I.seed + I.gate + 2 * I.blk) + 2 * I.blk + 33 ≤ N) (hM : I.digest ≤ M) (hM3 : I.seed + I.gate + I.blk ≤ M)
    (hsalt : salt.length = 32) {e : ℕ} {o : Opening} (hf : I.Fits e o) {a b : Picnic1.View} :
    OpenedBy I (shakeTable I N M) pt salt t e o a b ↔ I.Opened pt salt t e o a b := by
  have hkey : ∀ (s : Bytes) (j : ℕ), s.length = I.seed → keyShareOf I (shakeTable I N M) s salt t j = I.keyShare s salt t j := fun s j hs => by
    unfold keyShareOf Inst.keyShare
    rw [tab_tape hI hN hM hs hsalt j (by omega)]
  have hgate : ∀ (s : Bytes) (j : ℕ), s.length = I.seed → gateTapeOf I (shakeTable I N M) s salt t j = I.gateTape s salt t j := fun s j hs => by
    unfold gateTapeOf Inst.gateTape
    rw [tab_tape hI hN hM hs hsalt j (by omega), tab_tape hI hN hM hs hsalt 2 (by omega)]
  have hbit : ∀ (v : Picnic1.View) (j : ℕ), v.seed.length = I.seed → bitViewOf I (shakeTable I N M) salt t j v = I.bitView salt t j v := fun v j hv => by
    unfold bitViewOf Inst.bitView
    rw [hgate _ _ hv]
  constructor
  · rintro ⟨s0, s1, k0, k1, g0, p0, g1, c, o0, o1⟩
    have ha : a.seed.length = I.seed := by rw [s0, hf.seed0]
    have hb : b.seed.length = I.seed := by rw [s1, hf.seed1]
    rw [hkey _ _ hf.seed0] at k0
    rw [hkey _ _ hf.seed1] at k1
    rw [hbit _ _ ha] at c o0
    rw [hbit _ _ hb] at c o1
    exact ⟨s0, s1, k0, k1, g0, p0, g1, c, o0, o1⟩
  · rintro ⟨s0, s1, k0, k1, g0, p0, g1, c, o0, o1⟩
    have ha : a.seed.length = I.seed := by rw [s0, hf.seed0]
    have hb : b.seed.length = I.seed := by rw [s1, hf.seed1]
    rw [← hkey _ _ hf.seed0] at k0
    rw [← hkey _ _ hf.seed1] at k1
    rw [← hbit _ _ ha] at c o0
    rw [← hbit _ _ hb] at c o1
    exact ⟨s0, s1, k0, k1, g0, p0, g1, c, o0, o1⟩

theorem tab_commit {n : ℕ} (hI : I.Is n) (hN : 3 * I.T * (I.digest + I.seed + I.gate + 2 * I.blk) + 2 * I.blk + 33 ≤ N) (hM : I.digest ≤ M) {v : Picnic1.View}
    (hv : v.seed.length = I.seed ∧ v.key.length = I.blk ∧ v.gates.length = I.gate ∧ v.out.length = I.blk) : Rom.commitOf I (shakeTable I N M) v = I.commit v := by
  unfold Rom.commitOf
  rw [hash_table (Base.viewStr_len hI hN hv) hM]
  unfold viewText
  rw [(tab_seed hI hN hM hv.1).2.1]
  rfl

theorem tab_g {n : ℕ} (hI : I.Is n) (hN : 3 * I.T * (I.digest + I.seed + I.gate + 2 * I.blk) + 2 * I.blk + 33 ≤ N) (hM : I.digest ≤ M) (hM3 : I.seed + I.gate + I.blk ≤ M)
    {v : Picnic1.View} (hv : v.seed.length = I.seed ∧ v.key.length = I.blk ∧ v.gates.length = I.gate ∧ v.out.length = I.blk) {j : ℕ} :
    Rom.gOf I (shakeTable I N M) j v = I.G j v := by
  have hz := zkb_sizes hI
  have hT : 1 ≤ I.T := by
    rcases Nat.eq_zero_or_pos I.T with h | h
    · rw [h] at hz; omega
    · exact h
  have : 3 * 1 * (I.digest + I.seed + I.gate + 2 * I.blk) ≤ 3 * I.T * (I.digest + I.seed + I.gate + 2 * I.blk) :=
    Nat.mul_le_mul_right _ (Nat.mul_le_mul_left _ hT)
  have hg : I.gLen j ≤ M := by
    unfold Inst.gLen
    split_ifs <;> omega
  unfold Rom.gOf Inst.G
  rw [(tab_seed hI hN hM hv.1).2.2]
  have e : Use.text (T := I.T) I (.g (I.hash ([5] ++ v.seed) I.digest) (if j = 2 then some v.key else none) v.gates) =
      I.hash ([5] ++ v.seed) I.digest ++ (if j = 2 then v.key else []) ++ v.gates ++ int16 (I.gLen j) := by
    simp only [Use.text]
    by_cases hj : j = 2
    · simp [hj]
    · simp [hj, Inst.gLen]
  unfold hashUse
  rw [e]
  refine hash_table ?_ hg
  have hk : (if j = 2 then v.key else []).length ≤ I.blk := by
    split_ifs
    · exact le_of_eq hv.2.1
    · simp
  simp only [List.length_append, int16_len]
  rw [shake_len]
  omega

/-- The digest of the challenge. -/
theorem tab_digest {n : ℕ} (hI : I.Is n) (hct : ct.length = I.blk) (hpt : pt.length = I.blk)
    (hN : 3 * I.T * (I.digest + I.seed + I.gate + 2 * I.blk) + 2 * I.blk + msg.length + 33 ≤ N) (hM : I.digest ≤ M) (hM3 : I.seed + I.gate + I.blk ≤ M) {e : List ℕ} {o : ℕ → Opening}
    (hp : Parsed I sig e salt o) {a b : ℕ → Picnic1.View} (h : ∀ t < I.T, OpenedBy I (shakeTable I N M) pt salt t (e.getD t 0) (o t) (a t) (b t)) :
    Rom.hash (shakeTable I N M) (challengeText I (shakeTable I N M) ct pt msg e salt o a b) I.digest = I.challengeDigest
      (fun t => arrange (e.getD t 0) (a t).out (b t).out (Spec.Picnic1.ofBits I.blk (toBits (a t).out + toBits (b t).out + toBits ct)))
      (fun t => arrange (e.getD t 0) (I.commit (a t)) (I.commit (b t)) (o t).com)
      (fun t => arrange (e.getD t 0) (I.G (e.getD t 0) (a t)) (I.G ((e.getD t 0 + 1) % 3) (b t)) (o t).g) ct pt salt msg := by
  have hN0 : 3 * I.T * (I.digest + I.seed + I.gate + 2 * I.blk) + 2 * I.blk + 33 ≤ N := by omega
  have he := getD_lt hp.lt
  rw [(C59_zkb_uses I).2.2.2.1, hash_table (isCh_len (challengeText_isCh (msg := msg) hct hpt hp h) hN) hM]
  refine congrArg (I.hash · I.digest) (text_challenge_congr rfl ?_ ?_)
  · funext t j
    obtain ⟨la, lb⟩ := openedBy_lengths (he t) (hp.fits t t.2) (h t t.2)
    rw [tab_commit hI hN0 hM la, tab_commit hI hN0 hM lb]
  · by_cases hu : I.unruh = true
    · rw [if_pos hu, if_pos hu]
      refine congrArg some ?_
      funext t j
      obtain ⟨la, lb⟩ := openedBy_lengths (he t) (hp.fits t t.2) (h t t.2)
      rw [tab_g hI hN0 hM hM3 la, tab_g hI hN0 hM hM3 lb]
    · rw [if_neg hu, if_neg hu]

theorem tab_challenge {n : ℕ} (hI : I.Is n) (hN : 3 * I.T * (I.digest + I.seed + I.gate + 2 * I.blk) + 2 * I.blk + 33 ≤ N) (hM : I.digest ≤ M) {d : Bytes}
    (hd : d.length = I.digest) (e : List ℕ) : IsChallenge I.T (fun d => hashUse I (shakeTable I N M) (.next d) I.digest) d e ↔ I.Challenge d e := by
  have h1 := rom_sizes hI
  have hz := zkb_sizes hI
  have hT : 1 ≤ I.T := by
    rcases Nat.eq_zero_or_pos I.T with h | h
    · rw [h] at hz; omega
    · exact h
  have : 3 * 1 * (I.digest + I.seed + I.gate + 2 * I.blk) ≤ 3 * I.T * (I.digest + I.seed + I.gate + 2 * I.blk) :=
    Nat.mul_le_mul_right _ (Nat.mul_le_mul_left _ hT)
  have hnext : ∀ n, ∀ d : Bytes, d.length = I.digest → stream (fun d => hashUse I (shakeTable I N M) (.next d) I.digest) d n =
      stream (fun d => I.hash ([1] ++ d) I.digest) d n := by
    intro n
    induction n with
    | zero => intro d _; simp only [stream]
    | succ n ih =>
      intro d hd
      simp only [stream]
      have e1 : hashUse I (shakeTable I N M) (.next d) I.digest = I.hash ([1] ++ d) I.digest := by
        unfold hashUse
        rw [hash_table (by simp only [Use.text, List.length_append, List.length_singleton]; omega) hM]
        rfl
      rw [e1, ih _ (shake_len _ _)]
  unfold Inst.Challenge IsChallenge
  simp only [hnext _ d hd]

/-- With SHAKE as the oracle, validity is that of the specification. -/
theorem tab_valid {n : ℕ} (hI : I.Is n) (hct : ct.length = I.blk) (hpt : pt.length = I.blk)
    (hN : 3 * I.T * (I.digest + I.seed + I.gate + 2 * I.blk) + 2 * I.blk + msg.length + 33 ≤ N) (hM : I.digest ≤ M) (hM3 : I.seed + I.gate + I.blk ≤ M) :
    Valid I (shakeTable I N M) ct pt msg sig ↔ I.IsValid ct pt msg sig := by
  have hN0 : 3 * I.T * (I.digest + I.seed + I.gate + 2 * I.blk) + 2 * I.blk + 33 ≤ N := by omega
  constructor
  · rintro ⟨a, b, e, salt, o, h1, h2, h3, h4⟩
    obtain ⟨hl, hlt⟩ := isChallenge_facts h4
    refine ⟨e, salt, o, a, b, h1, h2, fun t ht => ⟨(h3 t ht).1, (h3 t ht).2.1, (tab_opened hI hN0 hM hM3 h2 (h3 t ht).1).1 (h3 t ht).2.2⟩, ?_⟩
    rw [tab_digest hI hct hpt hN hM hM3 ⟨h1, h2, hl, hlt, fun t ht => (h3 t ht).1⟩ fun t ht => (h3 t ht).2.2] at h4
    exact (tab_challenge hI hN0 hM (shake_len _ _) e).1 h4
  · rintro ⟨e, salt, o, a, b, h1, h2, h3, h4⟩
    obtain ⟨hl, hlt⟩ := Inst.Challenge.facts h4
    have h3' : ∀ t < I.T, OpenedBy I (shakeTable I N M) pt salt t (e.getD t 0) (o t) (a t) (b t) := fun t ht => (tab_opened hI hN0 hM hM3 h2 (h3 t ht).1).2 (h3 t ht).2.2
    refine ⟨a, b, e, salt, o, h1, h2, fun t ht => ⟨(h3 t ht).1, (h3 t ht).2.1, h3' t ht⟩, ?_⟩
    rw [tab_digest hI hct hpt hN hM hM3 ⟨h1, h2, hl, hlt, fun t ht => (h3 t ht).1⟩ h3']
    exact (tab_challenge hI hN0 hM (shake_len _ _) e).2 h4

end Picnic.Rom
