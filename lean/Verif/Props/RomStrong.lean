import Verif.Proofs.StrongBound
import Verif.Props.RomAdapt

/-
C65: new signatures on messages that have been signed.
-/

namespace Picnic

open Spec Spec.Rom Spec.Challenge

/-- **C65**: the probability that a procedure which has `k` different messages of its choice signed, one after the other, with at most `Q` questions, makes a
valid signature that it was not given, on one of these messages or on another one, is at most the probability that it betrays a key when the signatures are
simulated, without the secret key, and the bound of C63_chosen. -/
theorem C65_strong (I : Picnic1.Inst) (p : ℕ) (hI : I.Is p) (sk ct pt : Bytes) (hsk : sk.length = I.blk) (hpad : ZeroPad I.X.n sk) (hpt : pt.length = I.blk)
    (hct : ct = Picnic1.ofBits I.blk (I.X.enc (Picnic1.toBits sk) (Picnic1.toBits pt))) (N M l : ℕ)
    (hN : 3 * I.T * (I.digest + I.seed + I.gate + 2 * I.blk) + 2 * I.blk + l + 33 ≤ N) (hM1 : 3 * I.T * I.seed + 32 ≤ M) (hM2 : I.digest ≤ M)
    (hM3 : I.blk + I.gate ≤ M) (P : Player N M (Bytes × Bytes)) (k Q : ℕ) (hP : P.Within l [] k Q) (hU : P.Uses k) (hE : P.Ends {r | r.1.length ≤ l})
    (Q' R V : ℕ) (hQ' : Q' = Q + 12 * I.T + 1) (hR : R = k * (10 * I.T + 1) + Q') (hV : V = k * (9 * I.T + 2)) :
    prob (fun O : Oracle N M => ForgesStrong I O sk ct pt P) ≤
      prob (fun ω : Oracle N M × (Fin k → Answers I M) => BetraysAfter I ct pt (P.sim I ct pt ω.1 ω.2)) +
      (k * (32 * I.T * (Q' + k * (18 * I.T + 3))) / 2 ^ (8 * I.seed) + R * (2 / 3) ^ I.T +
        ((R : ℝ) ^ 2 * (4 * I.T + 3) + R * (I.T + 1) ^ 2 + R * V + V ^ 2) / 2 ^ (8 * I.digest)) := by
  have h := Rom.forge_strong hI hsk (isKey_of hsk hpad) hpt hct hN hM1 hM2 hM3 P hP hU hE
  rw [← hQ', ← hR, ← hV] at h
  refine le_trans h (add_le_add le_rfl (le_of_eq ?_))
  have e : Rom.adaptBound I k (Q + (12 * I.T + 1) + k * (18 * I.T + 3)) = k * (32 * I.T * (Q' + k * (18 * I.T + 3))) / 2 ^ (8 * I.seed) := by
    unfold Rom.adaptBound
    rw [hQ']
    push_cast
    ring
  rw [e]
  ring

/-- **C65**: the messages that were signed are those of C63_chosen, so a signature on another message is a special case. -/
theorem C65_signed (I : Picnic1.Inst) (sk ct pt : Bytes) (N M : ℕ) (α : Type) (O : Oracle N M) (P : Player N M α) :
    ∀ ms r, P.real I O sk ct pt = some (ms, r) → (P.signed I O sk ct pt).map Prod.fst = ms ∧
      ∀ x ∈ P.signed I O sk ct pt, ∃ p, real I O sk ct pt x.1 = some p ∧ x.2 = p.sig := by
  induction P with
  | done r =>
    rintro ms r' h
    simp only [Player.real, Option.some.injEq, Prod.mk.injEq] at h
    obtain ⟨rfl, rfl⟩ := h
    exact ⟨rfl, fun x hx => by simp [Player.signed] at hx⟩
  | ask x next ih => exact fun ms r h => ih (O x) ms r h
  | sign m next ih =>
    rintro ms r h
    simp only [Player.real] at h
    cases hp : real I O sk ct pt m with
    | none => rw [hp] at h; simp at h
    | some p =>
      rw [hp] at h
      simp only [Option.bind_some, Option.map_eq_some_iff, Prod.mk.injEq, Prod.exists] at h
      obtain ⟨ms', r', h, rfl, rfl⟩ := h
      obtain ⟨h1, h2⟩ := ih p.sig ms' r' h
      simp only [Player.signed, hp, List.map_cons, h1, true_and]
      intro x hx
      rcases List.mem_cons.1 hx with rfl | hx
      · exact ⟨p, hp, rfl⟩
      · exact h2 x hx

/-- **C65**: a valid signature on a message that has not been signed is a new signature. -/
theorem C65_other_message (I : Picnic1.Inst) (sk ct pt : Bytes) (N M : ℕ) (O : Oracle N M) (P : Player N M (Bytes × Bytes))
    (h : ForgesAfter I O sk ct pt P) : ForgesStrong I O sk ct pt P := by
  obtain ⟨ms, r, h1, h2, h3⟩ := h
  refine ⟨ms, r, h1, fun h => h2 ?_, h3⟩
  rw [← (C65_signed I sk ct pt N M _ O P ms r h1).1]
  exact List.mem_map_of_mem h

/-- **C65**, library: with SHAKE for the oracle, a byte string that `picnic_verify` accepts for a message and that does not begin with one of the signatures
`L` made for this message contains, at its beginning, a valid signature that is not in `L`.  (By C37 every string that begins with a valid signature is
accepted, so bytes may be added at the end of a signature; this is the only way to change one.) -/
theorem C65_library (E : Env) (hE : EnvWF E) (pk : PublicKey) (hpk : pk.Arrays) (hp : pk.params ∈ zkbParams) (P : Params)
    (hP : getParamSet pk.params = some P) (I : Picnic1.Inst) (hI : I.Is pk.params) (hf : I.f = E.perm)
    (hX : I.X = lowmcOf P (E.lowmc P)) (msg : Buf) (mlen : ℕ) (hm : mlen ≤ msg.length) (hm32 : mlen + 200 ≤ 2 ^ 32) (N M : ℕ)
    (hN : 3 * I.T * (I.digest + I.seed + I.gate + 2 * I.blk) + 2 * I.blk + mlen + 33 ≤ N) (hM : I.digest ≤ M) (hM3 : I.seed + I.gate + I.blk ≤ M) (b : Buf)
    (L : List (Bytes × Bytes)) (hL : ∀ s, (msg.take mlen, s) ∈ L → ¬ s <+: b)
    (h : picnicVerify E (some pk) msg mlen b b.length = Outcome.ok 0) :
    ∃ n ≤ b.length, Valid I (shakeTable I N M) (pk.ciphertext.take I.blk) (pk.plaintext.take I.blk) (msg.take mlen) (b.take n) ∧
      (msg.take mlen, b.take n) ∉ L := by
  obtain ⟨n, h1, h2⟩ := (C63_library E hE pk hpk hp P hP I hI hf hX msg mlen hm hm32 N M hN hM hM3 b).1 h
  exact ⟨n, h1, h2, fun h => hL _ h (List.take_prefix _ _)⟩

/-- Concrete case: the procedure of C63_chosen_example. -/
theorem C65_strong_example (p : ℕ) (hp : p ∈ zkbParams) (m₁ m₂ m' : Buf) (hne₁ : m' ≠ m₁) (hne₂ : m' ≠ m₂) (hm₁ : m₁.length + 200 ≤ 2 ^ 32)
    (hm₂ : m₂.length + 200 ≤ 2 ^ 32) (hm' : m'.length + 200 ≤ 2 ^ 32) (pick : Bytes → Bool) :
    ∃ (I : Picnic1.Inst) (sk ct pt : Bytes) (N M l : ℕ) (P : Player N M (Bytes × Bytes)), I.Is p ∧ sk.length = I.blk ∧ ZeroPad I.X.n sk ∧
      pt.length = I.blk ∧ ct = Picnic1.ofBits I.blk (I.X.enc (Picnic1.toBits sk) (Picnic1.toBits pt)) ∧
      3 * I.T * (I.digest + I.seed + I.gate + 2 * I.blk) + 2 * I.blk + l + 33 ≤ N ∧ 3 * I.T * I.seed + 32 ≤ M ∧ I.digest ≤ M ∧ I.blk + I.gate ≤ M ∧
      P.Within l [] 1 1 ∧ P.Uses 1 ∧ P.Ends {r | r.1.length ≤ l} ∧
      (P.signed I (shakeTable I N M) sk ct pt).map Prod.fst = [if pick (Spec.Rom.hash (shakeTable I N M) [0] 1) then m₁ else m₂] ∧
      ForgesStrong I (shakeTable I N M) sk ct pt P := by
  obtain ⟨I, sk, ct, pt, N, M, l, P, h1, h2, h3, h4, h5, h6, h7, h8, h9, h10, h11, h12, h13, h14, -⟩ :=
    C63_chosen_example p hp m₁ m₂ m' hne₁ hne₂ hm₁ hm₂ hm' pick
  refine ⟨I, sk, ct, pt, N, M, l, P, h1, h2, h3, h4, h5, h6, h7, h8, h9, h10, h11, h12, ?_, C65_other_message I sk ct pt N M _ P h14⟩
  cases e : P.real I (shakeTable I N M) sk ct pt with
  | none => rw [e] at h13; simp at h13
  | some y =>
    rw [e] at h13
    simp only [Option.map_some, Option.some.injEq] at h13
    rw [(C65_signed I sk ct pt N M _ _ P y.1 y.2 e).1, h13]

end Picnic
