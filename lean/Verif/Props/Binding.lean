import Verif.Proofs.Binding3
import Verif.Proofs.Binding1
import Verif.Props.Conform1
import Verif.Props.Conform3
import Verif.Props.P3Example
import Verif.Props.ZkbDecode

/-
C50: an accepted signature cannot be altered, or used for another message or public key, as long as its challenge stays the same,
unless two different strings that are hashed in the two verifications collide.
-/

namespace Picnic

open Spec Spec.Challenge

theorem is_T3 {I : Picnic3.Inst} {p : ℕ} (h : I.Is p) : 2 ≤ I.T ∧ 1 ≤ I.u := by
  unfold Picnic3.Inst.Is Picnic3.table at h
  split at h <;> simp only [Option.some.injEq, Prod.mk.injEq, reduceCtorEq] at h <;> omega

/-- C50 for the signatures of the specification of Picnic3. -/
theorem C50_spec_p3 (p : ℕ) (I : Picnic3.Inst) (hIs : I.Is p) (ct pt msg sig salt ct' pt' msg' sig' salt' : Buf) (a b : Picnic3.Transcript)
    (hct : ct.length = ct'.length) (hpt : pt.length = pt'.length) (ha : I.TranscriptOf ct pt msg sig salt a)
    (hb : I.TranscriptOf ct' pt' msg' sig' salt' b) (hd : sig.take I.digest = sig'.take I.digest) :
    I.Clash ct pt msg salt a ct' pt' msg' salt' b ∨ (sig = sig' ∧ ct = ct' ∧ pt = pt' ∧ msg = msg') :=
  Picnic3.clash_or_same (is_T3 hIs).1 (is_T3 hIs).2 hct hpt ha hb hd

/-- C50, Picnic3: if `picnic_verify` accepts two signatures that start with the same digest, then either they are the same, on the same
message under the same public key, or any transcripts of the two verifications contain a collision. -/
theorem C50_p3 (E : Env) (hE : EnvWF E) (hI : InvWF E) (pk pk' : PublicKey) (hpk : pk.Arrays) (hpk' : pk'.Arrays) (hp : pk.params ∈ picnic3Params)
    (hpp : pk'.params = pk.params) (P : Params)
    (hP : getParamSet pk.params = some P) (I : Picnic3.Inst) (hIs : I.Is pk.params) (hf : I.Shake E.perm)
    (hX : I.X = lowmcOf P (E.lowmc P)) (msg msg' b b' : Buf) (hm : msg.length + 200 ≤ 2 ^ 32) (hm' : msg'.length + 200 ≤ 2 ^ 32)
    (hacc : picnicVerify E (some pk) msg msg.length b b.length = Outcome.ok 0)
    (hacc' : picnicVerify E (some pk') msg' msg'.length b' b'.length = Outcome.ok 0) (hd : b.take I.digest = b'.take I.digest) :
    ∃ salt salt' τ τ',
      I.TranscriptOf (pk.ciphertext.take I.blk) (pk.plaintext.take I.blk) msg b salt τ ∧
      I.TranscriptOf (pk'.ciphertext.take I.blk) (pk'.plaintext.take I.blk) msg' b' salt' τ' ∧
      (I.Clash (pk.ciphertext.take I.blk) (pk.plaintext.take I.blk) msg salt τ (pk'.ciphertext.take I.blk) (pk'.plaintext.take I.blk) msg' salt' τ' ∨
        (b = b' ∧ msg = msg' ∧ pk.ciphertext.take I.blk = pk'.ciphertext.take I.blk ∧ pk.plaintext.take I.blk = pk'.plaintext.take I.blk)) := by
  have hget : ∀ (pk : PublicKey) (msg b : Buf), pk.Arrays → pk.params ∈ picnic3Params → getParamSet pk.params = some P → I.Is pk.params →
      msg.length + 200 ≤ 2 ^ 32 → picnicVerify E (some pk) msg msg.length b b.length = Outcome.ok 0 →
      ∃ salt τ, I.TranscriptOf (pk.ciphertext.take I.blk) (pk.plaintext.take I.blk) msg b salt τ := by
    intro pk msg b hpk hp hP hIs hm hacc
    have := C38_verify_sound E hE hI pk hpk hp P hP I hIs hf hX msg msg.length le_rfl hm b hacc
    rw [List.take_length] at this
    obtain ⟨salt, s, h, v, C, Q, h1, h2, h3, h4⟩ := this
    exact ⟨salt, ⟨s, h, v, C, Q⟩, h1, h2, h3, h4⟩
  obtain ⟨salt, τ, hτ⟩ := hget pk msg b hpk hp hP hIs hm hacc
  obtain ⟨salt', τ', hτ'⟩ := hget pk' msg' b' hpk' (by rwa [hpp]) (by rwa [hpp]) (by rwa [hpp]) hm' hacc'
  refine ⟨salt, salt', τ, τ', hτ, hτ', ?_⟩
  rcases C50_spec_p3 _ I hIs _ _ msg b salt _ _ msg' b' salt' τ τ' (by rw [List.length_take, List.length_take, hpk.ct, hpk'.ct])
    (by rw [List.length_take, List.length_take, hpk.pt, hpk'.pt]) hτ hτ' hd with h | ⟨h1, h2, h3, h4⟩
  · exact Or.inl h
  · exact Or.inr ⟨h1, h4, h2, h3⟩

/-- C50 for the signatures of the specification with ZKB++. -/
theorem C50_spec_zkb (I : Picnic1.Inst) (ct pt msg sig ct' pt' msg' sig' : Buf) (x y : Picnic1.Transcript)
    (hct : ct.length = ct'.length) (hpt : pt.length = pt'.length) (hx : I.TranscriptOf ct pt msg sig x)
    (hy : I.TranscriptOf ct' pt' msg' sig' y) (hd : sig.take (bytesFor (2 * I.T)) = sig'.take (bytesFor (2 * I.T))) :
    I.Clash ct pt msg x ct' pt' msg' y ∨ (sig = sig' ∧ ct = ct' ∧ pt = pt' ∧ msg = msg') :=
  Picnic1.clash_or_same hct hpt hx hy hd

/-- C50, ZKB++: if `picnic_verify` accepts two signatures that start with the same challenge, then either the parts that are read are the
same, on the same message under the same public key, or the transcripts of the two verifications contain a collision.  The bytes after
the parts that are read are not restricted (finding on C15). -/
theorem C50_zkb (E : Env) (hE : EnvWF E) (pk pk' : PublicKey) (hpk : pk.Arrays) (hpk' : pk'.Arrays) (hp : pk.params ∈ zkbParams)
    (hpp : pk'.params = pk.params) (P : Params)
    (hP : getParamSet pk.params = some P) (I : Picnic1.Inst) (hIs : I.Is pk.params) (hf : I.f = E.perm)
    (hX : I.X = lowmcOf P (E.lowmc P)) (msg msg' b b' : Buf) (hm : msg.length + 200 ≤ 2 ^ 32) (hm' : msg'.length + 200 ≤ 2 ^ 32)
    (hacc : picnicVerify E (some pk) msg msg.length b b.length = Outcome.ok 0)
    (hacc' : picnicVerify E (some pk') msg' msg'.length b' b'.length = Outcome.ok 0)
    (hd : b.take (bytesFor (2 * I.T)) = b'.take (bytesFor (2 * I.T))) :
    ∃ n ≤ b.length, ∃ n' ≤ b'.length, ∃ τ τ',
      I.TranscriptOf (pk.ciphertext.take I.blk) (pk.plaintext.take I.blk) msg (b.take n) τ ∧
      I.TranscriptOf (pk'.ciphertext.take I.blk) (pk'.plaintext.take I.blk) msg' (b'.take n') τ' ∧
      (I.Clash (pk.ciphertext.take I.blk) (pk.plaintext.take I.blk) msg τ (pk'.ciphertext.take I.blk) (pk'.plaintext.take I.blk) msg' τ' ∨
        (n = n' ∧ b.take n = b'.take n ∧ msg = msg' ∧ pk.ciphertext.take I.blk = pk'.ciphertext.take I.blk ∧
          pk.plaintext.take I.blk = pk'.plaintext.take I.blk)) := by
  have hget : ∀ (pk : PublicKey) (msg b : Buf), pk.Arrays → pk.params ∈ zkbParams → getParamSet pk.params = some P → I.Is pk.params →
      msg.length + 200 ≤ 2 ^ 32 → picnicVerify E (some pk) msg msg.length b b.length = Outcome.ok 0 →
      ∃ n ≤ b.length, ∃ τ, I.TranscriptOf (pk.ciphertext.take I.blk) (pk.plaintext.take I.blk) msg (b.take n) τ := by
    intro pk msg b hpk hp hP hIs hm hacc
    obtain ⟨n, hn, hv⟩ := C37_verify_sound E hE pk hpk hp P hP I hIs hf hX msg msg.length le_rfl hm b hacc
    rw [List.take_length] at hv
    obtain ⟨e, salt, o, v, w, h1, h2, h3, h4⟩ := hv
    exact ⟨n, hn, ⟨e, salt, o, v, w⟩, h1, h2, h3, h4⟩
  obtain ⟨n, hn, τ, hτ⟩ := hget pk msg b hpk hp hP hIs hm hacc
  obtain ⟨n', hn', τ', hτ'⟩ := hget pk' msg' b' hpk' (by rwa [hpp]) (by rwa [hpp]) (by rwa [hpp]) hm' hacc'
  have hlen : ∀ {τ : Picnic1.Transcript} {s ct pt msg : Buf}, I.TranscriptOf ct pt msg s τ → bytesFor (2 * I.T) ≤ s.length := by
    rintro τ s ct pt msg ⟨rfl, -⟩
    rw [Picnic1.Inst.encode, List.length_append, List.length_append, Picnic1.encodeChallenge_length]
    omega
  have l1 := hlen hτ
  have l2 := hlen hτ'
  rw [List.length_take] at l1 l2
  refine ⟨n, hn, n', hn', τ, τ', hτ, hτ', ?_⟩
  rcases C50_spec_zkb I _ _ msg _ _ _ msg' _ τ τ' (by rw [List.length_take, List.length_take, hpk.ct, hpk'.ct])
    (by rw [List.length_take, List.length_take, hpk.pt, hpk'.pt]) hτ hτ'
    (by rw [List.take_take, List.take_take, Nat.min_eq_left (by omega), Nat.min_eq_left (by omega)]; exact hd) with h | ⟨h1, h2, h3, h4⟩
  · exact Or.inl h
  · have hnn : n = n' := by
      have := congrArg List.length h1
      rw [List.length_take, List.length_take] at this
      omega
    exact Or.inr ⟨hnn, by rw [h1, hnn], h4, h2, h3⟩

/-! ### concrete cases -/

theorem clash3_irrefl (I : Picnic3.Inst) (ct pt msg salt : Buf) (a : Picnic3.Transcript) : ¬ I.Clash ct pt msg salt a ct pt msg salt a := by
  intro h
  cases h with
  | challenge h => exact h.1 rfl
  | com t _ h => exact h.1 rfl
  | commit t j _ _ _ _ h => exact h.1 rfl
  | msg t _ _ h => exact h.1 rfl
  | node t k _ _ _ _ h => exact h.1 rfl
  | closedSeed t x _ _ _ _ _ h => exact h.1 rfl
  | openSeed t x _ _ _ _ h => exact h.1 rfl
  | rootSeed x _ _ h => exact h.1 rfl

theorem clash1_irrefl (I : Picnic1.Inst) (ct pt msg : Buf) (x : Picnic1.Transcript) : ¬ I.Clash ct pt msg x ct pt msg x := by
  intro h
  cases h with
  | challenge e h _ _ => exact h rfl
  | view0 t _ h => exact h.1 rfl
  | view1 t _ h => exact h.1 rfl
  | seed0 t _ h => exact h.1 rfl
  | seed1 t _ h => exact h.1 rfl

/-- A concrete case for C50_p3: every Picnic3 parameter set has an accepted signature; it has a transcript, and that contains no collision. -/
theorem C50_p3_example (p : ℕ) (hp : p ∈ picnic3Params) (msg : Buf) (hm : msg.length + 200 ≤ 2 ^ 32) :
    ∃ (E : Env) (pk : PublicKey) (P : Params) (I : Picnic3.Inst) (b salt : Buf) (τ : Picnic3.Transcript), EnvWF E ∧ InvWF E ∧ pk.Arrays ∧ pk.params = p ∧
      getParamSet p = some P ∧ I.Is p ∧ I.Shake E.perm ∧ I.X = lowmcOf P (E.lowmc P) ∧
      picnicVerify E (some pk) msg msg.length b b.length = Outcome.ok 0 ∧
      I.TranscriptOf (pk.ciphertext.take I.blk) (pk.plaintext.take I.blk) msg b salt τ ∧
      ¬ I.Clash (pk.ciphertext.take I.blk) (pk.plaintext.take I.blk) msg salt τ (pk.ciphertext.take I.blk) (pk.plaintext.take I.blk) msg salt τ := by
  obtain ⟨E, sk, P, buf, sig, len, S, h1, h2, h3, rfl, h5, -, -, -, -, -, -, h12, -⟩ := p3_example p hp msg hm
  have hpk : ({ sk.pk with params := sk.params } : PublicKey).Arrays := ⟨h3.pk.pt, h3.pk.ct⟩
  have := C38_verify_sound E h1 h2 { sk.pk with params := sk.params } hpk hp P h5 (inst3 E P) (inst3_is E hp h5) (fun _ _ => rfl) rfl msg msg.length le_rfl hm _ h12
  rw [List.take_length] at this
  obtain ⟨salt, s, h, v, C, Q, q1, q2, q3, q4⟩ := this
  exact ⟨E, { sk.pk with params := sk.params }, P, inst3 E P, _, salt, ⟨s, h, v, C, Q⟩, h1, h2, hpk, rfl, h5, inst3_is E hp h5, fun _ _ => rfl, rfl, h12,
    ⟨q1, q2, q3, q4⟩, clash3_irrefl _ _ _ _ _ _⟩

/-- A concrete case for C50_zkb: an accepted signature and the same one with bytes appended. -/
theorem C50_zkb_example (p : ℕ) (hp : p ∈ zkbParams) (msg : Buf) (hm : msg.length + 200 ≤ 2 ^ 32) :
    ∃ (pk : PublicKey) (P : Params) (I : Picnic1.Inst) (b : Buf) (n : ℕ) (τ : Picnic1.Transcript), EnvWF zeroEnv ∧ pk.Arrays ∧ pk.params = p ∧
      getParamSet p = some P ∧ I.Is p ∧ I.f = zeroEnv.perm ∧ I.X = lowmcOf P (zeroEnv.lowmc P) ∧
      picnicVerify zeroEnv (some pk) msg msg.length b b.length = Outcome.ok 0 ∧
      (∀ s : Buf, picnicVerify zeroEnv (some pk) msg msg.length (b ++ s) (b ++ s).length = Outcome.ok 0) ∧
      I.TranscriptOf (pk.ciphertext.take I.blk) (pk.plaintext.take I.blk) msg (b.take n) τ ∧
      ¬ I.Clash (pk.ciphertext.take I.blk) (pk.plaintext.take I.blk) msg τ (pk.ciphertext.take I.blk) (pk.plaintext.take I.blk) msg τ := by
  obtain ⟨pk, b, hpk, rfl, -, h1, h2, -⟩ := zkb_verify_example p hp msg hm
  obtain ⟨P, hP, -⟩ := getParamSet_zkb hp
  have hI := instOf_is zeroEnv hp hP
  obtain ⟨n, -, hv⟩ := C37_verify_sound zeroEnv zeroEnv_wf pk hpk hp P hP (instOf zeroEnv P) hI rfl rfl msg msg.length le_rfl hm b h1
  rw [List.take_length] at hv
  obtain ⟨e, salt, o, v, w, q1, q2, q3, q4⟩ := hv
  exact ⟨pk, P, instOf zeroEnv P, b, n, ⟨e, salt, o, v, w⟩, zeroEnv_wf, hpk, rfl, hP, hI, rfl, rfl, h1, h2, ⟨q1, q2, q3, q4⟩, clash1_irrefl _ _ _ _ _⟩

end Picnic
