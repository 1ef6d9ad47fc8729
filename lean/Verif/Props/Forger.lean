import Verif.Proofs.Forger
import Verif.Props.Soundness

/-
C51: forgers that ask for challenges adaptively.
-/

namespace Picnic

open Spec Finset

open Classical in
/-- C51, ZKB++: a forger asks for `q` challenges; they are read off answers that are uniform and independent.  The probability that
it can answer one of them at the end, but has found no collision and no preimage and does not know a secret key, is at most `q` times
2 to the minus security level. -/
theorem C51_zkb (I : Picnic1.Inst) (p : ℕ) (hI : I.Is p) (κ : ℕ) (hκ : level p = some κ) (ct pt : Buf) (q : ℕ) (A : Type) [Fintype A]
    (R : A → (Fin I.T → Fin 3) → Prop) (hR : Fair R) (F : Forger q A Picnic1.First) :
    (univ.filter fun ω : Fin q → A => I.Forges R F ct pt ω ∧ ¬ I.Collides F ω ∧ ¬ I.Inverts F ω ∧ ¬ I.Knows F ct pt ω).card * 2 ^ κ ≤
      q * Fintype.card (Fin q → A) := by
  refine le_trans (Nat.mul_le_mul_right _ (card_le_card ?_)) (card_some_le (fun i ω a => ∃ e, R a e ∧
    (∀ x ∈ F.before i ω, ∀ y ∈ F.before i ω, ¬ I.Collide x y) ∧ ¬ I.Reveals ct pt (F.ask i ω).coms (F.before i ω) ∧
      I.Answerable ct pt (F.ask i ω).salt (F.ask i ω).outs (F.ask i ω).coms (F.before i ω) e) ?_ ?_)
  · intro ω hω
    obtain ⟨-, ⟨i, e, he, hi⟩, h1, h2, h3⟩ := mem_filter.1 hω
    refine mem_filter.2 ⟨mem_univ _, i, e, he, fun x hx y hy hc => h1 ⟨x, F.before_after i ω hx, y, F.before_after i ω hy, hc⟩,
      fun h => h3 ⟨i, zkb_reveals_mono (F.before_after i ω) h⟩, zkb_early (fun x hx hx' hn => h2 ⟨i, x, hx, hx', hn⟩) hi⟩
  · intro i ω ω' h e
    rw [F.ask_earlier i ω ω' h, F.before_earlier i ω ω' h]
  · intro i ω
    refine card_fair hR (S := fun e => (∀ x ∈ F.before i ω, ∀ y ∈ F.before i ω, ¬ I.Collide x y) ∧ ¬ I.Reveals ct pt (F.ask i ω).coms (F.before i ω) ∧
      I.Answerable ct pt (F.ask i ω).salt (F.ask i ω).outs (F.ask i ω).coms (F.before i ω) e) ?_
    by_cases hL : ∀ x ∈ F.before i ω, ∀ y ∈ F.before i ω, ¬ I.Collide x y
    · by_cases hK : I.Reveals ct pt (F.ask i ω).coms (F.before i ω)
      · simp [hK]
      · refine le_trans (Nat.mul_le_mul_right _ (card_le_card fun e he => ?_)) (C44_zkb_rate I p hI κ hκ ct pt (F.ask i ω).salt (F.ask i ω).outs
          (F.ask i ω).coms (F.before i ω) hL hK)
        exact mem_filter.2 ⟨mem_univ _, (mem_filter.1 he).2.2.2⟩
    · simp [hL]

open Classical in
/-- C51, Picnic3. -/
theorem C51_p3 (I : Picnic3.Inst) (p : ℕ) (hI : I.Is p) (κ : ℕ) (hκ : level p = some κ) (ct pt : Buf) (q : ℕ) (A : Type) [Fintype A]
    (R : A → I.Vector → Prop) (hR : Fair R) (F : Forger q A Picnic3.First) :
    (univ.filter fun ω : Fin q → A => I.Forges R F ct pt ω ∧ ¬ I.Collides F ω ∧ ¬ I.Inverts F ω ∧ ¬ I.Knows F ct pt ω).card * 2 ^ κ ≤
      q * Fintype.card (Fin q → A) := by
  refine le_trans (Nat.mul_le_mul_right _ (card_le_card ?_)) (card_some_le (fun i ω a => ∃ e, R a e ∧
    (∀ x ∈ F.before i ω, ∀ y ∈ F.before i ω, ¬ I.Collide x y) ∧ ¬ I.Reveals ct pt (F.ask i ω).salt (F.ask i ω).digests (F.before i ω) ∧
      I.Answerable ct pt (F.ask i ω).salt (F.ask i ω).root (F.ask i ω).digests (F.before i ω) e.1) ?_ ?_)
  · intro ω hω
    obtain ⟨-, ⟨i, e, he, hi⟩, h1, h2, h3⟩ := mem_filter.1 hω
    refine mem_filter.2 ⟨mem_univ _, i, e, he, fun x hx y hy hc => h1 ⟨x, F.before_after i ω hx, y, F.before_after i ω hy, hc⟩,
      fun h => h3 ⟨i, p3_reveals_mono (F.before_after i ω) h⟩, p3_early (fun x hx hx' hn => h2 ⟨i, x, hx, hx', hn⟩) hi⟩
  · intro i ω ω' h e
    rw [F.ask_earlier i ω ω' h, F.before_earlier i ω ω' h]
  · intro i ω
    refine card_fair hR (S := fun e => (∀ x ∈ F.before i ω, ∀ y ∈ F.before i ω, ¬ I.Collide x y) ∧
      ¬ I.Reveals ct pt (F.ask i ω).salt (F.ask i ω).digests (F.before i ω) ∧
      I.Answerable ct pt (F.ask i ω).salt (F.ask i ω).root (F.ask i ω).digests (F.before i ω) e.1) ?_
    by_cases hL : ∀ x ∈ F.before i ω, ∀ y ∈ F.before i ω, ¬ I.Collide x y
    · by_cases hK : I.Reveals ct pt (F.ask i ω).salt (F.ask i ω).digests (F.before i ω)
      · simp [hK]
      · have hrate := C44_p3_rate I p hI κ hκ ct pt (F.ask i ω).salt (F.ask i ω).root (F.ask i ω).digests (F.before i ω) hL hK
        rw [Fintype.card_subtype]
        refine le_trans (Nat.mul_le_mul_right _ ?_) hrate
        refine card_le_card_of_injOn Subtype.val (fun e he => ?_) Subtype.val_injective.injOn
        have := (mem_filter.1 he).2.2.2
        exact mem_filter.2 ⟨mem_univ _, e.2, this⟩
    · simp [hL]

/-- C51 for accepted signatures: let `picnic_verify` accept a byte string.  Its first message and its challenge satisfy: the digest
of the first message and the message determines the challenge, and a forger has forged in the sense of C51 whenever it asked for the
challenge of this first message, got this challenge, and has hashed certain finitely many strings. -/
theorem C51_zkb_verify (E : Env) (hE : EnvWF E) (pk : PublicKey) (hpk : pk.Arrays) (hp : pk.params ∈ zkbParams) (P : Params)
    (hP : getParamSet pk.params = some P) (I : Picnic1.Inst) (hI : I.Is pk.params) (hf : I.f = E.perm)
    (hX : I.X = lowmcOf P (E.lowmc P)) (msg : Buf) (mlen : ℕ) (hm : mlen ≤ msg.length) (hm32 : mlen + 200 ≤ 2 ^ 32)
    (b : Buf) (hv : picnicVerify E (some pk) msg mlen b b.length = Outcome.ok 0) :
    ∃ (f : Picnic1.First) (gs : ℕ → ℕ → Buf) (e : Fin I.T → Fin 3) (L : Set Buf), L.Finite ∧
      I.Challenge (I.challengeDigest f.outs f.coms gs (pk.ciphertext.take I.blk) (pk.plaintext.take I.blk) f.salt (msg.take mlen))
        (List.ofFn fun t => (e t).1) ∧
      ∀ (q : ℕ) (A : Type) (R : A → (Fin I.T → Fin 3) → Prop) (F : Forger q A Picnic1.First) (ω : Fin q → A) (i : Fin q), F.ask i ω = f → R (ω i) e →
        L ⊆ F.after ω → I.Forges R F (pk.ciphertext.take I.blk) (pk.plaintext.take I.blk) ω := by
  obtain ⟨salt, outs, coms, gs, e, h1, h2⟩ := C44_zkb_verify E hE pk hpk hp P hP I hI hf hX msg mlen hm hm32 b hv
  obtain ⟨L, hL, h3⟩ := zkb_finite h1
  refine ⟨⟨salt, outs, coms⟩, gs, e, L, hL, h2, fun q A R F ω i ha he hs => ⟨i, _, he, ?_⟩⟩
  rw [ha]
  exact zkb_mono hs h3

theorem C51_p3_verify (E : Env) (hE : EnvWF E) (hI : InvWF E) (pk : PublicKey) (hpk : pk.Arrays) (hp : pk.params ∈ picnic3Params) (P : Params)
    (hP : getParamSet pk.params = some P) (I : Picnic3.Inst) (hIs : I.Is pk.params) (hf : I.Shake E.perm)
    (hX : I.X = lowmcOf P (E.lowmc P)) (msg : Buf) (mlen : ℕ) (hm : mlen ≤ msg.length) (hm32 : mlen + 200 ≤ 2 ^ 32)
    (b : Buf) (hv : picnicVerify E (some pk) msg mlen b b.length = Outcome.ok 0) :
    ∃ (f : Picnic3.First) (C Q : List ℕ) (e : I.Vector) (L : Set Buf), L.Finite ∧ Picnic3.Asks C Q e.1 ∧
      I.Challenge (I.hash ((List.range I.T).flatMap f.digests ++ f.root ++ f.salt ++ pk.ciphertext.take I.blk ++ pk.plaintext.take I.blk ++ msg.take mlen)
        I.digest) C Q ∧
      ∀ (q : ℕ) (A : Type) (R : A → I.Vector → Prop) (F : Forger q A Picnic3.First) (ω : Fin q → A) (i : Fin q), F.ask i ω = f → R (ω i) e →
        L ⊆ F.after ω → I.Forges R F (pk.ciphertext.take I.blk) (pk.plaintext.take I.blk) ω := by
  obtain ⟨salt, root, digests, C, Q, e, h1, h2, h3, h4⟩ := C44_p3_verify E hE hI pk hpk hp P hP I hIs hf hX msg mlen hm hm32 b hv
  obtain ⟨L, hL, h5⟩ := p3_finite h1
  refine ⟨⟨salt, root, digests⟩, C, Q, ⟨e, h2⟩, L, hL, h3, h4, fun q A R F ω i ha he hs => ⟨i, _, he, ?_⟩⟩
  rw [ha]
  exact p3_mono hs h5

open Spec.Picnic1 in
/-- A concrete case for C51, ZKB++: for every parameter set there is a forger that can answer the challenge 0 for a ciphertext that
is not the encryption of anything, without collision, preimage or secret key.  So the set in C51 is not empty. -/
theorem C51_zkb_example (p : ℕ) (hp : p ∈ zkbParams) (q : ℕ) (hq : 0 < q) : ∃ (I : Picnic1.Inst) (ct pt : Buf) (F : Forger q (Fin I.T → Fin 3) Picnic1.First),
    I.Is p ∧ Fair (Eq : (Fin I.T → Fin 3) → _ → Prop) ∧ I.Forges Eq F ct pt (fun _ _ => 0) ∧ ∀ ω, ¬ I.Collides F ω ∧ ¬ I.Inverts F ω ∧ ¬ I.Knows F ct pt ω := by
  obtain ⟨I, v, hI, hX, hT, hL, hv, hA⟩ := zkb_null_answers p hp
  have hn : 0 < I.X.n ∧ 0 < I.X.r := by
    unfold Picnic1.Inst.Is Picnic1.table at hI
    split at hI <;> simp only [Option.some.injEq, Prod.mk.injEq, reduceCtorEq] at hI <;> omega
  have hb : 0 < I.blk := by rw [Picnic1.Inst.blk, bytesFor]; omega
  let ct : Buf := Picnic1.ofBits I.blk fun _ => 1
  let L : Set Buf := {seedString v, I.viewString v}
  let f : Picnic1.First := ⟨List.replicate 32 0, fun _ => arrange 0 v.out v.out (Picnic1.ofBits I.blk (toBits v.out + toBits v.out + toBits ct)),
    fun _ _ => List.replicate I.digest 0⟩
  refine ⟨I, ct, List.replicate I.blk 0, ⟨fun _ _ => f, fun _ _ => L, fun _ => L, fun _ _ _ _ => rfl, fun _ _ _ _ => rfl, fun _ _ => Set.Subset.rfl⟩, hI, fair_eq,
    ⟨⟨0, hq⟩, _, rfl, fun t => ?_⟩, fun ω => ⟨?_, ?_, ?_⟩⟩
  · obtain ⟨o, h⟩ := hA ct t 0 (by decide)
    exact ⟨o, v, v, h⟩
  · rintro ⟨x, hx, y, hy, h⟩
    exact hL x hx y hy h
  · rintro ⟨i, x, hx, hx', -⟩
    exact hx' hx
  · rintro ⟨i, t, -, w, -, he⟩
    have := he 0 hn.1
    rw [hX, toBits_zero] at this
    obtain ⟨r, hr⟩ : ∃ r, I.X.r = r + 1 := ⟨I.X.r - 1, by omega⟩
    have hz : ∀ k : Bits, (nullCipher I.X.n I.X.m I.X.r).enc k 0 0 = 0 := fun k => by
      rw [LowMC.enc]
      simp only [nullCipher, hr, LowMC.state, mulVec_zero']
      simp
    rw [hz, toBits_eq, show ct = Picnic1.ofBits I.blk fun _ => 1 from rfl, ofBits_eq, bitsOf_ofBits _ (by omega)] at this
    exact absurd this (by decide)

/-- A concrete case for C51, Picnic3: an honest signer is a forger that can answer all challenges, for every parameter set. -/
theorem C51_p3_example (p : ℕ) (hp : p ∈ picnic3Params) (q : ℕ) (hq : 0 < q) : ∃ (I : Picnic3.Inst) (ct pt : Buf) (F : Forger q I.Vector Picnic3.First),
    I.Is p ∧ Fair (Eq : I.Vector → _ → Prop) ∧ ∀ ω, I.Forges Eq F ct pt ω ∧ ¬ I.Inverts F ω := by
  obtain ⟨I, ct, pt, salt, root, digests, hI, h⟩ := C44_p3_example p hp
  exact ⟨I, ct, pt, ⟨fun _ _ => ⟨salt, root, digests⟩, fun _ _ => Set.univ, fun _ => Set.univ, fun _ _ _ _ => rfl, fun _ _ _ _ => rfl,
    fun _ _ => Set.Subset.rfl⟩, hI, fair_eq, fun ω => ⟨⟨⟨0, hq⟩, _, rfl, h _⟩, fun ⟨_, x, hx, hx', _⟩ => hx' hx⟩⟩

end Picnic
