import Verif.Proofs.SoundnessEx
import Verif.Props.Extract3
import Verif.Props.Conform1

/-
C44: soundness error of the proofs in the signatures.
-/

namespace Picnic

open Spec Finset

/-! ### ZKB++ -/

open Classical in
/-- C44, ZKB++: let the first message of a prover be fixed, and let `L` be a set of strings, no two of which have the same digest.
If more than 2^T of the 3^T challenges can be answered with strings from `L`, then `L` reveals a secret key. -/
theorem C44_zkb (I : Picnic1.Inst) (p : ℕ) (hI : I.Is p) (ct pt salt : Buf) (outs coms : ℕ → ℕ → Buf) (L : Set Buf)
    (hL : ∀ x ∈ L, ∀ y ∈ L, ¬ I.Collide x y)
    (h : 2 ^ I.T < (univ.filter fun e : Fin I.T → Fin 3 => I.Answerable ct pt salt outs coms L e).card) :
    I.Reveals ct pt coms L := by
  by_contra hR
  refine absurd h (not_lt.2 (card_vectors_le (a := fun t c => ∃ o a b, I.Answer ct pt salt (outs t) (coms t) L t c o a b) ?_ ?_))
  · intro e he t
    exact he t
  · intro t
    by_contra hall
    push_neg at hall
    refine hR ⟨t, t.2, ?_⟩
    have hall' : ∀ c : ℕ, ∃ o a b, c < 3 → I.Answer ct pt salt (outs t) (coms t) L t c o a b := fun c => by
      by_cases hc : c < 3
      · obtain ⟨o, a, b, h⟩ := hall ⟨c, hc⟩
        exact ⟨o, a, b, fun _ => h⟩
      · exact ⟨⟨[], [], [], [], [], []⟩, ⟨[], [], [], []⟩, ⟨[], [], [], []⟩, fun h => absurd h hc⟩
    choose o a b hab using hall'
    refine ⟨a, three_answers ?_ hL fun e he => hab e he⟩
    rw [Picnic1.Inst.blk, bytesFor]; omega

/-- The proportion of the challenges in C44 is at most 2 to the minus security level. -/
theorem C44_zkb_level (I : Picnic1.Inst) (p : ℕ) (hI : I.Is p) (κ : ℕ) (hκ : level p = some κ) :
    2 ^ I.T * 2 ^ κ ≤ Fintype.card (Fin I.T → Fin 3) := by
  rw [Fintype.card_fun, Fintype.card_fin, Fintype.card_fin]
  obtain ⟨h1, h2, h3⟩ := zkb_numbers
  unfold Picnic1.Inst.Is Picnic1.table at hI
  split at hI <;> simp only [Option.some.injEq, Prod.mk.injEq, reduceCtorEq] at hI <;>
    (obtain ⟨-, -, -, hT, -⟩ := hI; obtain rfl := Option.some.inj hκ; rw [← hT]; assumption)

open Classical in
/-- C44, ZKB++, as a probability: without collision and without secret key in `L`, a uniformly random challenge can be answered
with probability at most 2 to the minus security level. -/
theorem C44_zkb_rate (I : Picnic1.Inst) (p : ℕ) (hI : I.Is p) (κ : ℕ) (hκ : level p = some κ) (ct pt salt : Buf) (outs coms : ℕ → ℕ → Buf) (L : Set Buf)
    (hL : ∀ x ∈ L, ∀ y ∈ L, ¬ I.Collide x y) (hR : ¬ I.Reveals ct pt coms L) :
    (univ.filter fun e : Fin I.T → Fin 3 => I.Answerable ct pt salt outs coms L e).card * 2 ^ κ ≤ Fintype.card (Fin I.T → Fin 3) := by
  refine le_trans (Nat.mul_le_mul_right _ ?_) (C44_zkb_level I p hI κ hκ)
  by_contra h
  exact hR (C44_zkb I p hI ct pt salt outs coms L hL (not_le.1 h))

/-- C44 for accepted signatures: the challenge of a signature that `picnic_verify` accepts can be answered for a first message
whose digest determines the challenge. -/
theorem C44_zkb_verify (E : Env) (hE : EnvWF E) (pk : PublicKey) (hpk : pk.Arrays) (hp : pk.params ∈ zkbParams) (P : Params)
    (hP : getParamSet pk.params = some P) (I : Picnic1.Inst) (hI : I.Is pk.params) (hf : I.f = E.perm)
    (hX : I.X = lowmcOf P (E.lowmc P)) (msg : Buf) (mlen : ℕ) (hm : mlen ≤ msg.length) (hm32 : mlen + 200 ≤ 2 ^ 32)
    (b : Buf) (hv : picnicVerify E (some pk) msg mlen b b.length = Outcome.ok 0) :
    ∃ (salt : Buf) (outs coms gs : ℕ → ℕ → Buf) (e : Fin I.T → Fin 3),
      I.Answerable (pk.ciphertext.take I.blk) (pk.plaintext.take I.blk) salt outs coms Set.univ e ∧
      I.Challenge (I.challengeDigest outs coms gs (pk.ciphertext.take I.blk) (pk.plaintext.take I.blk) salt (msg.take mlen))
        (List.ofFn fun t => (e t).1) := by
  obtain ⟨n, -, e, salt, o, a, b, -, -, ho, hc⟩ := C37_verify_sound E hE pk hpk hp P hP I hI hf hX msg mlen hm hm32 b hv
  obtain ⟨hl, h3⟩ := challenge_range hc
  have he : ∀ t : Fin I.T, e.getD t 0 < 3 := fun t => by
    rw [List.getD_eq_getElem _ _ (by rw [hl]; exact t.2)]
    exact h3 _ (List.getElem_mem _)
  refine ⟨salt, fun t => Picnic1.arrange (e.getD t 0) (a t).out (b t).out (Picnic1.ofBits I.blk (Picnic1.toBits (a t).out + Picnic1.toBits (b t).out +
      Picnic1.toBits (pk.ciphertext.take I.blk))), fun t => Picnic1.arrange (e.getD t 0) (I.commit (a t)) (I.commit (b t)) (o t).com,
    fun t => Picnic1.arrange (e.getD t 0) (I.G (e.getD t 0) (a t)) (I.G ((e.getD t 0 + 1) % 3) (b t)) (o t).g, fun t => ⟨e.getD t 0, he t⟩, fun t => ⟨o t, a t, b t, (ho t t.2).1, (ho t t.2).2.1, (ho t t.2).2.2, fun j _ => rfl,
    fun j _ => rfl, ⟨trivial, trivial⟩, ⟨trivial, trivial⟩⟩, ?_⟩
  have : (List.ofFn fun t : Fin I.T => e.getD t 0) = e := by
    refine List.ext_getElem (by simp [hl]) fun i h1 h2 => ?_
    rw [List.getElem_ofFn, List.getD_eq_getElem]
  rw [this]
  exact hc

open Spec.Picnic1 in
/-- For every parameter set there are an instance, a view and a set of strings without collisions with which all challenges can be
answered, for any ciphertext.  The output shares in the first message depend on the challenge, unless the ciphertext is zero. -/
theorem zkb_null_answers (p : ℕ) (hp : p ∈ zkbParams) : ∃ (I : Picnic1.Inst) (v : Picnic1.View), I.Is p ∧ I.X = nullCipher I.X.n I.X.m I.X.r ∧ 0 < I.T ∧
    (∀ x ∈ ({seedString v, I.viewString v} : Set Buf), ∀ y ∈ ({seedString v, I.viewString v} : Set Buf), ¬ I.Collide x y) ∧
    v.out = List.replicate I.blk 0 ∧ ∀ ct t c, c < 3 → ∃ o, I.Answer ct (List.replicate I.blk 0) (List.replicate 32 0)
      (arrange c v.out v.out (Picnic1.ofBits I.blk (toBits v.out + toBits v.out + toBits ct))) (fun _ => List.replicate I.digest 0)
      {seedString v, I.viewString v} t c o v v := by
  obtain ⟨I, hI, hf, hX, h1, h2, h3, h4, h5, h6⟩ : ∃ I : Picnic1.Inst, I.Is p ∧ I.f = exF ∧ I.X = nullCipher I.X.n I.X.m I.X.r ∧ I.seed + 2 < I.rate ∧
      I.digest + 38 < I.rate ∧ I.rate ≤ 200 ∧ 0 < I.digest ∧ I.seed ≤ 32 ∧ 0 < I.T := by
    simp only [zkbParams, List.mem_cons, List.not_mem_nil, or_false] at hp
    rcases hp with rfl | rfl | rfl | rfl | rfl | rfl | rfl | rfl | rfl
    all_goals first
      | exact ⟨⟨nullCipher 128 10 20, 219, 16, 32, 168, false, exF⟩, by rfl, rfl, rfl, by decide, by decide, by decide, by decide, by decide, by decide⟩
      | exact ⟨⟨nullCipher 128 10 20, 219, 16, 32, 168, true, exF⟩, by rfl, rfl, rfl, by decide, by decide, by decide, by decide, by decide, by decide⟩
      | exact ⟨⟨nullCipher 192 10 30, 329, 24, 48, 136, false, exF⟩, by rfl, rfl, rfl, by decide, by decide, by decide, by decide, by decide, by decide⟩
      | exact ⟨⟨nullCipher 192 10 30, 329, 24, 48, 136, true, exF⟩, by rfl, rfl, rfl, by decide, by decide, by decide, by decide, by decide, by decide⟩
      | exact ⟨⟨nullCipher 256 10 38, 438, 32, 64, 136, false, exF⟩, by rfl, rfl, rfl, by decide, by decide, by decide, by decide, by decide, by decide⟩
      | exact ⟨⟨nullCipher 256 10 38, 438, 32, 64, 136, true, exF⟩, by rfl, rfl, rfl, by decide, by decide, by decide, by decide, by decide, by decide⟩
      | exact ⟨⟨nullCipher 129 43 4, 219, 16, 32, 168, false, exF⟩, by rfl, rfl, rfl, by decide, by decide, by decide, by decide, by decide, by decide⟩
      | exact ⟨⟨nullCipher 192 64 4, 329, 24, 48, 136, false, exF⟩, by rfl, rfl, rfl, by decide, by decide, by decide, by decide, by decide, by decide⟩
      | exact ⟨⟨nullCipher 255 85 4, 438, 32, 64, 136, false, exF⟩, by rfl, rfl, rfl, by decide, by decide, by decide, by decide, by decide, by decide⟩
  let z : ℕ → Buf := fun n => List.replicate n 0
  let v : Picnic1.View := ⟨z I.seed, z I.blk, z I.gate, z I.blk⟩
  have hs : I.hash (seedString v) I.digest = List.replicate I.digest 1 := by
    rw [Picnic1.Inst.hash, hf]
    exact hash_four (by simp [v, z]; omega) _ (by omega) h3
  have hvs : I.hash (I.viewString v) I.digest = z I.digest := by
    rw [Picnic1.Inst.hash, hf]
    refine hash_zero (by omega) (fun i => ?_) _
    generalize I.rate * i = k
    have : ∀ x ∈ I.viewString v, x ≠ 4 := by
      intro x hx
      rw [Picnic1.Inst.viewString, hs] at hx
      simp only [List.mem_append, List.mem_singleton, List.mem_replicate, v, z] at hx
      rcases hx with (((rfl | ⟨-, rfl⟩) | ⟨-, rfl⟩) | ⟨-, rfl⟩) | ⟨-, rfl⟩ <;> decide
    by_cases hk : k < (I.viewString v).length
    · rw [List.getD_eq_getElem _ _ hk]
      exact this _ (List.getElem_mem _)
    · rw [List.getD_eq_default _ _ (by omega)]
      decide
  have htape : ∀ t j len, I.tape (z I.seed) (z 32) t j len = z len := by
    intro t j len
    rw [Picnic1.Inst.tape, Picnic1.Inst.hash, Picnic1.Inst.hash, hf, hash_short (m := [2] ++ z I.seed) (by simp [z]; omega) (by simp)]
    refine hash_short (by simp [z, int16]; omega) ?_ _
    have : ∃ d, I.digest = d + 1 := ⟨I.digest - 1, by omega⟩
    obtain ⟨d, hd⟩ := this
    rw [hd]
    simp [List.replicate_succ]
  have hkey : ∀ t j, I.keyShare (z I.seed) (z 32) t j = z I.blk := by
    intro t j
    rw [Picnic1.Inst.keyShare, htape]
    have : (z (I.blk + I.gate)).take I.blk = z I.blk := by simp [z]
    rw [this, toBits_zero]
    have : trunc I.X.n 0 = 0 := by funext i; simp [trunc]
    rw [this, ofBits_zero]
  have hgt : ∀ t j, toBits (I.gateTape (z I.seed) (z 32) t j) = 0 := by
    intro t j
    rw [Picnic1.Inst.gateTape]
    split_ifs
    · rw [htape, toBits_zero]
    · rw [htape]
      have : (z (I.blk + I.gate)).drop I.blk = z I.gate := by simp [z]
      rw [this, toBits_zero]
  have hbv : ∀ t j, I.bitView (z 32) t j v = ⟨0, 0, 0⟩ := by
    intro t j
    rw [Picnic1.Inst.bitView, toBits_zero, toBits_zero, hgt]
  have hpad : ∀ n m, ZeroPad n (z m) := by
    intro n m i _ _
    simp only [z, msbBit]
    rw [rep_zero_getD]
    simp
  have hcom : I.commit v = z I.digest := hvs
  refine ⟨I, v, hI, hX, h6, ?_, rfl, ?_⟩
  · have hne : I.hash (seedString v) I.digest ≠ I.hash (I.viewString v) I.digest := by
      rw [hs, hvs]
      intro h
      obtain ⟨d, hd⟩ : ∃ d, I.digest = d + 1 := ⟨I.digest - 1, by omega⟩
      simp only [z, hd, List.replicate_succ, List.cons.injEq] at h
      exact absurd h.1 (by decide)
    rintro x (rfl | rfl) y (rfl | rfl) ⟨hxy, h⟩
    · exact hxy rfl
    · exact hne h
    · exact hne h.symm
    · exact hxy rfl
  · intro ct t c he
    refine ⟨⟨z I.digest, z (if I.unruh then I.gLen ((c + 2) % 3) else 0), z I.gate, z I.seed, z I.seed, z (if c = 0 then 0 else I.blk)⟩,
      ⟨by simp [z], by simp [z], by simp [z], by simp [z], by simp [z], by simp [z]⟩, fun _ => hpad _ _, ?_, ?_, ?_, ?_⟩
    · refine ⟨rfl, rfl, ?_, ?_, by simp [v, z], hpad _ _, rfl, ?_, ?_, ?_⟩
      · by_cases h : c = 2
        · rw [if_pos h, if_neg (by omega : ¬ c = 0)]
        · rw [if_neg h]
          exact (hkey _ _).symm
      · by_cases h : c = 1
        · rw [if_pos h, if_neg (by omega : ¬ c = 0)]
        · rw [if_neg h]
          exact (hkey _ _).symm
      · rw [hbv, hbv, toBits_zero, hX]
        intro r _ k _ j _
        simp only [null_share]
        simp [Zkb.andShare, Zkb.gateL, Zkb.gateR]
      · rw [hbv, toBits_zero, Zkb.output, hX, null_share, ofBits_zero]
      · rw [hbv, toBits_zero, Zkb.output, hX, null_share, ofBits_zero]
    · intro j _
      rfl
    · intro j _
      rw [hcom, arrange]
      split_ifs <;> rfl
    · exact ⟨⟨Or.inl rfl, Or.inr rfl⟩, Or.inl rfl, Or.inr rfl⟩

open Spec.Picnic1 in
/-- A concrete case for C44: for every parameter set there are an instance, a first message and a set of strings without
collisions for which all 3^T challenges can be answered. -/
theorem C44_zkb_example (p : ℕ) (hp : p ∈ zkbParams) : ∃ (I : Picnic1.Inst) (ct pt salt : Buf) (outs coms : ℕ → ℕ → Buf) (L : Set Buf),
    I.Is p ∧ (∀ x ∈ L, ∀ y ∈ L, ¬ I.Collide x y) ∧ (∀ e : Fin I.T → Fin 3, I.Answerable ct pt salt outs coms L e) ∧
    2 ^ I.T < Fintype.card (Fin I.T → Fin 3) := by
  obtain ⟨I, v, hI, -, hT, hL, hv, hA⟩ := zkb_null_answers p hp
  refine ⟨I, List.replicate I.blk 0, List.replicate I.blk 0, List.replicate 32 0, fun _ _ => List.replicate I.blk 0, fun _ _ => List.replicate I.digest 0,
    {seedString v, I.viewString v}, hI, hL, fun e t => ?_, ?_⟩
  · obtain ⟨o, h⟩ := hA (List.replicate I.blk 0) t (e t) (e t).2
    refine ⟨o, v, v, ?_⟩
    have : arrange (e t) v.out v.out (Picnic1.ofBits I.blk (toBits v.out + toBits v.out + toBits (List.replicate I.blk 0))) = fun _ => List.replicate I.blk 0 := by
      funext j
      rw [hv, toBits_zero, add_zero, add_zero, ofBits_zero, arrange]
      split_ifs <;> rfl
    rw [this] at h
    exact h
  · rw [Fintype.card_fun, Fintype.card_fin, Fintype.card_fin]
    exact Nat.pow_lt_pow_left (by decide) (by omega)

/-! ### Picnic3 -/

open Classical in
/-- C44, Picnic3: let the first message of a prover be fixed, and let `L` be a set of strings, no two of which have the same digest.
If `L` does not reveal a secret key, then the number of challenges that can be answered with strings from `L` is at most
binomial(T - b, u - b) 16^b for some b: the prover has cheated in the preprocessing of `b` repetitions, must have them opened, and
can answer for all parties there and for a single party in the others. -/
theorem C44_p3 (I : Picnic3.Inst) (p : ℕ) (hI : I.Is p) (ct pt salt root : Buf) (digests : ℕ → Buf) (L : Set Buf)
    (hL : ∀ x ∈ L, ∀ y ∈ L, ¬ I.Collide x y) (hR : ¬ I.Reveals ct pt salt digests L) :
    ∃ b ≤ I.u, (univ.filter fun e : Fin I.T → Option (Fin 16) => Picnic3.IsVector I.u e ∧ I.Answerable ct pt salt root digests L e).card ≤
      (I.T - b).choose (I.u - b) * 16 ^ b := by
  have key : ∀ t : Fin I.T, (∃ e, I.Answerable ct pt salt root digests L e ∧ e t = none) →
      ∀ e e', I.Answerable ct pt salt root digests L e → I.Answerable ct pt salt root digests L e' → ∀ k k', e t = some k → e' t = some k' → k = k' := by
    rintro t ⟨ec, ⟨c, c1, c2, c3, c4, c5⟩, hc⟩ ea eb ⟨a, a1, a2, a3, a4, a5⟩ ⟨b, b1, b2, b3, b4, b5⟩ k k' hk hk'
    by_contra hne
    have hta : t.1 ∈ a.C := (a2 t).1.2 (by rw [hk]; rfl)
    have htb : t.1 ∈ b.C := (b2 t).1.2 (by rw [hk']; rfl)
    have htc : t.1 ∉ c.C := fun h => by
      have := (c2 t).1.1 h
      rw [hc] at this
      exact absurd this (by decide)
    have hid : Picnic3.hid a.C a.Q t ≠ Picnic3.hid b.C b.Q t := by
      rw [(a2 t).2 k hk, (b2 t).2 k' hk']
      exact fun h => hne (Fin.ext h)
    have hall : ∀ τ ∈ [a, b, c], I.Hashed salt L τ := by
      intro τ hτ
      simp only [List.mem_cons, List.not_mem_nil, or_false] at hτ
      rcases hτ with rfl | rfl | rfl <;> assumption
    rcases C39_extract I p hI ct pt salt a b c a1 b1 c1 t hta htb t.2 htc hid ⟨a4.trans b4.symm, (a5 t t.2).trans (b5 t t.2).symm⟩
      ⟨a4.trans c4.symm, (a5 t t.2).trans (c5 t t.2).symm⟩ with hbr | ⟨κ, hκ, he⟩
    · rcases hbr with ⟨τ, τ', j, m, m', hj, o, o', hcl⟩ | ⟨τ, τ', m, m', hcl⟩ | hcl | ⟨k, k1, k2, hcl⟩
      · exact hL _ ((hall τ m).commit t t.2 j hj o) _ ((hall τ' m').commit t t.2 j hj o') hcl
      · exact hL _ ((hall τ m).com t t.2) _ ((hall τ' m').com t t.2) hcl
      · exact hL _ (a3.msg t hta) _ (b3.msg t htb) hcl
      · exact hL _ (a3.node t hta k k1 k2) _ (b3.node t htb k k1 k2) hcl
    · exact hR ⟨t, t.2, c.v t, a.v t, κ, hκ, c5 t t.2, c3.com t t.2,
        fun j hj => ⟨((c1.round t.2).1 j hj fun h => absurd h htc).1, (c1.1.2.1 t t.2 htc).2.2 j hj, c3.commit t t.2 j hj fun h => absurd h htc⟩, a3.msg t hta, (a1.1.2.2.1 t hta).2.1.key, he⟩
  have hp : ∀ t : Fin I.T, ∃ q : Fin 16, (∃ e, I.Answerable ct pt salt root digests L e ∧ e t = none) →
      ∀ e, I.Answerable ct pt salt root digests L e → e t = none ∨ e t = some q := by
    intro t
    by_cases hq : ∃ q e, I.Answerable ct pt salt root digests L e ∧ e t = some q
    · obtain ⟨q, e', he', hq⟩ := hq
      refine ⟨q, fun hG e he => ?_⟩
      cases hv : e t with
      | none => exact Or.inl rfl
      | some k => exact Or.inr (congrArg some (key t hG e e' he he' k q hv hq))
    · refine ⟨0, fun _ e he => ?_⟩
      cases hv : e t with
      | none => exact Or.inl rfl
      | some k => exact absurd ⟨k, e, he, hv⟩ hq
  choose q hq using hp
  exact card_cheat_le (G := fun t => ∃ e, I.Answerable ct pt salt root digests L e ∧ e t = none) (p := q) (fun e he => he.1)
    (fun e he t hG hv => hG ⟨e, he.2, hv⟩) fun e he t hG => hq t hG e he.2

/-- The proportion of the challenges in C44 is at most 2 to the minus security level. -/
theorem C44_p3_level (I : Picnic3.Inst) (p : ℕ) (hI : I.Is p) (κ : ℕ) (hκ : level p = some κ) (b : ℕ) (hb : b ≤ I.u) :
    (I.T - b).choose (I.u - b) * 16 ^ b * 2 ^ κ ≤ (univ.filter fun e : Fin I.T → Option (Fin 16) => Picnic3.IsVector I.u e).card := by
  rw [card_some_vectors, mul_assoc]
  obtain ⟨h1, h2, h3⟩ := p3_numbers
  unfold Picnic3.Inst.Is Picnic3.table at hI
  split at hI <;> simp only [Option.some.injEq, Prod.mk.injEq, reduceCtorEq] at hI <;>
    (obtain ⟨-, -, -, hT, hu, -⟩ := hI; obtain rfl := Option.some.inj hκ; rw [← hu] at hb; rw [← hT, ← hu]
     refine choose_ratio hb (by decide) ?_
     first | exact h1 b (by omega) | exact h2 b (by omega) | exact h3 b (by omega))

open Classical in
/-- C44, Picnic3, as a probability: without collision and without secret key in `L`, a uniformly random challenge can be answered
with probability at most 2 to the minus security level. -/
theorem C44_p3_rate (I : Picnic3.Inst) (p : ℕ) (hI : I.Is p) (κ : ℕ) (hκ : level p = some κ) (ct pt salt root : Buf) (digests : ℕ → Buf) (L : Set Buf)
    (hL : ∀ x ∈ L, ∀ y ∈ L, ¬ I.Collide x y) (hR : ¬ I.Reveals ct pt salt digests L) :
    (univ.filter fun e : Fin I.T → Option (Fin 16) => Picnic3.IsVector I.u e ∧ I.Answerable ct pt salt root digests L e).card * 2 ^ κ ≤
      (univ.filter fun e : Fin I.T → Option (Fin 16) => Picnic3.IsVector I.u e).card := by
  obtain ⟨b, hb, h⟩ := C44_p3 I p hI ct pt salt root digests L hL hR
  exact (Nat.mul_le_mul_right _ h).trans (C44_p3_level I p hI κ hκ b hb)

/-- C44 for accepted signatures: the challenge of a signature that `picnic_verify` accepts can be answered for a first message
whose digest determines the challenge. -/
theorem C44_p3_verify (E : Env) (hE : EnvWF E) (hI : InvWF E) (pk : PublicKey) (hpk : pk.Arrays) (hp : pk.params ∈ picnic3Params) (P : Params)
    (hP : getParamSet pk.params = some P) (I : Picnic3.Inst) (hIs : I.Is pk.params) (hf : I.Shake E.perm)
    (hX : I.X = lowmcOf P (E.lowmc P)) (msg : Buf) (mlen : ℕ) (hm : mlen ≤ msg.length) (hm32 : mlen + 200 ≤ 2 ^ 32)
    (b : Buf) (hv : picnicVerify E (some pk) msg mlen b b.length = Outcome.ok 0) :
    ∃ (salt root : Buf) (digests : ℕ → Buf) (C Q : List ℕ) (e : Fin I.T → Option (Fin 16)),
      I.Answerable (pk.ciphertext.take I.blk) (pk.plaintext.take I.blk) salt root digests Set.univ e ∧ Picnic3.IsVector I.u e ∧ Picnic3.Asks C Q e ∧
      I.Challenge (I.hash ((List.range I.T).flatMap digests ++ root ++ salt ++ pk.ciphertext.take I.blk ++ pk.plaintext.take I.blk ++ msg.take mlen) I.digest)
        C Q := by
  obtain ⟨P', hP', hi3⟩ := getParamSet_p3 hp
  have h3 := p3WF_of hP hi3
  obtain ⟨salt, s, h, v, C, Q, -, h2, h4, -⟩ := C38_verify_sound E hE hI pk hpk hp P hP I hIs hf hX msg mlen hm hm32 b hv
  obtain rfl := inst3_of hP hIs hf hX
  have hcw := isChallenge3_wf ((challenge3_iff h3).1 h4)
  have hin : ∀ t ∈ C, t < (inst3 E P).T ∧ Picnic3.hid C Q t < 16 := fun t ht => ⟨hcw.ltC t ht, (hid_lt h3 hcw ht).2⟩
  let e : Fin (inst3 E P).T → Option (Fin 16) := fun t => if ht : t.1 ∈ C then some ⟨Picnic3.hid C Q t, (hin t ht).2⟩ else none
  have hsome : ∀ t, (e t).isSome ↔ t.1 ∈ C := fun t => by
    by_cases ht : t.1 ∈ C
    · simp [e, ht]
    · simp [e, ht]
  have hask : Picnic3.Asks C Q e := fun t => ⟨(hsome t).symm, fun k hk => by
    by_cases ht : t.1 ∈ C
    · simp only [e, ht, dite_true, Option.some.injEq] at hk
      rw [← hk]
    · simp [e, ht] at hk⟩
  refine ⟨salt, h 1, fun t => (inst3 E P).comDigest (v t), C, Q, e, ⟨⟨s, h, v, C, Q⟩, ⟨h2, hin⟩, hask, ⟨fun _ _ _ _ _ => trivial, fun _ _ => trivial,
    fun _ _ => trivial, fun _ _ _ _ _ => trivial⟩, rfl, fun _ _ => rfl⟩, ?_, hask, h4⟩
  rw [Picnic3.IsVector]
  have hmap : ((univ.filter fun t => (e t).isSome).map Fin.valEmbedding) = C.toFinset := by
    ext x
    simp only [mem_map, mem_filter, mem_univ, true_and, Fin.valEmbedding_apply, List.mem_toFinset]
    constructor
    · rintro ⟨t, ht, rfl⟩
      exact (hsome t).1 ht
    · intro hx
      exact ⟨⟨x, (hin x hx).1⟩, (hsome ⟨x, (hin x hx).1⟩).2 hx, rfl⟩
  rw [← card_map Fin.valEmbedding, hmap, List.toFinset_card_of_nodup hcw.nodup]
  exact hcw.lenC

/-- A concrete case for C44, Picnic3: what an honest signer computes answers every challenge, for every parameter set. -/
theorem C44_p3_example (p : ℕ) (hp : p ∈ picnic3Params) : ∃ (I : Picnic3.Inst) (ct pt salt root : Buf) (digests : ℕ → Buf), I.Is p ∧
    ∀ e : Fin I.T → Option (Fin 16), I.Answerable ct pt salt root digests Set.univ e := by
  obtain ⟨I, ct, pt, salt, s, h, v, hI, hacc⟩ := p3_honest_accepts p hp
  refine ⟨I, ct, pt, salt, h 1, fun t => I.comDigest (v t), hI, fun e => ?_⟩
  let f : ℕ → Option (Fin 16) := fun t => if ht : t < I.T then e ⟨t, ht⟩ else none
  have hf : ∀ t : Fin I.T, f t = e t := fun t => by simp [f]
  let C := (List.range I.T).filter fun t => (f t).isSome
  let Q := C.map fun t => ((f t).getD 0).1
  have hid : ∀ t ∈ C, Picnic3.hid C Q t = ((f t).getD 0).1 := fun t ht => by
    have hlt : C.idxOf t < C.length := List.idxOf_lt_length_iff.2 ht
    rw [Picnic3.hid, List.getD_eq_getElem _ _ (by simpa [Q] using hlt)]
    simp only [Q, List.getElem_map, List.getElem_idxOf]
  refine ⟨⟨s, h, v, C, Q⟩, hacc C Q fun t ht => ⟨?_, ?_⟩, fun t => ⟨?_, fun k hk => ?_⟩, ⟨fun _ _ _ _ _ => trivial, fun _ _ => trivial,
    fun _ _ => trivial, fun _ _ _ _ _ => trivial⟩, rfl, fun _ _ => rfl⟩
  · exact List.mem_range.1 (List.mem_filter.1 ht).1
  · rw [hid t ht]; exact Fin.isLt _
  · rw [List.mem_filter, List.mem_range, hf]
    simp [t.2]
  · rw [hid t (by rw [List.mem_filter, List.mem_range, hf, hk]; simp), hf, hk]
    rfl

end Picnic
