import Verif.Proofs.ForgeLib
import Verif.Proofs.ForgeMany
import Verif.Props.Rom
import Verif.Props.Conform1

/-
C63: whoever makes a valid signature of ZKB++, with a random oracle in place of SHAKE, has asked the oracle for a secret key in three parts.
-/

namespace Picnic

open Spec Spec.Rom Spec.Challenge

/-- Before any signature is known. -/
def Rom.noBase {N M : ℕ} (I : Picnic1.Inst) (ct pt : Bytes) (A : Adv N M (Bytes × Bytes)) : Rom.Base N M I ct pt 0 0 ∅ where
  base := ⟨fun _ => [], fun _ _ _ _ => rfl⟩
  W _ := ∅
  H O := O
  adv _ := A
  vals := Fin.elim0
  len _ := le_rfl
  plain _ x hx := absurd hx List.not_mem_nil
  off _ _ _ := rfl
  on _ x hx := absurd hx (Set.notMem_empty _)
  inj _ x hx := absurd hx (Set.notMem_empty _)
  fresh _ x hx := absurd hx List.not_mem_nil
  loc _ _ _ := ⟨rfl, rfl, fun x hx => absurd hx (Set.notMem_empty _)⟩
  known _ _ _ _ _ _ hx := absurd hx (Set.notMem_empty _)
  next _ _ _ hx := absurd hx (Set.notMem_empty _)
  chal _ _ _ _ _ _ _ _ hx := absurd hx (Set.notMem_empty _)

/-- **C63**: the probability that a procedure with at most `Q` questions makes a valid signature is at most the probability that the strings it asks for, with
those that are hashed for the opened views of its signature, contain three shares of a key that fits the public key, and
R (2/3)^T + (R² (4T + 3) + R (T + 1)²) / 2^(8·digest length), where R = Q + 12T + 1. -/
theorem C63_forge (I : Picnic1.Inst) (p : ℕ) (hI : I.Is p) (ct pt : Bytes) (hct : ct.length = I.blk) (hpt : pt.length = I.blk) (N M : ℕ) (hM : I.digest ≤ M)
    (A : Adv N M (Bytes × Bytes)) (Q : ℕ) (hA : ∀ O, (A.asked O).length ≤ Q)
    (hN : ∀ O, 3 * I.T * (I.digest + I.seed + I.gate + 2 * I.blk) + 2 * I.blk + (A.run O).1.length + 33 ≤ N) :
    prob (fun O : Oracle N M => Forges I O ct pt A) ≤ prob (fun O : Oracle N M => Reveal I ct pt (Hashed I O ct pt A)) +
      (((Q + 12 * I.T + 1 : ℕ) : ℝ) * (2 / 3) ^ I.T +
        (((Q + 12 * I.T + 1 : ℕ) : ℝ) ^ 2 * (4 * I.T + 3) + ((Q + 12 * I.T + 1 : ℕ) : ℝ) * (I.T + 1) ^ 2) / 2 ^ (8 * I.digest)) := by
  have h := Rom.Base.prob_wins (Rom.noBase I ct pt A) hI hM (fun _ O => hA O) hct hpt fun _ O => hN O
  simp only [zero_add, Nat.cast_zero, mul_zero, add_zero] at h
  refine le_trans (Rom.prob_mono (Q' := fun O => Reveal I ct pt (Hashed I O ct pt A) ∨ _) fun O hf => ?_) (le_trans (Rom.prob_or _ _) (add_le_add le_rfl h))
  by_cases hr : Reveal I ct pt (Hashed I O ct pt A)
  · exact Or.inl hr
  · refine Or.inr ⟨⟨Set.notMem_empty _, hf⟩, fun hr' => hr ?_⟩
    have key : ∀ x ∈ (Rom.noBase I ct pt A).Strings O, x ∈ Hashed I O ct pt A := by
      rintro x (hx | hx | hx)
      · exact Or.inl hx
      · exact Or.inr hx
      · exact absurd hx (Set.notMem_empty _)
    obtain ⟨x, hx, y, hy, z, hz, hk⟩ := hr'
    exact ⟨x, key x hx, y, key y hy, z, key z hz, hk⟩

/-- **C63**, the library: with SHAKE in place of the oracle, `picnic_verify` accepts only valid signatures, and accepts them all. -/
theorem C63_library (E : Env) (hE : EnvWF E) (pk : PublicKey) (hpk : pk.Arrays) (hp : pk.params ∈ zkbParams) (P : Params)
    (hP : getParamSet pk.params = some P) (I : Picnic1.Inst) (hI : I.Is pk.params) (hf : I.f = E.perm)
    (hX : I.X = lowmcOf P (E.lowmc P)) (msg : Buf) (mlen : ℕ) (hm : mlen ≤ msg.length) (hm32 : mlen + 200 ≤ 2 ^ 32) (N M : ℕ)
    (hN : 3 * I.T * (I.digest + I.seed + I.gate + 2 * I.blk) + 2 * I.blk + mlen + 33 ≤ N) (hM : I.digest ≤ M) (hM3 : I.seed + I.gate + I.blk ≤ M) (b : Buf) :
    (picnicVerify E (some pk) msg mlen b b.length = Outcome.ok 0 →
      ∃ n ≤ b.length, Valid I (shakeTable I N M) (pk.ciphertext.take I.blk) (pk.plaintext.take I.blk) (msg.take mlen) (b.take n)) ∧
    ∀ n ≤ b.length, Valid I (shakeTable I N M) (pk.ciphertext.take I.blk) (pk.plaintext.take I.blk) (msg.take mlen) (b.take n) →
      ∃ n0, ∀ fuel ≥ n0, ∀ junk : ℕ → ℕ → ℕ → Byte, picnicVerify { E with junk := junk, fuel := fuel } (some pk) msg mlen b b.length = Outcome.ok 0 := by
  have hb : I.blk ≤ pk.ciphertext.length ∧ I.blk ≤ pk.plaintext.length := by
    have hM1 := match1_of hP hI hf hX
    have hWF := paramsWF_of hP
    have h1 := hWF.bytes
    have h2 := hWF.nMax
    have h3 := hM1.blk
    rw [hpk.1, hpk.2]
    omega
  have key : ∀ n, Valid I (shakeTable I N M) (pk.ciphertext.take I.blk) (pk.plaintext.take I.blk) (msg.take mlen) (b.take n) ↔
      I.IsValid (pk.ciphertext.take I.blk) (pk.plaintext.take I.blk) (msg.take mlen) (b.take n) := fun n =>
    Rom.tab_valid hI (by rw [List.length_take]; omega) (by rw [List.length_take]; omega) (by rw [List.length_take]; omega) hM hM3
  constructor
  · intro h
    obtain ⟨n, hn, hv⟩ := C37_verify_sound E hE pk hpk hp P hP I hI hf hX msg mlen hm hm32 b h
    exact ⟨n, hn, (key n).2 hv⟩
  · intro n hn hv
    exact C37_verify_complete E hE pk hpk hp P hP I hI hf hX msg mlen hm hm32 b n hn ((key n).1 hv)

/-- **C63**, few candidates: the strings of C63_forge are at most Q + 2T, so at most (Q + 2T)³ sums of three shares are to be tried. -/
theorem C63_candidates (I : Picnic1.Inst) (p : ℕ) (hI : I.Is p) (ct pt : Bytes) (N M : ℕ) (A : Adv N M (Bytes × Bytes)) (O : Oracle N M) :
    ∃ L : List Bytes, L.length ≤ (A.asked O).length + 2 * I.T ∧ ∀ x ∈ Hashed I O ct pt A, x ∈ L := by
  by_cases h : ∃ a b, ValidBy I O ct pt (A.run O).1 (A.run O).2 a b
  · obtain ⟨a, b, h⟩ := h
    refine ⟨(A.asked O).map (·.1) ++ (List.range I.T).flatMap fun t => [viewText I O (a t), viewText I O (b t)], ?_, ?_⟩
    · have : ∀ n, ((List.range n).flatMap fun t => [viewText I O (a t), viewText I O (b t)]).length = 2 * n := fun n => by
        induction n with
        | zero => rfl
        | succ n ih => rw [List.range_succ, List.flatMap_append, List.length_append, ih]; simp; omega
      rw [List.length_append, List.length_map, this]
    · rintro x (⟨y, hy, rfl⟩ | ⟨a', b', h', t, ht, hx⟩)
      · exact List.mem_append_left _ (List.mem_map.2 ⟨y, hy, rfl⟩)
      · obtain ⟨e, salt, o, o1, p1, q1, -, -, g, -⟩ := Rom.parsed_of h
        obtain ⟨e', salt', o', o1', p1', q1', -, -, g', -⟩ := Rom.parsed_of h'
        rw [p1] at p1'
        injection p1' with p1'
        simp only [Prod.mk.injEq] at p1'
        obtain ⟨rfl, rfl, rfl⟩ := p1'
        have v := (g t ht).2.2
        have v' := (g' t ht).2.2
        rw [← q1' t ht, q1 t ht] at v'
        obtain ⟨ea, eb⟩ : a t = a' t ∧ b t = b' t := Rom.openedBy_unique hI v v'
        refine List.mem_append_right _ (List.mem_flatMap.2 ⟨t, List.mem_range.2 ht, ?_⟩)
        rw [ea, eb]
        rcases hx with rfl | rfl <;> simp
  · refine ⟨(A.asked O).map (·.1), by rw [List.length_map]; omega, ?_⟩
    rintro x (⟨y, hy, rfl⟩ | ⟨a', b', h', -⟩)
    · exact List.mem_map.2 ⟨y, hy, rfl⟩
    · exact absurd ⟨a', b', h'⟩ h

/-- **C63**, the size of the bound: with κ = 4·digest length (128, 192 or 256) and R up to 2^(κ - 12), it is at most R / 2^(κ - 1). -/
theorem C63_small (I : Picnic1.Inst) (p : ℕ) (hI : I.Is p) (R : ℝ) (h0 : 0 ≤ R) (hR : R ≤ 2 ^ (4 * I.digest - 12)) :
    R * (2 / 3) ^ I.T + (R ^ 2 * (4 * I.T + 3) + R * (I.T + 1) ^ 2) / 2 ^ (8 * I.digest) ≤ R / 2 ^ (4 * I.digest - 1) := by
  have key : ∀ κ T : ℕ, 32 ≤ κ → T ≤ 500 → 2 ^ (κ + T) ≤ 3 ^ T → ∀ R : ℝ, 0 ≤ R → R ≤ 2 ^ (κ - 12) →
      R * (2 / 3) ^ T + (R ^ 2 * (4 * T + 3) + R * (T + 1) ^ 2) / 2 ^ (2 * κ) ≤ R / 2 ^ (κ - 1) := by
    intro κ T hκ hT hk R h0 hR
    have e1 : (2 / 3 : ℝ) ^ T ≤ 1 / 2 ^ κ := by
      rw [div_pow, div_le_div_iff₀ (by positivity) (by positivity), one_mul, ← pow_add, add_comm]
      exact_mod_cast hk
    have hTr : (T : ℝ) ≤ 500 := by exact_mod_cast hT
    have hT0 : (0 : ℝ) ≤ T := Nat.cast_nonneg _
    have e2 : (2 : ℝ) ^ κ = 2 ^ (κ - 12) * 4096 := by
      rw [show κ = κ - 12 + 12 by omega, pow_add]; norm_num
    have e3 : (2 : ℝ) ^ κ = 2 ^ (κ - 1) * 2 := by
      rw [show κ = κ - 1 + 1 by omega, pow_add]; norm_num
    have e4 : (2 : ℝ) ^ 20 ≤ 2 ^ (κ - 12) := pow_le_pow_right₀ (by norm_num) (by omega)
    have e5 : R * (4 * T + 3) + (T + 1) ^ 2 ≤ 2 ^ κ := by
      rw [e2]
      nlinarith [mul_le_mul hR (show (4 * T + 3 : ℝ) ≤ 2003 by linarith) (by positivity) (by positivity)]
    have e6 : R / 2 ^ (κ - 1) = R * (1 / 2 ^ κ) + R * 2 ^ κ / 2 ^ (2 * κ) := by
      rw [two_mul, pow_add, e3]
      field_simp
      ring
    rw [e6]
    refine add_le_add (mul_le_mul_of_nonneg_left e1 h0) (div_le_div_of_nonneg_right ?_ (by positivity))
    calc R ^ 2 * (4 * T + 3) + R * (T + 1) ^ 2 = R * (R * (4 * T + 3) + (T + 1) ^ 2) := by ring
      _ ≤ R * 2 ^ κ := mul_le_mul_of_nonneg_left e5 h0
  have hk : 32 ≤ 4 * I.digest ∧ I.T ≤ 500 ∧ 2 ^ (4 * I.digest + I.T) ≤ 3 ^ I.T := by
    have := hI
    unfold Picnic1.Inst.Is Picnic1.table at this
    split at this <;> simp only [Option.some.injEq, Prod.mk.injEq, reduceCtorEq] at this <;>
      obtain ⟨-, -, -, hT, -, hd, -⟩ := this <;> rw [← hT, ← hd] <;> decide +kernel
  rw [show 8 * I.digest = 2 * (4 * I.digest) by ring]
  exact key _ _ hk.1 hk.2.1 hk.2.2 R h0 hR

/-- Concrete case for C63: for every parameter set and message there are a public key, an oracle (the table of SHAKE) and a procedure with two questions that
makes a valid signature, and C63_forge applies to it. -/
theorem C63_example (p : ℕ) (hp : p ∈ zkbParams) (msg : Buf) (hm : msg.length + 200 ≤ 2 ^ 32) :
    ∃ (I : Picnic1.Inst) (ct pt : Bytes) (N M : ℕ) (A : Adv N M (Bytes × Bytes)), I.Is p ∧ ct.length = I.blk ∧ pt.length = I.blk ∧ I.digest ≤ M ∧
      (∀ O, (A.asked O).length ≤ 2) ∧ (∀ O, 3 * I.T * (I.digest + I.seed + I.gate + 2 * I.blk) + 2 * I.blk + (A.run O).1.length + 33 ≤ N) ∧
      Forges I (shakeTable I N M) ct pt A ∧ 0 < prob (fun O : Oracle N M => Forges I O ct pt A) := by
  obtain ⟨sk, P, n, buf, sig, len, hE, hsk, rfl, hP, hn, hpad, hR, -, hbl, hs⟩ := zkb_example p hp msg hm
  have hI : (instOf zeroEnv P).Is sk.params := instOf_is zeroEnv hp hP
  obtain ⟨s, h1, h2, h3⟩ := C37_sign zeroEnv hE sk hsk hp P hP (instOf zeroEnv P) hI rfl rfl msg msg.length le_rfl hm buf buf.length
    le_rfl sig len hs
  have hst : sig.take len = s := by rw [h2, h3]; simp
  have hacc : picnicVerify zeroEnv (some { sk.pk with params := sk.params }) msg msg.length s s.length = Outcome.ok 0 := by
    have := C01_sign_verify zeroEnv hE zeroEnv.junk zeroEnv.fuel le_rfl sk hsk hp n hn hpad msg msg.length le_rfl hm buf buf.length
      le_rfl sig len hs { sk.pk with params := sk.params } ⟨hsk.pk.pt, hsk.pk.ct⟩ rfl rfl rfl s
      (by rw [hst, h3, List.take_length]) (by omega)
    rw [h3] at this
    exact this
  have hMt := match1_of hP hI rfl rfl
  generalize hIe : instOf zeroEnv P = I at hI hMt
  have hf : I.f = zeroEnv.perm := by rw [← hIe]; rfl
  have hX : I.X = lowmcOf P (zeroEnv.lowmc P) := by rw [← hIe]; rfl
  have hWF := paramsWF_of hP
  have hb := hWF.bytes
  have hnM := hWF.nMax
  have hblk := hMt.blk
  have l2 : (sk.pk.plaintext.take I.blk).length = I.blk := by rw [List.length_take, hsk.2.1]; omega
  have l3 : (sk.pk.ciphertext.take I.blk).length = I.blk := by rw [List.length_take, hsk.2.2]; omega
  set N := 3 * I.T * (I.digest + I.seed + I.gate + 2 * I.blk) + 2 * I.blk + msg.length + 33 with hN
  set M := I.digest + (I.seed + I.gate + I.blk) with hMd
  obtain ⟨m, hm1, hm2⟩ := (C63_library zeroEnv hE { sk.pk with params := sk.params } ⟨hsk.pk.pt, hsk.pk.ct⟩ hp P hP I hI hf hX msg msg.length le_rfl hm N M
    le_rfl (by omega) (by omega) s).1 hacc
  rw [List.take_length] at hm2
  refine ⟨I, _, _, N, M, .ask ⟨[0], by rw [hN]; simp⟩ fun v => .ask ⟨[1], by rw [hN]; simp⟩ fun w => .done (msg, s.take m), hI, l3, l2, by omega,
    fun O => by simp [Adv.asked], fun O => by simp only [Adv.run]; omega, hm2, ?_⟩
  unfold prob
  refine div_pos (Nat.cast_pos.2 (Finset.card_pos.2 ⟨shakeTable I N M, ?_⟩)) (Nat.cast_pos.2 Fintype.card_pos)
  simp only [Finset.mem_filter, Finset.mem_univ, true_and]
  exact hm2

/-- **C63**, with signatures: the probability that a procedure which is given the signatures of `k` messages, with at most `Q` questions, makes a valid
signature on another message is at most the probability that it betrays a key when the signatures are simulated, without the secret key, and
k (4T Q' + 400 k T²) / 2^(8·seed length) + R (2/3)^T + (R² (4T + 3) + R (T + 1)² + R P + P²) / 2^(8·digest length),
where Q' = Q + 12T + 1, R = k (10T + 1) + Q' and P = k (9T + 2). -/
theorem C63_many (I : Picnic1.Inst) (p : ℕ) (hI : I.Is p) (sk ct pt : Bytes) (k : ℕ) (ms : Fin k → Bytes) (hms : Function.Injective ms)
    (hsk : sk.length = I.blk) (hpad : ZeroPad I.X.n sk) (hpt : pt.length = I.blk)
    (hct : ct = Picnic1.ofBits I.blk (I.X.enc (Picnic1.toBits sk) (Picnic1.toBits pt))) (N M : ℕ)
    (hN : ∀ i, 3 * I.T * (I.digest + I.seed + I.gate + 2 * I.blk) + 2 * I.blk + (ms i).length + 33 ≤ N) (hM1 : 3 * I.T * I.seed + 32 ≤ M) (hM2 : I.digest ≤ M)
    (hM3 : I.blk + I.gate ≤ M) (A : List Bytes → Adv N M (Bytes × Bytes)) (Q : ℕ) (hA : ∀ l O, ((A l).asked O).length ≤ Q)
    (hN' : ∀ l O, 3 * I.T * (I.digest + I.seed + I.gate + 2 * I.blk) + 2 * I.blk + ((A l).run O).1.length + 33 ≤ N) (Q' R P : ℕ) (hQ' : Q' = Q + 12 * I.T + 1)
    (hR : R = k * (10 * I.T + 1) + Q') (hP : P = k * (9 * I.T + 2)) :
    prob (fun O : Oracle N M => ForgesNew I O sk ct pt ms A) ≤ prob (fun ω : Oracle N M × (Fin k → Answers I M) => Betrays I ω.1 ct pt ms ω.2 A) +
      (k * (4 * I.T * Q' + 400 * k * I.T ^ 2) / 2 ^ (8 * I.seed) + R * (2 / 3) ^ I.T +
        ((R : ℝ) ^ 2 * (4 * I.T + 3) + R * (I.T + 1) ^ 2 + R * P + P ^ 2) / 2 ^ (8 * I.digest)) := by
  have h := Rom.forge_many hI hsk (isKey_of hsk hpad) hpt hct hM1 hM2 hM3 ms hms hN A hA hN'
  rw [← hQ', ← hR, ← hP] at h
  refine le_trans h (add_le_add le_rfl (le_of_eq ?_))
  unfold Rom.manyBound
  ring

/-- **C63**, few candidates: the strings among which `Betrays` looks are at most Q + 2T and k (9T + 2), to be added in threes, and at most 12T + 1 others. -/
theorem C63_many_candidates (I : Picnic1.Inst) (p : ℕ) (hI : I.Is p) (ct pt : Bytes) (N M k : ℕ) (ms : Fin k → Bytes) (a : Fin k → Answers I M) (O : Oracle N M)
    (msg sig : Bytes) :
    (∃ L : List Bytes, L.length ≤ k * (9 * I.T + 2) ∧ ∀ x ∈ Written I O ct pt ms a, x ∈ L) ∧
    ∃ L : List Bytes, L.length ≤ 12 * I.T + 1 ∧ ∀ x, x ∈ L ↔ x ∈ Checked I O ct pt msg sig := by
  constructor
  · refine ⟨Finset.univ.toList.map fun x : Fin k × Query I.T I.unruh => point I (Spec.Rom.hash O · I.digest) [] ct pt (ms x.1) (a x.1)
      (simView I ct pt (a x.1) ((challenge I O (Rom.bytes I.digest (a x.1 .digest))).getD [])) x.2, ?_, ?_⟩
    · rw [List.length_map, Finset.length_toList, Finset.card_univ, Fintype.card_prod, Fintype.card_fin]
      exact Nat.mul_le_mul_left _ Rom.card_query
    · rintro x ⟨i, e, q, he, -, rfl⟩
      refine List.mem_map.2 ⟨(i, q), Finset.mem_toList.2 (Finset.mem_univ _), ?_⟩
      dsimp only
      rw [he, Option.getD_some]
  · exact ⟨Rom.vstrs I ct pt O msg sig, Rom.vstrs_len msg sig, fun x => ⟨Rom.vstrs_checked, Rom.checked_vstrs hI⟩⟩

/-- In the environment with the constant digest every message is signed. -/
theorem zeroEnv_signs (sk : PrivateKey) (hsk : sk.Arrays) (hp : sk.params ∈ zkbParams) (P : Params) (hP : getParamSet sk.params = some P)
    (hR : Relation P (zeroEnv.lowmc P) sk.data sk.pk.plaintext sk.pk.ciphertext) (msg : Buf) (hm : msg.length + 200 ≤ 2 ^ 32) :
    ∃ buf sig len, picnicSign zeroEnv (some sk) msg msg.length buf buf.length = Outcome.ok (0, sig, len) := by
  obtain ⟨P', hP', h3⟩ := getParamSet_zkb hp
  rw [hP] at hP'
  obtain rfl : P = P' := by simpa using hP'
  obtain ⟨hc1, hc2⟩ := C03_zkb zeroEnv zeroEnv_wf sk hsk hp P hP hR msg msg.length le_rfl hm
    (zeros (picnicSignatureSize sk.params)) (zeros (picnicSignatureSize sk.params)).length le_rfl (by simp)
  have hdig := (zkbWF_of hP h3).digPos
  have hT := (zkbWF_of hP h3).T
  have hnd := hc2 fun d _ => by
    refine Nat.le_trans ?_ (zeroEnv_stream hP 999 d)
    have : 4 * 1 * 999 ≤ 4 * P.digestSizeBytes * 999 := by
      apply Nat.mul_le_mul_right
      omega
    omega
  rcases hc1 with h | ⟨sig, len, h, -, -⟩
  · exact absurd h hnd
  · exact ⟨_, sig, len, h⟩

/-- Concrete case for C63_many: for every parameter set and two messages there are a key, an oracle (the table of SHAKE) and a procedure with one question
that is given the signature of the first message and makes a valid signature on the second; and C63_many applies to it. -/
theorem C63_many_example (p : ℕ) (hp : p ∈ zkbParams) (m m' : Buf) (hne : m' ≠ m) (hm : m.length + 200 ≤ 2 ^ 32) (hm' : m'.length + 200 ≤ 2 ^ 32) :
    ∃ (I : Picnic1.Inst) (sk ct pt : Bytes) (N M : ℕ) (A : List Bytes → Adv N M (Bytes × Bytes)), I.Is p ∧ sk.length = I.blk ∧ ZeroPad I.X.n sk ∧
      pt.length = I.blk ∧ ct = Picnic1.ofBits I.blk (I.X.enc (Picnic1.toBits sk) (Picnic1.toBits pt)) ∧
      3 * I.T * (I.digest + I.seed + I.gate + 2 * I.blk) + 2 * I.blk + m.length + 33 ≤ N ∧ 3 * I.T * I.seed + 32 ≤ M ∧ I.digest ≤ M ∧ I.blk + I.gate ≤ M ∧
      (∀ l O, ((A l).asked O).length ≤ 1) ∧ (∀ l O, 3 * I.T * (I.digest + I.seed + I.gate + 2 * I.blk) + 2 * I.blk + ((A l).run O).1.length + 33 ≤ N) ∧
      ForgesNew I (shakeTable I N M) sk ct pt (fun _ : Fin 1 => m) A ∧
      0 < prob (fun O : Oracle N M => ForgesNew I O sk ct pt (fun _ : Fin 1 => m) A) := by
  obtain ⟨sk, P, n, buf, sig, len, hE, hsk, rfl, hP, hn, hpad, hR, -, hbl, hs⟩ := zkb_example p hp m' hm'
  obtain ⟨buf1, sig1, len1, hs1⟩ := zeroEnv_signs sk hsk hp P hP hR m hm
  have hI : (instOf zeroEnv P).Is sk.params := instOf_is zeroEnv hp hP
  obtain ⟨s, h1, h2, h3⟩ := C37_sign zeroEnv hE sk hsk hp P hP (instOf zeroEnv P) hI rfl rfl m' m'.length le_rfl hm' buf buf.length
    le_rfl sig len hs
  have hst : sig.take len = s := by rw [h2, h3]; simp
  have hacc : picnicVerify zeroEnv (some { sk.pk with params := sk.params }) m' m'.length s s.length = Outcome.ok 0 := by
    have := C01_sign_verify zeroEnv hE zeroEnv.junk zeroEnv.fuel le_rfl sk hsk hp n hn hpad m' m'.length le_rfl hm' buf buf.length
      le_rfl sig len hs { sk.pk with params := sk.params } ⟨hsk.pk.pt, hsk.pk.ct⟩ rfl rfl rfl s
      (by rw [hst, h3, List.take_length]) (by omega)
    rw [h3] at this
    exact this
  have hMt := match1_of hP hI rfl rfl
  generalize hIe : instOf zeroEnv P = I at hI hMt
  have hf : I.f = zeroEnv.perm := by rw [← hIe]; rfl
  have hX : I.X = lowmcOf P (zeroEnv.lowmc P) := by rw [← hIe]; rfl
  have hWF := paramsWF_of hP
  have hb := hWF.bytes
  have hnM := hWF.nMax
  have hblk := hMt.blk
  have hnn : n = I.X.n := by
    have := blockBits_of hP
    rw [hn] at this
    injection this with this
    rw [this, hX]; rfl
  set N := 3 * I.T * (I.digest + I.seed + I.gate + 2 * I.blk) + 2 * I.blk + (m.length + m'.length) + 33 with hN
  set M := 3 * I.T * I.seed + 32 + I.digest + (I.seed + I.gate + I.blk) with hMd
  obtain ⟨w, hw1, hw2⟩ := (C63_library zeroEnv hE { sk.pk with params := sk.params } ⟨hsk.pk.pt, hsk.pk.ct⟩ hp P hP I hI hf hX m' m'.length le_rfl hm' N M
    (by omega) (by omega) (by omega) s).1 hacc
  rw [List.take_length] at hw2
  obtain ⟨⟨g1, g2, g3⟩, s', e', g4, -, -⟩ := C62_library zeroEnv hE sk hsk hp P hP I hI hf hX m m.length le_rfl hm buf1 buf1.length le_rfl sig1 len1 hs1 N M
    (by omega) (by omega) (by omega) (by omega)
  rw [List.take_length] at g4
  have hF : ForgesNew I (shakeTable I N M) (sk.data.take I.blk) (sk.pk.ciphertext.take I.blk) (sk.pk.plaintext.take I.blk) (fun _ : Fin 1 => m)
      (fun _ => .ask ⟨[0], by rw [hN]; simp⟩ fun _ => .done (m', s.take w)) := by
    refine ⟨[s'], ?_, fun _ => hne, hw2⟩
    simp only [realAll]
    rw [g4]
    rfl
  refine ⟨I, _, _, _, N, M, _, hI, g2, ?_, g3, g1, by omega, by omega, by omega, by omega, fun l O => by simp [Adv.asked], fun l O => by simp only [Adv.run]; omega, hF, ?_⟩
  · intro i hi hl
    have hl' : i < 8 * bytesFor n := by rw [hnn]; exact hl
    have hi' : i / 8 < I.blk := by have : i < 8 * I.blk := hl; omega
    have := hpad i (by omega) hl'
    unfold msbBit at this ⊢
    rwa [List.getD_eq_getElem?_getD, List.getElem?_take_of_lt hi', ← List.getD_eq_getElem?_getD]
  · unfold prob
    refine div_pos (Nat.cast_pos.2 (Finset.card_pos.2 ⟨shakeTable I N M, ?_⟩)) (Nat.cast_pos.2 Fintype.card_pos)
    simp only [Finset.mem_filter, Finset.mem_univ, true_and]
    exact hF

end Picnic
