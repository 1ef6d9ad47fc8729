import Verif.Proofs.RomLib
import Verif.Proofs.RomMany

/-
C62: a signature of ZKB++, with a random oracle in place of SHAKE, tells nothing that can not be computed from the public key.
-/

namespace Picnic

open Spec Spec.Rom Spec.Challenge

theorem isKey_of {I : Picnic1.Inst} {sk : Bytes} (hsk : sk.length = I.blk) (hpad : ZeroPad I.X.n sk) : Picnic.Rom.IsKey I sk := by
  refine ⟨le_of_eq hsk, fun i hi => ?_⟩
  by_cases h : i < 8 * I.blk
  · have := hpad i hi h
    unfold Picnic1.toBits
    rw [this]
    rfl
  · exact Rom.toBits_ge (by omega)

/-- **C62**: for every set of observations, the probability that what an observer sees of a signer belongs to it is, up to 2 (3T)² / 2^(8·seed length), the
probability that what the observer sees of the simulator, which is not given the secret key, belongs to it. -/
theorem C62_simulator (I : Picnic1.Inst) (p : ℕ) (hI : I.Is p) (sk ct pt msg : Bytes) (hsk : sk.length = I.blk) (hpad : ZeroPad I.X.n sk) (hpt : pt.length = I.blk)
    (hct : ct = Picnic1.ofBits I.blk (I.X.enc (Picnic1.toBits sk) (Picnic1.toBits pt))) (N M : ℕ)
    (hN : 3 * I.T * (I.digest + I.seed + I.gate + 2 * I.blk) + 2 * I.blk + msg.length + 33 ≤ N) (hM1 : 3 * I.T * I.seed + 32 ≤ M) (hM2 : I.digest ≤ M)
    (hM3 : I.blk + I.gate ≤ M) (A : Set (Option (Bytes × (Arg N → Option (Val M))))) :
    |prob (fun O : Oracle N M => (real I O sk ct pt msg).map (observe I sk ct pt msg) ∈ A) -
      prob (fun ω : Oracle N M × Answers I M => (sim I ω.1 ω.2 ct pt msg).map (observe I sk ct pt msg) ∈ A)| ≤ 2 * (3 * I.T) ^ 2 / 2 ^ (8 * I.seed) :=
  Rom.real_sim hI hsk (isKey_of hsk hpad) hpt hct hN hM1 hM2 hM3 A

/-- **C62**, adversaries: for a procedure that asks the oracle at most `Q` questions, the probabilities of a result with a signature and with a simulated
signature differ by at most the probability that it asks for the string that begins with the secret key although it was not given a signature but a
simulated one, and (3 (3T)² + 4TQ) / 2^(8·seed length). -/
theorem C62_adversary (I : Picnic1.Inst) (p : ℕ) (hI : I.Is p) (sk ct pt msg : Bytes) (hsk : sk.length = I.blk) (hpad : ZeroPad I.X.n sk) (hpt : pt.length = I.blk)
    (hct : ct = Picnic1.ofBits I.blk (I.X.enc (Picnic1.toBits sk) (Picnic1.toBits pt))) (N M : ℕ)
    (hN : 3 * I.T * (I.digest + I.seed + I.gate + 2 * I.blk) + 2 * I.blk + msg.length + 33 ≤ N) (hM1 : 3 * I.T * I.seed + 32 ≤ M) (hM2 : I.digest ≤ M)
    (hM3 : I.blk + I.gate ≤ M) (α : Type) (A : Bytes → Adv N M α) (Q : ℕ) (hA : ∀ s O, ((A s).asked O).length ≤ Q) (S : Set α) :
    |prob (fun O : Oracle N M => Gets A S (real I O sk ct pt msg)) - prob (fun ω : Oracle N M × Answers I M => Gets A S (sim I ω.1 ω.2 ct pt msg))| ≤
      prob (fun ω : Oracle N M × Answers I M => Asks A (I.secretString sk ct pt msg) (sim I ω.1 ω.2 ct pt msg)) +
        (3 * (3 * I.T) ^ 2 + 4 * I.T * Q) / 2 ^ (8 * I.seed) := by
  obtain ⟨h1, h2⟩ := Rom.adv_real_sim hI hsk (isKey_of hsk hpad) hpt hct hN hM1 hM2 hM3 hA S
  have h3 := Rom.prob_or (fun ω : Oracle N M × Answers I M => Gets A S (sim I ω.1 ω.2 ct pt msg)) fun ω => Asks A (I.secretString sk ct pt msg) (sim I ω.1 ω.2 ct pt msg)
  rw [abs_le]
  constructor <;> linarith

/-- **C62**, recovering keys: whoever computes a key that fits the public key from a signature, with at most `Q` questions, finds one almost as often without
a signature. -/
theorem C62_recover (I : Picnic1.Inst) (p : ℕ) (hI : I.Is p) (sk ct pt msg : Bytes) (hsk : sk.length = I.blk) (hpad : ZeroPad I.X.n sk) (hpt : pt.length = I.blk)
    (hct : ct = Picnic1.ofBits I.blk (I.X.enc (Picnic1.toBits sk) (Picnic1.toBits pt))) (N M : ℕ)
    (hN : 3 * I.T * (I.digest + I.seed + I.gate + 2 * I.blk) + 2 * I.blk + msg.length + 33 ≤ N) (hM1 : 3 * I.T * I.seed + 32 ≤ M) (hM2 : I.digest ≤ M)
    (hM3 : I.blk + I.gate ≤ M) (A : Bytes → Adv N M Bytes) (Q : ℕ) (hA : ∀ s O, ((A s).asked O).length ≤ Q) :
    prob (fun O : Oracle N M => Gets A {k | Fits I ct pt k} (real I O sk ct pt msg)) ≤
      prob (fun ω : Oracle N M × Answers I M => Finds I ct pt A (sim I ω.1 ω.2 ct pt msg)) + (3 * (3 * I.T) ^ 2 + 4 * I.T * Q) / 2 ^ (8 * I.seed) := by
  obtain ⟨h1, -⟩ := Rom.adv_real_sim hI hsk (isKey_of hsk hpad) hpt hct hN hM1 hM2 hM3 hA {k | Fits I ct pt k}
  refine le_trans h1 (add_le_add (Rom.prob_mono fun ω h => ?_) le_rfl)
  rcases h with ⟨x, hx, h⟩ | ⟨x, hx, y, hy, h⟩
  · exact ⟨x, hx, Or.inl h⟩
  · refine ⟨x, hx, Or.inr ⟨y, hy, ?_⟩⟩
    unfold Fits
    rw [h]
    unfold Picnic1.Inst.secretString
    simp only [List.append_assoc]
    rw [List.take_append_of_le_length (by omega), List.take_of_length_le (by omega)]
    exact hct

/-- **C62**, several signatures: for a procedure that is given the signatures of `k` different messages and asks the oracle at most `Q` questions, the
probabilities of a result with signatures and with simulated signatures differ by at most the probability that it asks for a string that begins with the
secret key although it was given simulated signatures, and k (4TQ + 400 k T²) / 2^(8·seed length). -/
theorem C62_many (I : Picnic1.Inst) (p : ℕ) (hI : I.Is p) (sk ct pt : Bytes) (k : ℕ) (ms : Fin k → Bytes) (hms : Function.Injective ms) (hsk : sk.length = I.blk)
    (hpad : ZeroPad I.X.n sk) (hpt : pt.length = I.blk)
    (hct : ct = Picnic1.ofBits I.blk (I.X.enc (Picnic1.toBits sk) (Picnic1.toBits pt))) (N M : ℕ)
    (hN : ∀ i, 3 * I.T * (I.digest + I.seed + I.gate + 2 * I.blk) + 2 * I.blk + (ms i).length + 33 ≤ N) (hM1 : 3 * I.T * I.seed + 32 ≤ M) (hM2 : I.digest ≤ M)
    (hM3 : I.blk + I.gate ≤ M) (α : Type) (A : List Bytes → Adv N M α) (Q : ℕ) (hA : ∀ l O, ((A l).asked O).length ≤ Q) (S : Set α) :
    |prob (fun O : Oracle N M => GetsMany A S (realMany I O sk ct pt ms)) -
      prob (fun ω : Oracle N M × (Fin k → Answers I M) => GetsMany A S (simMany I ω.1 ct pt ms ω.2))| ≤
      prob (fun ω : Oracle N M × (Fin k → Answers I M) => AsksMany I A sk ct pt ms (simMany I ω.1 ct pt ms ω.2)) +
        k * (4 * I.T * Q + 400 * k * I.T ^ 2) / 2 ^ (8 * I.seed) := by
  obtain ⟨h1, h2⟩ := Rom.many_adv hI hsk (isKey_of hsk hpad) hpt hct hM1 hM2 hM3 ms hms hN hA S
  have h3 := Rom.prob_or (fun ω : Oracle N M × (Fin k → Answers I M) => GetsMany A S (simMany I ω.1 ct pt ms ω.2)) fun ω =>
    AsksMany I A sk ct pt ms (simMany I ω.1 ct pt ms ω.2)
  rw [abs_le]
  constructor <;> linarith

/-- **C62**, recovering keys from several signatures: whoever computes a key that fits the public key from the signatures of `k` different messages, with at
most `Q` questions, finds one almost as often without signatures. -/
theorem C62_many_recover (I : Picnic1.Inst) (p : ℕ) (hI : I.Is p) (sk ct pt : Bytes) (k : ℕ) (ms : Fin k → Bytes) (hms : Function.Injective ms)
    (hsk : sk.length = I.blk) (hpad : ZeroPad I.X.n sk) (hpt : pt.length = I.blk)
    (hct : ct = Picnic1.ofBits I.blk (I.X.enc (Picnic1.toBits sk) (Picnic1.toBits pt))) (N M : ℕ)
    (hN : ∀ i, 3 * I.T * (I.digest + I.seed + I.gate + 2 * I.blk) + 2 * I.blk + (ms i).length + 33 ≤ N) (hM1 : 3 * I.T * I.seed + 32 ≤ M) (hM2 : I.digest ≤ M)
    (hM3 : I.blk + I.gate ≤ M) (A : List Bytes → Adv N M Bytes) (Q : ℕ) (hA : ∀ l O, ((A l).asked O).length ≤ Q) :
    prob (fun O : Oracle N M => GetsMany A {k | Fits I ct pt k} (realMany I O sk ct pt ms)) ≤
      prob (fun ω : Oracle N M × (Fin k → Answers I M) => FindsMany I ct pt A (simMany I ω.1 ct pt ms ω.2)) +
        k * (4 * I.T * Q + 400 * k * I.T ^ 2) / 2 ^ (8 * I.seed) := by
  obtain ⟨h1, -⟩ := Rom.many_adv hI hsk (isKey_of hsk hpad) hpt hct hM1 hM2 hM3 ms hms hN hA {k | Fits I ct pt k}
  refine le_trans h1 (add_le_add (Rom.prob_mono fun ω h => ?_) le_rfl)
  rcases h with ⟨x, hx, h⟩ | ⟨x, hx, y, hy, i, h⟩
  · exact ⟨x, hx, Or.inl h⟩
  · refine ⟨x, hx, Or.inr ⟨y, hy, ?_⟩⟩
    unfold Fits
    rw [h]
    unfold Picnic1.Inst.secretString
    simp only [List.append_assoc]
    rw [List.take_append_of_le_length (by omega), List.take_of_length_le (by omega)]
    exact hct

/-- With one message these are the signer and the simulator of C62_adversary. -/
theorem C62_many_one (I : Picnic1.Inst) (sk ct pt msg : Bytes) (N M : ℕ) (O : Oracle N M) (a : Answers I M) :
    realMany I O sk ct pt (fun _ : Fin 1 => msg) = (real I O sk ct pt msg).map (fun p => ([p.sig], p.oracle)) ∧
    simMany I O ct pt (fun _ : Fin 1 => msg) (fun _ => a) = (sim I O a ct pt msg).map (fun p => ([p.sig], p.oracle)) := by
  constructor
  · simp only [realMany, realAll, real]
    cases challenge I O _ <;> rfl
  · simp only [simMany, Option.bind_some]

/-- A procedure that asks one question, namely for the hash value of the signature, and has its beginning as its result. -/
example (I : Picnic1.Inst) (N M : ℕ) : ∃ A : Bytes → Adv N M Bytes, (∀ s O, ((A s).asked O).length ≤ 1) ∧
    ∀ s (O : Oracle N M), s.length ≤ N → (A s).run O = hash O s I.blk :=
  ⟨fun s => .ask ⟨s.take N, by simp⟩ fun v => .done (bytes I.blk v), fun s O => by simp [Adv.asked], fun s O h => by
    simp only [Adv.run, Spec.Rom.hash, ask, dif_pos h, List.take_of_length_le h]⟩

/-- **C62**, the library: with SHAKE in place of the oracle the signer makes the signature that `picnic_sign` returns, and the key satisfies what
C62_simulator asks of the ciphertext. -/
theorem C62_library (E : Env) (hE : EnvWF E) (sk : PrivateKey) (hsk : sk.Arrays) (hp : sk.params ∈ zkbParams) (P : Params)
    (hP : getParamSet sk.params = some P) (I : Picnic1.Inst) (hI : I.Is sk.params) (hf : I.f = E.perm)
    (hX : I.X = lowmcOf P (E.lowmc P)) (msg : Buf) (mlen : ℕ) (hm : mlen ≤ msg.length) (hm32 : mlen + 200 ≤ 2 ^ 32)
    (buf : Buf) (slen : ℕ) (hbuf : slen ≤ buf.length) (sig : Buf) (len : ℕ)
    (hs : picnicSign E (some sk) msg mlen buf slen = Outcome.ok (0, sig, len)) (N M : ℕ)
    (hN : 3 * I.T * (I.digest + I.seed + I.gate + 2 * I.blk) + 2 * I.blk + mlen + 33 ≤ N) (hM1 : 3 * I.T * I.seed + 32 ≤ M) (hM2 : I.digest ≤ M)
    (hM3 : I.seed + I.gate + I.blk ≤ M) :
    (sk.pk.ciphertext.take I.blk = Picnic1.ofBits I.blk (I.X.enc (Picnic1.toBits (sk.data.take I.blk)) (Picnic1.toBits (sk.pk.plaintext.take I.blk))) ∧
      (sk.data.take I.blk).length = I.blk ∧ (sk.pk.plaintext.take I.blk).length = I.blk) ∧
    ∃ s e, real I (shakeTable I N M) (sk.data.take I.blk) (sk.pk.ciphertext.take I.blk) (sk.pk.plaintext.take I.blk) (msg.take mlen) =
        some ⟨s, shakeTable I N M, I.secrets (sk.data.take I.blk) (sk.pk.ciphertext.take I.blk) (sk.pk.plaintext.take I.blk) (msg.take mlen), e⟩ ∧
      sig = s ++ buf.drop s.length ∧ len = s.length := by
  have h3 : isPicnic3 sk.params = false := (getParamSet_zkb hp).choose_spec.2
  have hWF := paramsWF_of hP
  have hb := hWF.bytes
  have hn := hWF.nMax
  have hM := match1_of hP hI hf hX
  obtain ⟨views, ch, -, hR, -⟩ := picnicSign_zkb_zero hE hP h3 hsk hm hm32 hbuf rfl hs
  have hblk := hM.blk
  have l1 : (sk.data.take I.blk).length = I.blk := by rw [List.length_take, hsk.1]; omega
  have l2 : (sk.pk.plaintext.take I.blk).length = I.blk := by rw [List.length_take, hsk.2.1]; omega
  have l3 : (sk.pk.ciphertext.take I.blk).length = I.blk := by rw [List.length_take, hsk.2.2]; omega
  have hct : sk.pk.ciphertext.take I.blk = Picnic1.ofBits I.blk (I.X.enc (Picnic1.toBits (sk.data.take I.blk)) (Picnic1.toBits (sk.pk.plaintext.take I.blk))) := by
    have hR' : Relation P (E.lowmc P) (sk.data.take I.blk) (sk.pk.plaintext.take I.blk) sk.pk.ciphertext := by
      refine (relation_congr hWF (fun i hi => ?_) (fun i hi => ?_) fun i _ => rfl).1 hR
      · rw [bitsOf_take (by omega)]
      · rw [bitsOf_take (by omega)]
    rw [← relation_iff hWF (by rw [hsk.2.2]; omega)] at hR'
    rw [ofBits_eq, toBits_eq, toBits_eq, hX, hblk] at *
    exact hR'.symm
  refine ⟨⟨hct, l1, l2⟩, ?_⟩
  obtain ⟨s, hsg, h1, h2⟩ := C37_sign E hE sk hsk hp P hP I hI hf hX msg mlen hm hm32 buf slen hbuf sig len hs
  have hsz := Rom.rom_sizes hI
  have hml : (msg.take mlen).length = mlen := by rw [List.length_take]; omega
  have hT : 1 ≤ I.T := by
    have hz := zkb_sizes hI
    rcases Nat.eq_zero_or_pos I.T with h | h
    · rw [h] at hz; omega
    · exact h
  have hNd : I.digest + 1 ≤ N := by
    have : 3 * 1 * (I.digest + I.seed + I.gate + 2 * I.blk) ≤ 3 * I.T * (I.digest + I.seed + I.gate + 2 * I.blk) :=
      Nat.mul_le_mul_right _ (Nat.mul_le_mul_left _ hT)
    omega
  obtain ⟨e, he⟩ := Rom.lib_real (N := N) (M := M) (Rom.pts_len hI l1 l3 l2 (by rw [hml]; exact hN) _) hNd (by omega) hM1 hM2 (by omega) (fun _ => hM3) hsz.1 hsg
  exact ⟨s, e, he, h1, h2⟩

/-- Concrete case for C62: for every parameter set and message there are a key other than zero and an oracle, the table of SHAKE, with which the signer
makes a signature and C62_simulator applies. -/
theorem C62_example (p : ℕ) (hp : p ∈ zkbParams) (msg : Buf) (hm : msg.length + 200 ≤ 2 ^ 32) :
    ∃ (I : Picnic1.Inst) (sk ct pt : Buf) (N M : ℕ), I.Is p ∧ sk.length = I.blk ∧ ZeroPad I.X.n sk ∧ pt.length = I.blk ∧
      ct = Picnic1.ofBits I.blk (I.X.enc (Picnic1.toBits sk) (Picnic1.toBits pt)) ∧ Picnic1.toBits sk 0 = 1 ∧
      3 * I.T * (I.digest + I.seed + I.gate + 2 * I.blk) + 2 * I.blk + msg.length + 33 ≤ N ∧ 3 * I.T * I.seed + 32 ≤ M ∧ I.digest ≤ M ∧ I.blk + I.gate ≤ M ∧
      real I (shakeTable I N M) sk ct pt msg ≠ none ∧
      0 < prob (fun O : Oracle N M => (real I O sk ct pt msg).map (observe I sk ct pt msg) ∈ {x | x ≠ none}) := by
  obtain ⟨sk, P, n, buf, sig, len, hE, hsk, rfl, hP, hn, hpad, hR, h0, hbl, hs⟩ := zkb_example p hp msg hm
  have hI : (instOf zeroEnv P).Is sk.params := instOf_is zeroEnv hp hP
  generalize hIe : instOf zeroEnv P = I at hI
  have hf : I.f = zeroEnv.perm := by rw [← hIe]; rfl
  have hX : I.X = lowmcOf P (zeroEnv.lowmc P) := by rw [← hIe]; rfl
  have hWF := paramsWF_of hP
  have hb := hWF.bytes
  have hpos := hWF.nPos
  have hMt := match1_of hP hI hf hX
  have hnn : n = I.X.n := by
    have := blockBits_of hP
    rw [hn] at this
    injection this with this
    rw [this, hX]; rfl
  set N := 3 * I.T * (I.digest + I.seed + I.gate + 2 * I.blk) + 2 * I.blk + msg.length + 33 with hN
  set M := 3 * I.T * I.seed + 32 + I.digest + (I.seed + I.gate + I.blk) with hMd
  obtain ⟨⟨h1, h2, h3⟩, s, e, h4, -, -⟩ := C62_library zeroEnv hE sk hsk hp P hP I hI hf hX msg msg.length le_rfl hm buf buf.length le_rfl sig len hs N M
    le_rfl (by omega) (by omega) (by omega)
  rw [List.take_length] at h4
  have hne : real I (shakeTable I N M) (sk.data.take I.blk) (sk.pk.ciphertext.take I.blk) (sk.pk.plaintext.take I.blk) msg ≠ none := by rw [h4]; simp
  refine ⟨I, _, _, _, N, M, hI, h2, ?_, h3, h1, ?_, le_rfl, by omega, by omega, by omega, hne, ?_⟩
  · intro i hi hl
    have hl' : i < 8 * bytesFor n := by rw [hnn]; exact hl
    have hi' : i / 8 < I.blk := by have : i < 8 * I.blk := hl; omega
    have := hpad i (by omega) hl'
    unfold msbBit at this ⊢
    rwa [List.getD_eq_getElem?_getD, List.getElem?_take_of_lt hi', ← List.getD_eq_getElem?_getD]
  · have : Picnic1.toBits (sk.data.take I.blk) 0 = bitsOf (sk.data.take I.blk) 0 := by rw [toBits_eq]
    rw [this, bitsOf_take (by have := hMt.blk; omega), h0]
  · unfold prob
    refine div_pos (Nat.cast_pos.2 (Finset.card_pos.2 ⟨shakeTable I N M, ?_⟩)) (Nat.cast_pos.2 Fintype.card_pos)
    simp only [Finset.mem_filter, Finset.mem_univ, true_and, Set.mem_ofPred_eq]
    exact fun h => hne (Option.map_eq_none_iff.1 h)

end Picnic
