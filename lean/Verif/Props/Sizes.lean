import Verif.Proofs.SizesEnc
import Verif.Proofs.SizesWide
import Verif.Props.Conform1
import Verif.Props.Distribution

/-
C74: the lengths of signatures and the sizes that are published in the specification (Verif/Spec/Sizes.lean).
-/

namespace Picnic

open Finset Spec Spec.Challenge Spec.Sizes

/-! ### ZKB++ -/

/-- C74, ZKB++: a signature of a UR parameter set has the published size; a signature of another parameter set is shorter than the published maximum by
one block for each 0 in the challenge that it starts with. -/
theorem C74_zkb_length (E : Env) (hE : EnvWF E) (sk : PrivateKey) (hsk : sk.Arrays) (hp : sk.params ∈ zkbParams) (I : Picnic1.Inst)
    (hI : I.Is sk.params) (msg : Buf) (mlen : ℕ) (hm : mlen ≤ msg.length) (hm32 : mlen + 200 ≤ 2 ^ 32)
    (buf : Buf) (slen : ℕ) (hbuf : slen ≤ buf.length) (sig : Buf) (len : ℕ)
    (hs : picnicSign E (some sk) msg mlen buf slen = Outcome.ok (0, sig, len)) :
    ∃ max avg, published sk.params = some (max, avg) ∧ (avg = none ↔ I.unruh = true) ∧ len ≤ max ∧
      (I.unruh = true → len = max) ∧
      (I.unruh = false → ∃ e : Fin I.T → Fin 3, (∀ t : Fin I.T, value sig t = e t) ∧ len = sizeZkb max I.blk e ∧ I.blk * zeroCount e ≤ max) := by
  obtain ⟨P, hP, -⟩ := getParamSet_zkb hp
  obtain ⟨h1, h2⟩ := C06_length E hE sk hsk hp P hP msg mlen hm hm32 buf slen hbuf sig len hs
  obtain ⟨_, _, l, _, _, _, hv, _⟩ := C17_zkb_sign E hE sk hsk hp P hP msg mlen hm hm32 buf slen hbuf sig len hs
  obtain ⟨max, avg, hpub, hsz, havg, hur, hT, hb⟩ : ∃ max avg, published sk.params = some (max, avg) ∧ picnicSignatureSize sk.params = max ∧
      (avg = none ↔ I.unruh = true) ∧ (sk.params ∈ urParams ↔ I.unruh = true) ∧ P.numMPCRounds = I.T ∧ bytesFor P.stateSizeBits = I.blk := by
    clear * - hP hI hp
    unfold Picnic1.Inst.Is Picnic1.table at hI
    unfold Picnic1.Inst.blk
    generalize sk.params = p at *
    simp only [zkbParams, List.mem_cons, List.not_mem_nil, or_false] at hp
    rcases hp with rfl | rfl | rfl | rfl | rfl | rfl | rfl | rfl | rfl <;>
    · simp only [Option.some.injEq, Prod.mk.injEq] at hI
      obtain ⟨i1, i2, i3, i4, i5, i6, i7, i8⟩ := hI
      injection hP with hP
      subst hP
      rw [← i4, ← i1, ← i8]
      exact ⟨_, _, rfl, by decide, by decide, by decide, rfl, rfl⟩
  rw [hsz, hur] at h1 h2
  rw [hT, hb] at h2
  have hfalse : I.unruh = false → ¬ I.unruh = true := fun h => by rw [h]; decide
  have hcount : ∀ e : Fin I.T → Fin 3, (∀ t : Fin I.T, value sig t = e t) → (List.range I.T).countP (fun i => decide (value sig i = 0)) = zeroCount e := by
    intro e he
    rw [List.countP_eq_length_filter]
    unfold zeroCount
    rw [← List.toFinset_card_of_nodup (List.nodup_range.filter _)]
    symm
    refine card_bij (fun t _ => t.1) (fun t ht => ?_) (fun a _ b _ h => Fin.ext h) fun i hi => ?_
    · rw [mem_filter] at ht
      simp only [List.mem_toFinset, List.mem_filter, List.mem_range, decide_eq_true_eq]
      exact ⟨t.2, by rw [he t, ht.2]; rfl⟩
    · simp only [List.mem_toFinset, List.mem_filter, List.mem_range, decide_eq_true_eq] at hi
      refine ⟨⟨i, hi.1⟩, ?_, rfl⟩
      rw [mem_filter]
      refine ⟨mem_univ _, Fin.ext ?_⟩
      rw [← he ⟨i, hi.1⟩]
      exact hi.2
  refine ⟨max, avg, hpub, havg, ?_, h1, fun hu => ?_⟩
  · cases hu : I.unruh
    · have := h2 (hfalse hu); omega
    · exact (h1 hu).le
  · have he : ∀ t : Fin I.T, value sig t = ((⟨value sig t, (hv t (by rw [hT]; exact t.2)).2⟩ : Fin 3) : ℕ) := fun t => rfl
    refine ⟨fun t => ⟨value sig t, (hv t (by rw [hT]; exact t.2)).2⟩, he, ?_, ?_⟩
    · have := h2 (hfalse hu)
      rw [hcount _ he] at this
      unfold sizeZkb
      omega
    · have := h2 (hfalse hu)
      rw [hcount _ he] at this
      omega

/-- Concrete case for C74: for every ZKB++ parameter set a key pair signs a message, and the signature has the length of the theorem. -/
theorem C74_zkb_example (p : ℕ) (hp : p ∈ zkbParams) (msg : Buf) (hm : msg.length + 200 ≤ 2 ^ 32) :
    ∃ (I : Picnic1.Inst) (sk : PrivateKey) (buf sig : Buf) (len max : ℕ) (avg : Option ℕ), EnvWF zeroEnv ∧ sk.Arrays ∧ sk.params = p ∧ I.Is p ∧
      bitsOf sk.data 0 = 1 ∧ picnicSign zeroEnv (some sk) msg msg.length buf buf.length = Outcome.ok (0, sig, len) ∧ published p = some (max, avg) ∧
      (I.unruh = true → len = max) ∧
      (I.unruh = false → ∃ e : Fin I.T → Fin 3, (∀ t : Fin I.T, value sig t = e t) ∧ len = sizeZkb max I.blk e ∧ I.blk * zeroCount e ≤ max) := by
  obtain ⟨sk, P, n, buf, sig, len, hE, hsk, rfl, hP, hn, hpad, hR, hb, hbl, hs⟩ := zkb_example p hp msg hm
  have hI : (instOf zeroEnv P).Is sk.params := instOf_is zeroEnv hp hP
  obtain ⟨max, avg, h1, -, -, h2, h3⟩ := C74_zkb_length zeroEnv hE sk hsk hp _ hI msg msg.length le_rfl hm buf buf.length le_rfl sig len hs
  exact ⟨_, sk, buf, sig, len, max, avg, hE, hsk, rfl, hI, hb, hs, h1, h2, h3⟩

/-- The exact sum of the lengths for all challenges. -/
theorem sum_sizeZkb {T blk max : ℕ} (h : blk * T ≤ max) : 3 * ∑ e : Fin T → Fin 3, sizeZkb max blk e + blk * T * 3 ^ T = 3 * max * 3 ^ T := by
  have h1 : ∑ e : Fin T → Fin 3, sizeZkb max blk e + blk * ∑ e : Fin T → Fin 3, zeroCount e = 3 ^ T * max := by
    rw [mul_sum, ← sum_add_distrib, sum_congr rfl (g := fun _ => max) fun e _ => by
      unfold sizeZkb
      refine Nat.sub_add_cancel (le_trans (Nat.mul_le_mul_left _ ?_) h)
      exact (card_filter_le _ _).trans (by simp)]
    simp
  have h2 := sum_zeros (T := T)
  calc 3 * ∑ e : Fin T → Fin 3, sizeZkb max blk e + blk * T * 3 ^ T
      = 3 * ∑ e : Fin T → Fin 3, sizeZkb max blk e + blk * (T * 3 ^ T) := by ring
    _ = 3 * (∑ e : Fin T → Fin 3, sizeZkb max blk e + blk * ∑ e : Fin T → Fin 3, zeroCount e) := by rw [← h2]; ring
    _ = _ := by rw [h1]; ring

/-- C74, ZKB++: the average length of a signature for a uniformly random challenge (C52), in tenths of a byte; the published averages deviate by less than one
percent. -/
theorem C74_zkb_average (p : ℕ) (I : Picnic1.Inst) (hI : I.Is p) (max avg : ℕ) (h : published p = some (max, some avg)) :
    (∃ a, (p, a) ∈ [(1, 328640), (3, 741400), (5, 1281840), (10, 308200), (11, 685470), (12, 1216140)] ∧
      Average (fun e : Fin I.T → Fin 3 => sizeZkb max I.blk e) a) ∧
    Close (fun e : Fin I.T → Fin 3 => sizeZkb max I.blk e) avg := by
  have key : ∃ a, (p, a) ∈ [(1, 328640), (3, 741400), (5, 1281840), (10, 308200), (11, 685470), (12, 1216140)] ∧ 30 * max = 3 * a + 10 * (I.blk * I.T) ∧
      I.blk * I.T ≤ max ∧ 990 * avg ≤ 100 * a ∧ 100 * a ≤ 1010 * avg := by
    unfold Picnic1.Inst.Is Picnic1.table at hI
    unfold Picnic1.Inst.blk
    unfold published at h
    split at hI <;> simp only [Option.some.injEq, Prod.mk.injEq, reduceCtorEq, and_false] at hI h <;>
    · obtain ⟨i1, i2, i3, i4, i5, i6, i7, i8⟩ := hI
      obtain ⟨rfl, rfl⟩ := h
      rw [← i4, ← i1]
      first
        | exact ⟨328640, by decide, by decide, by decide, by decide, by decide⟩
        | exact ⟨741400, by decide, by decide, by decide, by decide, by decide⟩
        | exact ⟨1281840, by decide, by decide, by decide, by decide, by decide⟩
        | exact ⟨308200, by decide, by decide, by decide, by decide, by decide⟩
        | exact ⟨685470, by decide, by decide, by decide, by decide, by decide⟩
        | exact ⟨1216140, by decide, by decide, by decide, by decide, by decide⟩
  obtain ⟨a, ha, h1, h2, h3, h4⟩ := key
  have hs := sum_sizeZkb (T := I.T) h2
  have hc : Fintype.card (Fin I.T → Fin 3) = 3 ^ I.T := by simp
  have hpos : 0 < 3 ^ I.T := by positivity
  have hx : 10 * ∑ e : Fin I.T → Fin 3, sizeZkb max I.blk e = a * 3 ^ I.T := by
    generalize ∑ e : Fin I.T → Fin 3, sizeZkb max I.blk e = S at *
    generalize 3 ^ I.T = c at *
    generalize I.blk * I.T = z at *
    have : 30 * S + 10 * (z * c) = 3 * (a * c) + 10 * (z * c) := by
      calc 30 * S + 10 * (z * c) = 10 * (3 * S + z * c) := by ring
        _ = (30 * max) * c := by rw [hs]; ring
        _ = _ := by rw [h1]; ring
    omega
  refine ⟨⟨a, ha, ?_, ?_⟩, ?_, ?_⟩
  · rw [hc]; exact hx.ge
  · rw [hc, hx]; exact Nat.mul_lt_mul_of_pos_right (Nat.lt_succ_self _) hpos
  · rw [hc]
    have := Nat.mul_le_mul_right (3 ^ I.T) h3
    generalize ∑ e : Fin I.T → Fin 3, sizeZkb max I.blk e = S at *
    generalize 3 ^ I.T = c at *
    have e1 : 990 * avg * c = 10 * (99 * avg * c) := by ring
    have e2 : 100 * a * c = 100 * (10 * S) := by rw [hx]; ring
    omega
  · rw [hc]
    have := Nat.mul_le_mul_right (3 ^ I.T) h4
    generalize ∑ e : Fin I.T → Fin 3, sizeZkb max I.blk e = S at *
    generalize 3 ^ I.T = c at *
    have e1 : 1010 * avg * c = 10 * (101 * avg * c) := by ring
    have e2 : 100 * a * c = 100 * (10 * S) := by rw [hx]; ring
    omega

/-! ### Picnic3 -/

/-- C74, Picnic3: the length of a signature is determined by the challenge that belongs to the digest it starts with. -/
theorem C74_p3_length (E : Env) (hE : EnvWF E) (hI : InvWF E) (sk : PrivateKey) (hsk : sk.Arrays) (hp : sk.params ∈ picnic3Params) (P : Params)
    (hP : getParamSet sk.params = some P) (I : Picnic3.Inst) (hIs : I.Is sk.params) (hf : I.Shake E.perm)
    (hX : I.X = lowmcOf P (E.lowmc P)) (msg : Buf) (mlen : ℕ) (hm : mlen ≤ msg.length) (hm32 : mlen + 200 ≤ 2 ^ 32)
    (buf : Buf) (slen : ℕ) (hbuf : slen ≤ buf.length) (sig : Buf) (len : ℕ)
    (hs : picnicSign E (some sk) msg mlen buf slen = Outcome.ok (0, sig, len)) :
    ∃ (C Q : List ℕ) (e : I.Vector), I.Challenge (sig.take I.digest) C Q ∧ Picnic3.Asks C Q e.1 ∧ len = size I e := by
  obtain ⟨s, hsig, rfl, rfl⟩ := C38_sign E hE hI sk hsk hp P hP I hIs hf hX msg mlen hm hm32 buf slen hbuf sig len hs
  obtain ⟨C, Q, e, h1, h2, h3⟩ := signature_len hIs hsig
  refine ⟨C, Q, e, ?_, h2, h3⟩
  have : I.digest ≤ s.length := by rw [h3]; unfold size; omega
  rw [List.take_append_of_le_length this]
  exact h1

/-- C74, Picnic3: the average length of a signature for a uniformly random challenge (C52), in tenths of a byte. -/
theorem C74_p3_average (p : ℕ) (I : Picnic3.Inst) (hI : I.Is p) :
    ∃ a, (p, a) ∈ [(7, 124651), (8, 274125), (9, 485009)] ∧ Average (size I) a := by
  rcases inst_numbers hI with ⟨rfl, h1, h2, h3, h4, h5, h6, h7⟩ | ⟨rfl, h1, h2, h3, h4, h5, h6, h7⟩ | ⟨rfl, h1, h2, h3, h4, h5, h6, h7⟩
  · exact ⟨124651, by decide, average_of I (by rw [h1, h7]; norm_num) _ (by rw [h1, h2, h3, h4, h5, h6, h7]; exact num_7)⟩
  · exact ⟨274125, by decide, average_of I (by rw [h1, h7]; norm_num) _ (by rw [h1, h2, h3, h4, h5, h6, h7]; exact num_8)⟩
  · exact ⟨485009, by decide, average_of I (by rw [h1, h7]; norm_num) _ (by rw [h1, h2, h3, h4, h5, h6, h7]; exact num_9)⟩

/-- C74, Picnic3: the published averages of parameter sets 7 and 8 deviate from the true ones by less than one percent.  It fails for parameter set 9
(`C74_average_violated`). -/
theorem C74_p3_average_partial (p : ℕ) (I : Picnic3.Inst) (hI : I.Is p) (h9 : p ≠ 9) (max avg : ℕ) (h : published p = some (max, some avg)) : Close (size I) avg := by
  obtain ⟨a, ha, h1, h2⟩ := C74_p3_average p I hI
  unfold Close
  generalize ∑ e, size I e = S at *
  generalize Fintype.card I.Vector = c at *
  simp only [List.mem_cons, Prod.mk.injEq, List.not_mem_nil, or_false] at ha
  rcases ha with ⟨rfl, rfl⟩ | ⟨rfl, rfl⟩ | ⟨rfl, rfl⟩
  · obtain ⟨rfl, rfl⟩ : max = 13802 ∧ avg = 12359 := by simpa [published, eq_comm] using h
    constructor <;> omega
  · obtain ⟨rfl, rfl⟩ : max = 29750 ∧ avg = 27173 := by simpa [published, eq_comm] using h
    constructor <;> omega
  · exact absurd rfl h9

/-- C74: the published average of parameter set 9 is more than four percent below the true one. -/
theorem C74_average_violated (I : Picnic3.Inst) (hI : I.Is 9) : ∃ max avg, published 9 = some (max, some avg) ∧ ¬ Close (size I) avg ∧
    104 * avg * Fintype.card I.Vector < 100 * ∑ e, size I e := by
  obtain ⟨a, ha, h1, h2⟩ := C74_p3_average 9 I hI
  have hc : 0 < Fintype.card I.Vector := by
    rw [show Fintype.card I.Vector = I.T.choose I.u * 16 ^ I.u from card_vec]
    have hT : I.u ≤ I.T := by have := inst_numbers hI; omega
    exact Nat.mul_pos (Nat.choose_pos hT) (by positivity)
  refine ⟨54732, 46282, rfl, ?_⟩
  unfold Close
  generalize ∑ e, size I e = S at *
  generalize Fintype.card I.Vector = c at *
  have : a = 485009 := by simpa using ha
  subst this
  constructor
  · rintro ⟨-, h⟩; omega
  · omega

/-- C74, Picnic3: the exact maximal length. -/
theorem C74_p3_max (p : ℕ) (I : Picnic3.Inst) (hI : I.Is p) :
    ∃ m, (p, m) ∈ [(7, 13564), (8, 30104), (9, 53088)] ∧ (∀ e : I.Vector, size I e ≤ m) ∧ ∃ e : I.Vector, size I e = m := by
  have hTD : I.T ≤ 2 ^ I.depth := Nat.le_pow_clog (by omega) _
  have hup : ∀ e : I.Vector, size I e ≤ I.digest + 32 + (1 + ∑ ℓ ∈ range I.depth, min (twins I.depth I.T ℓ) I.u - I.u) * (I.seed + I.digest) +
      I.u * (4 * I.seed + I.blk + I.gate + I.digest) + I.u * I.gate := by
    intro e
    have hb : cut I.depth e.1 + I.u ≤ _ := cut_bound hTD e
    unfold size
    have hl : (I.u - lasts e.1) * I.gate ≤ I.u * I.gate := Nat.mul_le_mul_right _ (Nat.sub_le _ _)
    have hc := Nat.mul_le_mul_right (I.seed + I.digest) (show cut I.depth e.1 ≤ 1 + ∑ ℓ ∈ range I.depth, min (twins I.depth I.T ℓ) I.u - I.u by omega)
    omega
  have hlow : ∀ (T u D k : ℕ) (L : List ℕ), I.T = T → I.u = u → I.depth = D → Picnic3.IsVector u (opensOf T L) → cut D (opensOf T L) = k →
      ∃ e : I.Vector, size I e = I.digest + 32 + k * (I.seed + I.digest) + I.u * (4 * I.seed + I.blk + I.gate + I.digest) + I.u * I.gate := by
    rintro T u D k L rfl rfl rfl hv hk
    refine ⟨⟨opensOf I.T L, hv⟩, ?_⟩
    unfold size
    rw [hk, opensOf_lasts, Nat.sub_zero]
  rcases inst_numbers hI with ⟨rfl, h1, h2, h3, h4, h5, h6, h7⟩ | ⟨rfl, h1, h2, h3, h4, h5, h6, h7⟩ | ⟨rfl, h1, h2, h3, h4, h5, h6, h7⟩
  · refine ⟨13564, by decide, fun e => (hup e).trans ?_, ?_⟩
    · rw [h1, h2, h3, h4, h5, h6, h7]; decide
    · obtain ⟨e, he⟩ := hlow _ _ _ _ _ h1 h2 h7 longest_7 longest_cut_7
      exact ⟨e, by rw [he, h2, h3, h4, h5, h6]⟩
  · refine ⟨30104, by decide, fun e => (hup e).trans ?_, ?_⟩
    · rw [h1, h2, h3, h4, h5, h6, h7]; decide
    · obtain ⟨e, he⟩ := hlow _ _ _ _ _ h1 h2 h7 longest_8 longest_cut_8
      exact ⟨e, by rw [he, h2, h3, h4, h5, h6]⟩
  · refine ⟨53088, by decide, fun e => (hup e).trans ?_, ?_⟩
    · rw [h1, h2, h3, h4, h5, h6, h7]; decide
    · obtain ⟨e, he⟩ := hlow _ _ _ _ _ h1 h2 h7 longest_9 longest_cut_9
      exact ⟨e, by rw [he, h2, h3, h4, h5, h6]⟩

/-- C74, Picnic3: no signature of parameter sets 7 and 9 is longer than published.  It fails for parameter set 8 (`C74_max_violated`). -/
theorem C74_p3_max_partial (p : ℕ) (I : Picnic3.Inst) (hI : I.Is p) (h8 : p ≠ 8) (max : ℕ) (avg : Option ℕ) (h : published p = some (max, avg)) (e : I.Vector) :
    size I e ≤ max := by
  obtain ⟨m, hm, hle, -⟩ := C74_p3_max p I hI
  have := hle e
  simp only [List.mem_cons, Prod.mk.injEq, List.not_mem_nil, or_false] at hm
  rcases hm with ⟨rfl, rfl⟩ | ⟨rfl, rfl⟩ | ⟨rfl, rfl⟩
  · obtain ⟨rfl, -⟩ : max = 13802 ∧ _ := by simpa [published, eq_comm] using h
    omega
  · exact absurd rfl h8
  · obtain ⟨rfl, -⟩ : max = 54732 ∧ _ := by simpa [published, eq_comm] using h
    omega

/-- C74: parameter set 8 has longer signatures than published: with the stand-in `wideEnv` for the permutation of SHAKE, every message has a signature of 30104 bytes,
computed by `picnic_sign` with a key pair of `picnic_keygen`, and it is accepted. -/
theorem C74_max_violated (msg : Buf) (hm : msg.length + 200 ≤ 2 ^ 32) :
    ∃ (E : Env) (sk : PrivateKey) (P : Params) (buf sig : Buf) (len : ℕ), EnvWF E ∧ InvWF E ∧ sk.Arrays ∧ sk.params = 8 ∧ getParamSet 8 = some P ∧
      Relation P (E.lowmc P) sk.data sk.pk.plaintext sk.pk.ciphertext ∧ bitsOf sk.data 0 = 1 ∧
      picnicSign E (some sk) msg msg.length buf buf.length = Outcome.ok (0, sig, len) ∧
      picnicVerify E (some { sk.pk with params := 8 }) msg msg.length (sig.take len) (sig.take len).length = Outcome.ok 0 ∧
      len = 30104 ∧ ∃ max avg, published 8 = some (max, avg) ∧ max < len := by
  have hp : 8 ∈ picnic3Params := by decide
  obtain ⟨P, hP, hi3⟩ := getParamSet_p3 hp
  have hn := blockBits_of hP
  have hWF := paramsWF_of hP
  have h3 := p3WF_of hP hi3
  have hpos := hWF.nPos
  obtain ⟨pk, sk, e, h1, h2, rfl, h5, h6, h7, h8, -, h10⟩ := C07_keygen wideEnv wideEnv_wf (fun _ n => some (List.replicate n 0xff))
    (fun k n r h => by injection h with h; subst h; simp) 8 P.stateSizeBits hn ⟨0, [], []⟩ PrivateKey.zero _ _ rfl rfl
  have hR : Relation P (wideEnv.lowmc P) sk.data sk.pk.plaintext sk.pk.ciphertext := by
    obtain ⟨r, hr, -, hiff⟩ := C08_validate wideEnv wideEnv_wf sk sk.pk h6 h5
    rw [h10] at hr
    obtain ⟨-, P', hP', hR⟩ := hiff.1 (by simpa using hr.symm)
    rw [h1, hP] at hP'
    obtain rfl : P = P' := by simpa using hP'
    exact hR
  have hnum : P.numMPCRounds = 419 ∧ P.numMPCParties = 16 ∧ P.numOpenedRounds = 52 ∧ nextDigest wideEnv P = wideNext := by
    injection hP with hP
    subst hP
    exact ⟨rfl, rfl, rfl, rfl⟩
  obtain ⟨N0, hN⟩ := (C03_p3 wideEnv wideEnv_wf wideEnv_inv sk h6 (h2 ▸ hp) P (h2 ▸ hP) hR msg msg.length le_rfl hm
    (zeros (picnicSignatureSize 8)) (zeros (picnicSignatureSize 8)).length le_rfl (by rw [h2]; simp)).2 fun d _ => by
      rw [hnum.1, hnum.2.1, hnum.2.2.1, hnum.2.2.2]; exact wide_challenge d
  have hEW : EnvWF { wideEnv with fuel := N0 } := ⟨wideEnv_wf.perm, wideEnv_wf.lowmc⟩
  have hIW : InvWF { wideEnv with fuel := N0 } := ⟨wideEnv_inv.len, wideEnv_inv.inv⟩
  rcases (C03_p3 { wideEnv with fuel := N0 } hEW hIW sk h6 (h2 ▸ hp) P (h2 ▸ hP) hR msg msg.length le_rfl hm
    (zeros (picnicSignatureSize 8)) (zeros (picnicSignatureSize 8)).length le_rfl (by rw [h2]; simp)).1 with h | ⟨sig, len, h, hle, hsl⟩
  · exact absurd h (hN N0 le_rfl)
  have hlen : (sig.take len).length = len := by
    rw [List.length_take, hsl]
    simp only [zeros_length]
    rw [h2] at hle
    omega
  have hIs := inst3_is { wideEnv with fuel := N0 } hp hP
  have hsize : len = 30104 := by
    obtain ⟨s, hsig, rfl, rfl⟩ := C38_sign _ hEW hIW sk h6 (h2 ▸ hp) P (h2 ▸ hP) (inst3 _ P) (h2 ▸ hIs) (fun _ _ => rfl) rfl msg msg.length le_rfl hm
      (zeros (picnicSignatureSize 8)) _ le_rfl sig len h
    obtain ⟨C, Q, e, hc, ha, hl⟩ := signature_len hIs hsig
    obtain ⟨j, hj, hd⟩ : ∃ j < 2, s.take (inst3 { wideEnv with fuel := N0 } P).digest = wideD j := by
      obtain ⟨m, hm⟩ := signature_digest hsig
      rw [hm]
      injection hP with hP
      subst hP
      exact wide_shake (r := 136) (n := 48) (by norm_num) (by norm_num) (by norm_num)
    rw [hd, challenge3_iff h3, hnum.1, hnum.2.1, hnum.2.2.1] at hc
    have hc' : IsChallenge3 419 16 52 wideNext (wideD j) C Q := by
      rw [← hnum.2.2.2]; exact hc
    rw [hl]
    exact wide_size hIs (wide_is hj hc').1 (wide_is hj hc').2 ha
  refine ⟨{ wideEnv with fuel := N0 }, sk, P, _, sig, len, hEW, hIW, h6, h2, hP, hR, ?_, h, ?_, hsize, 29750, some 27173, rfl, by omega⟩
  · rw [h7, if_pos hpos]
    obtain ⟨m, hm⟩ : ∃ m, bytesFor P.stateSizeBits = m + 1 := ⟨bytesFor P.stateSizeBits - 1, by unfold bytesFor; omega⟩
    rw [hm, List.replicate_succ]
    change byteBit (0xff : Byte) _ = 1
    decide
  · rw [hlen]
    exact C02_sign_verify { wideEnv with fuel := N0 } hEW hIW wideEnv.junk N0 le_rfl sk h6 (h2 ▸ hp) P.stateSizeBits (h2 ▸ hn) msg msg.length le_rfl hm
      _ _ le_rfl sig len h { sk.pk with params := 8 } ⟨h5.pt, h5.ct⟩ h2.symm rfl rfl (sig.take len) (by rw [List.take_take, Nat.min_self]) (by omega)

end Picnic
