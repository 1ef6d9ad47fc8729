import Verif.Proofs.AdaptBound
import Verif.Props.RomForge

/-
C62, C63: with messages that are chosen by whoever is given the signatures, one after the other, depending on what was learned before.
-/

namespace Picnic

open Spec Spec.Rom Spec.Challenge

/-- **C62**, chosen messages: for a procedure that asks the oracle at most `Q` questions and has at most `k` different messages of at most `l` bytes signed,
which it chooses as it goes along, the probabilities of a result with the signer and with the simulator differ by at most the probability that it asks for a
string that begins with a fitting key although it was given simulated signatures, and k · 32 T (Q + k (18T + 3)) / 2^(8·seed length). -/
theorem C62_chosen (I : Picnic1.Inst) (p : ℕ) (hI : I.Is p) (sk ct pt : Bytes) (hsk : sk.length = I.blk) (hpad : ZeroPad I.X.n sk) (hpt : pt.length = I.blk)
    (hct : ct = Picnic1.ofBits I.blk (I.X.enc (Picnic1.toBits sk) (Picnic1.toBits pt))) (N M l : ℕ)
    (hN : 3 * I.T * (I.digest + I.seed + I.gate + 2 * I.blk) + 2 * I.blk + l + 33 ≤ N) (hM1 : 3 * I.T * I.seed + 32 ≤ M) (hM2 : I.digest ≤ M)
    (hM3 : I.blk + I.gate ≤ M) (α : Type) (P : Player N M α) (k Q : ℕ) (hP : P.Within l [] k Q) (S : Set (List Bytes × α)) :
    |prob (fun O : Oracle N M => ∃ y, P.real I O sk ct pt = some y ∧ y ∈ S) -
      prob (fun ω : Oracle N M × (Fin k → Answers I M) => ∃ y, (P.sim I ct pt ω.1 ω.2).result = some y ∧ y ∈ S)| ≤
      prob (fun ω : Oracle N M × (Fin k → Answers I M) => (P.sim I ct pt ω.1 ω.2).Shows I ct pt) +
        k * (32 * I.T * (Q + k * (18 * I.T + 3))) / 2 ^ (8 * I.seed) := by
  obtain ⟨h1, h2⟩ := Rom.result_real_sim hI hsk (isKey_of hsk hpad) hpt hct hN hM1 hM2 hM3 hP S
  have h3 := Rom.prob_or (fun ω : Oracle N M × (Fin k → Answers I M) => ∃ y, (P.sim I ct pt ω.1 ω.2).result = some y ∧ y ∈ S) fun ω =>
    (P.sim I ct pt ω.1 ω.2).Shows I ct pt
  have e : Rom.adaptBound I k (Q + k * (18 * I.T + 3)) = k * (32 * I.T * (Q + k * (18 * I.T + 3))) / 2 ^ (8 * I.seed) := by
    unfold Rom.adaptBound
    push_cast
    ring
  rw [e] at h1 h2
  rw [abs_le]
  constructor <;> linarith

/-- **C62**, recovering keys from the signatures of chosen messages: whoever computes a key that fits the public key, finds one almost as often with simulated
signatures, that is, without signatures. -/
theorem C62_chosen_recover (I : Picnic1.Inst) (p : ℕ) (hI : I.Is p) (sk ct pt : Bytes) (hsk : sk.length = I.blk) (hpad : ZeroPad I.X.n sk)
    (hpt : pt.length = I.blk) (hct : ct = Picnic1.ofBits I.blk (I.X.enc (Picnic1.toBits sk) (Picnic1.toBits pt))) (N M l : ℕ)
    (hN : 3 * I.T * (I.digest + I.seed + I.gate + 2 * I.blk) + 2 * I.blk + l + 33 ≤ N) (hM1 : 3 * I.T * I.seed + 32 ≤ M) (hM2 : I.digest ≤ M)
    (hM3 : I.blk + I.gate ≤ M) (P : Player N M Bytes) (k Q : ℕ) (hP : P.Within l [] k Q) :
    prob (fun O : Oracle N M => ∃ ms key, P.real I O sk ct pt = some (ms, key) ∧ Fits I ct pt key) ≤
      prob (fun ω : Oracle N M × (Fin k → Answers I M) =>
        (∃ ms key, (P.sim I ct pt ω.1 ω.2).result = some (ms, key) ∧ Fits I ct pt key) ∨ (P.sim I ct pt ω.1 ω.2).Shows I ct pt) +
        k * (32 * I.T * (Q + k * (18 * I.T + 3))) / 2 ^ (8 * I.seed) := by
  obtain ⟨h1, -⟩ := Rom.result_real_sim hI hsk (isKey_of hsk hpad) hpt hct hN hM1 hM2 hM3 hP {y | Fits I ct pt y.2}
  have e : Rom.adaptBound I k (Q + k * (18 * I.T + 3)) = k * (32 * I.T * (Q + k * (18 * I.T + 3))) / 2 ^ (8 * I.seed) := by
    unfold Rom.adaptBound
    push_cast
    ring
  rw [e] at h1
  refine le_trans (Rom.prob_mono fun O => ?_) (le_trans h1 (add_le_add (Rom.prob_mono fun ω => ?_) le_rfl))
  · rintro ⟨ms, key, h, hf⟩
    exact ⟨(ms, key), h, hf⟩
  · rintro (⟨y, h, hf⟩ | h)
    · exact Or.inl ⟨y.1, y.2, h, hf⟩
    · exact Or.inr h

/-- **C63**, chosen messages: the probability that a procedure which has `k` different messages of its choice signed, one after the other, with at most `Q`
questions, makes a valid signature on another message is at most the probability that it betrays a key when the signatures are simulated, without the secret
key, and k · 32 T (Q' + k (18T + 3)) / 2^(8·seed length) + R (2/3)^T + (R² (4T + 3) + R (T + 1)² + R P + P²) / 2^(8·digest length),
where Q' = Q + 12T + 1, R = k (10T + 1) + Q' and P = k (9T + 2). -/
theorem C63_chosen (I : Picnic1.Inst) (p : ℕ) (hI : I.Is p) (sk ct pt : Bytes) (hsk : sk.length = I.blk) (hpad : ZeroPad I.X.n sk) (hpt : pt.length = I.blk)
    (hct : ct = Picnic1.ofBits I.blk (I.X.enc (Picnic1.toBits sk) (Picnic1.toBits pt))) (N M l : ℕ)
    (hN : 3 * I.T * (I.digest + I.seed + I.gate + 2 * I.blk) + 2 * I.blk + l + 33 ≤ N) (hM1 : 3 * I.T * I.seed + 32 ≤ M) (hM2 : I.digest ≤ M)
    (hM3 : I.blk + I.gate ≤ M) (P : Player N M (Bytes × Bytes)) (k Q : ℕ) (hP : P.Within l [] k Q) (hU : P.Uses k) (hE : P.Ends {r | r.1.length ≤ l})
    (Q' R V : ℕ) (hQ' : Q' = Q + 12 * I.T + 1) (hR : R = k * (10 * I.T + 1) + Q') (hV : V = k * (9 * I.T + 2)) :
    prob (fun O : Oracle N M => ForgesAfter I O sk ct pt P) ≤
      prob (fun ω : Oracle N M × (Fin k → Answers I M) => BetraysAfter I ct pt (P.sim I ct pt ω.1 ω.2)) +
      (k * (32 * I.T * (Q' + k * (18 * I.T + 3))) / 2 ^ (8 * I.seed) + R * (2 / 3) ^ I.T +
        ((R : ℝ) ^ 2 * (4 * I.T + 3) + R * (I.T + 1) ^ 2 + R * V + V ^ 2) / 2 ^ (8 * I.digest)) := by
  have h := Rom.forge_after hI hsk (isKey_of hsk hpad) hpt hct hN hM1 hM2 hM3 P hP hU hE
  rw [← hQ', ← hR, ← hV] at h
  refine le_trans h (add_le_add le_rfl (le_of_eq ?_))
  have e : Rom.adaptBound I k (Q + (12 * I.T + 1) + k * (18 * I.T + 3)) = k * (32 * I.T * (Q' + k * (18 * I.T + 3))) / 2 ^ (8 * I.seed) := by
    unfold Rom.adaptBound
    rw [hQ']
    push_cast
    ring
  rw [e]
  ring

/-- **C62**, **C63**, few candidates: the strings that a procedure asks for and those that the simulator writes into are at most Q and k (9T + 2). -/
theorem C63_chosen_candidates (I : Picnic1.Inst) (ct pt : Bytes) (N M l : ℕ) (α : Type) (P : Player N M α) :
    ∀ (seen : List Bytes) (k Q : ℕ) (O : Oracle N M) (a : Fin k → Answers I M), P.Within l seen k Q →
      (∃ L : List Bytes, L.length ≤ Q ∧ ∀ x ∈ (P.sim I ct pt O a).asked, x ∈ L) ∧
      ∃ L : List Bytes, L.length ≤ k * (9 * I.T + 2) ∧ ∀ x ∈ (P.sim I ct pt O a).written, x ∈ L := by
  induction P with
  | done r => exact fun _ k Q O a _ => ⟨⟨[], by simp, fun x hx => by simp [Player.sim] at hx⟩, [], by simp, fun x hx => by simp [Player.sim] at hx⟩
  | ask x next ih =>
    rintro seen k Q O a ⟨hQ, h⟩
    obtain ⟨⟨L, h1, h2⟩, L', h3, h4⟩ := ih (O x) seen k (Q - 1) O a (h _)
    refine ⟨⟨x.1 :: L, by rw [List.length_cons]; omega, fun y hy => ?_⟩, L', h3, fun y hy => ?_⟩
    · simp only [Player.sim, Set.mem_insert_iff] at hy
      rcases hy with rfl | hy
      · exact List.mem_cons_self
      · exact List.mem_cons_of_mem _ (h2 y hy)
    · exact h4 y (by simpa only [Player.sim] using hy)
  | sign m next ih =>
    rintro seen k Q O a ⟨hk, -, -, h⟩
    cases k with
    | zero => omega
    | succ k =>
      cases hs : Spec.Rom.sim I O (a 0) ct pt m with
      | none =>
        simp only [Player.sim, hs]
        exact ⟨⟨[], by simp, fun x hx => by simp at hx⟩, [], by simp, fun x hx => by simp at hx⟩
      | some p =>
        obtain ⟨⟨L, h1, h2⟩, L', h3, h4⟩ := ih p.sig (m :: seen) k Q p.oracle (fun i => a i.succ) (h _)
        refine ⟨⟨L, h1, fun y hy => h2 y (by simpa only [Player.sim, hs] using hy)⟩,
          L' ++ (Finset.univ.toList.map fun q : Query I.T I.unruh => point I (Spec.Rom.hash O · I.digest) [] ct pt m (a 0) (simView I ct pt (a 0) p.e) q), ?_, fun y hy => ?_⟩
        · rw [List.length_append, List.length_map, Finset.length_toList, Finset.card_univ]
          have := Rom.card_query (I := I)
          rw [Nat.succ_mul]
          omega
        · simp only [Player.sim, hs, Set.mem_union] at hy
          rcases hy with hy | ⟨q, -, rfl⟩
          · exact List.mem_append_left _ (h4 y hy)
          · exact List.mem_append_right _ (List.mem_map.2 ⟨q, Finset.mem_toList.2 (Finset.mem_univ _), rfl⟩)

theorem ofAdv_sim {N M : ℕ} {α : Type} (I : Picnic1.Inst) (ct pt : Bytes) (A : Adv N M α) {k : ℕ} (O : Oracle N M) (a : Fin k → Answers I M) :
    ((Player.ofAdv A).sim I ct pt O a).result = some ([], A.run O) ∧ ((Player.ofAdv A).sim I ct pt O a).oracle = O ∧
    ((Player.ofAdv A).sim I ct pt O a).asked = {x | ∃ y ∈ A.asked O, y.1 = x} ∧ ((Player.ofAdv A).sim I ct pt O a).written = ∅ := by
  induction A with
  | done r => exact ⟨rfl, rfl, by ext x; simp [Player.ofAdv, Player.sim, Adv.asked], rfl⟩
  | ask x next ih =>
    obtain ⟨h1, h2, h3, h4⟩ := ih (O x)
    refine ⟨h1, h2, ?_, h4⟩
    simp only [Player.ofAdv, Player.sim, h3, Adv.asked]
    ext y
    simp [eq_comm]

theorem ofAdv_real {N M : ℕ} {α : Type} (I : Picnic1.Inst) (sk ct pt : Bytes) (A : Adv N M α) (O : Oracle N M) :
    (Player.ofAdv A).real I O sk ct pt = some ([], A.run O) := by
  induction A with
  | done r => rfl
  | ask x next ih => exact ih (O x)

/-- **C62**: with one message at the beginning, the signer and the simulator are those of C62_adversary. -/
theorem C62_chosen_one (I : Picnic1.Inst) (sk ct pt msg : Bytes) (N M : ℕ) (α : Type) (A : Bytes → Adv N M α) (S : Set α) (O : Oracle N M)
    (a : Fin 1 → Answers I M) :
    ((∃ y, (Player.sign msg fun s => Player.ofAdv (A s)).real I O sk ct pt = some y ∧ y.2 ∈ S) ↔ Gets A S (real I O sk ct pt msg)) ∧
    ((∃ y, ((Player.sign msg fun s => Player.ofAdv (A s)).sim I ct pt O a).result = some y ∧ y.2 ∈ S) ↔ Gets A S (sim I O (a 0) ct pt msg)) := by
  constructor
  · unfold Gets
    simp only [Player.real]
    cases h : real I O sk ct pt msg with
    | none => simp
    | some p =>
      have e := ofAdv_real I sk ct pt (A p.sig) O
      have hO : p.oracle = O := by
        unfold real at h
        simp only [Option.map_eq_some_iff] at h
        obtain ⟨e, -, rfl⟩ := h
        rfl
      simp [e, hO]
  · unfold Gets
    cases h : sim I O (a 0) ct pt msg with
    | none => simp [Player.sim, h]
    | some p =>
      obtain ⟨e, -⟩ := ofAdv_sim I ct pt (A p.sig) p.oracle fun i : Fin 0 => a i.succ
      simp [Player.sim, h, e]

/-- Concrete case: for every parameter set and three messages there are a key, an oracle (the table of SHAKE) and a procedure that asks a question, has one of
the first two messages signed depending on the answer, and makes a valid signature on the third; and C62_chosen and C63_chosen apply to it. -/
theorem C63_chosen_example (p : ℕ) (hp : p ∈ zkbParams) (m₁ m₂ m' : Buf) (hne₁ : m' ≠ m₁) (hne₂ : m' ≠ m₂) (hm₁ : m₁.length + 200 ≤ 2 ^ 32)
    (hm₂ : m₂.length + 200 ≤ 2 ^ 32) (hm' : m'.length + 200 ≤ 2 ^ 32) (pick : Bytes → Bool) :
    ∃ (I : Picnic1.Inst) (sk ct pt : Bytes) (N M l : ℕ) (P : Player N M (Bytes × Bytes)), I.Is p ∧ sk.length = I.blk ∧ ZeroPad I.X.n sk ∧
      pt.length = I.blk ∧ ct = Picnic1.ofBits I.blk (I.X.enc (Picnic1.toBits sk) (Picnic1.toBits pt)) ∧
      3 * I.T * (I.digest + I.seed + I.gate + 2 * I.blk) + 2 * I.blk + l + 33 ≤ N ∧ 3 * I.T * I.seed + 32 ≤ M ∧ I.digest ≤ M ∧ I.blk + I.gate ≤ M ∧
      P.Within l [] 1 1 ∧ P.Uses 1 ∧ P.Ends {r | r.1.length ≤ l} ∧
      (P.real I (shakeTable I N M) sk ct pt).map Prod.fst = some [if pick (Spec.Rom.hash (shakeTable I N M) [0] 1) then m₁ else m₂] ∧
      ForgesAfter I (shakeTable I N M) sk ct pt P ∧ 0 < prob (fun O : Oracle N M => ForgesAfter I O sk ct pt P) := by
  obtain ⟨sk, P, n, buf, sig, len, hE, hsk, rfl, hP, hn, hpad, hR, -, hbl, hs⟩ := zkb_example p hp m' hm'
  have hI : (instOf zeroEnv P).Is sk.params := instOf_is zeroEnv hp hP
  obtain ⟨s, h1, h2, h3⟩ := C37_sign zeroEnv hE sk hsk hp P hP (instOf zeroEnv P) hI rfl rfl m' m'.length le_rfl hm' buf buf.length
    le_rfl sig len hs
  have hst : sig.take len = s := by rw [h2, h3]; simp
  have hacc : picnicVerify zeroEnv (some { sk.pk with params := sk.params }) m' m'.length s s.length = Outcome.ok 0 := by
    have := C01_sign_verify zeroEnv hE zeroEnv.junk zeroEnv.fuel le_rfl sk hsk hp n hn hpad m' m'.length le_rfl hm' buf buf.length
      le_rfl sig len hs { sk.pk with params := sk.params } ⟨hsk.pk.pt, hsk.pk.ct⟩ rfl rfl rfl s
      (by rw [hst, h3, List.take_length]) (by omega)
    rw [h3] at this
    exact this
  have hMt := match1_of hP hI rfl rfl
  generalize hIe : instOf zeroEnv P = I at hI hMt
  have hf : I.f = zeroEnv.perm := by rw [← hIe]; rfl
  have hX : I.X = lowmcOf P (zeroEnv.lowmc P) := by rw [← hIe]; rfl
  have hWF := paramsWF_of hP
  have hb := hWF.bytes
  have hnM := hWF.nMax
  have hblk := hMt.blk
  have hnn : n = I.X.n := by
    have := blockBits_of hP
    rw [hn] at this
    injection this with this
    rw [this, hX]; rfl
  set l := m₁.length + m₂.length + m'.length with hl
  set N := 3 * I.T * (I.digest + I.seed + I.gate + 2 * I.blk) + 2 * I.blk + l + 33 with hN
  set M := 3 * I.T * I.seed + 32 + I.digest + (I.seed + I.gate + I.blk) with hMd
  obtain ⟨w, hw1, hw2⟩ := (C63_library zeroEnv hE { sk.pk with params := sk.params } ⟨hsk.pk.pt, hsk.pk.ct⟩ hp P hP I hI hf hX m' m'.length le_rfl hm' N M
    (by omega) (by omega) (by omega) s).1 hacc
  rw [List.take_length] at hw2
  have hreal : ∀ u : Buf, u.length ≤ l → u.length + 200 ≤ 2 ^ 32 → (sk.pk.plaintext.take I.blk).length = I.blk ∧ (sk.data.take I.blk).length = I.blk ∧
      sk.pk.ciphertext.take I.blk = Picnic1.ofBits I.blk (I.X.enc (Picnic1.toBits (sk.data.take I.blk)) (Picnic1.toBits (sk.pk.plaintext.take I.blk))) ∧
      ∃ p', real I (shakeTable I N M) (sk.data.take I.blk) (sk.pk.ciphertext.take I.blk) (sk.pk.plaintext.take I.blk) u = some p' := by
    intro u hu1 hu2
    obtain ⟨buf1, sig1, len1, hs1⟩ := zeroEnv_signs sk hsk hp P hP hR u hu2
    obtain ⟨⟨g1, g2, g3⟩, s', e', g4, -, -⟩ := C62_library zeroEnv hE sk hsk hp P hP I hI hf hX u u.length le_rfl hu2 buf1 buf1.length le_rfl sig1 len1 hs1 N M
      (by omega) (by omega) (by omega) (by omega)
    rw [List.take_length] at g4
    exact ⟨g3, g2, g1, _, g4⟩
  obtain ⟨g1, g2, g3, -⟩ := hreal m₁ (by omega) hm₁
  have h0 : ([0] : Bytes).length ≤ N := by rw [hN]; simp
  let Pl : Player N M (Bytes × Bytes) := .ask ⟨[0], h0⟩ fun v => .sign (if pick (bytes 1 v) then m₁ else m₂) fun _ => .done (m', s.take w)
  have hpick : (if pick (Spec.Rom.hash (shakeTable I N M) [0] 1) then m₁ else m₂) = m₁ ∨ (if pick (Spec.Rom.hash (shakeTable I N M) [0] 1) then m₁ else m₂) = m₂ := by
    split_ifs
    · exact Or.inl rfl
    · exact Or.inr rfl
  have hPl : Pl.real I (shakeTable I N M) (sk.data.take I.blk) (sk.pk.ciphertext.take I.blk) (sk.pk.plaintext.take I.blk) =
      some ([if pick (Spec.Rom.hash (shakeTable I N M) [0] 1) then m₁ else m₂], (m', s.take w)) := by
    have e : bytes 1 (shakeTable I N M ⟨[0], h0⟩) = Spec.Rom.hash (shakeTable I N M) [0] 1 := by
      unfold Spec.Rom.hash ask
      rw [dif_pos h0]
    simp only [Pl, Player.real, e]
    rcases hpick with hu | hu <;> rw [hu]
    · obtain ⟨-, -, -, p', hp'⟩ := hreal m₁ (by omega) hm₁
      rw [hp']
      rfl
    · obtain ⟨-, -, -, p', hp'⟩ := hreal m₂ (by omega) hm₂
      rw [hp']
      rfl
  have hF : ForgesAfter I (shakeTable I N M) (sk.data.take I.blk) (sk.pk.ciphertext.take I.blk) (sk.pk.plaintext.take I.blk) Pl := by
    refine ⟨_, _, hPl, ?_, hw2⟩
    rw [List.mem_singleton]
    rcases hpick with hu | hu <;> rw [hu]
    · exact hne₁
    · exact hne₂
  refine ⟨I, _, _, _, N, M, l, Pl, hI, g2, ?_, g1, g3, by omega, by omega, by omega, by omega, ?_, ?_, ?_, by rw [hPl]; rfl, hF, ?_⟩
  · intro i hi hl
    have hl' : i < 8 * bytesFor n := by rw [hnn]; exact hl
    have hi' : i / 8 < I.blk := by have : i < 8 * I.blk := hl; omega
    have := hpad i (by omega) hl'
    unfold msbBit at this ⊢
    rwa [List.getD_eq_getElem?_getD, List.getElem?_take_of_lt hi', ← List.getD_eq_getElem?_getD]
  · refine ⟨by omega, fun v => ⟨by omega, ?_, by simp, fun _ => trivial⟩⟩
    split_ifs <;> omega
  · exact fun v => ⟨by omega, fun _ => rfl⟩
  · intro v _
    change m'.length ≤ l
    omega
  · unfold prob
    refine div_pos (Nat.cast_pos.2 (Finset.card_pos.2 ⟨shakeTable I N M, ?_⟩)) (Nat.cast_pos.2 Fintype.card_pos)
    simp only [Finset.mem_filter, Finset.mem_univ, true_and]
    exact hF

end Picnic
