import Verif.Proofs.Rom3Same
import Verif.Props.Distribution

/-
C64: the strings that a verifier of Picnic3 hashes are determined by the signature and the hash values of shorter strings.
-/

namespace Picnic.Rom3

open Spec Spec.Tree Spec.Picnic1 Spec.Picnic3 Spec.Challenge

variable {I : Picnic3.Inst} {f g : Bytes → ℕ → BitVec 8} {p : ℕ} {ct pt msg sig salt salt' : Bytes} {τ τ' : Picnic3.Transcript}

theorem nums (hI : I.Is p) :
    (I.X.n = 129 ∧ I.X.m = 43 ∧ I.X.r = 4 ∧ I.T = 250 ∧ I.u = 36 ∧ I.seed = 16 ∧ I.digest = 32 ∧ I.gate = 65 ∧ I.blk = 17 ∧ I.depth = 8) ∨
    (I.X.n = 192 ∧ I.X.m = 64 ∧ I.X.r = 4 ∧ I.T = 419 ∧ I.u = 52 ∧ I.seed = 24 ∧ I.digest = 48 ∧ I.gate = 96 ∧ I.blk = 24 ∧ I.depth = 9) ∨
    (I.X.n = 255 ∧ I.X.m = 85 ∧ I.X.r = 4 ∧ I.T = 601 ∧ I.u = 68 ∧ I.seed = 32 ∧ I.digest = 64 ∧ I.gate = 128 ∧ I.blk = 32 ∧ I.depth = 10) := by
  unfold Picnic3.Inst.Is Picnic3.table at hI
  unfold Picnic3.Inst.gate Picnic3.Inst.blk Picnic3.Inst.depth
  split at hI
  · simp only [Option.some.injEq, Prod.mk.injEq] at hI
    obtain ⟨h1, h2, h3, h4, h5, h6, h7, h8⟩ := hI
    rw [← h1, ← h2, ← h3, ← h4, ← h5, ← h6, ← h7]
    exact Or.inl ⟨rfl, rfl, rfl, rfl, rfl, rfl, rfl, rfl, rfl, by decide +kernel⟩
  · simp only [Option.some.injEq, Prod.mk.injEq] at hI
    obtain ⟨h1, h2, h3, h4, h5, h6, h7, h8⟩ := hI
    rw [← h1, ← h2, ← h3, ← h4, ← h5, ← h6, ← h7]
    exact Or.inr (Or.inl ⟨rfl, rfl, rfl, rfl, rfl, rfl, rfl, rfl, rfl, by decide +kernel⟩)
  · simp only [Option.some.injEq, Prod.mk.injEq] at hI
    obtain ⟨h1, h2, h3, h4, h5, h6, h7, h8⟩ := hI
    rw [← h1, ← h2, ← h3, ← h4, ← h5, ← h6, ← h7]
    exact Or.inr (Or.inr ⟨rfl, rfl, rfl, rfl, rfl, rfl, rfl, rfl, rfl, by decide +kernel⟩)
  · exact absurd hI (by simp)

/-- The numbers that matter below. -/
structure Sizes (I : Picnic3.Inst) : Prop where
  n : I.X.n = 3 * I.X.m
  T2 : 2 ≤ I.T
  u1 : 1 ≤ I.u
  T16 : 16 ≤ I.T
  D1 : 1 ≤ I.depth
  D16 : 2 ^ I.depth ≤ 2 ^ 16
  Tle : I.T ≤ 2 ^ I.depth
  dig : 1 ≤ I.digest

theorem sizes (hI : I.Is p) : Sizes I := by
  obtain ⟨h1, h2, h3, h4, h5, h6, h7, h8, h9, h10⟩ | ⟨h1, h2, h3, h4, h5, h6, h7, h8, h9, h10⟩ | ⟨h1, h2, h3, h4, h5, h6, h7, h8, h9, h10⟩ := nums hI <;>
  exact ⟨by omega, by omega, by omega, by omega, by omega, by rw [h10]; decide, Nat.le_pow_clog (by decide) _, by omega⟩

/-! ### The challenge -/

theorem chal_same (ag : ∀ x : Bytes, x.length = I.digest + 1 → f x = g x) {d : Bytes} {C Q : List ℕ} (hd : d.length = I.digest) (h : (on I f).Challenge d C Q) :
    (on I g).Challenge d C Q := by
  unfold Picnic3.Inst.Challenge at h ⊢
  rw [C52_chain_p3] at h ⊢
  obtain ⟨n, h⟩ := h
  refine ⟨n, ?_⟩
  have key : ∀ i, (fun d => (on I f).hash ([1] ++ d) I.digest)^[i] d = (fun d => (on I g).hash ([1] ++ d) I.digest)^[i] d ∧
      ((fun d => (on I f).hash ([1] ++ d) I.digest)^[i] d).length = I.digest := by
    intro i
    induction i with
    | zero => exact ⟨rfl, hd⟩
    | succ i ih =>
      rw [Function.iterate_succ_apply', Function.iterate_succ_apply', ← ih.1]
      refine ⟨hash_same (ag _ ?_) _, hash_length _ _⟩
      rw [List.length_append, List.length_singleton, ih.2, Nat.add_comm]
  have e : chain (fun d => (on I f).hash ([1] ++ d) (on I f).digest) d n = chain (fun d => (on I g).hash ([1] ++ d) (on I g).digest) d n :=
    List.map_congr_left fun i _ => (key i).1
  rwa [← e]

theorem sig_digest (h : (on I f).TranscriptOf ct pt msg sig salt τ) : (on I f).challengeDigest τ.v τ.h ct pt salt msg = sig.take I.digest := by
  rw [h.2.2.2]
  exact (encode_digest (I := on I f) (hash_length _ _)).symm

theorem chal_ne (hI : I.Is p) (h : (on I f).TranscriptOf ct pt msg sig salt τ) : τ.C ≠ [] := by
  obtain ⟨h1, -, -⟩ := isChallenge3_range h.2.2.1
  have := (sizes hI).u1
  rintro e
  rw [e] at h1
  change 0 = I.u at h1
  omega

/-! ### Parsing -/

theorem flatMap_len {α : Type} {s : α → Bytes} {c : ℕ} : ∀ {l : List α}, (∀ x ∈ l, (s x).length = c) → (l.flatMap s).length = l.length * c
  | [], _ => by simp
  | a :: l, h => by
    rw [List.flatMap_cons, List.length_append, h a List.mem_cons_self, flatMap_len fun x hx => h x (List.mem_cons_of_mem _ hx), List.length_cons]
    ring

theorem app_inj {a b c d : Bytes} (h : a ++ b = c ++ d) (hl : a.length = c.length) : a = c ∧ b = d := List.append_inj h hl

/-- The fields of an opened repetition. -/
theorem round_same {k : ℕ} {v v' : Round} (h : ∀ x ∈ revealed 4 16 [k], (v.node x).length = I.seed) (h' : ∀ x ∈ revealed 4 16 [k], (v'.node x).length = I.seed)
    (hf : (on I f).Fits k v) (hf' : (on I g).Fits k v') (he : v.encode k = v'.encode k) :
    (∀ x ∈ revealed 4 16 [k], v.node x = v'.node x) ∧ (k ≠ 15 → v.aux = v'.aux) ∧ v.key = v'.key ∧ v.msgs k = v'.msgs k ∧ v.com k = v'.com k := by
  unfold Round.encode at he
  obtain ⟨he, e5⟩ := List.append_inj' he (hf.com.trans hf'.com.symm)
  obtain ⟨he, e4⟩ := List.append_inj' he (hf.msgs.1.trans hf'.msgs.1.symm)
  obtain ⟨he, e3⟩ := List.append_inj' he (hf.key.trans hf'.key.symm)
  obtain ⟨e1, e2⟩ := List.append_inj he (by rw [flatMap_len h, flatMap_len h'])
  refine ⟨flatMap_inj (fun x hx => by rw [h x hx, h' x hx]) e1, fun hk => ?_, e3, e4, e5⟩
  rwa [if_neg hk, if_neg hk] at e2

theorem round_len {k : ℕ} {v : Round} (h : ∀ x ∈ revealed 4 16 [k], (v.node x).length = I.seed) (hf : (on I f).Fits k v) :
    (v.encode k).length = (revealed 4 16 [k]).length * I.seed + (if k = 15 then 0 else I.gate) + I.blk + I.gate + I.digest := by
  unfold Round.encode
  simp only [List.length_append]
  rw [flatMap_len h, hf.com, hf.msgs.1, hf.key]
  split_ifs with hk
  · rfl
  · rw [(hf.aux hk).1]
    rfl

structure Parsed (I : Picnic3.Inst) (salt salt' : Bytes) (τ τ' : Picnic3.Transcript) : Prop where
  salt : salt = salt'
  C : τ.C = τ'.C
  Q : τ.Q = τ'.Q
  s : ∀ x ∈ revealed I.depth I.T τ.C, τ.s x = τ'.s x
  h : ∀ x ∈ opened I.depth I.T (closed I.T τ.C), τ.h x = τ'.h x
  v : ∀ t ∈ τ.C, let k := hid τ.C τ.Q t
    (∀ x ∈ revealed 4 16 [k], (τ.v t).node x = (τ'.v t).node x) ∧ (k ≠ 15 → (τ.v t).aux = (τ'.v t).aux) ∧ (τ.v t).key = (τ'.v t).key ∧
      (τ.v t).msgs k = (τ'.v t).msgs k ∧ (τ.v t).com k = (τ'.v t).com k

/-- What is in the signature. -/
theorem parsed (ag : ∀ x : Bytes, x.length = I.digest + 1 → f x = g x) (h : (on I f).TranscriptOf ct pt msg sig salt τ)
    (h' : (on I g).TranscriptOf ct pt msg sig salt' τ') : Parsed I salt salt' τ τ' := by
  have d1 := sig_digest h
  have d2 := sig_digest h'
  have hdl : (sig.take I.digest).length = I.digest := by rw [← d1]; exact hash_length _ _
  have acc := h.accepts
  have acc' := h'.accepts
  obtain ⟨s1, c1, k1, e1⟩ := h
  obtain ⟨s2, c2, k2, e2⟩ := h'
  rw [d1] at k1 e1
  rw [d2] at k2 e2
  have hCQ := Spec.Challenge.isChallenge3_unique (chal_same ag hdl k1) k2
  obtain ⟨s, hm, v, C, Q⟩ := τ
  obtain ⟨s', hm', v', C', Q'⟩ := τ'
  dsimp only at *
  obtain ⟨rfl, rfl⟩ := hCQ
  have e := e1.symm.trans e2
  unfold Picnic3.Inst.encode at e
  simp only [List.append_assoc] at e
  have e := List.append_cancel_left e
  obtain ⟨q1, e⟩ := List.append_inj e (s1.trans s2.symm)
  obtain ⟨q2, e⟩ := List.append_inj e (by rw [flatMap_len c1.1.1, flatMap_len c2.1.1]; rfl)
  obtain ⟨q3, e⟩ := List.append_inj e (by rw [flatMap_len c1.2.2.2.2, flatMap_len c2.2.2.2.2]; rfl)
  have l1 : ∀ t ∈ C, ∀ x ∈ revealed 4 16 [hid C Q t], ((v t).node x).length = I.seed := fun t ht => (c1.2.2.1 t ht).1.1
  have l2 : ∀ t ∈ C, ∀ x ∈ revealed 4 16 [hid C Q t], ((v' t).node x).length = I.seed := fun t ht => (c2.2.2.1 t ht).1.1
  have q4 := flatMap_inj (fun t _ => by
    split_ifs with ht
    · rw [round_len (l1 t ht) (c1.2.2.1 t ht).2.1, round_len (l2 t ht) (c2.2.2.1 t ht).2.1]
    · rfl) e
  refine ⟨q1, rfl, rfl, flatMap_inj (fun x hx => by rw [c1.1.1 x hx, c2.1.1 x hx]) q2,
    flatMap_inj (fun x hx => by rw [c1.2.2.2.2 x hx, c2.2.2.2.2 x hx]) q3, fun t ht => ?_⟩
  have := q4 t (List.mem_range.2 (acc.2 t ht).1)
  rw [if_pos ht, if_pos ht] at this
  exact round_same (l1 t ht) (l2 t ht) (c1.2.2.1 t ht).2.1 (c2.2.2.1 t ht).2.1 this

/-! ### Strings -/

theorem opens_same (P : Parsed I salt salt' τ τ') {t j : ℕ} : τ'.Opens t j ↔ τ.Opens t j := by
  unfold Transcript.Opens
  rw [P.C, P.Q]

/-- Seeds of opened parties. -/
theorem seed_same (hI : I.Is p) (ag37 : ∀ x : Bytes, x.length = I.seed + 37 → f x = g x) (h : (on I f).TranscriptOf ct pt msg sig salt τ)
    (h' : (on I g).TranscriptOf ct pt msg sig salt' τ') (P : Parsed I salt salt' τ τ') {t j : ℕ} (ht : t < I.T) (hj : j < 16) (ho : τ.Opens t j) :
    (τ.v t).seed j = (τ'.v t).seed j ∧ ((τ.v t).seed j).length = I.seed := by
  have hS := sizes hI
  have hne := chal_ne hI h
  have acc := h.accepts
  obtain ⟨s1, c1, -, -⟩ := h
  obtain ⟨-, c2, -, -⟩ := h'
  rw [← P.salt, ← P.C, ← P.Q] at c2
  by_cases hC : t ∈ τ.C
  · have hk := (acc.2 t hC).2
    obtain ⟨i, hi⟩ := revealed_cover (D := 4) (n := 16) (by decide) (by decide) (by decide) (single_lt' hk) (by simp) hj (by simpa using ho hC)
    exact partial_down ag37 s1 (by decide) (by decide) (by decide) (single_lt' hk) (c1.2.2.1 t hC).1 (c2.2.2.1 t hC).1 (P.v t hC).1 i (16 + j) (node16' hj) hi
  · obtain ⟨i, hi⟩ := revealed_cover (D := I.depth) (n := I.T) hS.D1 (by have := hS.T2; omega) hS.Tle (fun x hx => (acc.2 x hx).1) hne ht hC
    obtain ⟨e, l⟩ := partial_down ag37 s1 hS.D1 (by have := hS.T2; omega) hS.Tle (fun x hx => (acc.2 x hx).1) c1.1 c2.1 P.s i (2 ^ I.depth + t)
      (up_self ⟨by omega, by omega⟩) hi
    exact tree_down ag37 s1 (by decide) (c1.2.1 t ht hC).1 (c2.2.1 t ht hC).1 e l (16 + j) (node16' hj)

/-- Tapes of opened parties. -/
theorem otape_same (hI : I.Is p) (ag37 : ∀ x : Bytes, x.length = I.seed + 37 → f x = g x) (ag36 : ∀ x : Bytes, x.length = I.seed + 36 → f x = g x)
    (h : (on I f).TranscriptOf ct pt msg sig salt τ) (h' : (on I g).TranscriptOf ct pt msg sig salt' τ') (P : Parsed I salt salt' τ τ') {t j : ℕ}
    (ht : t < I.T) (hj : j < 16) (ho : τ.Opens t j) : (on I f).tape salt t j (τ.v t) = (on I g).tape salt t j (τ'.v t) := by
  obtain ⟨e, l⟩ := seed_same hI ag37 h h' P ht hj ho
  exact tape_same ag36 h.1 e l

/-- Correction bits of the last party, if it is opened. -/
theorem oaux_same (hI : I.Is p) (hreg : Spec.Rom.Regular I) (ag37 : ∀ x : Bytes, x.length = I.seed + 37 → f x = g x) (ag36 : ∀ x : Bytes, x.length = I.seed + 36 → f x = g x)
    (h : (on I f).TranscriptOf ct pt msg sig salt τ) (h' : (on I g).TranscriptOf ct pt msg sig salt' τ') (P : Parsed I salt salt' τ τ') {t : ℕ}
    (ht : t < I.T) (ho : τ.Opens t 15) : (τ.v t).aux = (τ'.v t).aux := by
  by_cases hC : t ∈ τ.C
  · exact (P.v t hC).2.1 (ho hC).symm
  · have hsh : ∀ j < 16, (on I f).tape salt t j (τ.v t) = (on I g).tape salt t j (τ'.v t) := fun j hj => otape_same hI ag37 ag36 h h' P ht hj fun hc => absurd hc hC
    obtain ⟨-, c1, -, -⟩ := h
    obtain ⟨-, c2, -, -⟩ := h'
    rw [← P.salt, ← P.C, ← P.Q] at c2
    obtain ⟨κ, k1⟩ := (c1.2.1 t ht hC).2.1
    obtain ⟨κ', k2⟩ := (c2.2.1 t ht hC).2.1
    exact aux_same hreg (sizes hI).n k1 k2 hsh

/-- The string for the commitment of an opened party. -/
theorem commit_same (hI : I.Is p) (hreg : Spec.Rom.Regular I) (ag37 : ∀ x : Bytes, x.length = I.seed + 37 → f x = g x) {t j : ℕ}
    (ag36 : j = 15 → ∀ x : Bytes, x.length = I.seed + 36 → f x = g x)
    (h : (on I f).TranscriptOf ct pt msg sig salt τ) (h' : (on I g).TranscriptOf ct pt msg sig salt' τ') (P : Parsed I salt salt' τ τ')
    (ht : t < I.T) (hj : j < 16) (ho : τ.Opens t j) : commitString salt t (τ.v t) j = commitString salt' t (τ'.v t) j := by
  obtain ⟨e, l⟩ := seed_same hI ag37 h h' P ht hj ho
  unfold commitString
  rw [e, P.salt]
  split_ifs with h15
  · rw [oaux_same hI hreg ag37 (ag36 h15) h h' P ht (h15 ▸ ho)]
  · rfl

theorem commit_len (h : (on I f).TranscriptOf ct pt msg sig salt τ) {t j : ℕ} (ht : t < I.T) (hj : j < 16) (ho : τ.Opens t j) :
    (commitString salt t (τ.v t) j).length = if j = 15 then I.seed + I.gate + 36 else I.seed + 36 := by
  obtain ⟨l1, l2, -⟩ := (h.accepts.round ht).1 j hj ho
  unfold commitString
  simp only [List.length_append, int16_len, h.1]
  split_ifs with h15
  · rw [l1, l2 h15]
    rfl
  · rw [l1, List.length_nil]

/-- The commitments of a repetition. -/
theorem com_same (hI : I.Is p) (hreg : Spec.Rom.Regular I) (ag37 : ∀ x : Bytes, x.length = I.seed + 37 → f x = g x) (ag36 : ∀ x : Bytes, x.length = I.seed + 36 → f x = g x)
    (ag15 : ∀ x : Bytes, x.length = I.seed + I.gate + 36 → f x = g x)
    (h : (on I f).TranscriptOf ct pt msg sig salt τ) (h' : (on I g).TranscriptOf ct pt msg sig salt' τ') (P : Parsed I salt salt' τ τ') {t : ℕ}
    (ht : t < I.T) : comString (τ.v t) = comString (τ'.v t) := by
  unfold comString
  refine List.flatMap_congr fun j hj => ?_
  have hj := List.mem_range.1 hj
  by_cases ho : τ.Opens t j
  · have e := commit_same hI hreg ag37 (fun _ => ag36) h h' P ht hj ho
    have l := commit_len h ht hj ho
    have r1 : (τ.v t).com j = (on I f).hash (commitString salt t (τ.v t) j) I.digest := ((h.accepts.round ht).1 j hj ho).2.2
    have r2 : (τ'.v t).com j = (on I g).hash (commitString salt' t (τ'.v t) j) I.digest := ((h'.accepts.round ht).1 j hj ((opens_same P).2 ho)).2.2
    rw [r1, r2, ← e]
    refine hash_same ?_ _
    split_ifs at l
    · exact ag15 _ l
    · exact ag36 _ l
  · unfold Transcript.Opens at ho
    push Not at ho
    obtain ⟨hC, rfl⟩ := ho
    exact (P.v t hC).2.2.2.2

theorem com_len (h : (on I f).TranscriptOf ct pt msg sig salt τ) {t : ℕ} (ht : t < I.T) : (comString (τ.v t)).length = 16 * I.digest := by
  unfold comString
  rw [flatMap_len fun j hj => (h.accepts.round ht).2 j (List.mem_range.1 hj), List.length_range]

/-- The messages of an opened repetition. -/
theorem msg_same (hI : I.Is p) (hreg : Spec.Rom.Regular I) (ag37 : ∀ x : Bytes, x.length = I.seed + 37 → f x = g x) (ag36 : ∀ x : Bytes, x.length = I.seed + 36 → f x = g x)
    (h : (on I f).TranscriptOf ct pt msg sig salt τ) (h' : (on I g).TranscriptOf ct pt msg sig salt' τ') (P : Parsed I salt salt' τ τ') {t : ℕ}
    (hC : t ∈ τ.C) : msgString (τ.v t) = msgString (τ'.v t) := by
  obtain ⟨ht, hk⟩ := h.accepts.2 t hC
  have e : ∀ j < 16, (τ.v t).msgs j = (τ'.v t).msgs j := by
    have hshare : ∀ j < 16, j ≠ hid τ.C τ.Q t → (on I f).share salt t (τ.v t) j = (on I g).share salt t (τ'.v t) j := fun j hj hjk =>
      share_tape (otape_same hI ag37 ag36 h h' P ht hj fun _ => hjk) fun h15 => oaux_same hI hreg ag37 ag36 h h' P ht fun _ => h15 ▸ hjk
    obtain ⟨-, c1, -, -⟩ := h
    obtain ⟨-, c2, -, -⟩ := h'
    rw [← P.salt, ← P.C, ← P.Q] at c2
    exact msgs_same (sizes hI).n (P.v t hC).2.2.1 (P.v t hC).2.2.2.1 fun j hj hjk =>
      ⟨((c1.2.2.1 t hC).2.2.1 j hj hjk).1, ((c2.2.2.1 t hC).2.2.1 j hj hjk).1, hshare j hj hjk⟩
  unfold msgString
  rw [(P.v t hC).2.2.1]
  congr 1
  exact List.flatMap_congr fun j hj => e j (List.mem_range.1 hj)

theorem msg_len (h : (on I f).TranscriptOf ct pt msg sig salt τ) {t : ℕ} (hC : t ∈ τ.C) : (msgString (τ.v t)).length = I.blk + 16 * I.gate := by
  obtain ⟨-, o2, o3, -⟩ := h.2.1.2.2.1 t hC
  unfold msgString
  rw [List.length_append, flatMap_len (c := I.gate) fun j hj => ?_, List.length_range]
  · exact congrArg (· + _) o2.key
  · by_cases e : j = hid τ.C τ.Q t
    · rw [e]; exact o2.msgs.1
    · exact (o3 j (List.mem_range.1 hj) e).1.1

theorem node_len (hs : salt.length = 32) {h : ℕ → Bytes} {x : ℕ} (h1 : (h (2 * x)).length = I.digest) (h2 : 2 * x + 1 < 2 ^ I.depth + I.T → (h (2 * x + 1)).length = I.digest) :
    (I.nodeString salt h x).length = I.digest + 35 ∨ (I.nodeString salt h x).length = 2 * I.digest + 35 := by
  unfold Picnic3.Inst.nodeString
  simp only [List.length_append, List.length_singleton, int16_len, hs]
  split_ifs with h3
  · rw [h1, h2 h3]; omega
  · rw [h1, List.length_nil]; omega

/-- `x` is on the path of an opened repetition. -/
def OnPath (I : Picnic3.Inst) (τ : Picnic3.Transcript) (x : ℕ) : Prop := ∃ t ∈ τ.C, ∃ k, 1 ≤ k ∧ k ≤ I.depth ∧ (2 ^ I.depth + t) / 2 ^ k = x

theorem onPath_range (h : ∀ t ∈ τ.C, t < I.T) {x : ℕ} (hx : OnPath I τ x) : 1 ≤ x ∧ x < 2 ^ I.depth ∧ Up I.depth (Present I.depth I.T (closed I.T τ.C)) x := by
  have hn : I.T ≤ 2 ^ I.depth := Nat.le_pow_clog (by decide) _
  obtain ⟨t, ht, k, hk1, hk, rfl⟩ := hx
  have htT := h t ht
  have hr := div_pow_range hk (show 2 ^ I.depth ≤ 2 ^ I.depth + t by omega) (by rw [pow_succ]; omega)
  refine ⟨le_trans Nat.one_le_two_pow hr.1, lt_of_lt_of_le hr.2 (Nat.pow_le_pow_right (by decide) (by omega)), 2 ^ I.depth + t, k, ⟨⟨by omega, by omega⟩, ?_⟩, hk, rfl⟩
  rintro ⟨q, hq, e⟩
  obtain rfl : t = q := by omega
  simp [closed] at hq
  exact hq.2 ht

/-- The children of nodes of the Merkle tree from number `B` on. -/
theorem children_same (hI : I.Is p) (hreg : Spec.Rom.Regular I) (ag37 : ∀ x : Bytes, x.length = I.seed + 37 → f x = g x) (ag36 : ∀ x : Bytes, x.length = I.seed + 36 → f x = g x)
    (agM : ∀ x : Bytes, x.length = I.blk + 16 * I.gate → f x = g x) (B : ℕ)
    (agN : ∀ (h : ℕ → Bytes) (x : ℕ), B < x → x < 2 ^ I.depth → (h (2 * x)).length = I.digest → (2 * x + 1 < 2 ^ I.depth + I.T → (h (2 * x + 1)).length = I.digest) →
      f (I.nodeString salt h x) = g (I.nodeString salt h x))
    (h : (on I f).TranscriptOf ct pt msg sig salt τ) (h' : (on I g).TranscriptOf ct pt msg sig salt' τ') (P : Parsed I salt salt' τ τ') {x : ℕ} (hB : B ≤ x)
    (hx : OnPath I τ x) : (τ.h (2 * x) = τ'.h (2 * x) ∧ (τ.h (2 * x)).length = I.digest) ∧
      (2 * x + 1 < 2 ^ I.depth + I.T → τ.h (2 * x + 1) = τ'.h (2 * x + 1) ∧ (τ.h (2 * x + 1)).length = I.digest) := by
  have hr : ∀ t ∈ τ.C, t < I.T := fun t ht => (h.accepts.2 t ht).1
  have hne := chal_ne hI h
  obtain ⟨x1, x2, x3⟩ := onPath_range hr hx
  have hv : ∀ t ∈ τ.C, msgString (τ.v t) = msgString (τ'.v t) := fun t ht => msg_same hI hreg ag37 ag36 h h' P ht
  have hl : ∀ t ∈ τ.C, (msgString (τ.v t)).length = I.blk + 16 * I.gate := fun t ht => msg_len h ht
  obtain ⟨s1, c1, -, -⟩ := h
  obtain ⟨-, c2, -, -⟩ := h'
  rw [← P.salt, ← P.C, ← P.Q] at c2
  refine merkle_same (sizes hI).T2 hr hne B agN c1.2.2.2.1 c2.2.2.2.1 (fun x hx => ⟨P.h x hx, c1.2.2.2.2 x hx⟩) (fun t ht => ?_) x hB x1 x2 x3
  have m1 : τ.h (2 ^ I.depth + t) = (on I f).hash (msgString (τ.v t)) I.digest := c1.2.2.2.1.leaf t (hr t ht) ht
  have m2 : τ'.h (2 ^ I.depth + t) = (on I g).hash (msgString (τ'.v t)) I.digest := c2.2.2.2.1.leaf t (hr t ht) ht
  rw [m1, m2, ← hv t ht]
  exact hash_same (agM _ (hl t ht)) _

theorem nodeStr_same {h h' : ℕ → Bytes} {x : ℕ} (he : salt = salt') (h1 : h (2 * x) = h' (2 * x)) (h2 : 2 * x + 1 < 2 ^ I.depth + I.T → h (2 * x + 1) = h' (2 * x + 1)) :
    I.nodeString salt h x = I.nodeString salt' h' x := by
  unfold Picnic3.Inst.nodeString
  rw [he, h1]
  split_ifs with h3
  · rw [h2 h3]
  · rfl

/-- The root is on a path. -/
theorem root_onPath (hI : I.Is p) (h : (on I f).TranscriptOf ct pt msg sig salt τ) : OnPath I τ 1 := by
  obtain ⟨t, l, e⟩ := List.exists_cons_of_ne_nil (chal_ne hI h)
  have ht : t ∈ τ.C := by rw [e]; simp
  have htT : t < I.T := (h.accepts.2 t ht).1
  have hS := sizes hI
  have hTle := hS.Tle
  exact ⟨t, ht, I.depth, hS.D1, le_rfl, by rw [Nat.add_div_left _ (by positivity), Nat.div_eq_of_lt (by omega)]⟩

theorem path_node (h : (on I f).TranscriptOf ct pt msg sig salt τ) {x : ℕ} (hx : OnPath I τ x) : τ.h x = (on I f).hash (I.nodeString salt τ.h x) I.digest := by
  obtain ⟨t, ht, k, hk1, hk, rfl⟩ := hx
  exact (h.accepts.path ht hk).2 hk1

/-- The string for the challenge. -/
theorem chal_str_same (hI : I.Is p) (hreg : Spec.Rom.Regular I) (ag : ∀ x : Bytes, x.length < (I.T + 1) * I.digest + 32 → f x = g x)
    (h : (on I f).TranscriptOf ct pt msg sig salt τ) (h' : (on I g).TranscriptOf ct pt msg sig salt' τ') :
    (on I f).challengeString ct pt msg salt τ = (on I g).challengeString ct pt msg salt' τ' := by
  have hlen : I.digest + 1 < (I.T + 1) * I.digest + 32 ∧ I.seed + 37 < (I.T + 1) * I.digest + 32 ∧ I.seed + I.gate + 36 < (I.T + 1) * I.digest + 32 ∧
      16 * I.digest < (I.T + 1) * I.digest + 32 ∧ I.blk + 16 * I.gate < (I.T + 1) * I.digest + 32 ∧ 2 * I.digest + 35 < (I.T + 1) * I.digest + 32 := by
    obtain ⟨-, -, -, h4, -, h6, h7, h8, h9, -⟩ | ⟨-, -, -, h4, -, h6, h7, h8, h9, -⟩ | ⟨-, -, -, h4, -, h6, h7, h8, h9, -⟩ := nums hI <;> rw [h4, h6, h7, h8, h9] <;> decide
  obtain ⟨n1, n2, n3, n4, n5, n6⟩ := hlen
  have P := parsed (fun x hx => ag x (by omega)) h h'
  have ag37 : ∀ x : Bytes, x.length = I.seed + 37 → f x = g x := fun x hx => ag x (by omega)
  have ag36 : ∀ x : Bytes, x.length = I.seed + 36 → f x = g x := fun x hx => ag x (by omega)
  have agN : ∀ (h : ℕ → Bytes) (x : ℕ), 0 < x → x < 2 ^ I.depth → (h (2 * x)).length = I.digest → (2 * x + 1 < 2 ^ I.depth + I.T → (h (2 * x + 1)).length = I.digest) →
      f (I.nodeString salt h x) = g (I.nodeString salt h x) := fun h' x _ _ l1 l2 => ag _ (by
    have := node_len (I := I) h.1 l1 l2
    omega)
  have hroot := root_onPath hI h
  obtain ⟨⟨r1, r2⟩, r3⟩ := children_same hI hreg ag37 ag36 (fun x hx => ag x (by omega)) 0 agN h h' P (Nat.zero_le _) hroot
  have e1 : τ.h 1 = τ'.h 1 := by
    have hroot' : OnPath I τ' 1 := root_onPath hI h'
    rw [path_node h hroot, path_node h' hroot', ← nodeStr_same P.salt r1 fun h => (r3 h).1]
    exact hash_same (agN _ 1 (by omega) (Nat.one_lt_two_pow (by have := (sizes hI).D1; omega)) r2 fun h => (r3 h).2) _
  unfold Picnic3.Inst.challengeString
  rw [e1, P.salt]
  congr 5
  refine List.flatMap_congr fun t ht => ?_
  have ht : t < I.T := List.mem_range.1 ht
  have e2 := com_same hI hreg ag37 ag36 (fun x hx => ag x (by omega)) h h' P ht
  change (on I f).hash (comString (τ.v t)) I.digest = (on I g).hash (comString (τ'.v t)) I.digest
  rw [← e2]
  exact hash_same (ag _ (by rw [com_len h ht]; omega)) _

theorem chal_str_len (h : (on I f).TranscriptOf ct pt msg sig salt τ) (hI : I.Is p) :
    ((on I f).challengeString ct pt msg salt τ).length = (I.T + 1) * I.digest + 32 + ct.length + pt.length + msg.length := by
  have hr : (τ.h 1).length = I.digest := by rw [path_node h (root_onPath hI h)]; exact hash_length _ _
  unfold Picnic3.Inst.challengeString
  simp only [List.length_append]
  rw [show ((List.range I.T).flatMap fun t => (on I f).comDigest (τ.v t)).length = I.T * I.digest by
    rw [flatMap_len (s := fun t => (on I f).comDigest (τ.v t)) (c := I.digest) fun t _ => hash_length _ _, List.length_range], hr, h.1]
  ring

/-! ### Kinds of strings -/

/-- Commitments of parties, digests of commitments, messages, nodes of the Merkle tree. -/
abbrev Which (I : Picnic3.Inst) := (Fin I.T × Fin 16) ⊕ Fin I.T ⊕ Fin I.T ⊕ Fin (2 ^ I.depth)

/-- A verifier hashes the string. -/
def Used (I : Picnic3.Inst) (τ : Picnic3.Transcript) : Which I → Prop
  | .inl (t, j) => τ.Opens t j
  | .inr (.inl _) => True
  | .inr (.inr (.inl t)) => t.1 ∈ τ.C
  | .inr (.inr (.inr x)) => OnPath I τ x

def str (I : Picnic3.Inst) (salt : Bytes) (τ : Picnic3.Transcript) : Which I → Bytes
  | .inl (t, j) => commitString salt t (τ.v t) j
  | .inr (.inl t) => comString (τ.v t)
  | .inr (.inr (.inl t)) => msgString (τ.v t)
  | .inr (.inr (.inr x)) => I.nodeString salt τ.h x

/-- The lengths of strings tell what they are for, apart from tapes and commitments of the parties but the last. -/
def Kind (I : Picnic3.Inst) (y : Bytes) : Which I → Prop
  | .inl (_, j) => y.length = if j = 15 then I.seed + I.gate + 36 else I.seed + 36
  | .inr (.inl _) => y.length = 16 * I.digest
  | .inr (.inr (.inl _)) => y.length = I.blk + 16 * I.gate
  | .inr (.inr (.inr x)) => (y.length = I.digest + 35 ∨ y.length = 2 * I.digest + 35) ∧ ∃ z, y = z ++ int16 (x.1 - 1)

/-- What a verifier hashes is determined by the signature and the hash values of strings of other kinds. -/
theorem str_same (hI : I.Is p) (hreg : Spec.Rom.Regular I) {w : Which I} (ag : ∀ x : Bytes, ¬ Kind I x w → f x = g x)
    (h : (on I f).TranscriptOf ct pt msg sig salt τ) (h' : (on I g).TranscriptOf ct pt msg sig salt' τ') (hu : Used I τ w) : str I salt τ w = str I salt' τ' w := by
  have hlen : (I.digest + 1 ≠ I.seed + 36 ∧ I.digest + 1 ≠ I.seed + I.gate + 36 ∧ I.digest + 1 ≠ 16 * I.digest ∧ I.digest + 1 ≠ I.blk + 16 * I.gate ∧ I.digest + 1 ≠ 2 * I.digest + 35) ∧
      (I.seed + 37 ≠ I.seed + I.gate + 36 ∧ I.seed + 37 ≠ 16 * I.digest ∧ I.seed + 37 ≠ I.blk + 16 * I.gate ∧ I.seed + 37 ≠ I.digest + 35 ∧ I.seed + 37 ≠ 2 * I.digest + 35) ∧
      (I.seed + 36 ≠ I.seed + I.gate + 36 ∧ I.seed + 36 ≠ 16 * I.digest ∧ I.seed + 36 ≠ I.blk + 16 * I.gate ∧ I.seed + 36 ≠ I.digest + 35 ∧ I.seed + 36 ≠ 2 * I.digest + 35) ∧
      (I.seed + I.gate + 36 ≠ 16 * I.digest) ∧ (I.blk + 16 * I.gate ≠ I.digest + 35 ∧ I.blk + 16 * I.gate ≠ 2 * I.digest + 35) := by
    obtain ⟨-, -, -, h4, -, h6, h7, h8, h9, -⟩ | ⟨-, -, -, h4, -, h6, h7, h8, h9, -⟩ | ⟨-, -, -, h4, -, h6, h7, h8, h9, -⟩ := nums hI <;> rw [h6, h7, h8, h9] <;> decide
  obtain ⟨⟨a1, a2, a3, a4, a5⟩, ⟨b1, b2, b3, b4, b5⟩, ⟨c1, c2, c3, c4, c5⟩, d1, d2, d3⟩ := hlen
  match w, hu with
  | .inl (t, j), hu =>
    have e : ∀ x : Bytes, x.length ≠ (if j = 15 then I.seed + I.gate + 36 else I.seed + 36) → f x = g x := fun x hx => ag x hx
    have P := parsed (fun x hx => e x (by split_ifs <;> omega)) h h'
    refine commit_same hI hreg (fun x hx => e x (by split_ifs <;> omega)) (fun hj x hx => e x ?_) h h' P t.2 j.2 hu
    rw [if_pos (Fin.ext hj)]
    omega
  | .inr (.inl t), _ =>
    have e : ∀ x : Bytes, x.length ≠ 16 * I.digest → f x = g x := fun x hx => ag x hx
    have P := parsed (fun x hx => e x (by omega)) h h'
    exact com_same hI hreg (fun x hx => e x (by omega)) (fun x hx => e x (by omega)) (fun x hx => e x (by omega)) h h' P t.2
  | .inr (.inr (.inl t)), hu =>
    have e : ∀ x : Bytes, x.length ≠ I.blk + 16 * I.gate → f x = g x := fun x hx => ag x hx
    have P := parsed (fun x hx => e x (by omega)) h h'
    exact msg_same hI hreg (fun x hx => e x (by omega)) (fun x hx => e x (by omega)) h h' P hu
  | .inr (.inr (.inr x)), hu =>
    have e : ∀ y : Bytes, y.length ≠ I.digest + 35 → y.length ≠ 2 * I.digest + 35 → f y = g y := fun y h1 h2 => ag y fun hk => by
      obtain ⟨h3 | h3, -⟩ := hk
      · exact h1 h3
      · exact h2 h3
    have P := parsed (fun x hx => e x (by have := (sizes hI).dig; omega) (by omega)) h h'
    obtain ⟨⟨r1, -⟩, r3⟩ := children_same hI hreg (fun x hx => e x (by omega) (by omega)) (fun x hx => e x (by omega) (by omega)) (fun x hx => e x (by omega) (by omega)) x.1
      (fun _ y hy1 hy2 _ _ => ag _ fun hk => by
        obtain ⟨-, z, hz⟩ := hk
        unfold Picnic3.Inst.nodeString at hz
        have hD := (sizes hI).D16
        have hx := x.2
        have := int16_inj (by omega) (by omega) (List.append_inj' hz rfl).2
        have := (onPath_range (fun t ht => (h.accepts.2 t ht).1) hu).1
        omega) h h' P le_rfl hu
    exact nodeStr_same P.salt r1 fun h => (r3 h).1

theorem str_kind (hI : I.Is p) (hreg : Spec.Rom.Regular I) {w : Which I} (h : (on I f).TranscriptOf ct pt msg sig salt τ) (hu : Used I τ w) : Kind I (str I salt τ w) w := by
  match w, hu with
  | .inl (t, j), hu =>
    have := commit_len h t.2 j.2 hu
    simp only [Kind, str]
    rw [this]
    simp only [Fin.ext_iff]
    rfl
  | .inr (.inl t), _ => exact com_len h t.2
  | .inr (.inr (.inl t)), hu => exact msg_len h hu
  | .inr (.inr (.inr x)), hu =>
    refine ⟨?_, _, rfl⟩
    obtain ⟨⟨-, r2⟩, r3⟩ := children_same hI hreg (fun _ _ => rfl) (fun _ _ => rfl) (fun _ _ => rfl) 0 (fun _ _ _ _ _ _ => rfl) h h (parsed (fun _ _ => rfl) h h)
      (Nat.zero_le _) hu
    exact node_len h.1 r2 fun h => (r3 h).2

end Picnic.Rom3
