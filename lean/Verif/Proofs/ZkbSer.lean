import Verif.Proofs.ZkbSign
import Mathlib.Algebra.BigOperators.Group.Finset.Basic
import Mathlib.Algebra.Order.BigOperators.Group.Finset

/-
Encoding and decoding of ZKB++ signatures.
-/

namespace Picnic

open Spec Finset

/-! ### the encoding -/

/-- The `n` bytes at offset `off`. -/
def sl (b : Buf) (off n : ℕ) : Buf := (b.drop off).take n

theorem sl_length {b : Buf} {off n : ℕ} (h : off + n ≤ b.length) : (sl b off n).length = n := by simp [sl]; omega

theorem sl_append {b : Buf} {off m n : ℕ} : sl b off (m + n) = sl b off m ++ sl b (off + m) n := by
  rw [sl, sl, sl, ← List.drop_drop, List.take_add]

theorem take_sl {b : Buf} {off n : ℕ} : b.take (off + n) = b.take off ++ sl b off n := by
  rw [sl, List.take_add]

/-- Encoded proof. -/
def encProof (q : QProof) : Buf := q.com3 ++ q.g3 ++ q.comm ++ q.seed1 ++ q.seed2 ++ q.inp

/-- Number of bytes of the G value in a proof for challenge c. -/
def encG (P : Params) (c : ℕ) : ℕ := if P.transform = .UR then gLen P ((c + 2) % 3) else 0

/-- Number of bytes of the input share in a proof for challenge c. -/
def encInp (P : Params) (c : ℕ) : ℕ := if c = 0 then 0 else P.stateSizeBytes

/-- Encoded length of a proof for challenge c. -/
def encLen (P : Params) (c : ℕ) : ℕ :=
  P.digestSizeBytes + encG P c + P.andSizeBytes + P.seedSizeBytes + P.seedSizeBytes + encInp P c

/-- Offset of the proof of repetition i. -/
def offOf (P : Params) (ch : Buf) (i : ℕ) : ℕ :=
  numBytes (2 * P.numMPCRounds) + P.saltSizeBytes + ∑ k ∈ range i, encLen P (chal ch k)

/-- Encoded length of a signature. -/
def encSigLen (P : Params) (ch : Buf) : ℕ := offOf P ch P.numMPCRounds

/-- The first proofs. -/
def encPrefix (ch salt : Buf) (q : ℕ → QProof) (i : ℕ) : Buf := ch ++ salt ++ (List.range i).flatMap fun k => encProof (q k)

/-- Lengths of the transmitted parts. -/
structure QWF (P : Params) (c : ℕ) (q : QProof) : Prop where
  seed1 : q.seed1.length = P.seedSizeBytes
  seed2 : q.seed2.length = P.seedSizeBytes
  inp : q.inp.length = encInp P c
  comm : q.comm.length = P.andSizeBytes
  com3 : q.com3.length = P.digestSizeBytes
  g3 : q.g3.length = encG P c

theorem encProof_length {P : Params} {c : ℕ} {q : QProof} (h : QWF P c q) : (encProof q).length = encLen P c := by
  simp [encProof, encLen, h.seed1, h.seed2, h.inp, h.comm, h.com3, h.g3]; omega

theorem qproof_wf {P : Params} {c : ℕ} {p : Proof} (h : ProofWF P p) : QWF P c (qproof P c p) := by
  refine ⟨h.seed1, h.seed2, ?_, h.comm, h.com3, ?_⟩
  · simp only [qproof, encInp]; split_ifs
    · rfl
    · exact h.inp
  · simp only [qproof, encG]
    by_cases hU : P.transform = .UR
    · obtain ⟨g, e, hl⟩ := h.g3 hU
      have := gLen_le P ((c + 2) % 3)
      rw [if_pos hU, if_pos hU, e]; simp; omega
    · rw [if_neg hU, if_neg hU]; rfl

theorem encPrefix_succ (ch salt : Buf) (q : ℕ → QProof) (i : ℕ) :
    encPrefix ch salt q (i + 1) = encPrefix ch salt q i ++ encProof (q i) := by
  simp [encPrefix, List.range_succ]

theorem offOf_succ (P : Params) (ch : Buf) (i : ℕ) : offOf P ch (i + 1) = offOf P ch i + encLen P (chal ch i) := by
  simp only [offOf, sum_range_succ]; omega

theorem encPrefix_length {P : Params} {ch salt : Buf} {q : ℕ → QProof} (h1 : ch.length = numBytes (2 * P.numMPCRounds))
    (h2 : salt.length = P.saltSizeBytes) (i : ℕ) (h3 : ∀ k < i, QWF P (chal ch k) (q k)) :
    (encPrefix ch salt q i).length = offOf P ch i := by
  induction i with
  | zero => simp [encPrefix, offOf, h1, h2]
  | succ i ih =>
    rw [encPrefix_succ, List.length_append, ih fun k hk => h3 k (by omega), encProof_length (h3 i (by omega)), offOf_succ]

/-- The encoded signature. -/
def encSig (P : Params) (ch salt : Buf) (q : ℕ → QProof) : Buf := encPrefix ch salt q P.numMPCRounds

theorem SigWF.qwf {P : Params} {sig : Signature} (h : SigWF P sig) {i : ℕ} (hi : i < P.numMPCRounds) :
    QWF P (chal sig.challengeBits i) (sigProofs P sig i) := by
  obtain ⟨p, -, e, hp⟩ := h.rd hi
  have : sig.proofs.getD i default = p := by rw [List.getD_eq_getElem?_getD, e]; rfl
  rw [sigProofs, this]
  exact qproof_wf hp

theorem SigWF.enc_length {P : Params} {sig : Signature} (h : SigWF P sig) :
    (encSig P sig.challengeBits sig.salt (sigProofs P sig)).length = encSigLen P sig.challengeBits :=
  encPrefix_length h.ch h.salt _ fun _ hk => h.qwf hk

/-! ### lengths -/

/-- What `serializeSignature` requires. -/
def serLen (P : Params) : ℕ :=
  let n := numBytes (2 * P.numMPCRounds) + P.saltSizeBytes +
    P.numMPCRounds * (2 * P.seedSizeBytes + P.stateSizeBytes + P.andSizeBytes + P.digestSizeBytes)
  if P.transform = .UR then n + P.unruhGWithoutInputBytes * P.numMPCRounds else n

theorem encLen_fs {P : Params} (h : P.transform ≠ .UR) (c : ℕ) :
    encLen P c = 2 * P.seedSizeBytes + P.andSizeBytes + P.digestSizeBytes + encInp P c := by
  simp only [encLen, encG, if_neg h]; omega

theorem encLen_ur {P : Params} (h : P.transform = .UR) {c : ℕ} (hc : c < 3) :
    encLen P c = 2 * P.seedSizeBytes + P.stateSizeBytes + P.andSizeBytes + P.digestSizeBytes +
      (P.seedSizeBytes + P.andSizeBytes) := by
  simp only [encLen, encG, if_pos h, encInp, gLen]
  have hc' : c = 0 ∨ c = 1 ∨ c = 2 := by omega
  rcases hc' with rfl | rfl | rfl
  all_goals simp
  all_goals omega

theorem encSigLen_ur {P : Params} (hZ : ZkbWF P) (h : P.transform = .UR) {ch : Buf}
    (hc : ∀ i < P.numMPCRounds, chal ch i < 3) : encSigLen P ch = serLen P := by
  rw [encSigLen, offOf, sum_congr rfl fun i hi => encLen_ur h (hc i (mem_range.1 hi)), serLen]
  simp only [if_pos h, sum_const, card_range, smul_eq_mul, hZ.gNo h]
  ring

theorem encSigLen_le {P : Params} (hZ : ZkbWF P) {ch : Buf}
    (hc : ∀ i < P.numMPCRounds, chal ch i < 3) : encSigLen P ch ≤ serLen P := by
  by_cases hU : P.transform = .UR
  · exact (encSigLen_ur hZ hU hc).le
  · rw [encSigLen, offOf, sum_congr rfl fun i hi => encLen_fs hU _, serLen]
    simp only [if_neg hU]
    have : ∑ k ∈ range P.numMPCRounds, (2 * P.seedSizeBytes + P.andSizeBytes + P.digestSizeBytes + encInp P (chal ch k)) ≤
        ∑ k ∈ range P.numMPCRounds, (2 * P.seedSizeBytes + P.stateSizeBytes + P.andSizeBytes + P.digestSizeBytes) := by
      apply sum_le_sum
      intro k _
      simp only [encInp]; split_ifs <;> omega
    rw [sum_const, card_range, smul_eq_mul] at this
    omega

theorem offOf_mono {P : Params} {ch : Buf} {i j : ℕ} (h : i ≤ j) : offOf P ch i ≤ offOf P ch j := by
  unfold offOf
  have := sum_le_sum_of_subset (f := fun k => encLen P (chal ch k)) (range_mono h)
  omega

/-! ### encoding -/

/-- The output after the bytes `e` have been written to the object `buf`. -/
def Emitted (buf e : Buf) (out : Buf × ℕ) : Prop := out = (e ++ buf.drop e.length, e.length)

theorem emit_ok {buf e src : Buf} {out : Buf × ℕ} {n : ℕ} (h : Emitted buf e out) (h1 : n ≤ src.length)
    (h2 : e.length + n ≤ buf.length) : ∃ out', emit out src n = Outcome.ok out' ∧ Emitted buf (e ++ src.take n) out' := by
  unfold Emitted at h
  subst h
  unfold emit
  simp only []
  rw [memcpy_at rfl (by omega) (by simp; omega), ok_bind, pure_eq_ok]
  refine ⟨_, rfl, ?_⟩
  have : (src.take n).length = n := by simp; omega
  simp [Emitted, this]

theorem emit_full {buf e src : Buf} {out : Buf × ℕ} {n : ℕ} (h : Emitted buf e out) (h1 : src.length = n)
    (h2 : e.length + n ≤ buf.length) : ∃ out', emit out src n = Outcome.ok out' ∧ Emitted buf (e ++ src) out' := by
  obtain ⟨o, e1, h'⟩ := emit_ok h h1.ge h2
  rw [List.take_of_length_le h1.le] at h'
  exact ⟨o, e1, h'⟩

theorem bind_ex2 {α β : Type} {x : M α} {k : α → M β} {Q : α → Prop} {R : β → Prop} (h : ∃ a, x = Outcome.ok a ∧ Q a)
    (h2 : ∀ a, Q a → ∃ b, k a = Outcome.ok b ∧ R b) : ∃ b, (x >>= k) = Outcome.ok b ∧ R b := bind_ex h h2

theorem serializeSignature_ok {P : Params} {sig : Signature} {buf : Buf} {n : ℕ} (hZ : ZkbWF P) (hs : SigWF P sig)
    (hc : ∀ i < P.numMPCRounds, chal sig.challengeBits i < 3) (hbuf : n ≤ buf.length) :
    serializeSignature P sig buf n = Outcome.ok (if n < serLen P then none else
      some (encSig P sig.challengeBits sig.salt (sigProofs P sig) ++ buf.drop (encSigLen P sig.challengeBits),
        encSigLen P sig.challengeBits)) := by
  unfold serializeSignature
  have hser : (if P.transform = .UR then numBytes (2 * P.numMPCRounds) + P.saltSizeBytes +
      P.numMPCRounds * (2 * P.seedSizeBytes + P.stateSizeBytes + P.andSizeBytes + P.digestSizeBytes) +
      P.unruhGWithoutInputBytes * P.numMPCRounds else numBytes (2 * P.numMPCRounds) + P.saltSizeBytes +
      P.numMPCRounds * (2 * P.seedSizeBytes + P.stateSizeBytes + P.andSizeBytes + P.digestSizeBytes)) = serLen P := rfl
  simp only [hser]
  by_cases hn : n < serLen P
  · rw [if_pos hn, if_pos hn]; rfl
  rw [if_neg hn, if_neg hn]
  have hle := encSigLen_le hZ hc
  have hn2 := numBytes_eq (2 * P.numMPCRounds)
  have hchl := hs.ch
  have hl : ∀ i ≤ P.numMPCRounds, (encPrefix sig.challengeBits sig.salt (sigProofs P sig) i).length =
      offOf P sig.challengeBits i := fun i hi => encPrefix_length hs.ch hs.salt i fun k hk => hs.qwf (by omega)
  have h0 : offOf P sig.challengeBits 0 ≤ encSigLen P sig.challengeBits := offOf_mono (Nat.zero_le _)
  have h00 : offOf P sig.challengeBits 0 = numBytes (2 * P.numMPCRounds) + P.saltSizeBytes := by simp [offOf]
  obtain ⟨o1, e1, m1⟩ := emit_full (buf := buf) (e := []) (out := (buf, 0)) rfl hs.ch (by simp; omega)
  rw [e1, ok_bind]
  obtain ⟨o2, e2, m2⟩ := emit_full m1 hs.salt (by simp; omega)
  rw [e2, ok_bind]
  obtain ⟨o3, e3, m3⟩ := loop_inv (fun i out => Emitted buf (encPrefix sig.challengeBits sig.salt (sigProofs P sig) i) out)
    (f := fun i out => do
      let challenge ← getChallenge sig.challengeBits i
      let proof ← rd sig.proofs i
      let out ← emit out proof.view3Commitment P.digestSizeBytes
      let out ← if P.transform = .UR then do
          let len := if challenge = 0 then P.unruhGWithInputBytes else P.unruhGWithoutInputBytes
          let g ← deref proof.view3UnruhG
          emit out g len
        else pure out
      let out ← emit out proof.communicatedBits P.andSizeBytes
      let out ← emit out proof.seed1 P.seedSizeBytes
      let out ← emit out proof.seed2 P.seedSizeBytes
      if challenge = 1 ∨ challenge = 2 then emit out proof.inputShare P.stateSizeBytes
      else pure out) (n := P.numMPCRounds) (s := o2) (by simpa [encPrefix] using m2) (by
    intro i hi out m
    obtain ⟨p, r1, r2, hp⟩ := hs.rd hi
    have hci := hc i hi
    have hsp : sigProofs P sig i = qproof P (chal sig.challengeBits i) p := by
      rw [sigProofs, List.getD_eq_getElem?_getD, r2]; rfl
    rw [getChallenge_eq (by omega), ok_bind, r1, ok_bind, encPrefix_succ, hsp]
    have hq := qproof_wf (c := chal sig.challengeBits i) hp
    have hsum : offOf P sig.challengeBits i + encLen P (chal sig.challengeBits i) ≤ buf.length := by
      rw [← offOf_succ]
      exact le_trans (offOf_mono (show i + 1 ≤ P.numMPCRounds by omega)) (by unfold encSigLen at hle; omega)
    have hpl := hl i hi.le
    generalize encPrefix sig.challengeBits sig.salt (sigProofs P sig) i = e0 at m hpl ⊢
    generalize chal sig.challengeBits i = c at *
    unfold encLen at hsum
    obtain ⟨q1, f1, n1⟩ := emit_full m hp.com3 (by omega)
    rw [f1, ok_bind]
    have hG : ∃ q2, (∀ k : Buf × ℕ → M (Buf × ℕ), (if P.transform = .UR then do
          let len := if BitVec.ofNat 8 c = 0 then P.unruhGWithInputBytes else P.unruhGWithoutInputBytes
          let g ← deref p.view3UnruhG
          let out ← emit q1 g len
          k out
        else do
          let out ← pure q1
          k out) = k q2) ∧ Emitted buf (e0 ++ p.view3Commitment ++ (qproof P c p).g3) q2 := by
      by_cases hU : P.transform = .UR
      · obtain ⟨g, eg, hg⟩ := hp.g3 hU
        have hgl := gLen_le P ((c + 2) % 3)
        simp only [if_pos hU]
        rw [gIn_chal hZ hU hci, eg]
        simp only [deref, ok_bind]
        have hgn : encG P c = gLen P ((c + 2) % 3) := if_pos hU
        obtain ⟨q2, f2, n2⟩ := emit_ok (src := g) (n := gLen P ((c + 2) % 3)) n1 (by omega)
          (by simp only [List.length_append, hp.com3]; omega)
        refine ⟨q2, fun k => by rw [f2, ok_bind], ?_⟩
        simpa [qproof, hU, eg] using n2
      · simp only [if_neg hU]
        refine ⟨q1, fun k => rfl, ?_⟩
        simpa [qproof, hU] using n1
    obtain ⟨q2, f2, n2⟩ := hG
    obtain ⟨q3, f3, n3⟩ := emit_full n2 hp.comm (by simp only [List.length_append, hp.com3, hq.g3]; omega)
    obtain ⟨q4, f4, n4⟩ := emit_full n3 hp.seed1 (by simp only [List.length_append, hp.com3, hq.g3, hp.comm]; omega)
    obtain ⟨q5, f5, n5⟩ := emit_full n4 hp.seed2
      (by simp only [List.length_append, hp.com3, hq.g3, hp.comm, hp.seed1]; omega)
    rw [show ∀ k : Buf × ℕ → M (Buf × ℕ), (if P.transform = .UR then do
          let len := if BitVec.ofNat 8 c = 0 then P.unruhGWithInputBytes else P.unruhGWithoutInputBytes
          let g ← deref p.view3UnruhG
          let out ← emit q1 g len
          k out
        else do
          let out ← pure q1
          k out) = k q2 from f2, f3, ok_bind, f4, ok_bind, f5, ok_bind]
    by_cases h0 : c = 0
    · subst h0
      rw [if_neg (by decide), pure_eq_ok]
      refine ⟨q5, rfl, ?_⟩
      simpa [encProof, qproof] using n5
    · rw [if_pos (by
        have hc' : c = 1 ∨ c = 2 := by omega
        rcases hc' with rfl | rfl <;> decide)]
      have hin : encInp P c = P.stateSizeBytes := if_neg h0
      obtain ⟨q6, f6, n6⟩ := emit_full n5 hp.inp
        (by simp only [List.length_append, hp.com3, hq.g3, hp.comm, hp.seed1, hp.seed2]; omega)
      refine ⟨q6, f6, ?_⟩
      simpa [encProof, qproof, h0] using n6)
  rw [e3, ok_bind, pure_eq_ok]
  unfold Emitted at m3
  rw [m3, hl _ (le_refl _)]
  rfl

/-! ### decoding -/

/-- The proof for challenge c at offset `off`. -/
def decProof (P : Params) (b : Buf) (off c : ℕ) : QProof :=
  { com3 := sl b off P.digestSizeBytes
    g3 := sl b (off + P.digestSizeBytes) (encG P c)
    comm := sl b (off + P.digestSizeBytes + encG P c) P.andSizeBytes
    seed1 := sl b (off + P.digestSizeBytes + encG P c + P.andSizeBytes) P.seedSizeBytes
    seed2 := sl b (off + P.digestSizeBytes + encG P c + P.andSizeBytes + P.seedSizeBytes) P.seedSizeBytes
    inp := sl b (off + P.digestSizeBytes + encG P c + P.andSizeBytes + P.seedSizeBytes + P.seedSizeBytes) (encInp P c) }

theorem encProof_dec (P : Params) (b : Buf) (off c : ℕ) : encProof (decProof P b off c) = sl b off (encLen P c) := by
  simp only [encProof, decProof, encLen, sl_append, Nat.add_assoc, List.append_assoc]

theorem sl_at {a x r : Buf} {off n : ℕ} (h1 : a.length = off) (h2 : x.length = n) : sl (a ++ (x ++ r)) off n = x := by
  subst h1 h2; simp [sl]

theorem dec_encProof {P : Params} {c : ℕ} {q : QProof} {a r : Buf} {off : ℕ} (h : QWF P c q) (ha : a.length = off) :
    decProof P (a ++ encProof q ++ r) off c = q := by
  obtain ⟨s1, s2, inp, cm, c3, g3⟩ := q
  simp only [decProof, encProof, QProof.mk.injEq]
  obtain ⟨h1, h2, h3, h4, h5, h6⟩ := h
  simp only [] at h1 h2 h3 h4 h5 h6
  refine ⟨?_, ?_, ?_, ?_, ?_, ?_⟩
  · rw [show a ++ (c3 ++ g3 ++ cm ++ s1 ++ s2 ++ inp) ++ r = (a ++ c3 ++ g3 ++ cm) ++ (s1 ++ (s2 ++ inp ++ r)) by simp]
    exact sl_at (by simp; omega) h1
  · rw [show a ++ (c3 ++ g3 ++ cm ++ s1 ++ s2 ++ inp) ++ r = (a ++ c3 ++ g3 ++ cm ++ s1) ++ (s2 ++ (inp ++ r)) by simp]
    exact sl_at (by simp; omega) h2
  · rw [show a ++ (c3 ++ g3 ++ cm ++ s1 ++ s2 ++ inp) ++ r = (a ++ c3 ++ g3 ++ cm ++ s1 ++ s2) ++ (inp ++ r) by simp]
    exact sl_at (by simp; omega) h3
  · rw [show a ++ (c3 ++ g3 ++ cm ++ s1 ++ s2 ++ inp) ++ r = (a ++ c3 ++ g3) ++ (cm ++ (s1 ++ s2 ++ inp ++ r)) by simp]
    exact sl_at (by simp; omega) h4
  · rw [show a ++ (c3 ++ g3 ++ cm ++ s1 ++ s2 ++ inp) ++ r = a ++ (c3 ++ (g3 ++ cm ++ s1 ++ s2 ++ inp ++ r)) by simp]
    exact sl_at ha h5
  · rw [show a ++ (c3 ++ g3 ++ cm ++ s1 ++ s2 ++ inp) ++ r = (a ++ c3) ++ (g3 ++ (cm ++ s1 ++ s2 ++ inp ++ r)) by simp]
    exact sl_at (by simp; omega) h6

theorem encPrefix_split (ch salt : Buf) (q : ℕ → QProof) {i n : ℕ} (h : i ≤ n) :
    ∃ r, encPrefix ch salt q n = encPrefix ch salt q i ++ r := by
  induction n with
  | zero => exact ⟨[], by simp [show i = 0 by omega]⟩
  | succ n ih =>
    by_cases h' : i = n + 1
    · exact ⟨[], by simp [h']⟩
    · obtain ⟨r, e⟩ := ih (by omega)
      exact ⟨r ++ encProof (q n), by rw [encPrefix_succ, e, List.append_assoc]⟩

/-- Decoding an encoded signature. -/
theorem dec_encSig {P : Params} {ch salt : Buf} {q : ℕ → QProof} {r : Buf} (h1 : ch.length = numBytes (2 * P.numMPCRounds))
    (h2 : salt.length = P.saltSizeBytes) (h3 : ∀ k < P.numMPCRounds, QWF P (chal ch k) (q k)) {i : ℕ}
    (hi : i < P.numMPCRounds) : decProof P (encSig P ch salt q ++ r) (offOf P ch i) (chal ch i) = q i := by
  obtain ⟨r', e⟩ := encPrefix_split ch salt q (show i + 1 ≤ P.numMPCRounds by omega)
  rw [encSig, e, encPrefix_succ, List.append_assoc, List.append_assoc, ← List.append_assoc]
  exact dec_encProof (h3 i hi) (encPrefix_length h1 h2 i fun k hk => h3 k (by omega))

theorem enc_decSig {P : Params} {b ch salt : Buf} {q : ℕ → QProof} (h1 : ch = b.take (numBytes (2 * P.numMPCRounds)))
    (h2 : salt = sl b (numBytes (2 * P.numMPCRounds)) P.saltSizeBytes) {i : ℕ}
    (hq : ∀ k < i, q k = decProof P b (offOf P ch k) (chal ch k)) : encPrefix ch salt q i = b.take (offOf P ch i) := by
  induction i with
  | zero => simp [encPrefix, offOf, h2, take_sl, h1]
  | succ i ih =>
    rw [encPrefix_succ, ih fun k hk => hq k (by omega), hq i (by omega), encProof_dec, offOf_succ, take_sl]

theorem takeInto_ok {dst b : Buf} {off n : ℕ} (h1 : n ≤ dst.length) (h2 : off + n ≤ b.length) :
    takeInto dst b off n = Outcome.ok (sl b off n ++ dst.drop n, off + n) := by
  unfold takeInto
  rw [memcpy_ok h2 (by omega), ok_bind, pure_eq_ok]
  simp [sl]

theorem takeInto_full {dst b : Buf} {off n : ℕ} (h1 : dst.length = n) (h2 : off + n ≤ b.length) :
    takeInto dst b off n = Outcome.ok (sl b off n, off + n) := by
  rw [takeInto_ok h1.ge h2, List.drop_eq_nil_of_le h1.le, List.append_nil]

theorem decProof_wf {P : Params} {b : Buf} {off c : ℕ} (h : off + encLen P c ≤ b.length) : QWF P c (decProof P b off c) := by
  unfold encLen at h
  exact ⟨sl_length (by omega), sl_length (by omega), sl_length (by omega), sl_length (by omega), sl_length (by omega),
    sl_length (by omega)⟩

theorem deserializeProof_ok {P : Params} {b ch : Buf} {i : ℕ} {proof : Proof} {off c : ℕ} (hP : ParamsWF P) (hZ : ZkbWF P)
    (hpr : ProofWF P proof) (hch : getChallenge ch i = Outcome.ok (BitVec.ofNat 8 c)) (hc : c < 3)
    (hlen : off + encLen P c ≤ b.length) :
    ∃ proof', deserializeProof P b ch i proof off = Outcome.ok
        (if c ≠ 0 ∧ ¬ PadZero (decProof P b off c).inp P.stateSizeBits then none else some (proof', off + encLen P c)) ∧
      ProofWF P proof' ∧ qproof P c proof' = decProof P b off c := by
  have hb := hP.bytes
  have hD := decProof_wf hlen
  obtain ⟨s1, s2, inp, cm, c3, g3⟩ := proof
  obtain ⟨h1, h2, h3, h4, h5, h6⟩ := hpr
  simp only [] at h1 h2 h3 h4 h5 h6
  have hlen' := hlen
  unfold encLen at hlen'
  unfold deserializeProof
  rw [hch, ok_bind]
  simp only []
  rw [takeInto_full h5 (by omega), ok_bind]
  simp only []
  have hG : ∃ g3', (∀ k : Proof × ℕ → M (Option (Proof × ℕ)), (if P.transform = .UR then do
      let len := if BitVec.ofNat 8 c = 0 then P.unruhGWithInputBytes else P.unruhGWithoutInputBytes
      let dst ← deref g3
      let x ← takeInto dst b (off + P.digestSizeBytes) len
      let y ← pure ((⟨s1, s2, inp, cm, sl b off P.digestSizeBytes, some x.1⟩ : Proof), x.2)
      k y
    else do
      let y ← pure ((⟨s1, s2, inp, cm, sl b off P.digestSizeBytes, g3⟩ : Proof), off + P.digestSizeBytes)
      k y) = k (⟨s1, s2, inp, cm, sl b off P.digestSizeBytes, g3'⟩, off + P.digestSizeBytes + encG P c)) ∧
      (P.transform = .UR → ∃ g, g3' = some g ∧ g.length = P.seedSizeBytes + P.andSizeBytes + P.stateSizeBytes) ∧
      (if P.transform = .UR then (g3'.getD []).take (gLen P ((c + 2) % 3)) else []) =
        sl b (off + P.digestSizeBytes) (encG P c) := by
    by_cases hU : P.transform = .UR
    · obtain ⟨g, rfl, hg⟩ := h6 hU
      have hgl := gLen_le P ((c + 2) % 3)
      have hgn : encG P c = gLen P ((c + 2) % 3) := if_pos hU
      have hsl : (sl b (off + P.digestSizeBytes) (gLen P ((c + 2) % 3))).length = gLen P ((c + 2) % 3) :=
        sl_length (by omega)
      refine ⟨some (sl b (off + P.digestSizeBytes) (gLen P ((c + 2) % 3)) ++ g.drop (gLen P ((c + 2) % 3))), ?_, ?_, ?_⟩
      · intro k
        simp only [if_pos hU]
        rw [gIn_chal hZ hU hc]
        simp only [deref, ok_bind]
        rw [takeInto_ok (by omega) (by omega), ok_bind, pure_eq_ok, ok_bind, hgn]
      · intro _
        exact ⟨_, rfl, by simp [hsl]; omega⟩
      · rw [if_pos hU, hgn, Option.getD_some, List.take_append_of_le_length hsl.ge, List.take_of_length_le hsl.le]
    · refine ⟨g3, fun k => ?_, fun h => absurd h hU, ?_⟩
      · simp [if_neg hU, encG]
      · simp [if_neg hU, encG, sl]
  obtain ⟨g3', eG, hG1, hG2⟩ := hG
  have tail : ∃ proof', (do
      let x ← takeInto cm b (off + P.digestSizeBytes + encG P c) P.andSizeBytes
      let y ← takeInto s1 b x.2 P.seedSizeBytes
      let z ← takeInto s2 b y.2 P.seedSizeBytes
      let proof : Proof := ⟨y.1, z.1, inp, x.1, sl b off P.digestSizeBytes, g3'⟩
      if BitVec.ofNat 8 c = 1 ∨ BitVec.ofNat 8 c = 2 then do
        let w ← takeInto proof.inputShare b z.2 P.stateSizeBytes
        let okPad ← arePaddingBitsZero w.1 P.stateSizeBits
        if okPad then pure (some (({ proof with inputShare := w.1 } : Proof), w.2)) else pure none
      else pure (some (proof, z.2))) = Outcome.ok
        (if c ≠ 0 ∧ ¬ PadZero (decProof P b off c).inp P.stateSizeBits then none else some (proof', off + encLen P c)) ∧
      ProofWF P proof' ∧ qproof P c proof' = decProof P b off c := by
    rw [takeInto_full h4 (by omega), ok_bind]
    simp only []
    rw [takeInto_full h1 (by omega), ok_bind]
    simp only []
    rw [takeInto_full h2 (by omega), ok_bind]
    simp only []
    by_cases h0 : c = 0
    · subst h0
      rw [if_neg (by decide), pure_eq_ok]
      refine ⟨⟨(decProof P b off 0).seed1, (decProof P b off 0).seed2, inp, (decProof P b off 0).comm, (decProof P b off 0).com3,
        g3'⟩, Eq.trans ?_ (congrArg Outcome.ok (if_neg (by simp)).symm), ⟨hD.seed1, hD.seed2, h3, hD.comm, hD.com3, hG1⟩, ?_⟩
      rotate_left
      · simp only [qproof, decProof, hG2, if_true, encInp, sl, List.take_zero]
      · simp only [encLen, encInp, if_true, Nat.add_assoc, Nat.add_zero, decProof]
    · have hin : encInp P c = P.stateSizeBytes := if_neg h0
      rw [if_pos (by
        have hc' : c = 1 ∨ c = 2 := by omega
        rcases hc' with rfl | rfl <;> decide)]
      rw [takeInto_full h3 (by omega), ok_bind]
      simp only []
      rw [arePaddingBitsZero_ok (by rw [sl_length (by omega)]; omega), ok_bind]
      refine ⟨⟨(decProof P b off c).seed1, (decProof P b off c).seed2, (decProof P b off c).inp, (decProof P b off c).comm,
        (decProof P b off c).com3, g3'⟩, ?_, ⟨hD.seed1, hD.seed2, hD.inp.trans hin, hD.comm, hD.com3, hG1⟩, ?_⟩
      rotate_left
      · simp only [qproof, decProof, hG2, if_neg h0]
      · simp only [decProof, ne_eq, h0, not_false_eq_true, true_and, decide_eq_true_eq]
        rw [hin]
        by_cases hp : PadZero (sl b (off + P.digestSizeBytes + encG P c + P.andSizeBytes + P.seedSizeBytes + P.seedSizeBytes)
            P.stateSizeBytes) P.stateSizeBits
        · rw [if_pos hp, if_neg (not_not.2 hp), pure_eq_ok]
          simp only [encLen, hin, Nat.add_assoc]
        · rw [if_neg hp, if_pos hp]; rfl
  obtain ⟨p', e, h⟩ := tail
  refine ⟨p', Eq.trans ?_ e, h⟩
  exact eG _

/-- Number of bytes of input shares that `deserializeSignature` expects. -/
def inpTotal (P : Params) (ch : Buf) : ℕ :=
  ∑ i ∈ range P.numMPCRounds, if chal ch i = 1 ∨ chal ch i = 2 then P.stateSizeBytes else 0

/-- What `deserializeSignature` requires. -/
def decLen (P : Params) (ch : Buf) : ℕ :=
  let n := numBytes (2 * P.numMPCRounds) + P.saltSizeBytes +
      P.numMPCRounds * (2 * P.seedSizeBytes + P.andSizeBytes + P.digestSizeBytes) + inpTotal P ch
  if P.transform = .UR then n + P.unruhGWithoutInputBytes * P.numMPCRounds else n

theorem chal_congr {a b : Buf} {i : ℕ} (h1 : bitsOf a (2 * i) = bitsOf b (2 * i))
    (h2 : bitsOf a (2 * i + 1) = bitsOf b (2 * i + 1)) : chal a i = chal b i := by
  unfold chal; rw [h1, h2]

theorem chal_take {b : Buf} {n i : ℕ} (h : 2 * i + 1 < 8 * n) : chal (b.take n) i = chal b i :=
  chal_congr (bitsOf_take (by omega)) (bitsOf_take (by omega))

theorem ofNat_or {c : ℕ} (hc : c < 4) : (BitVec.ofNat 8 c = 1 ∨ BitVec.ofNat 8 c = 2) ↔ (c = 1 ∨ c = 2) := by
  have hc' : c = 0 ∨ c = 1 ∨ c = 2 ∨ c = 3 := by omega
  rcases hc' with rfl | rfl | rfl | rfl <;> decide

theorem computeInputShareSize_ok {P : Params} {b : Buf} (h : numBytes (2 * P.numMPCRounds) ≤ b.length) :
    computeInputShareSize P b P.stateSizeBytes = Outcome.ok (inpTotal P b) := by
  have hn := numBytes_eq (2 * P.numMPCRounds)
  unfold computeInputShareSize
  refine loop_seq (fun i => ∑ k ∈ range i, if chal b k = 1 ∨ chal b k = 2 then P.stateSizeBytes else 0) rfl ?_
  intro i hi
  rw [getChallenge_eq (by omega), ok_bind, pure_eq_ok, sum_range_succ]
  simp only [ofNat_or (chal_lt b i)]
  split_ifs <;> rfl

theorem isChallengeValid_ok {P : Params} {b : Buf} (h : numBytes (2 * P.numMPCRounds) ≤ b.length) :
    isChallengeValid P b = Outcome.ok (decide (∀ i < P.numMPCRounds, chal b i < 3)) := by
  have hn := numBytes_eq (2 * P.numMPCRounds)
  unfold isChallengeValid
  refine loop_seq (fun k => decide (∀ i < k, chal b i < 3)) (by simp) ?_
  intro i hi
  by_cases hv : ∀ j < i, chal b j < 3
  · rw [decide_eq_true hv, if_pos rfl, getChallenge_eq (by omega), ok_bind, pure_eq_ok, ofNat_chal (chal_lt b i)]
    congr 1
    by_cases h3 : chal b i < 3
    · rw [decide_eq_true (p := ∀ j < i + 1, chal b j < 3)]
      · simp; omega
      · intro j hj
        rcases Nat.lt_succ_iff_lt_or_eq.1 hj with h | rfl
        · exact hv j h
        · exact h3
    · rw [decide_eq_false (p := ∀ j < i + 1, chal b j < 3) fun h => h3 (h i (by omega))]
      simp; omega
  · rw [decide_eq_false hv, if_neg (by simp), pure_eq_ok,
      decide_eq_false (p := ∀ j < i + 1, chal b j < 3) fun h => hv fun j hj => h j (by omega)]

theorem decLen_fs {P : Params} (h : P.transform ≠ .UR) {ch : Buf} (hc : ∀ i < P.numMPCRounds, chal ch i < 3) :
    decLen P ch = encSigLen P ch := by
  rw [encSigLen, offOf, sum_congr rfl fun i hi => encLen_fs h _, decLen]
  simp only [if_neg h, inpTotal, sum_add_distrib, sum_const, card_range, smul_eq_mul]
  have : ∑ i ∈ range P.numMPCRounds, (if chal ch i = 1 ∨ chal ch i = 2 then P.stateSizeBytes else 0) =
      ∑ i ∈ range P.numMPCRounds, encInp P (chal ch i) := by
    refine sum_congr rfl fun i hi => ?_
    have := hc i (mem_range.1 hi)
    unfold encInp
    by_cases h0 : chal ch i = 0
    · rw [if_pos h0, if_neg (by omega)]
    · rw [if_neg h0, if_pos (by omega)]
  rw [this]
  ring

/-- With the UR transform the expected length is too small: it misses the larger G values of the repetitions with
challenge 0. -/
theorem decLen_ur {P : Params} (hZ : ZkbWF P) (h : P.transform = .UR) {ch : Buf}
    (hc : ∀ i < P.numMPCRounds, chal ch i < 3) :
    decLen P ch + P.stateSizeBytes * ((List.range P.numMPCRounds).countP fun i => chal ch i = 0) = encSigLen P ch := by
  rw [encSigLen_ur hZ h hc, decLen, serLen]
  simp only [if_pos h, inpTotal]
  have key : ∀ n ≤ P.numMPCRounds, (∑ i ∈ range n, if chal ch i = 1 ∨ chal ch i = 2 then P.stateSizeBytes else 0) +
      P.stateSizeBytes * ((List.range n).countP fun i => chal ch i = 0) = n * P.stateSizeBytes := by
    intro n
    induction n with
    | zero => simp
    | succ n ih =>
      intro hn
      have ih := ih (by omega)
      have := hc n (by omega)
      rw [sum_range_succ, List.range_succ, List.countP_append, Nat.mul_add, Nat.succ_mul, ← ih]
      by_cases h0 : chal ch n = 0
      · simp [h0]; omega
      · rw [if_pos (by omega)]; simp [h0]; omega
  have := key _ (le_refl _)
  rw [hZ.gNo h]
  nlinarith

/-- Offset of the decoder. -/
theorem deserializeSignature_ok {P : Params} {sig0 : Signature} {b : Buf} {n : ℕ} (hP : ParamsWF P) (hZ : ZkbWF P)
    (hs : SigWF P sig0) (hn : n ≤ b.length)
    (hfull : decLen P b ≤ n → (∀ i < P.numMPCRounds, chal b i < 3) → encSigLen P b ≤ b.length) :
    ∃ sig, deserializeSignature P sig0 b n = Outcome.ok
        (if numBytes (2 * P.numMPCRounds) ≤ n ∧ decLen P b ≤ n ∧ (∀ i < P.numMPCRounds, chal b i < 3) ∧
            (∀ i < P.numMPCRounds, chal b i ≠ 0 → PadZero (decProof P b (offOf P b i) (chal b i)).inp P.stateSizeBits)
          then some sig else none) ∧
      ((numBytes (2 * P.numMPCRounds) ≤ n ∧ decLen P b ≤ n ∧ (∀ i < P.numMPCRounds, chal b i < 3)) →
        SigWF P sig ∧ sig.challengeBits = b.take (numBytes (2 * P.numMPCRounds)) ∧
        sig.salt = sl b (numBytes (2 * P.numMPCRounds)) P.saltSizeBytes ∧
        ∀ i < P.numMPCRounds, sigProofs P sig i = decProof P b (offOf P b i) (chal b i)) := by
  have hnb := numBytes_eq (2 * P.numMPCRounds)
  unfold deserializeSignature
  by_cases h1 : n < numBytes (2 * P.numMPCRounds)
  · refine ⟨sig0, ?_, fun h => by omega⟩
    rw [if_pos h1, if_neg (by omega)]; rfl
  rw [if_neg h1, computeInputShareSize_ok (by omega), ok_bind]
  have hdl : (if P.transform = .UR then numBytes (2 * P.numMPCRounds) + P.saltSizeBytes +
      P.numMPCRounds * (2 * P.seedSizeBytes + P.andSizeBytes + P.digestSizeBytes) + inpTotal P b +
      P.unruhGWithoutInputBytes * P.numMPCRounds else numBytes (2 * P.numMPCRounds) + P.saltSizeBytes +
      P.numMPCRounds * (2 * P.seedSizeBytes + P.andSizeBytes + P.digestSizeBytes) + inpTotal P b) = decLen P b := rfl
  simp only [hdl]
  by_cases h2 : n < decLen P b
  · refine ⟨sig0, ?_, fun h => by omega⟩
    rw [if_pos h2, if_neg (by omega)]; rfl
  rw [if_neg h2]
  have hmin : numBytes (2 * P.numMPCRounds) + P.saltSizeBytes ≤ decLen P b := by
    unfold decLen; simp only []; split_ifs <;> omega
  rw [takeInto_full hs.ch (by omega), ok_bind]
  simp only []
  have hch0 : sl b 0 (numBytes (2 * P.numMPCRounds)) = b.take (numBytes (2 * P.numMPCRounds)) := by simp [sl]
  have hchl : (b.take (numBytes (2 * P.numMPCRounds))).length = numBytes (2 * P.numMPCRounds) := by simp; omega
  have hcc : ∀ i < P.numMPCRounds, chal (b.take (numBytes (2 * P.numMPCRounds))) i = chal b i := fun i hi =>
    chal_take (by omega)
  rw [hch0, isChallengeValid_ok (by rw [hchl]), ok_bind]
  have hiff : (∀ i < P.numMPCRounds, chal (b.take (numBytes (2 * P.numMPCRounds))) i < 3) ↔
      ∀ i < P.numMPCRounds, chal b i < 3 :=
    ⟨fun h i hi => by rw [← hcc i hi]; exact h i hi, fun h i hi => by rw [hcc i hi]; exact h i hi⟩
  by_cases h3 : ∀ i < P.numMPCRounds, chal b i < 3
  swap
  · refine ⟨sig0, ?_, fun h => absurd h.2.2 h3⟩
    rw [decide_eq_false (by rw [hiff]; exact h3), if_pos (by rfl), if_neg fun h => h3 h.2.2.1]
    rfl
  rw [decide_eq_true (hiff.2 h3), if_neg (by simp), takeInto_full hs.salt (by omega), ok_bind]
  simp only []
  have hlen := hfull (by omega) h3
  have hoff : ∀ i < P.numMPCRounds, offOf P b i + encLen P (chal b i) ≤ b.length := by
    intro i hi
    rw [← offOf_succ]
    exact le_trans (offOf_mono (show i + 1 ≤ P.numMPCRounds by omega)) (by unfold encSigLen at hlen; omega)
  have hpf : ∀ i : ℕ, ∃ proof proof', i < P.numMPCRounds → rd sig0.proofs i = Outcome.ok proof ∧
      deserializeProof P b (b.take (numBytes (2 * P.numMPCRounds))) i proof (offOf P b i) = Outcome.ok
        (if chal b i ≠ 0 ∧ ¬ PadZero (decProof P b (offOf P b i) (chal b i)).inp P.stateSizeBits then none
          else some (proof', offOf P b i + encLen P (chal b i))) ∧
      ProofWF P proof' ∧ qproof P (chal b i) proof' = decProof P b (offOf P b i) (chal b i) := by
    intro i
    by_cases hi : i < P.numMPCRounds
    · obtain ⟨p, e1, -, hp⟩ := hs.rd hi
      obtain ⟨p', h⟩ := deserializeProof_ok (ch := b.take (numBytes (2 * P.numMPCRounds))) (i := i) hP hZ hp
        (by rw [getChallenge_eq (by rw [hchl]; omega), hcc i hi]) (h3 i hi) (hoff i hi)
      exact ⟨p, p', fun _ => ⟨e1, h⟩⟩
    · exact ⟨default, default, fun h => absurd h hi⟩
  choose pf0 pf hpf using hpf
  have hloop : loop (fun i (st : Option (List Proof × Nat)) =>
          match st with
          | none => pure none
          | some (proofs, off) => do
            let proof ← rd sig0.proofs i
            let r ← deserializeProof P b (b.take (numBytes (2 * P.numMPCRounds))) i proof off
            match r with
            | none => pure none
            | some (proof, off) => pure (some (proofs ++ [proof], off))) P.numMPCRounds
          (some (([] : List Proof), 0 + numBytes (2 * P.numMPCRounds) + P.saltSizeBytes)) = Outcome.ok
      (if ∀ i < P.numMPCRounds, chal b i ≠ 0 → PadZero (decProof P b (offOf P b i) (chal b i)).inp P.stateSizeBits then
        some (arrN P.numMPCRounds pf, offOf P b P.numMPCRounds) else none) := by
    refine loop_seq (fun k => if ∀ i < k, chal b i ≠ 0 →
      PadZero (decProof P b (offOf P b i) (chal b i)).inp P.stateSizeBits then some (arrN k pf, offOf P b k) else none) ?_ ?_
    · simp [arrN, offOf]
    · intro i hi
      obtain ⟨e1, e2, -⟩ := hpf i hi
      by_cases hv : ∀ j < i, chal b j ≠ 0 → PadZero (decProof P b (offOf P b j) (chal b j)).inp P.stateSizeBits
      · rw [if_pos hv]
        simp only []
        rw [e1, ok_bind, e2, ok_bind]
        by_cases hp : chal b i ≠ 0 ∧ ¬ PadZero (decProof P b (offOf P b i) (chal b i)).inp P.stateSizeBits
        · rw [if_pos hp, if_neg fun h => hp.2 (h i (by omega) hp.1)]
          rfl
        · rw [if_neg hp, if_pos]
          · simp only [pure_eq_ok, arrN, List.range_succ, List.map_append, List.map_cons, List.map_nil, offOf_succ]
          · intro j hj h0
            rcases Nat.lt_succ_iff_lt_or_eq.1 hj with h | rfl
            · exact hv j h h0
            · by_contra hh; exact hp ⟨h0, hh⟩
      · rw [if_neg hv, if_neg fun h => hv fun j hj => h j (by omega)]
        rfl
  refine ⟨{ proofs := arrN P.numMPCRounds pf, challengeBits := b.take (numBytes (2 * P.numMPCRounds)),
            salt := sl b (0 + numBytes (2 * P.numMPCRounds)) P.saltSizeBytes }, ?_, ?_⟩
  · refine bind_of hloop ?_
    by_cases hv : ∀ i < P.numMPCRounds, chal b i ≠ 0 → PadZero (decProof P b (offOf P b i) (chal b i)).inp P.stateSizeBits
    · rw [if_pos hv, if_pos ⟨by omega, by omega, h3, hv⟩]
      rfl
    · rw [if_neg hv, if_neg fun h => hv h.2.2.2]
      rfl
  · intro _
    refine ⟨⟨hchl, ?_, by simp [arrN], ?_⟩, rfl, by simp, ?_⟩
    · rw [sl_length (by omega)]
    · intro p hp
      simp only [arrN, List.mem_map, List.mem_range] at hp
      obtain ⟨i, hi, rfl⟩ := hp
      exact (hpf i hi).2.2.1
    · intro i hi
      simp only [sigProofs]
      rw [hcc i hi, show (arrN P.numMPCRounds pf).getD i default = pf i by simp [arrN, hi]]
      exact (hpf i hi).2.2.2

end Picnic
