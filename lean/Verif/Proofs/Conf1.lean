import Verif.Proofs.ZkbApi
import Verif.Spec.Picnic1

/-
The closed forms of signing and verification for the ZKB++ parameter sets in terms of Verif/Spec/Picnic1.lean.
-/

namespace Picnic

open Spec Spec.Challenge Finset

theorem toBits_eq (b : Buf) : Picnic1.toBits b = bitsOf b := by
  funext i
  simp only [Picnic1.toBits, msbBit, bitsOf, byteBit]
  rfl

theorem byteOf_eq (f : ℕ → ZMod 2) :
    BitVec.ofNat 8 (∑ k ∈ range 8, (f k).val * 2 ^ (7 - k)) = byteOf f := by
  have key : ∀ a b c d e g h i : ZMod 2, BitVec.ofNat 8 (a.val * 128 + b.val * 64 + c.val * 32 + d.val * 16 + e.val * 8 +
      g.val * 4 + h.val * 2 + i.val * 1) = byteOf fun k => [a, b, c, d, e, g, h, i].getD k 0 := by decide +kernel
  have h := key (f 0) (f 1) (f 2) (f 3) (f 4) (f 5) (f 6) (f 7)
  simp only [sum_range_succ, sum_range_zero, Nat.zero_add]
  exact h

theorem ofBits_eq (n : ℕ) (v : Bits) : Picnic1.ofBits n v = ofBits v n := by
  unfold Picnic1.ofBits ofBits
  refine List.map_congr_left fun i _ => ?_
  exact byteOf_eq fun k => v (8 * i + k)

theorem int16_eq (x : ℕ) : Picnic1.int16 x = le16 x := by
  simp only [Picnic1.int16, le16, u16bytes, List.cons.injEq, and_true]
  refine ⟨?_, ?_⟩ <;> apply BitVec.eq_of_toNat_eq <;> simp [BitVec.extractLsb'_toNat, Nat.shiftRight_eq_div_pow] <;> omega

/-- The instance of the specification that belongs to a parameter set. -/
structure Match1 (E : Env) (P : Params) (I : Picnic1.Inst) : Prop where
  X : I.X = lowmcOf P (E.lowmc P)
  T : I.T = P.numMPCRounds
  seed : I.seed = P.seedSizeBytes
  digest : I.digest = P.digestSizeBytes
  rate : I.rate = rateOf P
  ur : I.unruh = true ↔ P.transform = .UR
  f : I.f = E.perm
  blk : I.blk = P.stateSizeBytes
  gate : I.gate = P.andSizeBytes

theorem match1_of {E : Env} {p : ℕ} {P : Params} {I : Picnic1.Inst} (hP : getParamSet p = some P) (hI : I.Is p)
    (hf : I.f = E.perm) (hX : I.X = lowmcOf P (E.lowmc P)) : Match1 E P I := by
  have hWF := paramsWF_of hP
  have hblk : I.blk = P.stateSizeBytes := by
    rw [Picnic1.Inst.blk, hX, bytesFor, hWF.bytes]; rfl
  have hgate : I.gate = P.andSizeBytes := by
    rw [Picnic1.Inst.gate, hX, bytesFor, hWF.andBytes]; rfl
  have h1 : Picnic1.table p = some (P.stateSizeBits, P.numSboxes, P.numRounds, P.numMPCRounds, P.seedSizeBytes,
      P.digestSizeBytes, rateOf P, decide (P.transform = .UR)) := by
    have hI' := hI
    unfold Picnic1.Inst.Is at hI'
    obtain ⟨h1, h2⟩ := getParamSet_bounds hP
    interval_cases p <;> first
      | (injection hP with hP; subst hP; rfl)
      | (simp [Picnic1.table] at hI')
  have h2 := hI.symm.trans h1
  simp only [Option.some.injEq, Prod.mk.injEq] at h2
  obtain ⟨-, -, -, hT, hs, hd, hr, hu⟩ := h2
  exact ⟨hX, hT, hs, hd, hr, by rw [hu]; simp, hf, hblk, hgate⟩

section
variable {E : Env} {P : Params} {I : Picnic1.Inst}

theorem Match1.hash (h : Match1 E P I) (m : Buf) (n : ℕ) : I.hash m n = H E P HASH_PREFIX_NONE m n := by
  rw [Picnic1.Inst.hash, H, h.rate, h.f]; rfl

theorem Match1.hash1 (h : Match1 E P I) {p : Byte} (hp : p ≠ HASH_PREFIX_NONE) (m : Buf) (n : ℕ) :
    I.hash ([p] ++ m) n = H E P p m n := by
  rw [Picnic1.Inst.hash, H, h.rate, h.f, prefixBytes, if_pos hp]

theorem Match1.secrets (h : Match1 E P I) (hZ : ZkbWF P) (sk ct pt msg : Buf) :
    I.secrets (sk.take P.stateSizeBytes) (ct.take P.stateSizeBytes) (pt.take P.stateSizeBytes) msg =
      seedSlab E P sk ct pt msg := by
  rw [Picnic1.Inst.secrets, h.hash, seedSlab, int16_eq, h.T, h.seed, hZ.parties, hZ.salt, h.X]
  congr 1
  ring

theorem Match1.seedOf (h : Match1 E P I) (s : Buf) (t j : ℕ) : I.seedOf s t j = slabSeed P s t j := by
  rw [Picnic1.Inst.seedOf, slabSeed, h.seed, Nat.mul_comm 3 t]

theorem Match1.saltOf (h : Match1 E P I) (hZ : ZkbWF P) (s : Buf) : I.saltOf s = slabSalt P s := by
  rw [Picnic1.Inst.saltOf, slabSalt, h.seed, h.T, hZ.parties, Nat.mul_comm 3]

theorem Match1.tape (h : Match1 E P I) (seed salt : Buf) (t j len : ℕ) :
    I.tape seed salt t j len = rtape E P seed salt t j len := by
  rw [Picnic1.Inst.tape, rtape, h.hash, h.hash1 (by decide), int16_eq, int16_eq, int16_eq, h.digest]; rfl

theorem Match1.keyShare (h : Match1 E P I) (seed salt : Buf) (t j : ℕ) : I.keyShare seed salt t j = vkey E P seed salt t j := by
  rw [Picnic1.Inst.keyShare, vkey, zpad, h.tape, ofBits_eq, toBits_eq, h.blk, h.gate, h.X]
  congr 1
  simp

theorem Match1.gateTape (h : Match1 E P I) (seed salt : Buf) (t j : ℕ) :
    I.gateTape seed salt t j = vtape E P seed salt t j := by
  rw [Picnic1.Inst.gateTape, vtape, h.tape, h.tape, h.blk, h.gate]

/-- A view of the specification. -/
def View.conf (v : View) (seed : Buf) : Picnic1.View := ⟨seed, v.inputShare, v.communicatedBits, v.outputShare⟩

/-- A view of the model. -/
def modelView (v : Picnic1.View) : View := { inputShare := v.key, communicatedBits := v.gates, outputShare := v.out }

theorem Match1.bitView (h : Match1 E P I) (salt : Buf) (t j : ℕ) (v : Picnic1.View) :
    I.bitView salt t j v = (modelView v).spec (vtape E P v.seed salt t j) := by
  rw [Picnic1.Inst.bitView, View.spec, specView, h.gateTape, toBits_eq, toBits_eq, toBits_eq]; rfl

theorem Match1.commit (h : Match1 E P I) (v : Picnic1.View) : I.commit v = commitOf E P v.seed (modelView v) := by
  rw [Picnic1.Inst.commit, List.append_assoc, List.append_assoc, List.append_assoc, h.hash1 (by decide), h.hash1 (by decide), commitOf, h.digest]
  simp only [List.append_assoc]; rfl

theorem Match1.gLen (h : Match1 E P I) (j : ℕ) : I.gLen j = gLen P j := by
  rw [Picnic1.Inst.gLen, Picnic.gLen, h.seed, h.gate, h.blk]; split_ifs <;> rfl

theorem Match1.G (h : Match1 E P I) (j : ℕ) (v : Picnic1.View) : I.G j v = gOf E P j v.seed (modelView v) := by
  rw [Picnic1.Inst.G, gOf, h.gLen, h.hash, h.hash1 (by decide), int16_eq, h.digest]; rfl

theorem padZero_iff_gates {P : Params} {b : Buf} {n : ℕ} (hl : b.length = (n + 7) / 8) :
    ZeroPad n b ↔ ∀ p, n ≤ p → bitsOf b p = 0 := by
  constructor
  · intro h p hp
    by_cases hpl : p < 8 * ((n + 7) / 8)
    · have := h p hp hpl
      rw [← toBits_eq, Picnic1.toBits, this]; rfl
    · exact bitsOf_ge (by omega)
  · intro h p hp _
    have := h p hp
    rw [← toBits_eq, Picnic1.toBits] at this
    by_contra hc
    rw [if_pos (by simpa using hc)] at this
    exact absurd this (by decide)

/-- Honest views of the specification and of the model. -/
theorem Match1.run_honest (h : Match1 E P I) (hP : ParamsWF P) {sk pt salt s : Buf} {t : ℕ}
    {v : ℕ → Picnic1.View} (hr : I.Run (sk.take P.stateSizeBytes) (pt.take P.stateSizeBytes) salt s t v) :
    HonestViews E P sk pt salt (slabSeed P s t) t (fun j => modelView (v j)) := by
  have hsd : ∀ j < 3, (v j).seed = slabSeed P s t j := fun j hj => by rw [hr.seed j hj, h.seedOf]
  have hb := hP.bytes
  refine honest_congr (sk := sk.take P.stateSizeBytes) (pt := pt.take P.stateSizeBytes) hP
    (fun i hi => bitsOf_take hi) (fun i hi => bitsOf_take (by omega)) ⟨?_, ?_, ?_, ?_, ?_⟩
  · intro j hj
    have h0 : (v 0).key = vkey E P (slabSeed P s t 0) salt t 0 := by rw [hr.key0, h.keyShare, hsd 0 (by omega)]
    have h1 : (v 1).key = vkey E P (slabSeed P s t 1) salt t 1 := by rw [hr.key1, h.keyShare, hsd 1 (by omega)]
    have hj' : j = 0 ∨ j = 1 ∨ j = 2 := by omega
    rcases hj' with rfl | rfl | rfl
    · exact h0
    · exact h1
    · change (v 2).key = _
      rw [hr.key2, ofBits_eq, toBits_eq, toBits_eq, toBits_eq, h0, h1, h.blk]; rfl
  · intro j hj
    refine ⟨?_, (hr.len j hj).trans h.gate, ?_⟩
    · have hj' : j = 0 ∨ j = 1 ∨ j = 2 := by omega
      rcases hj' with rfl | rfl | rfl
      · change (v 0).key.length = _
        rw [hr.key0, h.keyShare]; simp
      · change (v 1).key.length = _
        rw [hr.key1, h.keyShare]; simp
      · change (v 2).key.length = _
        rw [hr.key2, ofBits_eq, h.blk]; simp
    · change (v j).out.length = _
      rw [hr.out j hj, ofBits_eq, h.blk]; simp
  · intro j hj
    have := hr.out j hj
    rw [ofBits_eq, h.blk, h.X, toBits_eq, h.bitView, hsd j hj] at this
    exact this
  · intro j hj
    have h1 := hr.len j hj
    have h2 := hr.pad j hj
    rw [h.X] at h2
    rw [h.gate, hP.andBytes] at h1
    exact (padZero_iff_gates (P := P) h1).1 h2
  · intro j hj
    have c1 : (j + 1) % 3 < 3 := Nat.mod_lt _ (by omega)
    have := hr.gates j hj
    rw [h.X, toBits_eq, h.bitView, h.bitView, hsd j hj, hsd _ c1] at this
    exact this

theorem Match1.honest_run (h : Match1 E P I) (hP : ParamsWF P) {sk pt salt s : Buf} {t : ℕ} {views : ℕ → View}
    (hv : HonestViews E P sk pt salt (slabSeed P s t) t views) :
    I.Run (sk.take P.stateSizeBytes) (pt.take P.stateSizeBytes) salt s t
      (fun j => (views j).conf (slabSeed P s t j)) := by
  have hb := hP.bytes
  have hv := honest_congr (sk' := sk.take P.stateSizeBytes) (pt' := pt.take P.stateSizeBytes) hP
    (fun i hi => (bitsOf_take hi).symm) (fun i hi => (bitsOf_take (by omega)).symm) hv
  have h0 : (views 0).inputShare = vkey E P (slabSeed P s t 0) salt t 0 := (hv.inp 0 (by omega)).trans rfl
  have h1 : (views 1).inputShare = vkey E P (slabSeed P s t 1) salt t 1 := (hv.inp 1 (by omega)).trans rfl
  refine ⟨fun j _ => (h.seedOf s t j).symm, ?_, ?_, ?_, fun j hj => (hv.wf j hj).comm.trans h.gate.symm, ?_, ?_, ?_⟩
  · rw [h.keyShare]; exact h0
  · rw [h.keyShare]; exact h1
  · rw [ofBits_eq, toBits_eq, toBits_eq, toBits_eq, h.blk]
    refine (hv.inp 2 (by omega)).trans ?_
    simp only [View.conf, h0, h1]
    rfl
  · intro j hj
    refine (padZero_iff_gates (P := P) ?_).2 ?_
    · rw [h.X]; exact (hv.wf j hj).comm.trans hP.andBytes
    · rw [h.X]; exact hv.pad j hj
  · intro j hj
    rw [h.X, toBits_eq, h.bitView, h.bitView]
    exact hv.cons j hj
  · intro j hj
    rw [ofBits_eq, h.blk, h.X, toBits_eq, h.bitView]
    exact hv.out j hj

theorem Match1.all (h : Match1 E P I) {xs : ℕ → ℕ → Buf} {len : ℕ → ℕ}
    (hl : ∀ t < P.numMPCRounds, ∀ j < 3, (xs t j).length = len j) : I.all xs = tripleBytes P.numMPCRounds xs len := by
  rw [Picnic1.Inst.all, tripleBytes, h.T, List.flatMap_def, List.flatMap_def]
  congr 1
  refine List.map_congr_left fun t ht => ?_
  have ht := List.mem_range.1 ht
  simp only [show List.range 3 = [0, 1, 2] from rfl, List.flatMap_cons, List.flatMap_nil, List.append_nil]
  rw [List.take_of_length_le (hl t ht 0 (by omega)).le, List.take_of_length_le (hl t ht 1 (by omega)).le,
    List.take_of_length_le (hl t ht 2 (by omega)).le, List.append_assoc]

theorem Match1.challengeDigest (h : Match1 E P I) (hZ : ZkbWF P) {outs coms gs : ℕ → ℕ → Buf} (ct pt salt msg : Buf)
    (ho : ∀ t < P.numMPCRounds, ∀ j < 3, (outs t j).length = P.stateSizeBytes)
    (hc : ∀ t < P.numMPCRounds, ∀ j < 3, (coms t j).length = P.digestSizeBytes)
    (hg : P.transform = .UR → ∀ t < P.numMPCRounds, ∀ j < 3, (gs t j).length = Picnic.gLen P j) :
    I.challengeDigest outs coms gs (ct.take P.stateSizeBytes) (pt.take P.stateSizeBytes) salt msg =
      h3Digest E P (h3Input P ct pt outs coms gs salt msg) := by
  have e : (if I.unruh = true then I.all gs else []) =
      if P.transform = .UR then tripleBytes P.numMPCRounds gs (gHashLen P) else [] := by
    by_cases hU : P.transform = .UR
    · rw [if_pos hU, if_pos (h.ur.2 hU), h.all (len := gHashLen P)]
      intro t ht j hj
      rw [hg hU t ht j hj, gHashLen_eq hZ hU]
    · rw [if_neg hU, if_neg fun hh => hU (h.ur.1 hh)]
  rw [Picnic1.Inst.challengeDigest, e, h.all ho, h.all hc, h3Digest, h3Input, h.digest]
  rw [← h.hash1 (by decide)]
  simp only [List.append_assoc]; rfl

theorem Match1.encodeChallenge (h : Match1 E P I) (e : List ℕ) : I.encodeChallenge e = encTrits P.numMPCRounds e := by
  rw [Picnic1.Inst.encodeChallenge, encTrits, ofBits_eq, h.T]
  congr 1
  rw [numBytes_eq, bytesFor]

theorem Match1.next (h : Match1 E P I) : (fun d => I.hash ([1] ++ d) I.digest) = nextDigest E P := by
  funext d
  rw [h.hash1 (by decide), h.digest]; rfl

/-- The challenge computed by the library is that of the specification. -/
theorem Match1.challenge_of (h : Match1 E P I) {d ch : Buf} (he : expandTrits E P d = Outcome.ok ch) :
    ∃ e, I.Challenge d e ∧ e.length = P.numMPCRounds ∧ (∀ x ∈ e, x < 3) ∧ ch = I.encodeChallenge e ∧
      ∀ t < P.numMPCRounds, e.getD t 0 = chal ch t := by
  unfold expandTrits at he
  by_cases hd : P.numMPCRounds ≤ (stream (nextDigest E P) d E.fuel).length
  · rw [if_pos hd] at he
    injection he with he
    have h3 : ∀ x ∈ (stream (nextDigest E P) d E.fuel).take P.numMPCRounds, x < 3 := fun x hx =>
      stream_lt (List.mem_of_mem_take hx)
    refine ⟨_, ⟨E.fuel, ?_, rfl⟩, ?_, ?_, ?_, ?_⟩
    · rw [h.next, h.T]; exact hd
    · rw [h.next, h.T, List.length_take]; omega
    · rw [h.next, h.T]; exact h3
    · rw [h.encodeChallenge, h.next, h.T]; exact he.symm
    · intro t ht
      rw [← he, chal_encTrits h3 ht, h.next, h.T]
  · rw [if_neg hd] at he; cases he

/-- The library finds the challenge of the specification if it may hash often enough. -/
theorem Match1.challenge_to (h : Match1 E P I) {d : Buf} {e : List ℕ} (he : I.Challenge d e) :
    e.length = P.numMPCRounds ∧ (∀ x ∈ e, x < 3) ∧ (∀ t < P.numMPCRounds, e.getD t 0 = chal (I.encodeChallenge e) t) ∧
    ∃ n, ∀ fuel ≥ n, ∀ junk, expandTrits { E with junk := junk, fuel := fuel } P d = Outcome.ok (I.encodeChallenge e) := by
  obtain ⟨n, h1, h2⟩ := he
  rw [h.next, h.T] at h1 h2
  have h3 : ∀ x ∈ e, x < 3 := fun x hx => by rw [h2] at hx; exact stream_lt (List.mem_of_mem_take hx)
  refine ⟨by rw [h2, List.length_take]; omega, h3, fun t ht => ?_, n, fun fuel hf junk => ?_⟩
  · rw [h.encodeChallenge, chal_encTrits h3 ht]
  · have : expandTrits { E with fuel := n } P d = Outcome.ok (I.encodeChallenge e) := by
      unfold expandTrits
      rw [h.encodeChallenge, h2]
      exact if_pos h1
    exact expandTrits_fuel (E := { E with fuel := n }) hf this

/-- The transmitted parts of an opening. -/
def QProof.conf (q : QProof) : Picnic1.Opening :=
  { com := q.com3, g := q.g3, gates := q.comm, seed0 := q.seed1, seed1 := q.seed2, key := q.inp }

def modelQ (o : Picnic1.Opening) : QProof :=
  { com3 := o.com, g3 := o.g, comm := o.gates, seed1 := o.seed0, seed2 := o.seed1, inp := o.key }

theorem Match1.encode (h : Match1 E P I) (e : List ℕ) (salt : Buf) (o : ℕ → Picnic1.Opening) :
    I.encode e salt o = encSig P (I.encodeChallenge e) salt (fun t => modelQ (o t)) := by
  rw [Picnic1.Inst.encode, h.T]; rfl

theorem Match1.openViews (h : Match1 E P I) (e : ℕ) (v : ℕ → Picnic1.View) {sd : ℕ → Buf} (he : e < 3)
    (hs : ∀ j < 3, (v j).seed = sd j) :
    modelQ (I.openViews e v) = honestProof E P sd (fun j => modelView (v j)) e := by
  have c1 : (e + 1) % 3 < 3 := Nat.mod_lt _ (by omega)
  have c2 : (e + 2) % 3 < 3 := Nat.mod_lt _ (by omega)
  simp only [modelQ, Picnic1.Inst.openViews, honestProof, h.commit, h.G, hs _ c1, hs _ c2, hs _ he, QProof.mk.injEq,
    true_and]
  refine ⟨rfl, rfl, ?_⟩
  by_cases hU : P.transform = .UR
  · rw [if_pos hU, if_pos (h.ur.2 hU)]
  · rw [if_neg hU, if_neg fun hh => hU (h.ur.1 hh)]

theorem opened_pt {proof : Proof} {salt pt pt' : Buf} {k c : ℕ} {v1 v2 : View} (hP : ParamsWF P)
    (hp : ∀ i < P.stateSizeBits, bitsOf pt i = bitsOf pt' i) (h : OpenedViews E P proof salt pt k c v1 v2) :
    OpenedViews E P proof salt pt' k c v1 v2 := by
  refine ⟨h.inp1, h.inp2, h.comm2, h.len1, h.pad1, h.out1.trans ?_, h.out2.trans ?_, ?_⟩
  · rw [output_congr (C := E.lowmc P) hP hp ⟨fun _ _ => rfl, fun _ _ => rfl, fun _ _ => rfl⟩]
  · rw [output_congr (C := E.lowmc P) hP hp ⟨fun _ _ => rfl, fun _ _ => rfl, fun _ _ => rfl⟩]
  · exact consistent_congr (X := lowmcOf P (E.lowmc P)) hP.sboxes hp ⟨fun _ _ => rfl, fun _ _ => rfl, fun _ _ => rfl⟩
      ⟨fun _ _ => rfl, fun _ _ => rfl, fun _ _ => rfl⟩ h.cons

/-- The opened views of the specification and of the model. -/
theorem Match1.opened_model (h : Match1 E P I) (hP : ParamsWF P) {salt pt : Buf} {t e : ℕ} {o : Picnic1.Opening}
    {a b : Picnic1.View} (he : e < 3) (hfit : I.Fits e o) (hpad : e ≠ 0 → ZeroPad I.X.n o.key)
    (hO : I.Opened (pt.take P.stateSizeBytes) salt t e o a b) :
    OpenedViews E P (modelQ o).toProof salt pt t e (modelView a) (modelView b) := by
  have hb := hP.bytes
  have hz : e ≠ 0 → zpad P.stateSizeBits o.key = o.key := fun he0 => by
    refine zpad_eq_self ?_ ?_
    · rw [hfit.key, if_neg he0, h.blk, hb]
    · have := hpad he0
      rw [h.X] at this
      exact zeroPad_iff.1 this
  have hs0 : (modelQ o).toProof.seed 0 = a.seed := hO.seed0.symm
  have hs1 : (modelQ o).toProof.seed 1 = b.seed := hO.seed1.symm
  have ht0 : openTape E P (modelQ o).toProof salt t e 0 = vtape E P a.seed salt t e := by
    rw [openTape, hs0, Nat.add_zero, Nat.mod_eq_of_lt he]
  have ht1 : openTape E P (modelQ o).toProof salt t e 1 = vtape E P b.seed salt t ((e + 1) % 3) := by
    rw [openTape, hs1]
  refine opened_pt (pt := pt.take P.stateSizeBytes) hP (fun i hi => bitsOf_take (by omega)) ⟨?_, ?_, hO.gates1, ?_, ?_, ?_, ?_, ?_⟩
  · change a.key = _
    rw [hO.key0, openKey, hs0, Nat.add_zero, Nat.mod_eq_of_lt he, h.keyShare, hO.seed0]
    by_cases h2 : e = 2
    · rw [if_pos h2, if_pos h2]; exact (hz (by omega)).symm
    · rw [if_neg h2, if_neg h2]
  · change b.key = _
    rw [hO.key1, openKey, hs1, h.keyShare, hO.seed1]
    by_cases h2 : e = 1
    · rw [if_pos h2, if_pos (by omega)]; exact (hz (by omega)).symm
    · rw [if_neg h2, if_neg (by omega)]
  · exact hO.gates0.trans h.gate
  · have h2 := hO.pad0
    rw [h.X] at h2
    exact (padZero_iff_gates (P := P) ((hO.gates0.trans h.gate).trans hP.andBytes)).1 h2
  · have := hO.out0
    rw [ofBits_eq, h.blk, h.X, toBits_eq, h.bitView] at this
    rw [ht0]; exact this
  · have := hO.out1
    rw [ofBits_eq, h.blk, h.X, toBits_eq, h.bitView] at this
    rw [ht1]; exact this
  · have := hO.consistent
    rw [h.X, toBits_eq, h.bitView, h.bitView] at this
    rw [ht0, ht1]; exact this

theorem Match1.opened_conf (h : Match1 E P I) (hP : ParamsWF P) {salt pt : Buf} {t e : ℕ} {q : QProof}
    {v1 v2 : View} (he : e < 3) (hq : QWF P e q) (hpad : e ≠ 0 → PadZero q.inp P.stateSizeBits)
    (hO : OpenedViews E P q.toProof salt pt t e v1 v2) :
    I.Opened (pt.take P.stateSizeBytes) salt t e q.conf (v1.conf q.seed1) (v2.conf q.seed2) := by
  have hb := hP.bytes
  have hz : e ≠ 0 → zpad P.stateSizeBits q.inp = q.inp := fun he0 => by
    refine zpad_eq_self ?_ (hpad he0)
    rw [hq.inp, encInp, if_neg he0, hb]
  have hO := opened_pt (pt' := pt.take P.stateSizeBytes) hP (fun i hi => (bitsOf_take (by omega)).symm) hO
  have ht0 : openTape E P q.toProof salt t e 0 = vtape E P q.seed1 salt t e := by
    rw [openTape, Nat.add_zero, Nat.mod_eq_of_lt he]; rfl
  have ht1 : openTape E P q.toProof salt t e 1 = vtape E P q.seed2 salt t ((e + 1) % 3) := rfl
  refine ⟨rfl, rfl, ?_, ?_, hO.len1.trans h.gate.symm, ?_, hO.comm2, ?_, ?_, ?_⟩
  · change v1.inputShare = _
    rw [hO.inp1, openKey, h.keyShare, Nat.add_zero, Nat.mod_eq_of_lt he]
    by_cases h2 : e = 2
    · rw [if_pos h2, if_pos h2]; exact hz (by omega)
    · rw [if_neg h2, if_neg h2]; rfl
  · change v2.inputShare = _
    rw [hO.inp2, openKey, h.keyShare]
    by_cases h2 : e = 1
    · rw [if_pos h2, if_pos (by omega)]; exact hz (by omega)
    · rw [if_neg h2, if_neg (by omega)]; rfl
  · rw [h.X]
    exact (padZero_iff_gates (P := P) (hO.len1.trans hP.andBytes)).2 hO.pad1
  · rw [h.X, toBits_eq, h.bitView, h.bitView]
    have := hO.cons
    rw [ht0, ht1] at this; exact this
  · rw [ofBits_eq, h.blk, h.X, toBits_eq, h.bitView]
    have := hO.out1
    rw [ht0] at this; exact this
  · rw [ofBits_eq, h.blk, h.X, toBits_eq, h.bitView]
    have := hO.out2
    rw [ht1] at this; exact this

theorem Match1.fits (h : Match1 E P I) {e : ℕ} {o : Picnic1.Opening} : I.Fits e o ↔ QWF P e (modelQ o) := by
  have hg : (if I.unruh = true then I.gLen ((e + 2) % 3) else 0) = encG P e := by
    rw [encG, h.gLen]
    by_cases hU : P.transform = .UR
    · rw [if_pos hU, if_pos (h.ur.2 hU)]
    · rw [if_neg hU, if_neg fun hh => hU (h.ur.1 hh)]
  have hk : (if e = 0 then 0 else I.blk) = encInp P e := by rw [encInp, h.blk]
  constructor
  · intro hf
    exact ⟨hf.seed0.trans h.seed, hf.seed1.trans h.seed, hf.key.trans hk, hf.gates.trans h.gate, hf.com.trans h.digest,
      hf.g.trans hg⟩
  · intro hf
    exact ⟨hf.com3.trans h.digest.symm, hf.g3.trans hg.symm, hf.comm.trans h.gate.symm, hf.seed1.trans h.seed.symm,
      hf.seed2.trans h.seed.symm, hf.inp.trans hk.symm⟩

end

end Picnic
