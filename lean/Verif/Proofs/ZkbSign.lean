import Verif.Proofs.H3

/-
The ZKB++ signing function.
-/

namespace Picnic

open Spec Spec.Challenge

/-! ### challenges -/

/-- Challenge value number i. -/
def chal (b : Buf) (i : ℕ) : ℕ := 2 * (bitsOf b (2 * i + 1)).val + (bitsOf b (2 * i)).val

theorem chal_lt (b : Buf) (i : ℕ) : chal b i < 4 := by
  unfold chal
  have h1 := ZMod.val_lt (bitsOf b (2 * i + 1))
  have h2 := ZMod.val_lt (bitsOf b (2 * i))
  omega

theorem getChallenge_eq {b : Buf} {i : ℕ} (h : 2 * i + 1 < 8 * b.length) :
    getChallenge b i = Outcome.ok (BitVec.ofNat 8 (chal b i)) := by
  obtain ⟨c, e, h'⟩ := getChallenge_ok h
  have : c.toNat = chal b i := h'
  rw [e, ← this]
  simp

theorem ofNat_chal {c : ℕ} (h : c < 4) : (BitVec.ofNat 8 c).toNat = c := by
  rw [BitVec.toNat_ofNat]; omega

theorem chal_encTrits {T : ℕ} {l : List ℕ} (hl : ∀ x ∈ l, x < 3) {i : ℕ} (hi : i < T) :
    chal (encTrits T l) i = l.getD i 0 := by
  have hn := numBytes_eq (2 * T)
  have h3 : l.getD i 0 < 3 := by
    by_cases h : i < l.length
    · rw [List.getD_eq_getElem _ _ h]; exact hl _ (List.getElem_mem h)
    · rw [List.getD_eq_default _ _ (by omega)]; omega
  unfold chal encTrits
  rw [bitsOf_ofBits _ (by omega), bitsOf_ofBits _ (by omega), if_pos (by omega), if_pos (by omega),
    show (2 * i + 1) / 2 = i by omega, show (2 * i + 1) % 2 = 1 by omega, show 2 * i / 2 = i by omega,
    show 2 * i % 2 = 0 by omega, ZMod.val_natCast, ZMod.val_natCast]
  omega

/-! ### proofs -/

/-- The parts of a proof that are transmitted. -/
structure QProof where
  seed1 : Buf
  seed2 : Buf
  inp : Buf
  comm : Buf
  com3 : Buf
  g3 : Buf

/-- The transmitted parts of a proof for challenge c. -/
def qproof (P : Params) (c : ℕ) (p : Proof) : QProof :=
  { seed1 := p.seed1, seed2 := p.seed2, inp := if c = 0 then [] else p.inputShare, comm := p.communicatedBits
    com3 := p.view3Commitment
    g3 := if P.transform = .UR then (p.view3UnruhG.getD []).take (gLen P ((c + 2) % 3)) else [] }

/-- The proof the prover sends for challenge c. -/
def honestProof (E : Env) (P : Params) (sd : ℕ → Buf) (views : ℕ → View) (c : ℕ) : QProof :=
  { seed1 := sd c, seed2 := sd ((c + 1) % 3), inp := if c = 0 then [] else (views 2).inputShare
    comm := (views ((c + 1) % 3)).communicatedBits
    com3 := commitOf E P (sd ((c + 2) % 3)) (views ((c + 2) % 3))
    g3 := if P.transform = .UR then gOf E P ((c + 2) % 3) (sd ((c + 2) % 3)) (views ((c + 2) % 3)) else [] }

theorem allocateProof_wf {E : Env} {P : Params} (hZ : ZkbWF P) (i : ℕ) : ProofWF P (allocateProof E P i) := by
  have := hZ.digAnd
  have := hZ.digPos
  refine ⟨by simp [allocateProof], by simp [allocateProof], by simp [allocateProof], by simp [allocateProof],
    by simp [allocateProof], fun hU => ?_⟩
  have hg := hZ.gIn hU
  refine ⟨E.junkBuf siteProof (6 * i + 5) P.unruhGWithInputBytes, ?_, by simp [hg]⟩
  simp only [allocateProof]
  rw [if_pos (by omega)]

theorem gHashLen_eq {P : Params} (hZ : ZkbWF P) (hU : P.transform = .UR) (j : ℕ) : gHashLen P j = gLen P j := by
  unfold gHashLen gLen; rw [hZ.gIn hU, hZ.gNo hU]

theorem gIn_chal {P : Params} (hZ : ZkbWF P) (hU : P.transform = .UR) {c : ℕ} (hc : c < 3) :
    (if BitVec.ofNat 8 c = 0 then P.unruhGWithInputBytes else P.unruhGWithoutInputBytes) = gLen P ((c + 2) % 3) := by
  unfold gLen
  rw [hZ.gIn hU, hZ.gNo hU]
  have hc' : c = 0 ∨ c = 1 ∨ c = 2 := by omega
  rcases hc' with rfl | rfl | rfl <;> rfl

theorem prove_ok {E : Env} {P : Params} {proof : Proof} {c : ℕ} {sd : ℕ → Buf} {views : ℕ → View} {coms junk : ℕ → Buf}
    {gs : Option (List Buf)} (hZ : ZkbWF P) (hc : c < 3) (hpr : ProofWF P proof)
    (hsd : ∀ j < 3, (sd j).length = P.seedSizeBytes) (hv : ∀ j < 3, ViewWF P (views j))
    (hcoms : coms = fun j => commitOf E P (sd j) (views j))
    (hgs : gs = if P.transform = .UR then some (arrN 3 fun j => gOf E P j (sd j) (views j) ++ junk j) else none) :
    ∃ proof', prove P proof (BitVec.ofNat 8 c) (arrN 3 sd) (arrN 3 views) (arrN 3 coms) gs = Outcome.ok proof' ∧
      ProofWF P proof' ∧ qproof P c proof' = honestProof E P sd views c := by
  obtain ⟨s1, s2, inp, cm, c3, g3⟩ := proof
  obtain ⟨h1, h2, h3, h4, h5, h6⟩ := hpr
  simp only [] at h1 h2 h3 h4 h5 h6
  have hcl : ∀ j, (coms j).length = P.digestSizeBytes := by intro j; rw [hcoms]; simp [commitOf]
  have m1 : ∀ j < 3, memcpy s1 0 (sd j) 0 P.seedSizeBytes = Outcome.ok (sd j) := fun j hj => memcpy_full (hsd j hj) h1
  have m2 : ∀ j < 3, memcpy s2 0 (sd j) 0 P.seedSizeBytes = Outcome.ok (sd j) := fun j hj => memcpy_full (hsd j hj) h2
  have m3 : ∀ j < 3, memcpy inp 0 (views j).inputShare 0 P.stateSizeBytes = Outcome.ok (views j).inputShare := fun j hj =>
    memcpy_full (hv j hj).inp h3
  have m4 : ∀ j < 3, memcpy cm 0 (views j).communicatedBits 0 P.andSizeBytes = Outcome.ok (views j).communicatedBits :=
    fun j hj => memcpy_full (hv j hj).comm h4
  have m5 : ∀ j < 3, memcpy c3 0 (coms j) 0 P.digestSizeBytes = Outcome.ok (coms j) := fun j hj => memcpy_full (hcl j) h5
  have c1 : (c + 1) % 3 < 3 := Nat.mod_lt _ (by omega)
  have c2 : (c + 2) % 3 < 3 := Nat.mod_lt _ (by omega)
  -- the common tail
  have tail : ∀ inp', inp'.length = P.stateSizeBytes → (c ≠ 0 → inp' = (views 2).inputShare) → ∃ proof', (do
      let v ← rd (arrN 3 views) ((c + 1) % 3)
      let communicatedBits ← memcpy cm 0 v.communicatedBits 0 P.andSizeBytes
      let h ← rd (arrN 3 coms) ((c + 2) % 3)
      let view3Commitment ← memcpy c3 0 h 0 P.digestSizeBytes
      let proof : Proof := ⟨sd c, sd ((c + 1) % 3), inp', communicatedBits, view3Commitment, g3⟩
      if P.transform = .UR then do
        let len := if BitVec.ofNat 8 c = 0 then P.unruhGWithInputBytes else P.unruhGWithoutInputBytes
        let gs ← deref gs
        let g ← rd gs ((c + 2) % 3)
        let dst ← deref proof.view3UnruhG
        let dst ← memcpy dst 0 g 0 len
        pure { proof with view3UnruhG := some dst }
      else pure proof) = Outcome.ok proof' ∧ ProofWF P proof' ∧ qproof P c proof' = honestProof E P sd views c := by
    intro inp' hl hi
    rw [rd_arrN c1, ok_bind, m4 _ c1, ok_bind, rd_arrN c2, ok_bind, m5 _ c2, ok_bind]
    by_cases hU : P.transform = .UR
    · obtain ⟨g, rfl, hg⟩ := h6 hU
      have hgl := gLen_le P ((c + 2) % 3)
      simp only [hU, if_true]
      rw [gIn_chal hZ hU hc, hgs, if_pos hU]
      simp only [deref, ok_bind]
      rw [rd_arrN c2, ok_bind, memcpy_ok (by simp) (by simp; omega), ok_bind, pure_eq_ok]
      refine ⟨_, rfl, ⟨hsd c hc, hsd _ c1, hl, (hv _ c1).comm, hcl _, fun _ => ⟨_, rfl, ?_⟩⟩, ?_⟩
      · simp; omega
      · simp only [qproof, honestProof, if_pos hU, hcoms, Option.getD_some, QProof.mk.injEq, true_and]
        refine ⟨?_, ?_⟩
        · by_cases h0 : c = 0
          · simp [h0]
          · simp only [if_neg h0]; exact hi h0
        · simp
    · simp only [if_neg hU]
      refine ⟨_, rfl, ⟨hsd c hc, hsd _ c1, hl, (hv _ c1).comm, hcl _, fun h => absurd h hU⟩, ?_⟩
      simp only [qproof, honestProof, if_neg hU, hcoms, QProof.mk.injEq, true_and, and_true]
      by_cases h0 : c = 0
      · simp [h0]
      · simp only [if_neg h0]; exact hi h0
  unfold prove
  rw [ofNat_chal (by omega)]
  have hc' : c = 0 ∨ c = 1 ∨ c = 2 := by omega
  rcases hc' with rfl | rfl | rfl
  · obtain ⟨p', e, h⟩ := tail inp h3 (by simp)
    refine ⟨p', Eq.trans ?_ e, h⟩
    simp only [show ((BitVec.ofNat 8 0 : Byte) = 0) = True from eq_true (by decide),
      show ((BitVec.ofNat 8 0 : Byte) = 1) = False from eq_false (by decide),
      show ((BitVec.ofNat 8 0 : Byte) = 2) = False from eq_false (by decide), or_true, true_or, or_false, false_or, or_self, if_true, if_false,
      rd_arrN (show 0 < 3 by omega), rd_arrN (show 1 < 3 by omega), rd_arrN (show 2 < 3 by omega), ok_bind, m1 0 (by omega), m1 1 (by omega),
      m1 2 (by omega), m2 0 (by omega), m2 1 (by omega), m2 2 (by omega), m3 2 (by omega), pure_eq_ok]
  · obtain ⟨p', e, h⟩ := tail (views 2).inputShare (hv 2 (by omega)).inp (fun _ => rfl)
    refine ⟨p', Eq.trans ?_ e, h⟩
    simp only [show ((BitVec.ofNat 8 1 : Byte) = 0) = False from eq_false (by decide),
      show ((BitVec.ofNat 8 1 : Byte) = 1) = True from eq_true (by decide),
      show ((BitVec.ofNat 8 1 : Byte) = 2) = False from eq_false (by decide), or_true, true_or, or_false, false_or, or_self, if_true, if_false,
      rd_arrN (show 0 < 3 by omega), rd_arrN (show 1 < 3 by omega), rd_arrN (show 2 < 3 by omega), ok_bind, m1 0 (by omega), m1 1 (by omega),
      m1 2 (by omega), m2 0 (by omega), m2 1 (by omega), m2 2 (by omega), m3 2 (by omega), pure_eq_ok]
  · obtain ⟨p', e, h⟩ := tail (views 2).inputShare (hv 2 (by omega)).inp (fun _ => rfl)
    refine ⟨p', Eq.trans ?_ e, h⟩
    simp only [show ((BitVec.ofNat 8 2 : Byte) = 0) = False from eq_false (by decide),
      show ((BitVec.ofNat 8 2 : Byte) = 1) = False from eq_false (by decide),
      show ((BitVec.ofNat 8 2 : Byte) = 2) = True from eq_true (by decide), or_true, true_or, or_false, false_or, or_self, if_true, if_false,
      rd_arrN (show 0 < 3 by omega), rd_arrN (show 1 < 3 by omega), rd_arrN (show 2 < 3 by omega), ok_bind, m1 0 (by omega), m1 1 (by omega),
      m1 2 (by omega), m2 0 (by omega), m2 1 (by omega), m2 2 (by omega), m3 2 (by omega), pure_eq_ok]

/-! ### seeds -/

/-- All seeds followed by the salt. -/
def seedSlab (E : Env) (P : Params) (sk ct pt msg : Buf) : Buf :=
  H E P HASH_PREFIX_NONE (sk.take P.stateSizeBytes ++ msg ++ ct.take P.stateSizeBytes ++ pt.take P.stateSizeBytes ++
    le16 P.stateSizeBits) (P.seedSizeBytes * (P.numMPCParties * P.numMPCRounds) + P.saltSizeBytes)

theorem seedSlab_size {P : Params} (hZ : ZkbWF P) :
    P.seedSizeBytes * (P.numMPCParties * P.numMPCRounds) = P.numMPCRounds * P.numMPCParties * P.seedSizeBytes ∧
    P.numMPCRounds * P.numMPCParties * P.seedSizeBytes ≤ 48000 := by
  have h1 := hZ.seed
  have h2 := hZ.T
  refine ⟨by ring, ?_⟩
  rw [hZ.parties]
  calc P.numMPCRounds * 3 * P.seedSizeBytes ≤ 500 * 3 * 32 := Nat.mul_le_mul (by omega) h1
    _ = 48000 := rfl

theorem computeSeeds_ok {E : Env} {P : Params} {sk ct pt msg : Buf} {mlen : ℕ} (hE : PermWF E) (hZ : ZkbWF P)
    (hsk : P.stateSizeBytes ≤ sk.length) (hct : P.stateSizeBytes ≤ ct.length) (hpt : P.stateSizeBytes ≤ pt.length)
    (hm : mlen ≤ msg.length) (hm32 : mlen + 200 ≤ 2 ^ 32) :
    computeSeeds E P sk ct pt msg mlen = Outcome.ok (seedSlab E P sk ct pt (msg.take mlen)) := by
  have hst := hZ.state
  have hs := hZ.salt
  obtain ⟨h1, h2⟩ := seedSlab_size hZ
  unfold computeSeeds
  rw [hashAll_ok hE (by simp [intLE_eq]; omega) (by omega), ok_bind, wrN_zero (by simp; omega)]
  simp only [List.flatMap_cons, List.flatMap_nil, intLE_eq, List.append_nil, H_length]
  rw [List.drop_eq_nil_of_le (by simp; omega), List.append_nil]
  simp [seedSlab, List.take_of_length_le (show (le16 P.stateSizeBits).length ≤ 2 by simp)]

/-- Seed of player j in repetition k. -/
def slabSeed (P : Params) (slab : Buf) (k j : ℕ) : Buf := (slab.drop ((k * 3 + j) * P.seedSizeBytes)).take P.seedSizeBytes

/-- The salt. -/
def slabSalt (P : Params) (slab : Buf) : Buf := slab.drop (P.numMPCRounds * P.numMPCParties * P.seedSizeBytes)

theorem slabSeed_length {P : Params} {slab : Buf} {k j : ℕ} (hZ : ZkbWF P)
    (hslab : P.numMPCRounds * P.numMPCParties * P.seedSizeBytes ≤ slab.length) (hk : k < P.numMPCRounds) (hj : j < 3) :
    (slabSeed P slab k j).length = P.seedSizeBytes := by
  have : (k * 3 + j + 1) * P.seedSizeBytes ≤ P.numMPCRounds * P.numMPCParties * P.seedSizeBytes :=
    Nat.mul_le_mul_right _ (by rw [hZ.parties]; omega)
  rw [Nat.add_mul (k * 3 + j), Nat.one_mul] at this
  simp [slabSeed]; omega

/-! ### signing -/

theorem collectOpt_some {α : Type} {f : ℕ → M (Option α)} {g : ℕ → α} {n : ℕ}
    (h : ∀ i < n, f i = Outcome.ok (some (g i))) : collectOpt f n = Outcome.ok (some (arrN n g)) := by
  induction n with
  | zero => rfl
  | succ n ih =>
    rw [collectOpt, ih fun i hi => h i (by omega), ok_bind]
    simp only []
    rw [h n (by omega), ok_bind]
    simp [arrN, List.range_succ]

theorem collectOpt_none {α : Type} {f : ℕ → M (Option α)} {n : ℕ} (hn : 0 < n) (h : ∀ i < n, f i = Outcome.ok none) :
    collectOpt f n = Outcome.ok none := by
  induction n with
  | zero => omega
  | succ n ih =>
    rw [collectOpt]
    by_cases h0 : n = 0
    · subst h0
      simp only [collectOpt, ok_bind]
      rw [h 0 (by omega)]; rfl
    · rw [ih (by omega) fun i hi => h i (by omega)]; rfl

theorem arrN_map {α β : Type} (n : ℕ) (f : ℕ → α) (g : α → β) : (arrN n f).map g = arrN n fun i => g (f i) := by
  simp [arrN, Function.comp_def]

/-- The key shares add up to the key. -/
theorem shareKeys_sum {E : Env} {P : Params} {sk salt : Buf} {sd : ℕ → Buf} {k : ℕ} (hP : ParamsWF P) :
    ∀ i < P.stateSizeBits, (bitsOf (shareKeys E P sk salt sd k 0) + bitsOf (shareKeys E P sk salt sd k 1) +
      bitsOf (shareKeys E P sk salt sd k 2)) i = bitsOf sk i := by
  intro i hi
  have hb := hP.bytes
  simp only [shareKeys, if_true, show ¬ (0 : ℕ) = 2 by decide, show ¬ (1 : ℕ) = 2 by decide, if_false, Pi.add_apply]
  rw [bitsOf_ofBits _ (by omega)]
  simp only [Pi.add_apply]
  have h : ∀ a : ZMod 2, a + a = 0 := zmod2_add_self
  linear_combination h (bitsOf (vkey E P (sd 0) salt k 0) i) + h (bitsOf (vkey E P (sd 1) salt k 1) i)

/-- The output shares of the honest views add up to the LowMC encryption. -/
theorem honest_sum {E : Env} {P : Params} {sk pt salt : Buf} {sd : ℕ → Buf} {k : ℕ} {views : ℕ → View} (hP : ParamsWF P)
    (h : HonestViews E P sk pt salt sd k views) :
    ofBits (bitsOf (views 0).outputShare + bitsOf (views 1).outputShare + bitsOf (views 2).outputShare) P.stateSizeBytes =
      ofBits ((lowmcOf P (E.lowmc P)).enc (bitsOf sk) (bitsOf pt)) P.stateSizeBytes := by
  apply ofBits_congr
  intro i hi
  have hs := output_sum (h.cons 0 (by omega)) (h.cons 1 (by omega)) (h.cons 2 (by omega))
  have hs := congrFun hs i
  simp only [Pi.add_apply] at hs ⊢
  rw [h.out 0 (by omega), h.out 1 (by omega), h.out 2 (by omega), bitsOf_ofBits _ hi, bitsOf_ofBits _ hi, bitsOf_ofBits _ hi, hs]
  refine congrFun (enc_congr hP ?_ fun _ _ => rfl) i
  intro i hi
  simp only [View.spec, specView]
  rw [h.inp 0 (by omega), h.inp 1 (by omega), h.inp 2 (by omega)]
  exact shareKeys_sum hP i hi

/-- The message that is hashed to get the challenge, for the honest views. -/
def signInput (E : Env) (P : Params) (ct pt salt msg : Buf) (sd : ℕ → ℕ → Buf) (views : ℕ → ℕ → View) : Buf :=
  h3Input P ct pt (fun k j => (views k j).outputShare) (fun k j => commitOf E P (sd k j) (views k j))
    (fun k j => gOf E P j (sd k j) (views k j)) salt msg

theorem tripleBytes_congr {T : ℕ} {xs ys : ℕ → ℕ → Buf} {len : ℕ → ℕ}
    (h : ∀ i < T, ∀ j < 3, (xs i j).take (len j) = (ys i j).take (len j)) : tripleBytes T xs len = tripleBytes T ys len := by
  unfold tripleBytes
  rw [List.flatMap_def, List.flatMap_def]
  congr 1
  refine List.map_congr_left fun i hi => ?_
  rw [List.flatMap_def, List.flatMap_def]
  congr 1
  exact List.map_congr_left fun j hj => h i (List.mem_range.1 hi) j (List.mem_range.1 hj)

theorem h3Input_congr {P : Params} {ct pt salt msg : Buf} {outs outs' coms coms' gs gs' : ℕ → ℕ → Buf}
    (h1 : ∀ i < P.numMPCRounds, ∀ j < 3, outs i j = outs' i j) (h2 : ∀ i < P.numMPCRounds, ∀ j < 3, coms i j = coms' i j)
    (h3 : P.transform = .UR → ∀ i < P.numMPCRounds, ∀ j < 3, (gs i j).take (gHashLen P j) = (gs' i j).take (gHashLen P j)) :
    h3Input P ct pt outs coms gs salt msg = h3Input P ct pt outs' coms' gs' salt msg := by
  unfold h3Input
  rw [tripleBytes_congr (xs := outs) (ys := outs') fun i hi j hj => by rw [h1 i hi j hj],
    tripleBytes_congr (xs := coms) (ys := coms') fun i hi j hj => by rw [h2 i hi j hj]]
  by_cases hU : P.transform = .UR
  · rw [if_pos hU, if_pos hU, tripleBytes_congr (h3 hU)]
  · rw [if_neg hU, if_neg hU]

/-- Well-formed signature object. -/
structure SigWF (P : Params) (sig : Signature) : Prop where
  ch : sig.challengeBits.length = numBytes (2 * P.numMPCRounds)
  salt : sig.salt.length = P.saltSizeBytes
  len : sig.proofs.length = P.numMPCRounds
  proofs : ∀ p ∈ sig.proofs, ProofWF P p

theorem allocateSignature_wf {E : Env} {P : Params} (hZ : ZkbWF P) : SigWF P (allocateSignature E P) :=
  ⟨by simp [allocateSignature], by simp [allocateSignature], by simp [allocateSignature], by
    intro p hp
    simp only [allocateSignature, List.mem_map] at hp
    obtain ⟨i, -, rfl⟩ := hp
    exact allocateProof_wf hZ i⟩

theorem SigWF.rd {P : Params} {sig : Signature} (h : SigWF P sig) {i : ℕ} (hi : i < P.numMPCRounds) :
    ∃ p, rd sig.proofs i = Outcome.ok p ∧ sig.proofs[i]? = some p ∧ ProofWF P p := by
  have : i < sig.proofs.length := by rw [h.len]; exact hi
  exact ⟨sig.proofs[i], rd_ok this, List.getElem?_eq_getElem this, h.proofs _ (List.getElem_mem _)⟩

/-- The proofs of a signature object. -/
def sigProofs (P : Params) (sig : Signature) (i : ℕ) : QProof :=
  qproof P (chal sig.challengeBits i) (sig.proofs.getD i default)

theorem bind_diverge {α β : Type} (k : α → M β) : ((Outcome.diverge : M α) >>= k) = Outcome.diverge := rfl

/-- The result of repetition k. -/
def honestRound (E : Env) (P : Params) (sd : ℕ → Buf) (views : ℕ → View) (junk : ℕ → Buf) : SignRound :=
  { seeds := arrN 3 sd, views := arrN 3 views, hashes := arrN 3 fun j => commitOf E P (sd j) (views j)
    gs := if P.transform = .UR then some (arrN 3 fun j => gOf E P j (sd j) (views j) ++ junk j) else none }

theorem signPicnic1_ok {E : Env} {P : Params} {sk ct pt msg : Buf} {mlen : ℕ} {sig0 : Signature} (hE : PermWF E)
    (hP : ParamsWF P) (hC : ConstsWF P (E.lowmc P)) (hZ : ZkbWF P) (hsig : SigWF P sig0)
    (hsk : P.stateSizeBytes ≤ sk.length) (hct : P.stateSizeBytes ≤ ct.length) (hpt : 4 * P.stateSizeWords ≤ pt.length)
    (hm : mlen ≤ msg.length) (hm32 : mlen + 200 ≤ 2 ^ 32) {slab : Buf}
    (hslab : slab = seedSlab E P sk ct pt (msg.take mlen)) :
    ∃ views : ℕ → ℕ → View,
      (∀ k < P.numMPCRounds, HonestViews E P sk pt (slabSalt P slab) (slabSeed P slab k) k (views k)) ∧
      ((ofBits ((lowmcOf P (E.lowmc P)).enc (bitsOf sk) (bitsOf pt)) P.stateSizeBytes ≠ ct.take P.stateSizeBytes ∧
        signPicnic1 E P sk ct pt msg mlen sig0 = Outcome.ok none) ∨
       (ofBits ((lowmcOf P (E.lowmc P)).enc (bitsOf sk) (bitsOf pt)) P.stateSizeBytes = ct.take P.stateSizeBytes ∧
        expandTrits E P (h3Digest E P (signInput E P ct pt (slabSalt P slab) (msg.take mlen) (slabSeed P slab) views)) =
          Outcome.diverge ∧ signPicnic1 E P sk ct pt msg mlen sig0 = Outcome.diverge) ∨
       (ofBits ((lowmcOf P (E.lowmc P)).enc (bitsOf sk) (bitsOf pt)) P.stateSizeBytes = ct.take P.stateSizeBytes ∧
        ∃ sig, expandTrits E P (h3Digest E P (signInput E P ct pt (slabSalt P slab) (msg.take mlen) (slabSeed P slab) views)) =
          Outcome.ok sig.challengeBits ∧ signPicnic1 E P sk ct pt msg mlen sig0 = Outcome.ok (some sig) ∧
          SigWF P sig ∧ sig.salt = slabSalt P slab ∧ (∀ i < P.numMPCRounds, chal sig.challengeBits i < 3) ∧
          ∀ i < P.numMPCRounds, sigProofs P sig i =
            honestProof E P (slabSeed P slab i) (views i) (chal sig.challengeBits i))) := by
  have hb := hP.bytes
  have hw := hP.words
  obtain ⟨hz1, hz2⟩ := seedSlab_size hZ
  have hsl : slab.length = P.numMPCRounds * P.numMPCParties * P.seedSizeBytes + P.saltSizeBytes := by
    rw [hslab]; simp [seedSlab]; omega
  have hsaltl : (slabSalt P slab).length = P.saltSizeBytes := by simp [slabSalt]; omega
  have hrounds : ∀ k : ℕ, ∃ (views : ℕ → View) (junk : ℕ → Buf), k < P.numMPCRounds →
      HonestViews E P sk pt (slabSalt P slab) (slabSeed P slab k) k views ∧
      signRound E P sk ct pt (slabSalt P slab) slab k = Outcome.ok
        (if ofBits (bitsOf (views 0).outputShare + bitsOf (views 1).outputShare + bitsOf (views 2).outputShare)
            P.stateSizeBytes = ct.take P.stateSizeBytes then
          some (honestRound E P (slabSeed P slab k) views junk)
        else none) := by
    intro k
    by_cases hk : k < P.numMPCRounds
    · obtain ⟨views, junk, h⟩ := signRound_ok (E := E) (P := P) (sk := sk) (pubKey := ct) (pt := pt) (salt := slabSalt P slab)
        (slab := slab) (k := k) (sd := slabSeed P slab k) hE hP hC hZ hk (by omega) hsk hct hpt hsaltl (fun j => rfl)
      exact ⟨views, junk, fun _ => h⟩
    · exact ⟨fun _ => allocateView P, fun _ => [], fun h => absurd h hk⟩
  choose views junk hr using hrounds
  refine ⟨views, fun k hk => (hr k hk).1, ?_⟩
  unfold signPicnic1
  rw [computeSeeds_ok hE hZ hsk hct (by omega) hm hm32, ok_bind, ← hslab]
  have hcopy : memcpy sig0.salt 0 slab (P.numMPCRounds * P.numMPCParties * P.seedSizeBytes) P.saltSizeBytes =
      Outcome.ok (slabSalt P slab) := by
    rw [memcpy_ok (by omega) (by rw [hsig.salt]; omega)]
    rw [List.take_of_length_le (l := slab.drop _) (by simp; omega), List.drop_eq_nil_of_le (as := sig0.salt) (by have := hsig.salt; omega)]
    simp [slabSalt]
  rw [hcopy, ok_bind]
  by_cases hrel : ofBits ((lowmcOf P (E.lowmc P)).enc (bitsOf sk) (bitsOf pt)) P.stateSizeBytes = ct.take P.stateSizeBytes
  swap
  · refine Or.inl ⟨hrel, ?_⟩
    rw [collectOpt_none hZ.Tpos, ok_bind]
    · rfl
    · intro k hk
      rw [(hr k hk).2, honest_sum hP (hr k hk).1, if_neg hrel]
  refine Or.inr ?_
  rw [collectOpt_some (g := fun k => honestRound E P (slabSeed P slab k) (views k) (junk k)) (fun k hk => by rw [(hr k hk).2, honest_sum hP (hr k hk).1, if_pos hrel]), ok_bind]
  simp only [arrN_map, honestRound]
  rw [H3_ok (outs := fun k j => (views k j).outputShare) (coms := fun k j => commitOf E P (slabSeed P slab k j) (views k j))
    (gs := fun k j => gOf E P j (slabSeed P slab k j) (views k j) ++ junk k j) hE hZ hct (by omega) hsig.ch hsaltl hm hm32
    rfl rfl (fun hU => by simp [gsArray, hU, arrN_map]) (fun i hi j hj => ((hr i hi).1.wf j hj).out.ge)
    (fun i hi j hj => by simp [commitOf]) (fun hU i hi j hj => by simp [gHashLen_eq hZ hU])]
  have hin : h3Input P ct pt (fun k j => (views k j).outputShare) (fun k j => commitOf E P (slabSeed P slab k j) (views k j))
      (fun k j => gOf E P j (slabSeed P slab k j) (views k j) ++ junk k j) (slabSalt P slab) (msg.take mlen) =
      signInput E P ct pt (slabSalt P slab) (msg.take mlen) (slabSeed P slab) views :=
    h3Input_congr (fun _ _ _ _ => rfl) (fun _ _ _ _ => rfl) fun hU i hi j hj => by
      rw [gHashLen_eq hZ hU, List.take_append_of_le_length (by simp)]
  rw [hin]
  by_cases hd : P.numMPCRounds ≤ (stream (nextDigest E P) (h3Digest E P (signInput E P ct pt (slabSalt P slab) (msg.take mlen)
      (slabSeed P slab) views)) E.fuel).length
  swap
  · rw [expandTrits, if_neg hd]
    exact Or.inl ⟨hrel, rfl, rfl⟩
  refine Or.inr ⟨hrel, ?_⟩
  rw [expandTrits, if_pos hd]
  set l := (stream (nextDigest E P) (h3Digest E P (signInput E P ct pt (slabSalt P slab) (msg.take mlen)
      (slabSeed P slab) views)) E.fuel).take P.numMPCRounds with hl
  have hl3 : ∀ x ∈ l, x < 3 := fun x hx => stream_lt (List.mem_of_mem_take hx)
  have hch3 : ∀ i < P.numMPCRounds, chal (encTrits P.numMPCRounds l) i < 3 := by
    intro i hi
    have hil : i < l.length := by rw [hl, List.length_take]; omega
    rw [chal_encTrits hl3 hi, List.getD_eq_getElem _ _ hil]
    exact hl3 _ (List.getElem_mem hil)
  have hn := numBytes_eq (2 * P.numMPCRounds)
  rw [ok_bind]
  have hprove : ∀ i : ℕ, ∃ proof', i < P.numMPCRounds →
      (do
        let proof ← rd sig0.proofs i
        let c ← getChallenge (encTrits P.numMPCRounds l) i
        let r ← rd (arrN P.numMPCRounds fun k => honestRound E P (slabSeed P slab k) (views k) (junk k)) i
        prove P proof c r.seeds r.views r.hashes r.gs) = Outcome.ok proof' ∧
      ProofWF P proof' ∧ qproof P (chal (encTrits P.numMPCRounds l) i) proof' =
        honestProof E P (slabSeed P slab i) (views i) (chal (encTrits P.numMPCRounds l) i) := by
    intro i
    by_cases hi : i < P.numMPCRounds
    · obtain ⟨p, e1, -, hp⟩ := hsig.rd hi
      obtain ⟨p', e2, h1, h2⟩ := prove_ok (E := E) (P := P) (proof := p) (c := chal (encTrits P.numMPCRounds l) i)
        (sd := slabSeed P slab i) (views := views i) (coms := fun j => commitOf E P (slabSeed P slab i j) (views i j))
        (junk := junk i) hZ (hch3 i hi) hp (fun j hj => slabSeed_length hZ (by omega) hi hj) (hr i hi).1.wf rfl rfl
      refine ⟨p', fun _ => ⟨?_, h1, h2⟩⟩
      rw [e1, ok_bind, getChallenge_eq (by simp; omega), ok_bind, rd_arrN hi, ok_bind]
      exact e2
    · exact ⟨default, fun h => absurd h hi⟩
  choose pf hpf using hprove
  refine ⟨{ proofs := arrN P.numMPCRounds pf, challengeBits := encTrits P.numMPCRounds l, salt := slabSalt P slab }, rfl, ?_,
    ⟨by simp, hsaltl, by simp [arrN], ?_⟩, rfl, hch3, ?_⟩
  · refine bind_of (collect_arrN (g := pf) fun i hi => (hpf i hi).1) rfl
  · intro p hp
    simp only [arrN, List.mem_map, List.mem_range] at hp
    obtain ⟨i, hi, rfl⟩ := hp
    exact (hpf i hi).2.1
  · intro i hi
    simp only [sigProofs]
    rw [show (arrN P.numMPCRounds pf).getD i default = pf i by simp [arrN, hi]]
    exact (hpf i hi).2.2

end Picnic
