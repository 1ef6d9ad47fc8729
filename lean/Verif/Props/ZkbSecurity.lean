import Verif.Props.ZkbDecode
import Verif.Proofs.ZkbPriv

/-
C19 (special soundness) and C20 (privacy of the hidden view) for ZKB++.
-/

namespace Picnic

open Spec Spec.Challenge Finset

/-! ### C19 -/

/-- Two different strings with the same hash. -/
def Collision (E : Env) (P : Params) (pre : Byte) (x y : Buf) : Prop :=
  x ≠ y ∧ H E P pre x P.digestSizeBytes = H E P pre y P.digestSizeBytes

/-- The string that is hashed to commit to a view. -/
def comInput (E : Env) (P : Params) (seed : Buf) (v : View) : Buf :=
  H E P HASH_PREFIX_4 seed P.digestSizeBytes ++ v.inputShare ++ v.communicatedBits ++ v.outputShare

/-- A collision among the strings hashed for the commitments in three openings (for the challenges 0, 1, 2): party `j` is
opened first for challenge `j` and second for challenge `j - 1`. -/
def ComCollision (E : Env) (P : Params) (pr : ℕ → Proof) (v1 v2 : ℕ → View) : Prop :=
  ∃ j < 3, Collision E P HASH_PREFIX_0 (comInput E P (pr j).seed1 (v1 j)) (comInput E P (pr ((j + 2) % 3)).seed2 (v2 ((j + 2) % 3))) ∨
    Collision E P HASH_PREFIX_4 (pr j).seed1 (pr ((j + 2) % 3)).seed2

/-- Three openings of the same commitments and output shares. -/
theorem extract {E : Env} {P : Params} (hP : ParamsWF P) {pr : ℕ → Proof} {salt ct pt : Buf} {k : ℕ} {v1 v2 : ℕ → View}
    (ho : ∀ c < 3, OpenedViews E P (pr c) salt pt k c (v1 c) (v2 c)) (w1 : ∀ c < 3, ViewWF P (v1 c)) (w2 : ∀ c < 3, ViewWF P (v2 c))
    (hct : P.stateSizeBytes ≤ ct.length)
    (hcom : ∀ c < 3, ∀ c' < 3, ∀ j < 3,
      pick c (commitOf E P (pr c).seed1 (v1 c)) (commitOf E P (pr c).seed2 (v2 c)) (pr c).view3Commitment j =
        pick c' (commitOf E P (pr c').seed1 (v1 c')) (commitOf E P (pr c').seed2 (v2 c')) (pr c').view3Commitment j)
    (hout : ∀ c < 3, ∀ c' < 3, ∀ j < 3, verOuts P ct c (v1 c) (v2 c) j = verOuts P ct c' (v1 c') (v2 c') j) :
    ComCollision E P pr v1 v2 ∨ Relation P (E.lowmc P)
      (ofBits (bitsOf (v1 0).inputShare + bitsOf (v1 1).inputShare + bitsOf (v1 2).inputShare) P.stateSizeBytes) pt ct := by
  by_cases hcoll : ComCollision E P pr v1 v2
  · exact Or.inl hcoll
  refine Or.inr ?_
  have hb := hP.bytes
  have hno : ∀ j < 3, (pr j).seed1 = (pr ((j + 2) % 3)).seed2 ∧ v1 j = v2 ((j + 2) % 3) := by
    intro j hj
    have hc' : (j + 2) % 3 < 3 := Nat.mod_lt _ (by omega)
    have e := hcom j hj _ hc' j hj
    rw [pick, if_pos rfl, pick, if_neg (by omega), if_pos (by omega)] at e
    have e1 : comInput E P (pr j).seed1 (v1 j) = comInput E P (pr ((j + 2) % 3)).seed2 (v2 ((j + 2) % 3)) := by
      by_contra hne
      exact hcoll ⟨j, hj, Or.inl ⟨hne, e⟩⟩
    unfold comInput at e1
    obtain ⟨e2, e3⟩ := List.append_inj' e1 (by rw [(w1 j hj).out, (w2 _ hc').out])
    obtain ⟨e4, e5⟩ := List.append_inj' e2 (by rw [(w1 j hj).comm, (w2 _ hc').comm])
    obtain ⟨e6, e7⟩ := List.append_inj' e4 (by rw [(w1 j hj).inp, (w2 _ hc').inp])
    refine ⟨?_, view_ext e7 e5 e3⟩
    by_contra hne
    exact hcoll ⟨j, hj, Or.inr ⟨hne, e6⟩⟩
  have htape : ∀ j < 3, openTape E P (pr j) salt k j 1 = openTape E P (pr ((j + 1) % 3)) salt k ((j + 1) % 3) 0 := by
    intro j hj
    have := (hno ((j + 1) % 3) (Nat.mod_lt _ (by omega))).1
    rw [show ((j + 1) % 3 + 2) % 3 = j by omega] at this
    simp only [openTape, Proof.seed, if_true, one_ne_zero, if_false, Nat.add_zero]
    rw [this, Nat.mod_mod]
  have hview : ∀ j < 3, v2 j = v1 ((j + 1) % 3) := by
    intro j hj
    have := (hno ((j + 1) % 3) (Nat.mod_lt _ (by omega))).2
    rw [show ((j + 1) % 3 + 2) % 3 = j by omega] at this
    exact this.symm
  have hcons : ∀ j < 3, Zkb.Consistent (lowmcOf P (E.lowmc P)) (bitsOf pt) j ((v1 j).spec (openTape E P (pr j) salt k j 0))
      ((v1 ((j + 1) % 3)).spec (openTape E P (pr ((j + 1) % 3)) salt k ((j + 1) % 3) 0)) := by
    intro j hj
    have := (ho j hj).cons
    rw [hview j hj, htape j hj] at this
    exact this
  have hsum := output_sum (hcons 0 (by omega)) (hcons 1 (by omega)) (hcons 2 (by omega))
  have hlast := hout 0 (by omega) 2 (by omega) 2 (by omega)
  unfold verOuts at hlast
  rw [pick, if_neg (by omega), if_neg (by omega), pick, if_pos rfl, hview 0 (by omega)] at hlast
  intro i hi
  rw [bytesFor, ← hb] at hi
  have h1 := congrArg (fun b => bitsOf b i) hlast
  beta_reduce at h1
  rw [bitsOf_ofBits _ hi, (ho 2 (by omega)).out1] at h1
  simp only [Pi.add_apply] at h1
  rw [(ho 0 (by omega)).out1, show (0 + 1) % 3 = 1 from rfl, (ho 1 (by omega)).out1, bitsOf_ofBits _ hi, bitsOf_ofBits _ hi, bitsOf_ofBits _ hi] at h1
  have h2 := congrFun hsum i
  simp only [Pi.add_apply] at h2
  have h3 := zmod2_add_self (Zkb.output (lowmcOf P (E.lowmc P)) (bitsOf pt) 0 ((v1 0).spec (openTape E P (pr 0) salt k 0 0)) i)
  have h4 := zmod2_add_self (Zkb.output (lowmcOf P (E.lowmc P)) (bitsOf pt) 1 ((v1 1).spec (openTape E P (pr 1) salt k 1 0)) i)
  have h5 : bitsOf ct i = (lowmcOf P (E.lowmc P)).enc (bitsOf (v1 0).inputShare + bitsOf (v1 1).inputShare + bitsOf (v1 2).inputShare)
      (bitsOf pt) i := by
    refine Eq.trans ?_ h2
    linear_combination h1 - h3 - h4
  rw [h5]
  have h6 : (lowmcOf P (E.lowmc P)).enc (bitsOf (v1 0).inputShare + bitsOf (v1 1).inputShare + bitsOf (v1 2).inputShare) (bitsOf pt) =
      (lowmcOf P (E.lowmc P)).enc (bitsOf (ofBits (bitsOf (v1 0).inputShare + bitsOf (v1 1).inputShare + bitsOf (v1 2).inputShare)
        P.stateSizeBytes)) (bitsOf pt) :=
    enc_congr hP (fun i hi => by rw [bitsOf_ofBits _ (by omega)]) fun _ _ => rfl
  split_ifs with h
  · rw [h6]
  · exact enc_ge hP.rounds (by omega)

/-- C19 for one repetition: if three signatures with the same salt have the challenges 0, 1, 2 in repetition `k`, and the
verifier's computation for this repetition yields the same commitments and output shares for all three, then there is a collision
among the strings hashed for the commitments, or the sum of the input shares is a key that maps the plaintext to the ciphertext. -/
theorem C19_round (E : Env) (hE : EnvWF E) (p : ℕ) (hp : p ∈ zkbParams) (P : Params) (hP : getParamSet p = some P)
    (sig : ℕ → Signature) (salt ct pt : Buf) (hct : ct.length = 32) (hpt : pt.length = 32) (k : ℕ) (hk : k < P.numMPCRounds)
    (hs : ∀ c < 3, SigWF P (sig c)) (hsalt : ∀ c < 3, (sig c).salt = salt) (hch : ∀ c < 3, value (sig c).challengeBits k = c)
    (hashes outputs : List Buf) (hr : ∀ c < 3, ∃ gs, verifyRound E P (sig c) ct pt k = Outcome.ok ⟨hashes, gs, outputs⟩) :
    ∃ v1 v2 : ℕ → View,
      (∀ c < 3, OpenedViews E P ((sig c).proofs.getD k default) salt pt k c (v1 c) (v2 c)) ∧
      (ComCollision E P (fun c => (sig c).proofs.getD k default) v1 v2 ∨ Relation P (E.lowmc P)
        (ofBits (bitsOf (v1 0).inputShare + bitsOf (v1 1).inputShare + bitsOf (v1 2).inputShare) P.stateSizeBytes) pt ct) := by
  obtain ⟨P', hP', h3⟩ := getParamSet_zkb hp
  rw [hP] at hP'
  obtain rfl : P = P' := by simpa using hP'
  have hWF := paramsWF_of hP
  have hZ := zkbWF_of hP h3
  have hb := hWF.bytes
  have hw := hWF.words
  have hn := hWF.nMax
  have hnb := numBytes_eq (2 * P.numMPCRounds)
  have hall : ∀ c : ℕ, ∃ v1 v2 : View, c < 3 →
      OpenedViews E P ((sig c).proofs.getD k default) salt pt k c v1 v2 ∧ ProofWF P ((sig c).proofs.getD k default) ∧
      hashes = arrN 3 (pick c (commitOf E P ((sig c).proofs.getD k default).seed1 v1)
        (commitOf E P ((sig c).proofs.getD k default).seed2 v2) ((sig c).proofs.getD k default).view3Commitment) ∧
      outputs = arrN 3 (verOuts P ct c v1 v2) := by
    intro c
    by_cases hc : c < 3
    · obtain ⟨q, e1, e2, hq⟩ := (hs c hc).rd hk
      have eq : (sig c).proofs.getD k default = q := by rw [List.getD_eq_getElem?_getD, e2]; rfl
      have hg := getChallenge_eq (b := (sig c).challengeBits) (i := k) (by have := (hs c hc).ch; omega)
      rw [chal_eq_value, hch c hc] at hg
      have hcn : (BitVec.ofNat 8 c).toNat = c := ofNat_chal (by omega)
      obtain ⟨v1, v2, g3, junk, a1, -, a3⟩ := verifyRound_ok (E := E) (P := P) (sig := sig c) (proof := q) (pubKey := ct)
        (pt := pt) (k := k) hE.perm hWF (hE.lowmc _ _ hP) hZ e1 hg hq (hs c hc).salt (by rw [hcn]; exact hc) (by omega) (by omega)
      rw [hcn] at a1 a3
      obtain ⟨gs, a4⟩ := hr c hc
      rw [a4] at a3
      simp only [Outcome.ok.injEq, VerifyRound.mk.injEq] at a3
      refine ⟨v1, v2, fun _ => ?_⟩
      rw [eq, ← hsalt c hc]
      exact ⟨a1, hq, a3.1, a3.2.2⟩
    · exact ⟨default, default, fun h => absurd h hc⟩
  choose v1 v2 hv using hall
  have harr : ∀ {f g : ℕ → Buf}, arrN 3 f = arrN 3 g → ∀ j < 3, f j = g j := by
    intro f g h j hj
    rw [arrN_three, arrN_three] at h
    simp only [List.cons.injEq] at h
    interval_cases j
    · exact h.1
    · exact h.2.1
    · exact h.2.2.1
  refine ⟨v1, v2, fun c hc => (hv c hc).1, ?_⟩
  exact extract hWF (pr := fun c => (sig c).proofs.getD k default) (fun c hc => (hv c hc).1) (fun c hc => (hv c hc).1.wf1 (hv c hc).2.1)
    (fun c hc => (hv c hc).1.wf2 (hv c hc).2.1) (by omega)
    (fun c hc c' hc' j hj => harr ((hv c hc).2.2.1.symm.trans (hv c' hc').2.2.1) j hj)
    (fun c hc c' hc' j hj => harr ((hv c hc).2.2.2.symm.trans (hv c' hc').2.2.2) j hj)

/-- Concrete case for C19_round: three honest openings of one repetition, for every key pair. -/
theorem C19_round_example (E : Env) (hE : EnvWF E) (p : ℕ) (hp : p ∈ zkbParams) (P : Params) (hP : getParamSet p = some P)
    (sk ct pt : Buf) (hsk : P.stateSizeBytes ≤ sk.length) (hpad : PadZero sk P.stateSizeBits) (hct : ct.length = 32)
    (hpt : pt.length = 32) (hR : Relation P (E.lowmc P) sk pt ct) :
    ∃ (sig : ℕ → Signature) (salt : Buf) (hashes outputs : List Buf), 0 < P.numMPCRounds ∧ (∀ c < 3, SigWF P (sig c)) ∧
      (∀ c < 3, (sig c).salt = salt) ∧ (∀ c < 3, value (sig c).challengeBits 0 = c) ∧
      ∀ c < 3, ∃ gs, verifyRound E P (sig c) ct pt 0 = Outcome.ok ⟨hashes, gs, outputs⟩ := by
  obtain ⟨P', hP', h3⟩ := getParamSet_zkb hp
  rw [hP] at hP'
  obtain rfl : P = P' := by simpa using hP'
  have hWF := paramsWF_of hP
  have hZ := zkbWF_of hP h3
  have hb := hWF.bytes
  have hw := hWF.words
  have hn := hWF.nMax
  have hT : 0 < P.numMPCRounds := by
    clear hR hpad hsk h3 hWF hZ hb hw hn
    simp only [zkbParams, List.mem_cons, List.not_mem_nil, or_false] at hp
    rcases hp with rfl | rfl | rfl | rfl | rfl | rfl | rfl | rfl | rfl <;>
      (obtain rfl := Option.some.inj hP; decide)
  have hnb : 1 ≤ numBytes (2 * P.numMPCRounds) := by rw [numBytes_eq]; omega
  set slab := zeros (P.numMPCRounds * P.numMPCParties * P.seedSizeBytes) with hslab
  set salt := zeros P.saltSizeBytes with hsalt
  set sd : ℕ → Buf := fun j => (slab.drop ((0 * 3 + j) * P.seedSizeBytes)).take P.seedSizeBytes with hsd
  have hsdl : ∀ j < 3, (sd j).length = P.seedSizeBytes := by
    intro j hj
    have h1 : (j + 1) * P.seedSizeBytes ≤ P.numMPCRounds * P.numMPCParties * P.seedSizeBytes := by
      refine Nat.mul_le_mul_right _ ?_
      rw [hZ.parties]
      omega
    have h2 : (zeros (P.numMPCRounds * P.numMPCParties * P.seedSizeBytes)).length = P.numMPCRounds * P.numMPCParties * P.seedSizeBytes := by
      simp [zeros]
    rw [Nat.succ_mul] at h1
    rw [hsd, hslab, List.length_take, List.length_drop, h2, Nat.zero_mul, Nat.zero_add]
    exact Nat.min_eq_left (by omega)
  obtain ⟨views, junk, hh, -⟩ := signRound_ok (E := E) (P := P) (sk := sk) (pubKey := ct) (pt := pt) (salt := salt) (slab := slab) (k := 0)
    hE.perm hWF (hE.lowmc _ _ hP) hZ hT (by rw [hslab]; simp [zeros]) hsk (by omega) (by omega) (by simp [hsalt, zeros]) (sd := sd) (fun j => rfl)
  have hsum : ofBits (bitsOf (views 0).outputShare + bitsOf (views 1).outputShare + bitsOf (views 2).outputShare) P.stateSizeBytes =
      ct.take P.stateSizeBytes := by
    rw [honest_sum hWF hh]
    refine buf_ext (by rw [ofBits_length, List.length_take]; omega) fun i hi => ?_
    rw [ofBits_length] at hi
    rw [bitsOf_ofBits _ hi, bitsOf_take hi, hR i (by rw [bytesFor, ← hb]; exact hi)]
    split_ifs with h
    · rfl
    · exact enc_ge hWF.rounds (by omega)
  set pf : ℕ → Proof := fun c =>
    { seed1 := sd c, seed2 := sd ((c + 1) % 3), inputShare := (views 2).inputShare, communicatedBits := (views ((c + 1) % 3)).communicatedBits
      view3Commitment := commitOf E P (sd ((c + 2) % 3)) (views ((c + 2) % 3))
      view3UnruhG := some (gOf E P ((c + 2) % 3) (sd ((c + 2) % 3)) (views ((c + 2) % 3)) ++
        zeros (P.seedSizeBytes + P.andSizeBytes + P.stateSizeBytes - gLen P ((c + 2) % 3))) } with hpf
  have hq : ∀ c, qproof P c (pf c) = honestProof E P sd views c := by
    intro c
    simp only [qproof, honestProof, hpf, Option.getD_some]
    congr 1
    split_ifs
    · rw [List.take_left' (gOf_length ..)]
    · rfl
  have hwf : ∀ c < 3, ProofWF P (pf c) := by
    intro c hc
    have c1 : (c + 1) % 3 < 3 := Nat.mod_lt _ (by omega)
    refine ⟨hsdl c hc, hsdl _ c1, (hh.wf 2 (by omega)).inp, (hh.wf _ c1).comm, by simp [hpf, commitOf], fun _ => ⟨_, rfl, ?_⟩⟩
    have : gLen P ((c + 2) % 3) ≤ P.seedSizeBytes + P.andSizeBytes + P.stateSizeBytes := by
      unfold gLen; split_ifs <;> omega
    rw [List.length_append, gOf_length]
    simp only [zeros, List.length_replicate]
    omega
  refine ⟨fun c => ⟨List.replicate P.numMPCRounds (pf c), BitVec.ofNat 8 (128 * (c % 2) + 64 * (c / 2)) :: zeros (numBytes (2 * P.numMPCRounds) - 1), salt⟩, salt,
    arrN 3 fun j => commitOf E P (sd j) (views j), arrN 3 fun j => (views j).outputShare, hT, ?_, fun _ _ => rfl, ?_, ?_⟩
  · intro c hc
    refine ⟨by simp [zeros]; omega, by simp [hsalt, zeros], by simp, fun q hq => ?_⟩
    rw [List.eq_of_mem_replicate hq]
    exact hwf c hc
  · intro c hc
    simp only [value, bit, List.getD_cons_zero, Nat.mul_zero, Nat.zero_div, Nat.zero_mod, Nat.zero_add, Nat.reduceDiv, Nat.reduceMod]
    interval_cases c <;> decide
  · intro c hc
    have hcn : (BitVec.ofNat 8 c).toNat = c := ofNat_chal (by omega)
    obtain ⟨v1, v2, g3, junk', a1, -, a3⟩ := verifyRound_ok (E := E) (P := P)
      (sig := ⟨List.replicate P.numMPCRounds (pf c), BitVec.ofNat 8 (128 * (c % 2) + 64 * (c / 2)) :: zeros (numBytes (2 * P.numMPCRounds) - 1), salt⟩) (proof := pf c)
      (pubKey := ct) (pt := pt) (k := 0) (c := BitVec.ofNat 8 c) hE.perm hWF (hE.lowmc _ _ hP) hZ
      (by rw [rd_ok (by simpa using hT)]; simp) (by interval_cases c <;> rfl) (hwf c hc) (by simp [hsalt, zeros]) (by rw [hcn]; exact hc) (by omega) (by omega)
    rw [hcn] at a1 a3
    have a2 := openedViews_qproof hc a1
    rw [hq c] at a2
    obtain ⟨rfl, rfl⟩ := honest_opened hWF (fun _ _ => rfl) hpad hc hh a2
    have h1 : ∀ j < 3, _ := fun j hj => honest_verComs (E := E) (P := P) (sd := sd) (views := views) hc (j := j) hj
    have h2 : ∀ j < 3, _ := fun j hj => honest_verOuts hh (by omega) hsum hc (j := j) hj
    unfold verComs at h1
    unfold verOuts at h2
    rw [arrN_congr h2] at a3
    exact ⟨_, a3.trans (congrArg (fun x => Outcome.ok (VerifyRound.mk x _ _)) (arrN_congr h1))⟩

/-- C19, pairwise consistent views: the sum of the key shares encrypts the plaintext to the sum of the output shares. -/
theorem C19_consistent (X : Spec.LowMC) (pt : Bits) (v0 v1 v2 : Zkb.View) (h0 : Zkb.Consistent X pt 0 v0 v1)
    (h1 : Zkb.Consistent X pt 1 v1 v2) (h2 : Zkb.Consistent X pt 2 v2 v0) :
    X.enc (v0.key + v1.key + v2.key) pt = Zkb.output X pt 0 v0 + Zkb.output X pt 1 v1 + Zkb.output X pt 2 v2 :=
  (output_sum h0 h1 h2).symm

/-! ### C19 for accepted signatures -/

theorem tripleBytes_inj {T : ℕ} {xs ys : ℕ → ℕ → Buf} {len : ℕ → ℕ} (hx : ∀ i < T, ∀ j < 3, (xs i j).length = len j)
    (hy : ∀ i < T, ∀ j < 3, (ys i j).length = len j) (h : tripleBytes T xs len = tripleBytes T ys len) :
    ∀ i < T, ∀ j < 3, xs i j = ys i j := by
  induction T with
  | zero => intro i hi; omega
  | succ T ih =>
    have e : ∀ zs : ℕ → ℕ → Buf, (∀ j < 3, (zs T j).length = len j) → tripleBytes (T + 1) zs len = tripleBytes T zs len ++ (zs T 0 ++ (zs T 1 ++ zs T 2)) := by
      intro zs hz
      simp only [tripleBytes, List.range_succ, List.range_zero, List.flatMap_append, List.flatMap_cons, List.flatMap_nil, List.append_nil, List.nil_append,
        List.append_assoc]
      rw [List.take_of_length_le (hz 0 (by omega)).le, List.take_of_length_le (hz 1 (by omega)).le, List.take_of_length_le (hz 2 (by omega)).le]
    rw [e xs fun j hj => hx T (by omega) j hj, e ys fun j hj => hy T (by omega) j hj] at h
    obtain ⟨h1, h2⟩ := List.append_inj h (tripleBytes_length_congr fun i hi j hj => by rw [hx i (by omega) j hj, hy i (by omega) j hj])
    obtain ⟨h3, h4⟩ := List.append_inj h2 (by rw [hx T (by omega) 0 (by omega), hy T (by omega) 0 (by omega)])
    obtain ⟨h5, h6⟩ := List.append_inj h4 (by rw [hx T (by omega) 1 (by omega), hy T (by omega) 1 (by omega)])
    intro i hi j hj
    by_cases hiT : i < T
    · exact ih (fun i hi => hx i (by omega)) (fun i hi => hy i (by omega)) h1 i hiT j hj
    · obtain rfl : i = T := by omega
      interval_cases j
      · exact h3
      · exact h5
      · exact h6

/-- Length of the part of the challenge input that holds the output shares and the commitments. -/
def frontLen (P : Params) : ℕ := P.numMPCRounds * (3 * P.stateSizeBytes) + P.numMPCRounds * (3 * P.digestSizeBytes)

theorem tripleBytes_length {T : ℕ} {xs : ℕ → ℕ → Buf} {n : ℕ} (hx : ∀ i < T, ∀ j < 3, (xs i j).length = n) :
    (tripleBytes T xs fun _ => n).length = T * (3 * n) := by
  induction T with
  | zero => simp [tripleBytes]
  | succ T ih =>
    have ih := ih fun i hi => hx i (by omega)
    have e : tripleBytes (T + 1) xs (fun _ => n) = tripleBytes T xs (fun _ => n) ++ ((xs T 0).take n ++ ((xs T 1).take n ++ (xs T 2).take n)) := by
      simp [tripleBytes, List.range_succ]
    rw [e, List.length_append, ih, List.length_append, List.length_append, List.length_take, List.length_take, List.length_take,
      hx T (by omega) 0 (by omega), hx T (by omega) 1 (by omega), hx T (by omega) 2 (by omega), Nat.min_self, Nat.succ_mul T]
    omega

theorem decProofs_qwf {P : Params} {b : Buf} (h : encSigLen P b ≤ b.length) {k : ℕ} (hk : k < P.numMPCRounds) :
    QWF P (chal b k) (decProofs P b k) := by
  refine decProof_wf ?_
  exact (off_le hk).trans h

theorem opened_wf {E : Env} {P : Params} {q : QProof} {salt pt : Buf} {k c : ℕ} {v1 v2 : View} (hc : c < 3) (hq : QWF P c q)
    (h : OpenedViews E P q.toProof salt pt k c v1 v2) : ViewWF P v1 ∧ ViewWF P v2 := by
  have hkey : ∀ p < 2, (openKey E P q.toProof salt k c p).length = P.stateSizeBytes := by
    intro p hp
    unfold openKey
    split_ifs with h2
    · rw [zpad_length]
      have := hq.inp
      rw [encInp, if_neg (by omega)] at this
      exact this
    · simp
  exact ⟨⟨by rw [h.inp1, hkey 0 (by omega)], h.len1, by rw [h.out1, ofBits_length]⟩,
    ⟨by rw [h.inp2, hkey 1 (by omega)], by rw [h.comm2]; exact hq.comm, by rw [h.out2, ofBits_length]⟩⟩

/-- C19 for accepted signatures: let three byte strings with the same salt be accepted for the same public key (and any
messages) such that the strings hashed for the challenge start with the same output shares and commitments, and such that the three
challenges of repetition `k` are 0, 1 and 2.  Then there is a collision among the strings hashed for the commitments, or the sum
of the three input shares is a secret key for the public key. -/
theorem C19_zkb (E : Env) (hE : EnvWF E) (pk : PublicKey) (hpk : pk.Arrays) (hp : pk.params ∈ zkbParams) (P : Params)
    (hP : getParamSet pk.params = some P) (msg b : ℕ → Buf) (hm : ∀ c < 3, (msg c).length + 200 ≤ 2 ^ 32)
    (hacc : ∀ c < 3, picnicVerify E (some pk) (msg c) (msg c).length (b c) (b c).length = Outcome.ok 0)
    (salt : Buf) (hsalt : ∀ c < 3, ((b c).drop (bytesFor (2 * P.numMPCRounds))).take P.saltSizeBytes = salt)
    (front : Buf) (hfront : ∀ c < 3, ∃ m, ChallengeInput E P pk (msg c) (b c) m ∧ m.take (frontLen P) = front)
    (k : ℕ) (hk : k < P.numMPCRounds) (hch : ∀ c < 3, value (b c) k = c) :
    ∃ (pr : ℕ → Proof) (v1 v2 : ℕ → View),
      (∀ c < 3, pr c = (decProofs P (b c) k).toProof ∧ OpenedViews E P (pr c) salt pk.plaintext k c (v1 c) (v2 c)) ∧
      (ComCollision E P pr v1 v2 ∨ Relation P (E.lowmc P)
        (ofBits (bitsOf (v1 0).inputShare + bitsOf (v1 1).inputShare + bitsOf (v1 2).inputShare) P.stateSizeBytes)
        pk.plaintext pk.ciphertext) := by
  classical
  obtain ⟨P', hP', h3⟩ := getParamSet_zkb hp
  rw [hP] at hP'
  obtain rfl : P = P' := by simpa using hP'
  have hWF := paramsWF_of hP
  have hnb := numBytes_eq (2 * P.numMPCRounds)
  have hb0 := hWF.bytes
  have hn0 := hWF.nMax
  have hD : ∀ c < 3, Decodes P (b c) (b c).length := by
    intro c hc
    have h := hacc c hc
    obtain ⟨v1, v2, -, e⟩ := picnicVerify_zkb hE hP h3 hpk le_rfl (hm c hc) le_rfl (full_of_zero hP h3 le_rfl h)
    by_contra hD
    rw [e, if_neg hD] at h
    exact absurd h (by decide)
  have hfull : ∀ c < 3, encSigLen P (b c) ≤ (b c).length := fun c hc => full_of_zero hP h3 le_rfl (hacc c hc) (hD c hc).len (hD c hc).valid
  have hall : ∀ c : ℕ, ∃ v1 v2 : ℕ → View, c < 3 → (∀ k < P.numMPCRounds, OpenedViews E P (decProofs P (b c) k).toProof (decSalt P (b c))
      pk.plaintext k (chal (b c) k) (v1 k) (v2 k)) ∧
      (verInput E P pk.ciphertext pk.plaintext (decSalt P (b c)) (msg c) (chal (b c)) (decProofs P (b c)) v1 v2).take (frontLen P) = front := by
    intro c
    by_cases hc : c < 3
    · obtain ⟨m, ⟨v1, v2, h1, rfl⟩, h2⟩ := hfront c hc
      exact ⟨v1, v2, fun _ => ⟨h1, h2⟩⟩
    · exact ⟨fun _ => default, fun _ => default, fun h => absurd h hc⟩
  choose v1 v2 hv using hall
  have hwf : ∀ c < 3, ∀ i < P.numMPCRounds, ViewWF P (v1 c i) ∧ ViewWF P (v2 c i) := fun c hc i hi =>
    opened_wf ((hD c hc).valid i hi) (decProofs_qwf (hfull c hc) hi) ((hv c hc).1 i hi)
  have hol : ∀ c < 3, ∀ i < P.numMPCRounds, ∀ j < 3, (verOuts P pk.ciphertext (chal (b c) i) (v1 c i) (v2 c i) j).length = P.stateSizeBytes := by
    intro c hc i hi j hj
    unfold verOuts
    rcases pick_cases (v1 c i).outputShare (v2 c i).outputShare (ofBits (bitsOf (v1 c i).outputShare + bitsOf (v2 c i).outputShare +
      bitsOf pk.ciphertext) P.stateSizeBytes) ((hD c hc).valid i hi) hj with ⟨-, e⟩ | ⟨-, e⟩ | ⟨-, e⟩ <;> rw [e]
    · exact (hwf c hc i hi).1.out
    · exact (hwf c hc i hi).2.out
    · rw [ofBits_length]
  have hcl : ∀ c < 3, ∀ i < P.numMPCRounds, ∀ j < 3, (verComs E P (decProofs P (b c) i) (chal (b c) i) (v1 c i) (v2 c i) j).length = P.digestSizeBytes := by
    intro c hc i hi j hj
    unfold verComs
    rcases pick_cases (commitOf E P (decProofs P (b c) i).seed1 (v1 c i)) (commitOf E P (decProofs P (b c) i).seed2 (v2 c i))
      (decProofs P (b c) i).com3 ((hD c hc).valid i hi) hj with ⟨-, e⟩ | ⟨-, e⟩ | ⟨-, e⟩ <;> rw [e]
    · rw [commitOf, H_length]
    · rw [commitOf, H_length]
    · exact (decProofs_qwf (hfull c hc) hi).com3
  have hf : ∀ c < 3, tripleBytes P.numMPCRounds (fun i => verOuts P pk.ciphertext (chal (b c) i) (v1 c i) (v2 c i)) (fun _ => P.stateSizeBytes) ++
      tripleBytes P.numMPCRounds (fun i => verComs E P (decProofs P (b c) i) (chal (b c) i) (v1 c i) (v2 c i)) (fun _ => P.digestSizeBytes) = front := by
    intro c hc
    rw [← (hv c hc).2, verInput, h3Input_front, h3Front]
    simp only [List.append_assoc]
    rw [← List.append_assoc, List.take_left']
    rw [List.length_append, tripleBytes_length fun i hi j hj => hol c hc i hi j hj, tripleBytes_length fun i hi j hj => hcl c hc i hi j hj, frontLen]
  have heq : ∀ c < 3, ∀ c' < 3,
      (∀ j < 3, verOuts P pk.ciphertext (chal (b c) k) (v1 c k) (v2 c k) j = verOuts P pk.ciphertext (chal (b c') k) (v1 c' k) (v2 c' k) j) ∧
      ∀ j < 3, verComs E P (decProofs P (b c) k) (chal (b c) k) (v1 c k) (v2 c k) j = verComs E P (decProofs P (b c') k) (chal (b c') k) (v1 c' k) (v2 c' k) j := by
    intro c hc c' hc'
    obtain ⟨e1, e2⟩ := List.append_inj ((hf c hc).trans (hf c' hc').symm) (by
      rw [tripleBytes_length fun i hi j hj => hol c hc i hi j hj, tripleBytes_length fun i hi j hj => hol c' hc' i hi j hj])
    exact ⟨tripleBytes_inj (hol c hc) (hol c' hc') e1 k hk, tripleBytes_inj (hcl c hc) (hcl c' hc') e2 k hk⟩
  have hcc : ∀ c < 3, chal (b c) k = c := fun c hc => by rw [chal_eq_value]; exact hch c hc
  have hss : ∀ c < 3, decSalt P (b c) = salt := fun c hc => by
    rw [← hsalt c hc, bytesFor, ← hnb]; rfl
  have ho : ∀ c < 3, OpenedViews E P (decProofs P (b c) k).toProof salt pk.plaintext k c (v1 c k) (v2 c k) := fun c hc => by
    have := (hv c hc).1 k hk
    rw [hcc c hc, hss c hc] at this
    exact this
  refine ⟨fun c => (decProofs P (b c) k).toProof, fun c => v1 c k, fun c => v2 c k, fun c hc => ⟨rfl, ho c hc⟩, ?_⟩
  refine extract hWF (pr := fun c => (decProofs P (b c) k).toProof) ho (fun c hc => (hwf c hc k hk).1) (fun c hc => (hwf c hc k hk).2)
    (by rw [hpk.ct]; omega) ?_ ?_
  · intro c hc c' hc' j hj
    have := (heq c hc c' hc').2 j hj
    rw [hcc c hc, hcc c' hc'] at this
    exact this
  · intro c hc c' hc' j hj
    have := (heq c hc c' hc').1 j hj
    rw [hcc c hc, hcc c' hc'] at this
    exact this

/-! ### C20 -/

/-- C20: let three parties compute with any key shares and tapes, let challenge `c` open the views of the parties `c` and
`c + 1`, and let `sk'` be any secret that maps the plaintext to the same ciphertext.  Then there is a key share and a tape of the
third party with which the key shares add up to `sk'` and the computation gives the same two opened views and the same third output
share.  They are unique: any other choice that adds up to `sk'` and gives the same opened views has the same key share and, in
all bits that are used, the same tape.  So for uniform tapes and shares the opened data has the same probability for both secrets. -/
theorem C20_privacy (E : Env) (hE : EnvWF E) (p : ℕ) (P : Params) (hP : getParamSet p = some P) (tag c : ℕ) (hc : c < 3)
    (tape key comm out : ℕ → Buf) (pt slab : Buf) (hs : 24 * P.stateSizeWords ≤ slab.length) (hpt : pt.length = 32)
    (hk : ∀ i < 3, (key i).length = P.stateSizeBytes) (ht : ∀ i < 3, (tape i).length = P.andSizeBytes)
    (hcm : ∀ i < 3, (comm i).length = P.andSizeBytes) (ho : ∀ i < 3, (out i).length = P.stateSizeBytes)
    (sk' : Buf) (hsk : sk'.length = P.stateSizeBytes)
    (hct : ∀ i < P.stateSizeBits, (lowmcOf P (E.lowmc P)).enc (bitsOf (key 0) + bitsOf (key 1) + bitsOf (key 2)) (bitsOf pt) i =
      (lowmcOf P (E.lowmc P)).enc (bitsOf sk') (bitsOf pt) i) :
    ∃ (views : List View) (tapes : RandomTape) (kh th : Buf),
      mpcLowMC E P tag ⟨arrN 3 tape, 0⟩ (arrN 3 fun i => ⟨key i, comm i, out i⟩) pt slab = Outcome.ok (views, tapes) ∧
      kh.length = P.stateSizeBytes ∧ th.length = P.andSizeBytes ∧
      bitsOf kh + bitsOf (key c) + bitsOf (key ((c + 1) % 3)) = bitsOf sk' ∧
      (∃ views' tapes',
        mpcLowMC E P tag ⟨arrN 3 (Function.update tape ((c + 2) % 3) th), 0⟩
          (arrN 3 fun i => ⟨Function.update key ((c + 2) % 3) kh i, comm i, out i⟩) pt slab = Outcome.ok (views', tapes') ∧
        views'[c]? = views[c]? ∧ views'[(c + 1) % 3]? = views[(c + 1) % 3]? ∧
        (views'[(c + 2) % 3]?).map View.outputShare = (views[(c + 2) % 3]?).map View.outputShare) ∧
      ∀ (kh' th' : Buf) (views' : List View) (tapes' : RandomTape), kh'.length = P.stateSizeBytes → th'.length = P.andSizeBytes →
        bitsOf kh' + bitsOf (key c) + bitsOf (key ((c + 1) % 3)) = bitsOf sk' →
        mpcLowMC E P tag ⟨arrN 3 (Function.update tape ((c + 2) % 3) th'), 0⟩
          (arrN 3 fun i => ⟨Function.update key ((c + 2) % 3) kh' i, comm i, out i⟩) pt slab = Outcome.ok (views', tapes') →
        views'[c]? = views[c]? → views'[(c + 1) % 3]? = views[(c + 1) % 3]? →
        kh' = kh ∧ ∀ i < 3 * P.numSboxes * P.numRounds, bitsOf th' i = bitsOf th i := by
  have hWF := paramsWF_of hP
  have hb := hWF.bytes
  have hw := hWF.words
  have hn := hWF.nMax
  have hm := hWF.sboxes
  have hand := andSize_le hP
  have c1 : (c + 1) % 3 < 3 := Nat.mod_lt _ (by omega)
  have c2 : (c + 2) % 3 < 3 := Nat.mod_lt _ (by omega)
  have run : ∀ tape key : ℕ → Buf, (∀ i < 3, (key i).length = P.stateSizeBytes) → (∀ i < 3, (tape i).length = P.andSizeBytes) → _ :=
    fun tape key hk ht => mpcLowMC_ok (E := E) (P := P) (tag := tag) (tape := tape) (key := key) (comm := comm) (out := out)
      (plaintext := pt) (slab := slab) hWF (hE.lowmc _ _ hP) (by omega) (by omega) (fun i hi => by rw [hk i hi]; omega)
      (fun i hi => by rw [ht i hi]; exact hand) (fun i hi => by rw [hcm i hi]; exact hand) ho
  set X := lowmcOf P (E.lowmc P) with hX
  obtain ⟨d, e, hdl, hdp, hcons⟩ := run tape key hk ht
  have key_upd : ∀ {a : Buf} {f : ℕ → Buf} {n : ℕ}, a.length = n → (∀ i < 3, (f i).length = n) →
      ∀ i < 3, (Function.update f ((c + 2) % 3) a i).length = n := by
    intro a f n ha hf i hi
    rw [Function.update_apply]
    split_ifs
    · exact ha
    · exact hf i hi
  have u0 : ∀ (f : ℕ → Buf) (a : Buf), Function.update f ((c + 2) % 3) a c = f c := fun f a => Function.update_of_ne (by omega) _ _
  have u1 : ∀ (f : ℕ → Buf) (a : Buf), Function.update f ((c + 2) % 3) a ((c + 1) % 3) = f ((c + 1) % 3) := fun f a =>
    Function.update_of_ne (by omega) _ _
  have u2 : ∀ (f : ℕ → Buf) (a : Buf), Function.update f ((c + 2) % 3) a ((c + 2) % 3) = a := fun f a => Function.update_self _ _ _
  set va := specView (key c) (d c) (tape c) with hva
  set vb := specView (key ((c + 1) % 3)) (d ((c + 1) % 3)) (tape ((c + 1) % 3)) with hvb
  set vc := specView (key ((c + 2) % 3)) (d ((c + 2) % 3)) (tape ((c + 2) % 3)) with hvc
  have hf := oneFirst_of hc
  have e11 : ((c + 1) % 3 + 1) % 3 = (c + 2) % 3 := by omega
  have e21 : ((c + 2) % 3 + 1) % 3 = c := by omega
  have hab : ConsF X (bitsOf pt) (c = 0) ((c + 1) % 3 = 0) va vb := hcons c hc
  have hbc : ConsF X (bitsOf pt) ((c + 1) % 3 = 0) ((c + 2) % 3 = 0) vb vc := by
    have := hcons _ c1
    rw [e11] at this
    unfold Zkb.Consistent at this
    rw [e11] at this
    exact this
  have hca : ConsF X (bitsOf pt) ((c + 2) % 3 = 0) (c = 0) vc va := by
    have := hcons _ c2
    rw [e21] at this
    unfold Zkb.Consistent at this
    rw [e21] at this
    exact this
  set vh := hidView X (bitsOf pt) (c = 0) ((c + 1) % 3 = 0) va vb (bitsOf sk') with hvh
  obtain ⟨hcb, hcc⟩ := hid_cons (key := bitsOf sk') hf hab
  have hz : ∀ {b : Buf} {n i : ℕ}, b.length = n → 8 * n ≤ i → bitsOf b i = 0 := fun h h' => bitsOf_ge (by omega)
  have hkh : ∀ i, bitsOf (ofBits vh.key P.stateSizeBytes) i = vh.key i := by
    intro i
    by_cases hi : i < 8 * P.stateSizeBytes
    · rw [bitsOf_ofBits _ hi]
    · rw [bitsOf_ge (by rw [ofBits_length]; omega)]
      simp only [hvh, hidView, Pi.add_apply, hva, hvb, specView]
      rw [hz hsk (by omega), hz (hk c hc) (by omega), hz (hk _ c1) (by omega)]
      simp
  refine ⟨_, _, ofBits vh.key P.stateSizeBytes, ofBits vh.tape P.andSizeBytes, e, ofBits_length _ _, ofBits_length _ _, ?_, ?_, ?_⟩
  · funext i
    simp only [Pi.add_apply]
    rw [hkh i]
    simp only [hvh, hidView, Pi.add_apply, hva, hvb, specView]
    have h1 := zmod2_add_self (bitsOf (key c) i)
    have h2 := zmod2_add_self (bitsOf (key ((c + 1) % 3)) i)
    linear_combination h1 + h2
  · obtain ⟨d', e', hdl', hdp', hcons'⟩ := run (Function.update tape ((c + 2) % 3) (ofBits vh.tape P.andSizeBytes))
      (Function.update key ((c + 2) % 3) (ofBits vh.key P.stateSizeBytes)) (key_upd (ofBits_length _ _) hk) (key_upd (ofBits_length _ _) ht)
    have hall : ∀ j < 3, j = c ∨ j = (c + 1) % 3 ∨ j = (c + 2) % 3 := by intro j hj; omega
    have huniq := consistent_unique3 (X := X) hm (pt := bitsOf pt) (v := pick c va vb vh)
      (u := fun j => specView (Function.update key ((c + 2) % 3) (ofBits vh.key P.stateSizeBytes) j) (d' j)
        (Function.update tape ((c + 2) % 3) (ofBits vh.tape P.andSizeBytes) j))
      (by
        intro j hj i _
        rcases hall j hj with rfl | h | h
        · rw [pick, if_pos rfl]; simp only [specView]; rw [u0]; rfl
        · rw [h, pick, if_neg (by omega), if_pos rfl]; simp only [specView]; rw [u1]; rfl
        · rw [h, pick, if_neg (by omega), if_neg (by omega)]; simp only [specView]; rw [u2, hkh])
      (by
        intro j hj i hi
        have hi' : i < 8 * P.andSizeBytes := lt_of_lt_of_le hi hand
        rcases hall j hj with rfl | h | h
        · rw [pick, if_pos rfl]; simp only [specView]; rw [u0]; rfl
        · rw [h, pick, if_neg (by omega), if_pos rfl]; simp only [specView]; rw [u1]; rfl
        · rw [h, pick, if_neg (by omega), if_neg (by omega)]; simp only [specView]; rw [u2, bitsOf_ofBits _ hi'])
      (by
        intro j hj
        rcases hall j hj with rfl | h | h
        · rw [pick, if_pos rfl, pick, if_neg (by omega), if_pos rfl]; exact hab
        · rw [h, e11, pick, if_neg (by omega), if_pos rfl, pick, if_neg (by omega), if_neg (by omega)]
          unfold Zkb.Consistent
          rw [e11]
          exact hcb
        · rw [h, e21, pick, if_neg (by omega), if_neg (by omega), pick, if_pos rfl]
          unfold Zkb.Consistent
          rw [e21]
          exact hcc) hcons'
    have hpa := huniq c hc
    have hpb := huniq _ c1
    have hpc := huniq _ c2
    rw [pick, if_pos rfl] at hpa
    rw [pick, if_neg (by omega), if_pos rfl] at hpb
    rw [pick, if_neg (by omega), if_neg (by omega)] at hpc
    have hcomm : ∀ j < 3, (∀ q < 3 * X.m * X.r, bitsOf (d j) q = bitsOf (d' j) q) → d' j = d j := by
      intro j hj h
      refine buf_ext (by rw [hdl j hj, hdl' j hj]) fun q _ => ?_
      by_cases hq : q < 3 * P.numSboxes * P.numRounds
      · exact (h q hq).symm
      · rw [hdp j hj q (by omega), hdp' j hj q (by omega)]
    have hda := hcomm c hc hpa
    have hdb := hcomm _ c1 hpb
    have get : ∀ (f : ℕ → View) (j : ℕ), j < 3 → (arrN 3 f)[j]? = some (f j) := by
      intro f j hj
      rw [arrN_three]
      interval_cases j <;> rfl
    refine ⟨_, _, e', ?_, ?_, ?_⟩
    · rw [get _ _ hc, get _ _ hc]; simp only [u0, hda]
    · rw [get _ _ c1, get _ _ c1]; simp only [u1, hdb]
    · rw [get _ _ c2, get _ _ c2, Option.map_some, Option.map_some]
      simp only [u2]
      congr 1
      refine ofBits_congr fun i _ => ?_
      have hveq : ViewEq X vh (specView (ofBits vh.key P.stateSizeBytes) (d' ((c + 2) % 3)) (ofBits vh.tape P.andSizeBytes)) :=
        ⟨fun i _ => (hkh i).symm, fun q hq => hpc q hq, fun q hq => by
          simp only [specView]; rw [bitsOf_ofBits _ (lt_of_lt_of_le hq hand)]⟩
      rw [← output_congr hWF (fun _ _ => rfl) hveq]
      by_cases hi : i < P.stateSizeBits
      · have h1 := congrFun (hid_output (key := bitsOf sk') hf hab) i
        have h2 := congrFun (share_sumF hf hab hbc hca X.r le_rfl) i
        have h3 : X.state (va.key + vb.key + vc.key) (bitsOf pt) X.r = X.enc (bitsOf (key 0) + bitsOf (key 1) + bitsOf (key 2)) (bitsOf pt) := by
          unfold LowMC.enc
          congr 1
          simp only [hva, hvb, hvc, specView]
          interval_cases c
          · rfl
          · change bitsOf (key 1) + bitsOf (key 2) + bitsOf (key 0) = _; abel
          · change bitsOf (key 2) + bitsOf (key 0) + bitsOf (key 1) = _; abel
        rw [h3] at h2
        simp only [Pi.add_apply] at h1 h2
        rw [hct i hi] at h2
        have h4 := zmod2_add_self (Zkb.share X (c = 0) va.key va.gates (bitsOf pt) X.r i)
        have h5 := zmod2_add_self (Zkb.share X ((c + 1) % 3 = 0) vb.key vb.gates (bitsOf pt) X.r i)
        unfold Zkb.output
        refine h1.trans ?_
        linear_combination (exp := 1) h4 + h5 - h2
      · unfold Zkb.output
        rw [show X.r = P.numRounds from rfl, share_ge hWF.rounds (by omega), share_ge hWF.rounds (by omega)]
  · intro kh' th' views' tapes' hkl htl hsum hrun hv0 hv1
    obtain ⟨d', e', hdl', hdp', hcons'⟩ := run (Function.update tape ((c + 2) % 3) th') (Function.update key ((c + 2) % 3) kh')
      (key_upd hkl hk) (key_upd htl ht)
    have hr := hrun.symm.trans e'
    simp only [Outcome.ok.injEq, Prod.mk.injEq] at hr
    obtain ⟨rfl, -⟩ := hr
    have get : ∀ (f : ℕ → View) (j : ℕ), j < 3 → (arrN 3 f)[j]? = some (f j) := by
      intro f j hj
      rw [arrN_three]
      interval_cases j <;> rfl
    rw [get _ _ hc, get _ _ hc] at hv0
    rw [get _ _ c1, get _ _ c1] at hv1
    simp only [Option.some.injEq, View.mk.injEq] at hv0 hv1
    have hkb : ∀ i, bitsOf kh' i = vh.key i := by
      intro i
      have h := congrFun hsum i
      simp only [Pi.add_apply] at h
      simp only [hvh, hidView, Pi.add_apply, hva, hvb, specView]
      have h1 := zmod2_add_self (bitsOf (key c) i)
      have h2 := zmod2_add_self (bitsOf (key ((c + 1) % 3)) i)
      linear_combination h - h1 - h2
    refine ⟨buf_ext (by rw [hkl, ofBits_length]) fun i _ => by rw [hkb, hkh], fun i hi => ?_⟩
    have hi' : i < 8 * P.andSizeBytes := lt_of_lt_of_le hi hand
    rw [bitsOf_ofBits _ hi']
    have k0 := hcons' c hc
    have k1 := hcons' _ c1
    have k2 := hcons' _ c2
    rw [u0, u0, u1, u1, hv0.2.1, hv1.2.1] at k0
    rw [e11, u1, u1, u2, u2, hv1.2.1] at k1
    rw [e21, u2, u2, u0, u0, hv0.2.1] at k2
    unfold Zkb.Consistent at k1 k2
    rw [e11] at k1
    rw [e21] at k2
    exact hid_tape_unique (X := X) (key := bitsOf sk') (vc := specView kh' (d' ((c + 2) % 3)) th') hm hf hab k1 k2
      (fun i _ => hkb i) i hi

/-- Concrete case for C20_privacy: the key shares 1, 0, 0 (first bit) against the same secret, for all parameter sets and challenges. -/
theorem C20_example (p : ℕ) (P : Params) (hP : getParamSet p = some P) (c : ℕ) (hc : c < 3) :
    ∃ (views : List View) (tapes : RandomTape) (kh th : Buf),
      mpcLowMC exEnv P 0 ⟨arrN 3 fun _ => zeros P.andSizeBytes, 0⟩
        (arrN 3 fun i => ⟨if i = 0 then ofBits (fun j => if j = 0 then 1 else 0) P.stateSizeBytes else zeros P.stateSizeBytes,
          zeros P.andSizeBytes, zeros P.stateSizeBytes⟩) (zeros 32) (zeros (24 * P.stateSizeWords)) = Outcome.ok (views, tapes) ∧
      kh.length = P.stateSizeBytes ∧ th.length = P.andSizeBytes := by
  have hz : bitsOf (zeros P.stateSizeBytes) = 0 := by
    funext i
    by_cases hi : i < 8 * P.stateSizeBytes
    · rw [bitsOf_zeros]; rfl
    · exact bitsOf_ge (by simp [zeros]; omega)
  obtain ⟨views, tapes, kh, th, h1, h2, h3, -⟩ := C20_privacy exEnv exEnv_wf p P hP 0 c hc (fun _ => zeros P.andSizeBytes)
    (fun i => if i = 0 then ofBits (fun j => if j = 0 then 1 else 0) P.stateSizeBytes else zeros P.stateSizeBytes)
    (fun _ => zeros P.andSizeBytes) (fun _ => zeros P.stateSizeBytes) (zeros 32) (zeros (24 * P.stateSizeWords)) (by simp [zeros])
    (by simp [zeros]) (fun i _ => by split_ifs <;> simp [zeros]) (fun _ _ => by simp [zeros]) (fun _ _ => by simp [zeros])
    (fun _ _ => by simp [zeros]) (ofBits (fun j => if j = 0 then 1 else 0) P.stateSizeBytes) (by simp)
    (fun i _ => by simp only [if_true, one_ne_zero, if_false, OfNat.ofNat_ne_zero, hz, add_zero])
  exact ⟨views, tapes, kh, th, h1, h2, h3⟩

end Picnic
