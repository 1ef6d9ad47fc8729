import Verif.Props.ZkbSecurity
import Verif.Proofs.Uniform
import Verif.Proofs.P3Api

/-
C20 as a statement about distributions: for random tapes and shares, what a ZKB++ signature opens, in all repetitions together, has the
distribution of the output of a simulator that knows only the public key and the challenges.
-/

namespace Picnic

open Spec Spec.Zkb Spec.Challenge

/-- The random choices of one repetition: key shares of two parties, tapes of three.  The simulator interprets them in a different way. -/
abbrev Coins (P : Params) : Type := (Fin 2 → Fin P.stateSizeBits → ZMod 2) × (Fin 3 → Fin (8 * P.andSizeBytes) → ZMod 2)

/-- A random share of the key, with zero padding. -/
def shareOf (P : Params) (w : Fin P.stateSizeBits → ZMod 2) : Buf := ofBits (extBits w) P.stateSizeBytes

/-- The shares of the signer: the shares of the parties 0 and 1 are random, that of party 2 is chosen such that they add up to the
key (/repo/picnic_impl.c:960-979). -/
def signerShare (P : Params) (sk : Buf) (w : Coins P) (j : ℕ) : Buf :=
  if j = 0 then shareOf P (w.1 0) else if j = 1 then shareOf P (w.1 1)
  else ofBits (bitsOf sk + bitsOf (shareOf P (w.1 0)) + bitsOf (shareOf P (w.1 1))) P.stateSizeBytes

def tapeOfParty {P : Params} (w : Coins P) (j : ℕ) : Buf := tapeOf (w.2 (Fin.ofNat 3 j))

/-- What challenge `c` reveals about a repetition: views and tapes of the parties `c` and `c + 1`, output share of party `c + 2`.
(It is published in the form of seeds, of which the tapes and all but the last key share are derived.) -/
structure Opened where
  view1 : View
  view2 : View
  tape1 : Buf
  tape2 : Buf
  out3 : Buf

/-- The signer's computation of one repetition with the random choices `w`, and what challenge `c` reveals of it. -/
def signerOpens (E : Env) (P : Params) (tag c : ℕ) (sk pt slab : Buf) (w : Coins P) : M Opened := do
  let (views, _) ← mpcLowMC E P tag ⟨arrN 3 (tapeOfParty w), 0⟩
    (arrN 3 fun i => ⟨signerShare P sk w i, zeros P.andSizeBytes, zeros P.stateSizeBytes⟩) pt slab
  let v1 ← rd views c
  let v2 ← rd views ((c + 1) % 3)
  let v3 ← rd views ((c + 2) % 3)
  pure ⟨v1, v2, tapeOfParty w c, tapeOfParty w (c + 1), v3.outputShare⟩

/-- The simulator.  It does not get the secret key: it chooses the two key shares, the two tapes and the bits that the second
party has sent at random, runs the verifier's computation, and computes the third output share from the ciphertext. -/
def simulatorOpens (E : Env) (P : Params) (tag c : ℕ) (ct pt tmp : Buf) (w : Coins P) : M Opened := do
  let (v1, v2, _) ← mpcLowMCVerify E P tag ⟨shareOf P (w.1 0), zeros P.andSizeBytes, zeros P.stateSizeBytes⟩
    ⟨shareOf P (w.1 1), ofBits (fun p => if p < 3 * P.numSboxes * P.numRounds then extBits (w.2 2) p else 0) P.andSizeBytes, zeros P.stateSizeBytes⟩
    ⟨[tapeOfParty w 0, tapeOfParty w 1], 0⟩ tmp pt (BitVec.ofNat 8 c)
  let out3 ← xorThree (zeros P.stateSizeBytes) v1.outputShare v2.outputShare ct P.stateSizeBytes
  pure ⟨v1, v2, tapeOfParty w 0, tapeOfParty w 1, out3⟩

section

variable {P : Params}

theorem shareOf_length (w : Fin P.stateSizeBits → ZMod 2) : (shareOf P w).length = P.stateSizeBytes := ofBits_length _ _

theorem shareOf_bits (hb : P.stateSizeBytes = (P.stateSizeBits + 7) / 8) (w : Fin P.stateSizeBits → ZMod 2) : bitsOf (shareOf P w) = extBits w := by
  funext i
  by_cases hi : i < 8 * P.stateSizeBytes
  · rw [shareOf, bitsOf_ofBits _ hi]
  · rw [bitsOf_ge (by rw [shareOf_length]; omega), extBits_ge _ (by omega)]

theorem signerShare_length (sk : Buf) (w : Coins P) (j : ℕ) : (signerShare P sk w j).length = P.stateSizeBytes := by
  unfold signerShare
  split_ifs
  · exact shareOf_length _
  · exact shareOf_length _
  · exact ofBits_length _ _

theorem signerShare_pad (hb : P.stateSizeBytes = (P.stateSizeBits + 7) / 8) {sk : Buf} (hpad : PadZero sk P.stateSizeBits) (w : Coins P) (j : ℕ)
    {i : ℕ} (hi : P.stateSizeBits ≤ i) : bitsOf (signerShare P sk w j) i = 0 := by
  by_cases hi8 : 8 * P.stateSizeBytes ≤ i
  · exact bitsOf_ge (by rw [signerShare_length]; omega)
  unfold signerShare
  split_ifs
  · rw [shareOf_bits hb, extBits_ge _ hi]
  · rw [shareOf_bits hb, extBits_ge _ hi]
  · rw [bitsOf_ofBits _ (by omega), shareOf_bits hb, shareOf_bits hb]
    simp only [Pi.add_apply]
    rw [extBits_ge _ hi, extBits_ge _ hi, hpad i hi (by omega)]
    simp

/-- The shares add up to the key. -/
theorem signerShare_sum (hb : P.stateSizeBytes = (P.stateSizeBits + 7) / 8) (sk : Buf) (w : Coins P) {i : ℕ} (hi : i < P.stateSizeBits) :
    bitsOf (signerShare P sk w 0) i + bitsOf (signerShare P sk w 1) i + bitsOf (signerShare P sk w 2) i = bitsOf sk i := by
  simp only [signerShare, if_true, one_ne_zero, if_false, OfNat.ofNat_ne_zero, OfNat.ofNat_ne_one]
  rw [bitsOf_ofBits _ (by omega)]
  simp only [Pi.add_apply]
  have h1 := zmod2_add_self (bitsOf (shareOf P (w.1 0)) i)
  have h2 := zmod2_add_self (bitsOf (shareOf P (w.1 1)) i)
  linear_combination h1 + h2

theorem tapeOfParty_length (w : Coins P) (j : ℕ) : (tapeOfParty w j).length = P.andSizeBytes := tapeOf_length _

theorem tapeOfParty_mod (w : Coins P) (j : ℕ) : tapeOfParty w (j % 3) = tapeOfParty w j := by
  unfold tapeOfParty
  congr 2
  ext
  simp [Fin.ofNat]

/-- One repetition: the signer's random choices can be translated to random choices of the simulator that give the same data. -/
theorem simulate_one (E : Env) (hE : EnvWF E) (p : ℕ) (hP : getParamSet p = some P) (tag tag' c : ℕ) (hc : c < 3)
    (sk pt ct slab tmp : Buf) (hs : 24 * P.stateSizeWords ≤ slab.length) (hs' : 16 * P.stateSizeWords ≤ tmp.length) (hpt : pt.length = 32)
    (hct : ct.length = 32) (hpad : PadZero sk P.stateSizeBits) (hr : Relation P (E.lowmc P) sk pt ct) :
    ∃ σ : Coins P → Coins P, Function.Injective σ ∧ ∀ w, signerOpens E P tag c sk pt slab w = simulatorOpens E P tag' c ct pt tmp (σ w) := by
  classical
  have hWF := paramsWF_of hP
  have hb := hWF.bytes
  have hw := hWF.words
  have hn := hWF.nMax
  have hm := hWF.sboxes
  have hand := andSize_le hP
  have c1 : (c + 1) % 3 < 3 := Nat.mod_lt _ (by omega)
  have c2 : (c + 2) % 3 < 3 := Nat.mod_lt _ (by omega)
  have e11 : ((c + 1) % 3 + 1) % 3 = (c + 2) % 3 := by omega
  have e21 : ((c + 2) % 3 + 1) % 3 = c := by omega
  rw [← relation_iff hWF (by omega)] at hr
  have hb7 : P.stateSizeBytes = (P.stateSizeBits + 7) / 8 := by omega
  have run := fun w : Coins P => mpcLowMC_ok (E := E) (P := P) (tag := tag) (tape := tapeOfParty w) (key := signerShare P sk w)
    (comm := fun _ => zeros P.andSizeBytes) (out := fun _ => zeros P.stateSizeBytes) (plaintext := pt) (slab := slab) hWF (hE.lowmc _ _ hP) (by omega)
    (by omega) (fun i hi => by rw [signerShare_length]; omega) (fun i hi => by rw [tapeOfParty_length]; exact hand)
    (fun i hi => by simpa using hand) (fun i hi => by simp)
  choose d e hdl hdp hcons using run
  set X := lowmcOf P (E.lowmc P) with hX
  have hf := oneFirst_of hc
  -- views of the three parties
  set sv : Coins P → ℕ → Zkb.View := fun w j => specView (signerShare P sk w j) (d w j) (tapeOfParty w j) with hsv
  have hab : ∀ w, ConsF X (bitsOf pt) (c = 0) ((c + 1) % 3 = 0) (sv w c) (sv w ((c + 1) % 3)) := fun w => hcons w c hc
  have hbc : ∀ w, ConsF X (bitsOf pt) ((c + 1) % 3 = 0) ((c + 2) % 3 = 0) (sv w ((c + 1) % 3)) (sv w ((c + 2) % 3)) := fun w => by
    have := hcons w _ c1
    rw [e11] at this
    unfold Zkb.Consistent at this
    rw [e11] at this
    exact this
  have hca : ∀ w, ConsF X (bitsOf pt) ((c + 2) % 3 = 0) (c = 0) (sv w ((c + 2) % 3)) (sv w c) := fun w => by
    have := hcons w _ c2
    rw [e21] at this
    unfold Zkb.Consistent at this
    rw [e21] at this
    exact this
  -- the shares in the order of the challenge
  have hsum : ∀ w, ∀ i < P.stateSizeBits, bitsOf (signerShare P sk w c) i + bitsOf (signerShare P sk w ((c + 1) % 3)) i +
      bitsOf (signerShare P sk w ((c + 2) % 3)) i = bitsOf sk i := fun w i hi => by
    rw [← signerShare_sum hb7 sk w hi]
    rcases (show c = 0 ∨ c = 1 ∨ c = 2 by omega) with rfl | rfl | rfl
    · rfl
    · show bitsOf (signerShare P sk w 1) i + bitsOf (signerShare P sk w 2) i + bitsOf (signerShare P sk w 0) i = _; ring
    · show bitsOf (signerShare P sk w 2) i + bitsOf (signerShare P sk w 0) i + bitsOf (signerShare P sk w 1) i = _; ring
  obtain ⟨σ, hσ⟩ : ∃ σ : Coins P → Coins P, ∀ w, σ w = (fun (i : Fin 2) (q : Fin P.stateSizeBits) => bitsOf (signerShare P sk w ((c + i) % 3)) q,
      fun (j : Fin 3) (q : Fin (8 * P.andSizeBytes)) => if j = 2 ∧ (q : ℕ) < 3 * P.numSboxes * P.numRounds then bitsOf (d w ((c + 1) % 3)) q else w.2 (Fin.ofNat 3 (c + j)) q) := ⟨_, fun _ => rfl⟩
  have hmodc : c % 3 = c := Nat.mod_eq_of_lt hc
  have hσ0 : ∀ w, shareOf P ((σ w).1 0) = signerShare P sk w c := fun w => by
    refine buf_ext (by rw [shareOf_length, signerShare_length]) fun i hi => ?_
    rw [shareOf_bits hb7, hσ]
    by_cases hi' : i < P.stateSizeBits
    · rw [extBits_lt _ hi']; simp only [Fin.val_zero, Nat.add_zero, hmodc]
    · rw [extBits_ge _ (by omega), signerShare_pad hb7 hpad w c (by omega)]
  have hσ1 : ∀ w, shareOf P ((σ w).1 1) = signerShare P sk w ((c + 1) % 3) := fun w => by
    refine buf_ext (by rw [shareOf_length, signerShare_length]) fun i hi => ?_
    rw [shareOf_bits hb7, hσ]
    by_cases hi' : i < P.stateSizeBits
    · rw [extBits_lt _ hi']; simp only [Fin.val_one]
    · rw [extBits_ge _ (by omega), signerShare_pad hb7 hpad w _ (by omega)]
  have hτ : ∀ w (j : ℕ), j < 2 → tapeOfParty (σ w) j = tapeOfParty w (c + j) := fun w j hj => by
    unfold tapeOfParty
    congr 1
    funext q
    rw [hσ]
    have hne : ¬ (Fin.ofNat 3 j = 2) := by
      interval_cases j <;> decide
    simp only [hne, false_and, if_false]
    interval_cases j <;> rfl
  have hcomm : ∀ w, ofBits (fun p => if p < 3 * P.numSboxes * P.numRounds then extBits ((σ w).2 2) p else 0) P.andSizeBytes = d w ((c + 1) % 3) := fun w => by
    refine buf_ext (by rw [ofBits_length, hdl w _ c1]; simp) fun i hi => ?_
    rw [ofBits_length] at hi
    rw [bitsOf_ofBits _ hi]
    by_cases hi' : i < 3 * P.numSboxes * P.numRounds
    · rw [if_pos hi', extBits_lt _ hi, hσ]
      simp only [true_and, if_pos hi']
    · rw [if_neg hi', hdp w _ c1 i (by omega), bitsOf_zeros]
  refine ⟨σ, fun w w' eq => ?_, fun w => ?_⟩
  · -- from the simulator's choices one recovers the signer's
    have k0 : signerShare P sk w c = signerShare P sk w' c := by rw [← hσ0, ← hσ0, eq]
    have k1 : signerShare P sk w ((c + 1) % 3) = signerShare P sk w' ((c + 1) % 3) := by rw [← hσ1, ← hσ1, eq]
    have t0 : tapeOfParty w c = tapeOfParty w' c := by
      have := hτ w 0 (by omega)
      rw [eq, hτ w' 0 (by omega)] at this
      exact this.symm
    have t1 : tapeOfParty w ((c + 1) % 3) = tapeOfParty w' ((c + 1) % 3) := by
      have := hτ w 1 (by omega)
      rw [eq, hτ w' 1 (by omega)] at this
      rw [tapeOfParty_mod, tapeOfParty_mod]
      exact this.symm
    have d1 : d w ((c + 1) % 3) = d w' ((c + 1) % 3) := by rw [← hcomm, ← hcomm, eq]
    have vb : sv w ((c + 1) % 3) = sv w' ((c + 1) % 3) := by simp only [hsv, k1, t1, d1]
    have gd : ∀ q < 3 * X.m * X.r, bitsOf (d w c) q = bitsOf (d w' c) q :=
      consistent_unique (X := X) (v := sv w c) (u := sv w' c) hm (fun i _ => by simp only [hsv, specView, k0]) (fun i _ => by simp only [hsv, specView, t0])
        (v' := sv w ((c + 1) % 3)) (u' := sv w' ((c + 1) % 3)) (by rw [vb]; exact ⟨fun _ _ => rfl, fun _ _ => rfl, fun _ _ => rfl⟩) (hcons w c hc) (hcons w' c hc)
    have d0 : d w c = d w' c := by
      refine buf_ext (by rw [hdl w c hc, hdl w' c hc]) fun q _ => ?_
      by_cases hq : q < 3 * P.numSboxes * P.numRounds
      · exact gd q hq
      · rw [hdp w c hc q (by omega), hdp w' c hc q (by omega)]
    have va : sv w c = sv w' c := by simp only [hsv, k0, t0, d0]
    have k2 : signerShare P sk w ((c + 2) % 3) = signerShare P sk w' ((c + 2) % 3) := by
      refine buf_ext (by rw [signerShare_length, signerShare_length]) fun i hi => ?_
      by_cases hi' : i < P.stateSizeBits
      · have a1 := hsum w i hi'
        have a2 := hsum w' i hi'
        rw [k0, k1] at a1
        linear_combination a1 - a2
      · rw [signerShare_pad hb7 hpad w _ (by omega), signerShare_pad hb7 hpad w' _ (by omega)]
    have hid : ∀ w, ∀ q < 3 * X.m * X.r, (sv w ((c + 2) % 3)).tape q =
        hidTape X (bitsOf pt) (c = 0) ((c + 1) % 3 = 0) (sv w c) (sv w ((c + 1) % 3)) (bitsOf sk) q := fun w =>
      hid_tape_unique (X := X) (key := bitsOf sk) hm hf (hab w) (hbc w) (hca w) fun i hi => by
        have a1 := hsum w i hi
        simp only [hsv, specView, Pi.add_apply]
        have h1 := zmod2_add_self (bitsOf (signerShare P sk w c) i)
        have h2 := zmod2_add_self (bitsOf (signerShare P sk w ((c + 1) % 3)) i)
        linear_combination a1 - h1 - h2
    have t2 : tapeOfParty w ((c + 2) % 3) = tapeOfParty w' ((c + 2) % 3) := by
      refine buf_ext (by rw [tapeOfParty_length, tapeOfParty_length]) fun q hq => ?_
      rw [tapeOfParty_length] at hq
      by_cases hq' : q < 3 * P.numSboxes * P.numRounds
      · have a1 := hid w q hq'
        rw [va, vb] at a1
        exact a1.trans (hid w' q hq').symm
      · have := congrFun (congrFun (congrArg Prod.snd eq) 2) ⟨q, hq⟩
        rw [hσ, hσ] at this
        simp only [hq', and_false, if_false] at this
        rw [tapeOfParty_mod, tapeOfParty_mod, tapeOfParty, tapeOfParty, tapeOf_bit _ hq, tapeOf_bit _ hq]
        exact this
    have all : ∀ j < 3, j = c ∨ j = (c + 1) % 3 ∨ j = (c + 2) % 3 := fun j hj => by omega
    have kk : ∀ j < 3, signerShare P sk w j = signerShare P sk w' j := fun j hj => by
      rcases all j hj with h | h | h <;> rw [h]
      · exact k0
      · exact k1
      · exact k2
    have tt : ∀ j < 3, tapeOfParty w j = tapeOfParty w' j := fun j hj => by
      rcases all j hj with h | h | h <;> rw [h]
      · exact t0
      · exact t1
      · exact t2
    have kb : ∀ j : Fin 2, w.1 j = w'.1 j := fun j => by
      have h : shareOf P (w.1 j) = shareOf P (w'.1 j) := by
        rcases (show j = 0 ∨ j = 1 by omega) with rfl | rfl
        · exact kk 0 (by omega)
        · exact kk 1 (by omega)
      funext q
      have := congrFun (congrArg bitsOf h) q
      rwa [shareOf_bits hb7, shareOf_bits hb7, extBits_lt _ q.2, extBits_lt _ q.2] at this
    have tb : ∀ j : Fin 3, w.2 j = w'.2 j := fun j => by
      have h : tapeOf (w.2 j) = tapeOf (w'.2 j) := by
        have := tt j j.2
        unfold tapeOfParty at this
        rwa [show Fin.ofNat 3 (j : ℕ) = j from by ext; simp [Fin.ofNat, Nat.mod_eq_of_lt j.2]] at this
      funext q
      have := congrFun (congrArg bitsOf h) q
      rwa [tapeOf_bit _ q.2, tapeOf_bit _ q.2] at this
    exact Prod.ext (funext kb) (funext tb)
  · -- both compute the same
    obtain ⟨cm, s1, s2, s3, s4⟩ := mpcLowMCVerify_ok (E := E) (P := P) (tag := tag') (tp := [tapeOfParty (σ w) 0, tapeOfParty (σ w) 1])
      (t0 := tapeOfParty (σ w) 0) (t1 := tapeOfParty (σ w) 1) (v1 := ⟨shareOf P ((σ w).1 0), zeros P.andSizeBytes, zeros P.stateSizeBytes⟩)
      (v2 := ⟨shareOf P ((σ w).1 1), ofBits (fun p => if p < 3 * P.numSboxes * P.numRounds then extBits ((σ w).2 2) p else 0) P.andSizeBytes, zeros P.stateSizeBytes⟩)
      (plaintext := pt) (tmp := tmp) (c := BitVec.ofNat 8 c) hWF (hE.lowmc _ _ hP) (by simp; omega) (by omega) (by omega) rfl rfl
      (by simp only [shareOf_length]; omega) (by simp only [shareOf_length]; omega) (by rw [tapeOfParty_length]; exact hand) (by rw [tapeOfParty_length]; exact hand)
      (by simpa using hand) (by simpa using hand) (by simp) (by simp)
    have hcn : (BitVec.ofNat 8 c).toNat = c := by simp; omega
    simp only [hcn] at s1 s4
    rw [← hX] at s1 s4
    have et : tapeOfParty (σ w) 1 = tapeOfParty w ((c + 1) % 3) := by rw [hτ w 1 (by omega), tapeOfParty_mod]
    rw [hσ0, hσ1, hcomm, hτ w 0 (by omega), et, Nat.add_zero] at s4
    have gd : ∀ q < 3 * X.m * X.r, bitsOf cm q = bitsOf (d w c) q :=
      consistent_unique (X := X) (v := specView (signerShare P sk w c) cm (tapeOfParty w c)) (u := sv w c) hm (fun i _ => rfl) (fun i _ => rfl)
        (v' := sv w ((c + 1) % 3)) (u' := sv w ((c + 1) % 3)) ⟨fun _ _ => rfl, fun _ _ => rfl, fun _ _ => rfl⟩ s4 (hcons w c hc)
    have hcm : cm = d w c := by
      refine buf_ext (by rw [s2, hdl w c hc]) fun q _ => ?_
      by_cases hq : q < 3 * P.numSboxes * P.numRounds
      · exact gd q hq
      · rw [s3 q (by omega), hdp w c hc q (by omega)]
    have out : ∀ i, Zkb.output X (bitsOf pt) c (sv w c) i + Zkb.output X (bitsOf pt) ((c + 1) % 3) (sv w ((c + 1) % 3)) i +
        Zkb.output X (bitsOf pt) ((c + 2) % 3) (sv w ((c + 2) % 3)) i = X.enc (bitsOf sk) (bitsOf pt) i := fun i => by
      have h := congrFun (share_sumF hf (hab w) (hbc w) (hca w) X.r le_rfl) i
      have h' : X.enc ((sv w c).key + (sv w ((c + 1) % 3)).key + (sv w ((c + 2) % 3)).key) (bitsOf pt) = X.enc (bitsOf sk) (bitsOf pt) :=
        enc_congr hWF (fun i hi => hsum w i hi) fun _ _ => rfl
      rw [← h']
      exact h
    unfold signerOpens simulatorOpens
    rw [e w, ok_bind]
    rw [s1, ok_bind]
    simp only [rd_arrN hc, rd_arrN c1, rd_arrN c2, ok_bind]
    rw [xorThree_ofBits (by simp) (by simp) (by simp) (by omega), ok_bind]
    have et0 : tapeOfParty (σ w) 0 = tapeOfParty w c := hτ w 0 (by omega)
    rw [hσ0, hσ1, hcomm, et0, et, hcm, ← tapeOfParty_mod w (c + 1)]
    simp only [pure_eq_ok, Outcome.ok.injEq, Opened.mk.injEq, true_and]
    refine ofBits_congr fun i hi => ?_
    have hen : bitsOf ct i = X.enc (bitsOf sk) (bitsOf pt) i := by
      rw [← bitsOf_take hi, ← hr, bitsOf_ofBits _ hi]
    simp only [Pi.add_apply]
    rw [bitsOf_ofBits _ hi, bitsOf_ofBits _ hi, hen, ← out i]
    have a1 := zmod2_add_self (Zkb.output X (bitsOf pt) c (sv w c) i)
    have a2 := zmod2_add_self (Zkb.output X (bitsOf pt) ((c + 1) % 3) (sv w ((c + 1) % 3)) i)
    change _ = Zkb.output X (bitsOf pt) c (sv w c) i + Zkb.output X (bitsOf pt) ((c + 1) % 3) (sv w ((c + 1) % 3)) i + _
    linear_combination -a1 - a2

end

/-- C20 for whole signatures: fix the challenges of all repetitions.  If key shares and tapes are uniformly random and independent,
what is opened in all repetitions together has the same distribution as the output of the simulator, which does not know
the secret key. -/
theorem C20_simulator (E : Env) (hE : EnvWF E) (p : ℕ) (P : Params) (hP : getParamSet p = some P) (T : ℕ) (c : Fin T → ℕ) (hc : ∀ t, c t < 3)
    (tag tag' : Fin T → ℕ) (sk pt ct : Buf) (slab tmp : Fin T → Buf) (hs : ∀ t, 24 * P.stateSizeWords ≤ (slab t).length)
    (hs' : ∀ t, 16 * P.stateSizeWords ≤ (tmp t).length) (hpt : pt.length = 32) (hct : ct.length = 32) (hpad : PadZero sk P.stateSizeBits)
    (hr : Relation P (E.lowmc P) sk pt ct) :
    (PMF.uniformOfFintype (Fin T → Coins P)).map (fun w t => signerOpens E P (tag t) (c t) sk pt (slab t) (w t)) =
      (PMF.uniformOfFintype (Fin T → Coins P)).map (fun w t => simulatorOpens E P (tag' t) (c t) ct pt (tmp t) (w t)) :=
  map_uniform_pi fun t => simulate_one E hE p hP (tag t) (tag' t) (c t) (hc t) sk pt ct (slab t) (tmp t) (hs t) (hs' t) hpt hct hpad hr

/-- C20 for whole signatures, two keys: the opened data of all repetitions together has the same distribution for all secret keys
that belong to the public key. -/
theorem C20_distribution (E : Env) (hE : EnvWF E) (p : ℕ) (P : Params) (hP : getParamSet p = some P) (T : ℕ) (c : Fin T → ℕ) (hc : ∀ t, c t < 3)
    (tag : Fin T → ℕ) (sk sk' pt ct : Buf) (slab : Fin T → Buf) (hs : ∀ t, 24 * P.stateSizeWords ≤ (slab t).length)
    (hpt : pt.length = 32) (hct : ct.length = 32) (hpad : PadZero sk P.stateSizeBits) (hpad' : PadZero sk' P.stateSizeBits)
    (hr : Relation P (E.lowmc P) sk pt ct) (hr' : Relation P (E.lowmc P) sk' pt ct) :
    (PMF.uniformOfFintype (Fin T → Coins P)).map (fun w t => signerOpens E P (tag t) (c t) sk pt (slab t) (w t)) =
      (PMF.uniformOfFintype (Fin T → Coins P)).map (fun w t => signerOpens E P (tag t) (c t) sk' pt (slab t) (w t)) := by
  have hl : ∀ t, 16 * P.stateSizeWords ≤ (slab t).length := fun t => by have := hs t; omega
  rw [C20_simulator E hE p P hP T c hc tag tag sk pt ct slab slab hs hl hpt hct hpad hr,
    C20_simulator E hE p P hP T c hc tag tag sk' pt ct slab slab hs hl hpt hct hpad' hr']

/-- C20, the signer: for every repetition of a signature that `picnic_sign` returns, what the signature contains about it is what `signerOpens`
gives for the shares and tapes that are derived from the three seeds of this repetition, and hashes of the unopened seed and view. -/
theorem C20_sign (E : Env) (hE : EnvWF E) (sk : PrivateKey) (hsk : sk.Arrays) (hp : sk.params ∈ zkbParams) (P : Params)
    (hP : getParamSet sk.params = some P) (msg : Buf) (mlen : ℕ) (hm : mlen ≤ msg.length) (hm32 : mlen + 200 ≤ 2 ^ 32)
    (buf : Buf) (slen : ℕ) (hbuf : slen ≤ buf.length) (sig : Buf) (len : ℕ)
    (hs : picnicSign E (some sk) msg mlen buf slen = Outcome.ok (0, sig, len)) (tag : ℕ) (slab : Buf) (hsl : 24 * P.stateSizeWords ≤ slab.length)
    (t : ℕ) (ht : t < P.numMPCRounds) :
    ∃ (sd : ℕ → Buf) (w : Coins P) (o : Opened) (v3 : View),
      value sig t < 3 ∧
      (∀ j < 3, tapeOfParty w j = vtape E P (sd j) (decSalt P sig) t j) ∧ (∀ j : Fin 2, shareOf P (w.1 j) = vkey E P (sd j) (decSalt P sig) t j) ∧
      signerOpens E P tag (value sig t) sk.data sk.pk.plaintext slab w = Outcome.ok o ∧
      decProofs P sig t =
        { seed1 := sd (value sig t), seed2 := sd ((value sig t + 1) % 3), comm := o.view2.communicatedBits
          inp := if value sig t = 0 then [] else if value sig t = 1 then o.view2.inputShare else o.view1.inputShare
          com3 := commitOf E P (sd ((value sig t + 2) % 3)) v3
          g3 := if P.transform = .UR then gOf E P ((value sig t + 2) % 3) (sd ((value sig t + 2) % 3)) v3 else [] } ∧
      v3.outputShare = o.out3 := by
  have h3 : isPicnic3 sk.params = false := (getParamSet_zkb hp).choose_spec.2
  have hWF := paramsWF_of hP
  have hZ := zkbWF_of hP h3
  have hb := hWF.bytes
  have hw := hWF.words
  have hn := hWF.nMax
  have hm := hWF.sboxes
  have hand := andSize_le hP
  have hb7 : P.stateSizeBytes = (P.stateSizeBits + 7) / 8 := by omega
  obtain ⟨views, ch, hv, hR, hx, hchl, hch3, hslen, hsig, hlen⟩ := picnicSign_zkb_zero hE hP h3 hsk (by assumption) hm32 hbuf rfl hs
  generalize hslab : seedSlab E P sk.data sk.pk.ciphertext sk.pk.plaintext (msg.take mlen) = slab0 at hv hx hsig
  obtain ⟨hsl1, hsl2⟩ := slab_lengths hZ hslab.symm
  have hq : ∀ k < P.numMPCRounds, QWF P (chal ch k) (honestProof E P (slabSeed P slab0 k) (views k) (chal ch k)) :=
    fun k hk => honestProof_wf (hv k hk) (hsl2 k hk) (hch3 k hk)
  obtain ⟨-, hsalt, hchal, -, -, hdec⟩ := dec_of_encSig hchl hsl1 hq hsig
  rw [hsalt, hdec t ht, ← chal_eq_value, hchal t ht]
  have hc := hch3 t ht
  generalize chal ch t = c at hc
  have hH := hv t ht
  generalize slabSeed P slab0 t = sd at hH
  generalize slabSalt P slab0 = salt at hH
  generalize views t = vs at hH
  -- the coins of this repetition
  have hvt : ∀ j < 3, (vtape E P (sd j) salt t j).length = P.andSizeBytes := fun j hj => by
    unfold vtape; split_ifs <;> simp
  obtain ⟨w, hw1, hw2⟩ : ∃ w : Coins P, (∀ j < 3, tapeOfParty w j = vtape E P (sd j) salt t j) ∧ ∀ j : Fin 2, shareOf P (w.1 j) = vkey E P (sd j) salt t j := by
    refine ⟨(fun j q => bitsOf (vkey E P (sd j) salt t j) q, fun j q => bitsOf (vtape E P (sd j) salt t j) q), fun j hj => ?_, fun j => ?_⟩
    · refine buf_ext (by rw [tapeOfParty_length, hvt j hj]) fun q hq => ?_
      rw [tapeOfParty_length] at hq
      rw [tapeOfParty, tapeOf_bit _ hq]
      simp only [Fin.val_ofNat, Nat.mod_eq_of_lt hj]
    · refine buf_ext (by rw [shareOf_length, vkey_length]) fun q hq => ?_
      rw [shareOf_bits hb7]
      by_cases hq' : q < P.stateSizeBits
      · rw [extBits_lt _ hq']
      · rw [extBits_ge _ (by omega)]
        rw [vkey, bitsOf_zpad, trunc, if_neg hq']
  have hks : ∀ j < 3, signerShare P sk.data w j = shareKeys E P sk.data salt sd t j := fun j hj => by
    have h0 := hw2 0
    have h1 := hw2 1
    rcases (show j = 0 ∨ j = 1 ∨ j = 2 by omega) with rfl | rfl | rfl
    · exact h0
    · exact h1
    · simp only [signerShare, shareKeys, OfNat.ofNat_ne_zero, OfNat.ofNat_ne_one, if_false, if_true]
      rw [h0, h1]
      rfl
  have hdat := hsk.data
  have hptl := hsk.pk.pt
  obtain ⟨d, e, hdl, hdp, hcons⟩ := mpcLowMC_ok (E := E) (P := P) (tag := tag) (tape := tapeOfParty w) (key := signerShare P sk.data w)
    (comm := fun _ => zeros P.andSizeBytes) (out := fun _ => zeros P.stateSizeBytes) (plaintext := sk.pk.plaintext) (slab := slab) hWF (hE.lowmc _ _ hP)
    (by omega) (by omega) (fun i hi => by rw [signerShare_length]; omega) (fun i hi => by rw [tapeOfParty_length]; exact hand)
    (fun i hi => by simpa using hand) (fun i hi => by simp)
  -- its views are those of the signer
  have hgates := consistent_unique3 (X := lowmcOf P (E.lowmc P)) hm (pt := bitsOf sk.pk.plaintext)
    (v := fun j => specView (signerShare P sk.data w j) (d j) (tapeOfParty w j)) (u := fun j => (vs j).spec (vtape E P (sd j) salt t j))
    (fun j hj i _ => by simp only [specView, View.spec]; rw [hks j hj, hH.inp j hj])
    (fun j hj i _ => by simp only [specView, View.spec]; rw [hw1 j hj]) hcons hH.cons
  have hd : ∀ j < 3, d j = (vs j).communicatedBits := fun j hj => by
    refine buf_ext (by rw [hdl j hj, (hH.wf j hj).comm]; simp) fun q _ => ?_
    by_cases hq : q < 3 * P.numSboxes * P.numRounds
    · exact hgates j hj q hq
    · rw [hdp j hj q (by omega), hH.pad j hj q (by omega), bitsOf_zeros]
  have hview : ∀ j < 3, (⟨signerShare P sk.data w j, d j, ofBits (Zkb.output (lowmcOf P (E.lowmc P)) (bitsOf sk.pk.plaintext) j
      (specView (signerShare P sk.data w j) (d j) (tapeOfParty w j))) P.stateSizeBytes⟩ : View) = vs j := fun j hj => by
    rw [hks j hj, ← hH.inp j hj, hd j hj, hw1 j hj]
    have := hH.out j hj
    unfold View.spec at this
    rw [← this]
  have c1 : (c + 1) % 3 < 3 := Nat.mod_lt _ (by omega)
  have c2 : (c + 2) % 3 < 3 := Nat.mod_lt _ (by omega)
  refine ⟨sd, w, ⟨vs c, vs ((c + 1) % 3), tapeOfParty w c, tapeOfParty w (c + 1), (vs ((c + 2) % 3)).outputShare⟩, vs ((c + 2) % 3), hc, hw1, hw2, ?_, ?_, rfl⟩
  · unfold signerOpens
    rw [e, ok_bind]
    simp only [rd_arrN hc, rd_arrN c1, rd_arrN c2, ok_bind, pure_eq_ok]
    rw [hview c hc, hview _ c1, ← hview _ c2]
  · rcases (show c = 0 ∨ c = 1 ∨ c = 2 by omega) with rfl | rfl | rfl <;> rfl

/-- Concrete case for C20_simulator: all parameter sets, every key, with its own ciphertext of the zero block. -/
theorem C20_simulator_example (p : ℕ) (P : Params) (hP : getParamSet p = some P) (sk : Buf) (hpad : PadZero sk P.stateSizeBits) (T : ℕ)
    (c : Fin T → ℕ) (hc : ∀ t, c t < 3) :
    ∃ ct : Buf, ct.length = 32 ∧ Relation P (exEnv.lowmc P) sk (zeros 32) ct ∧
      (PMF.uniformOfFintype (Fin T → Coins P)).map (fun w t => signerOpens exEnv P 0 (c t) sk (zeros 32) (zeros (24 * P.stateSizeWords)) (w t)) =
        (PMF.uniformOfFintype (Fin T → Coins P)).map (fun w t => simulatorOpens exEnv P 0 (c t) ct (zeros 32) (zeros (16 * P.stateSizeWords)) (w t)) := by
  have hWF := paramsWF_of hP
  have hb := hWF.bytes
  have hn := hWF.nMax
  have hr : Relation P (exEnv.lowmc P) sk (zeros 32) (ofBits ((lowmcOf P (exEnv.lowmc P)).enc (bitsOf sk) (bitsOf (zeros 32))) 32) := by
    rw [← relation_iff hWF (by rw [ofBits_length]; omega)]
    refine buf_ext (by simp; omega) fun i hi => ?_
    rw [ofBits_length] at hi
    rw [bitsOf_take hi, bitsOf_ofBits _ hi, bitsOf_ofBits _ (by omega)]
  exact ⟨_, ofBits_length _ _, hr, C20_simulator exEnv exEnv_wf p P hP T c hc (fun _ => 0) (fun _ => 0) sk (zeros 32) _ (fun _ => zeros (24 * P.stateSizeWords))
    (fun _ => zeros (16 * P.stateSizeWords)) (fun _ => by simp) (fun _ => by simp) (by simp) (ofBits_length _ _) hpad hr⟩

/-- The signer's computation succeeds for all random choices, so the distributions are those of opened data, not of failures. -/
theorem C20_total (E : Env) (hE : EnvWF E) (p : ℕ) (P : Params) (hP : getParamSet p = some P) (tag c : ℕ) (hc : c < 3)
    (sk pt slab : Buf) (hs : 24 * P.stateSizeWords ≤ slab.length) (hpt : pt.length = 32) (w : Coins P) :
    ∃ o, signerOpens E P tag c sk pt slab w = Outcome.ok o := by
  have hWF := paramsWF_of hP
  have hb := hWF.bytes
  have hw := hWF.words
  have hn := hWF.nMax
  have hand := andSize_le hP
  obtain ⟨d, e, -⟩ := mpcLowMC_ok (E := E) (P := P) (tag := tag) (tape := tapeOfParty w) (key := signerShare P sk w)
    (comm := fun _ => zeros P.andSizeBytes) (out := fun _ => zeros P.stateSizeBytes) (plaintext := pt) (slab := slab) hWF (hE.lowmc _ _ hP)
    (by omega) (by omega) (fun i hi => by rw [signerShare_length]; omega) (fun i hi => by rw [tapeOfParty_length]; exact hand)
    (fun i hi => by simpa using hand) (fun i hi => by simp)
  unfold signerOpens
  rw [e, ok_bind]
  simp only [rd_arrN hc, rd_arrN (Nat.mod_lt (c + 1) (show 0 < 3 by omega)), rd_arrN (Nat.mod_lt (c + 2) (show 0 < 3 by omega)), ok_bind, pure_eq_ok]
  exact ⟨_, rfl⟩

end Picnic
