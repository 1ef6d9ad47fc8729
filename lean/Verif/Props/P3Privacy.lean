import Verif.Proofs.P3Priv3
import Verif.Proofs.P3Api
import Verif.Props.P3Example
import Verif.Proofs.Uniform

/-
C41: an opened repetition of a Picnic3 signature says nothing about the secret key, as long as the tape of the unopened party
is random.
-/

namespace Picnic

open Spec Finset

/-- The tapes of the unopened party for one key can be translated to tapes for another key, such that the same data are published. -/
theorem publish_bij (E : Env) (hE : EnvWF E) (hI : InvWF E) (p : ℕ) (hp : p ∈ picnic3Params) (P : Params) (hP : getParamSet p = some P) (t k : ℕ) (hk : k < 16)
    (tape : ℕ → Buf) (hl : ∀ j < 16, (tape j).length = 2 * P.andSizeBytes) (key key' pt ct : Buf) (hkl : key.length = 32) (hkl' : key'.length = 32)
    (hpt : pt.length = 32) (hct : ct.length = 32) (hpad : PadZero key P.stateSizeBits) (hpad' : PadZero key' P.stateSizeBits)
    (hr : Relation P (E.lowmc P) key pt ct) (hr' : Relation P (E.lowmc P) key' pt ct) :
    ∃ σ : (Fin (8 * (2 * P.andSizeBytes)) → ZMod 2) → (Fin (8 * (2 * P.andSizeBytes)) → ZMod 2), Function.Injective σ ∧
      ∀ w, publish E P t ⟨arrN 16 (Function.update tape k (tapeOf w)), 0⟩ key ct pt k =
        publish E P t ⟨arrN 16 (Function.update tape k (tapeOf (σ w))), 0⟩ key' ct pt k := by
  classical
  obtain ⟨P', hP', hi3⟩ := getParamSet_p3 hp
  have h3 := p3WF_of hP hi3
  have hW := paramsWF_of hP
  have hb := hW.bytes
  have hw := hW.words
  have hbw := h3.bytes
  have hnM := hW.nMax
  have hC := hE.lowmc _ _ hP
  have hIl := hI.len _ hp _ hP
  have hIo := hI.inv _ hp _ hP
  have htot := tape_total h3
  rw [← relation_iff hW (by omega)] at hr hr'
  have run : ∀ (key : Buf), key.length = 32 → ofBits ((lowmcOf P (E.lowmc P)).enc (bitsOf key) (bitsOf pt)) P.stateSizeBytes = ct.take P.stateSizeBytes →
      ∀ w : Fin (8 * (2 * P.andSizeBytes)) → ZMod 2, publish E P t ⟨arrN 16 (Function.update tape k (tapeOf w)), 0⟩ key ct pt k =
        Outcome.ok (some (pubOf E P (Function.update tape k (tapeOf w)) key pt k)) := fun key hkl hr w => by
    have := publish_ok (E := E) (P := P) (t := t) (tp := Function.update tape k (tapeOf w)) (key := key) (ct := ct) (pt := pt) (k := k) hW h3 hC hIl hIo
      (upd_length hl (tapeOf_length w)) (by omega) (by omega) (by omega)
    rw [if_pos hr] at this
    exact this
  -- the tape that explains the same data with the other key
  obtain ⟨x, hx⟩ : ∃ x : (Fin (8 * (2 * P.andSizeBytes)) → ZMod 2) → Published, ∀ w, x w = pubOf E P (Function.update tape k (tapeOf w)) key pt k := ⟨_, fun _ => rfl⟩
  have hsh : ∀ w, ∃ m, Shape P k (x w) m := fun w => by rw [hx]; exact pub_shape hW h3 hk hpad
  choose m hm using hsh
  obtain ⟨h, hh⟩ : ∃ h : (Fin (8 * (2 * P.andSizeBytes)) → ZMod 2) → ℕ → ZMod 2, ∀ w, h w =
    hidTape3 P tape k (rState E P tape (x w).aux (x w).input (m w) pt k) ((lowmcOf P (E.lowmc P)).state (bitsOf key') (bitsOf pt))
      (fun r i => bitsOf (m w) (P.stateSizeBits * r + i)) := ⟨_, fun _ => rfl⟩
  obtain ⟨σ, hσ⟩ : ∃ σ : (Fin (8 * (2 * P.andSizeBytes)) → ZMod 2) → Fin (8 * (2 * P.andSizeBytes)) → ZMod 2, ∀ w q, σ w q =
    if UsedBit P k q then h w q else w q := ⟨_, fun _ _ => rfl⟩
  have hpub : ∀ w, pubOf E P (Function.update tape k (tapeOf (σ w))) key' pt k = x w := fun w => by
    have hmw := hm w
    rw [hx] at hmw
    obtain ⟨a1, a2⟩ := pub_accepted (ct := ct) (z := tape k) hW h3 hIo (upd_length hl (tapeOf_length w)) hk hr hmw
    rw [Function.update_idem, Function.update_eq_self, ← hx] at a1 a2
    refine pub_exists hW h3 hIo hl hk hpad' hr' (hm w) a1 a2 (tapeOf_length _) fun q hq => ?_
    have hq8 : q < 8 * (2 * P.andSizeBytes) := lt_of_lt_of_le hq.1 htot
    rw [tapeOf_bit _ hq8, hσ, if_pos hq, hh]
  refine ⟨σ, fun w w' e => ?_, fun w => ?_⟩
  · have ex : x w = x w' := by rw [← hpub w, ← hpub w', e]
    rw [hx, hx] at ex
    have hu := pub_unique hW h3 hIo hl hk (tapeOf_length w') (tapeOf_length w) ex
    funext q
    by_cases hq : UsedBit P k q
    · have := hu q hq
      rwa [tapeOf_bit _ q.2, tapeOf_bit _ q.2] at this
    · have := congrFun e q
      rwa [hσ, hσ, if_neg hq, if_neg hq] at this
  · rw [run key hkl hr, run key' hkl' hr', hpub, hx]

/-- C41: let party `k` of a repetition stay unopened, fix the tapes of the other parties, let `key` and `key'` be two secret keys
for the same public key.  If the tape of party `k` consists of uniformly random bits, what is published about the repetition
(the aux bits, the masked key and the messages of all parties) has the same distribution for both keys. -/
theorem C41_privacy (E : Env) (hE : EnvWF E) (hI : InvWF E) (p : ℕ) (hp : p ∈ picnic3Params) (P : Params) (hP : getParamSet p = some P) (t k : ℕ) (hk : k < 16)
    (tape : ℕ → Buf) (hl : ∀ j < 16, (tape j).length = 2 * P.andSizeBytes) (key key' pt ct : Buf) (hkl : key.length = 32) (hkl' : key'.length = 32)
    (hpt : pt.length = 32) (hct : ct.length = 32) (hpad : PadZero key P.stateSizeBits) (hpad' : PadZero key' P.stateSizeBits)
    (hr : Relation P (E.lowmc P) key pt ct) (hr' : Relation P (E.lowmc P) key' pt ct) :
    (PMF.uniformOfFintype (Fin (8 * (2 * P.andSizeBytes)) → ZMod 2)).map
        (fun w => publish E P t ⟨arrN 16 (Function.update tape k (tapeOf w)), 0⟩ key ct pt k) =
      (PMF.uniformOfFintype (Fin (8 * (2 * P.andSizeBytes)) → ZMod 2)).map
        (fun w => publish E P t ⟨arrN 16 (Function.update tape k (tapeOf w)), 0⟩ key' ct pt k) := by
  obtain ⟨σ, h1, h2⟩ := publish_bij E hE hI p hp P hP t k hk tape hl key key' pt ct hkl hkl' hpt hct hpad hpad' hr hr'
  exact map_uniform_of_injective h1 h2

/-- C41 for whole signatures: the same for all opened repetitions together (repetition number, unopened party and the tapes of the
other parties may be different in each), if the tapes of the unopened parties are independent. -/
theorem C41_joint (E : Env) (hE : EnvWF E) (hI : InvWF E) (p : ℕ) (hp : p ∈ picnic3Params) (P : Params) (hP : getParamSet p = some P) (T : ℕ)
    (t k : Fin T → ℕ) (hk : ∀ i, k i < 16) (tape : Fin T → ℕ → Buf) (hl : ∀ i, ∀ j < 16, (tape i j).length = 2 * P.andSizeBytes) (key key' pt ct : Buf)
    (hkl : key.length = 32) (hkl' : key'.length = 32) (hpt : pt.length = 32) (hct : ct.length = 32) (hpad : PadZero key P.stateSizeBits)
    (hpad' : PadZero key' P.stateSizeBits) (hr : Relation P (E.lowmc P) key pt ct) (hr' : Relation P (E.lowmc P) key' pt ct) :
    (PMF.uniformOfFintype (Fin T → Fin (8 * (2 * P.andSizeBytes)) → ZMod 2)).map
        (fun w i => publish E P (t i) ⟨arrN 16 (Function.update (tape i) (k i) (tapeOf (w i))), 0⟩ key ct pt (k i)) =
      (PMF.uniformOfFintype (Fin T → Fin (8 * (2 * P.andSizeBytes)) → ZMod 2)).map
        (fun w i => publish E P (t i) ⟨arrN 16 (Function.update (tape i) (k i) (tapeOf (w i))), 0⟩ key' ct pt (k i)) :=
  map_uniform_pi (f := fun i a => publish E P (t i) ⟨arrN 16 (Function.update (tape i) (k i) (tapeOf a)), 0⟩ key ct pt (k i))
    (g := fun i a => publish E P (t i) ⟨arrN 16 (Function.update (tape i) (k i) (tapeOf a)), 0⟩ key' ct pt (k i)) fun i => publish_bij E hE hI p hp P hP (t i) (k i) (hk i) (tape i) (hl i) key key' pt ct hkl hkl' hpt hct hpad hpad' hr hr'

/-- C41, the data that are published are exactly those that the verifier accepts, independently of the key: (1) published data have
the right sizes and zero padding, and the verifier's simulation accepts them and computes the same messages (whatever
it has as tape of the unopened party); (2) all such data that it accepts are published for some tape of party `k`, (3)
for exactly one up to the bits that are not used. -/
theorem C41_accepted (E : Env) (hE : EnvWF E) (hI : InvWF E) (p : ℕ) (hp : p ∈ picnic3Params) (P : Params) (hP : getParamSet p = some P) (t k : ℕ) (hk : k < 16)
    (tape : ℕ → Buf) (hl : ∀ j < 16, (tape j).length = 2 * P.andSizeBytes) (key pt ct : Buf) (hkl : key.length = 32)
    (hpt : pt.length = 32) (hct : ct.length = 32) (hpad : PadZero key P.stateSizeBits) (hr : Relation P (E.lowmc P) key pt ct) :
    (∃ x m, publish E P t ⟨arrN 16 tape, 0⟩ key ct pt k = Outcome.ok (some x) ∧ Shape P k x m ∧
      ∀ z : Buf, z.length = 2 * P.andSizeBytes →
        replay E P t ⟨arrN 16 (Function.update tape k z), 0⟩ x.aux x.input m ct pt k = Outcome.ok (true, ⟨x.msgs, P.stateSizeBits * P.numRounds, some k⟩)) ∧
    ∀ x m, Shape P k x m → replay E P t ⟨arrN 16 tape, 0⟩ x.aux x.input m ct pt k = Outcome.ok (true, ⟨x.msgs, P.stateSizeBits * P.numRounds, some k⟩) →
      ∃ th : Buf, th.length = 2 * P.andSizeBytes ∧
        ∀ th' : Buf, th'.length = 2 * P.andSizeBytes →
          (publish E P t ⟨arrN 16 (Function.update tape k th'), 0⟩ key ct pt k = Outcome.ok (some x) ↔
            ∀ q, UsedBit P k q → bitsOf th' q = bitsOf th q) := by
  classical
  obtain ⟨P', hP', hi3⟩ := getParamSet_p3 hp
  have h3 := p3WF_of hP hi3
  have hW := paramsWF_of hP
  have hb := hW.bytes
  have hw := hW.words
  have hbw := h3.bytes
  have hnM := hW.nMax
  have hC := hE.lowmc _ _ hP
  have hIl := hI.len _ hp _ hP
  have hIo := hI.inv _ hp _ hP
  have htot := tape_total h3
  rw [← relation_iff hW (by omega)] at hr
  have run : ∀ tape : ℕ → Buf, (∀ j < 16, (tape j).length = 2 * P.andSizeBytes) → publish E P t ⟨arrN 16 tape, 0⟩ key ct pt k =
      Outcome.ok (some (pubOf E P tape key pt k)) := fun tape hl => by
    have := publish_ok (E := E) (P := P) (t := t) (tp := tape) (key := key) (ct := ct) (pt := pt) (k := k) hW h3 hC hIl hIo
      hl (by omega) (by omega) (by omega)
    rw [if_pos hr] at this
    exact this
  constructor
  · obtain ⟨m, hm⟩ := pub_shape (E := E) (tp := tape) (key := key) (pt := pt) (k := k) hW h3 hk hpad
    refine ⟨_, m, run tape hl, hm, fun z hz => ?_⟩
    obtain ⟨a1, a2⟩ := pub_accepted (ct := ct) (z := z) hW h3 hIo hl hk hr hm
    have := replay_ok (E := E) (P := P) (t := t) (tp := Function.update tape k z) (ct := ct) (pt := pt) hW h3 hC (upd_length hl hz) hk
      (fun h => (hm.aux h).1) hm.input hm.msgLen (by omega) (by omega)
    rw [this, a1, beq_self_eq_true, a2]
  · intro x m hm hx
    rw [replay_ok (E := E) (P := P) (t := t) (tp := tape) (ct := ct) (pt := pt) hW h3 hC hl hk
      (fun h => (hm.aux h).1) hm.input hm.msgLen (by omega) (by omega)] at hx
    injection hx with hx
    obtain ⟨a1, a2⟩ := Prod.mk.inj hx
    have a2 := congrArg Msgs.msgs a2
    dsimp only at a2
    refine ⟨ofBits (hidTape3 P tape k (rState E P tape x.aux x.input m pt k) ((lowmcOf P (E.lowmc P)).state (bitsOf key) (bitsOf pt))
      (fun r i => bitsOf m (P.stateSizeBits * r + i))) (2 * P.andSizeBytes), ofBits_length _ _, fun th' hth' => ?_⟩
    have hex : ∀ th : Buf, th.length = 2 * P.andSizeBytes → (∀ q, UsedBit P k q → bitsOf th q = hidTape3 P tape k (rState E P tape x.aux x.input m pt k)
        ((lowmcOf P (E.lowmc P)).state (bitsOf key) (bitsOf pt)) (fun r i => bitsOf m (P.stateSizeBits * r + i)) q) →
        pubOf E P (Function.update tape k th) key pt k = x := fun th hth h =>
      pub_exists hW h3 hIo hl hk hpad hr hm (beq_iff_eq.1 a1) a2.symm hth h
    rw [run _ (upd_length hl hth')]
    constructor
    · intro h
      injection h with h
      injection h with h
      refine pub_unique hW h3 hIo hl hk (ofBits_length _ _) hth' (h.trans ?_)
      exact (hex _ (ofBits_length _ _) fun q hq => by rw [bitsOf_ofBits _ (lt_of_lt_of_le hq.1 htot)]).symm
    · intro h
      rw [hex th' hth' fun q hq => by rw [h q hq, bitsOf_ofBits _ (lt_of_lt_of_le hq.1 htot)]]

/-- Data about a repetition that the verifier accepts, given the tapes of the opened parties. -/
def Accepted (E : Env) (P : Params) (t k : ℕ) (tape : ℕ → Buf) (ct pt : Buf) (x : Published) : Prop :=
  ∃ m, Shape P k x m ∧ replay E P t ⟨arrN 16 tape, 0⟩ x.aux x.input m ct pt k = Outcome.ok (true, ⟨x.msgs, P.stateSizeBits * P.numRounds, some k⟩)

/-- C41, the distribution: what is published is uniformly distributed on the data that the verifier accepts.  All accepted data have the
same probability, which is not zero, and nothing else has positive probability.  Whether data are accepted does not depend on the key. -/
theorem C41_uniform (E : Env) (hE : EnvWF E) (hI : InvWF E) (p : ℕ) (hp : p ∈ picnic3Params) (P : Params) (hP : getParamSet p = some P) (t k : ℕ) (hk : k < 16)
    (tape : ℕ → Buf) (hl : ∀ j < 16, (tape j).length = 2 * P.andSizeBytes) (key pt ct : Buf) (hkl : key.length = 32)
    (hpt : pt.length = 32) (hct : ct.length = 32) (hpad : PadZero key P.stateSizeBits) (hr : Relation P (E.lowmc P) key pt ct) :
    let D := (PMF.uniformOfFintype (Fin (8 * (2 * P.andSizeBytes)) → ZMod 2)).map
        (fun w => publish E P t ⟨arrN 16 (Function.update tape k (tapeOf w)), 0⟩ key ct pt k)
    (∀ y, D y ≠ 0 ↔ ∃ x, y = Outcome.ok (some x) ∧ Accepted E P t k tape ct pt x) ∧
    ∀ x x', Accepted E P t k tape ct pt x → Accepted E P t k tape ct pt x' → D (Outcome.ok (some x)) = D (Outcome.ok (some x')) := by
  classical
  intro D
  obtain ⟨P', hP', hi3⟩ := getParamSet_p3 hp
  have htot := tape_total (p3WF_of hP hi3)
  have hupd : ∀ w : Fin (8 * (2 * P.andSizeBytes)) → ZMod 2, ∀ j < 16, (Function.update tape k (tapeOf w) j).length = 2 * P.andSizeBytes := fun w =>
    upd_length hl (tapeOf_length w)
  have hacc := C41_accepted E hE hI p hp P hP t k hk tape hl key pt ct hkl hpt hct hpad hr
  refine ⟨fun y => ?_, fun x x' hx hx' => ?_⟩
  · rw [show (D y ≠ 0 ↔ y ∈ D.support) from Iff.rfl, PMF.support_map]
    constructor
    · rintro ⟨w, -, rfl⟩
      obtain ⟨⟨x, m, h1, h2, h3⟩, -⟩ := C41_accepted E hE hI p hp P hP t k hk _ (hupd w) key pt ct hkl hpt hct hpad hr
      refine ⟨x, h1, m, h2, ?_⟩
      have := h3 (tape k) (hl k hk)
      rwa [Function.update_idem, Function.update_eq_self] at this
    · rintro ⟨x, rfl, m, h1, h2⟩
      obtain ⟨th, hth, h⟩ := hacc.2 x m h1 h2
      obtain ⟨w, rfl⟩ := tapeOf_surj th hth
      exact ⟨w, by simp, (h _ hth).2 fun _ _ => rfl⟩
  · obtain ⟨m, h1, h2⟩ := hx
    obtain ⟨m', h1', h2'⟩ := hx'
    obtain ⟨th, hth, h⟩ := hacc.2 x m h1 h2
    obtain ⟨th', hth', h'⟩ := hacc.2 x' m' h1' h2'
    -- translate the used bits
    set σ : (Fin (8 * (2 * P.andSizeBytes)) → ZMod 2) → Fin (8 * (2 * P.andSizeBytes)) → ZMod 2 := fun w q => w q + (bitsOf th q + bitsOf th' q) with hσ
    have hinv : Function.Involutive σ := fun w => by
      funext q
      simp only [hσ]
      have a1 := zmod2_add_self (bitsOf th q)
      have a2 := zmod2_add_self (bitsOf th' q)
      linear_combination a1 + a2
    have key1 : ∀ w, publish E P t ⟨arrN 16 (Function.update tape k (tapeOf w)), 0⟩ key ct pt k = Outcome.ok (some x) ↔
        publish E P t ⟨arrN 16 (Function.update tape k (tapeOf (σ w))), 0⟩ key ct pt k = Outcome.ok (some x') := fun w => by
      rw [h _ (tapeOf_length w), h' _ (tapeOf_length (σ w))]
      refine forall_congr' fun q => forall_congr' fun hq => ?_
      have hq8 : q < 8 * (2 * P.andSizeBytes) := lt_of_lt_of_le hq.1 htot
      rw [tapeOf_bit _ hq8, tapeOf_bit _ hq8]
      simp only [hσ]
      have a1 := zmod2_add_self (bitsOf th q)
      constructor
      · intro e; rw [e]; linear_combination a1
      · intro e
        have a2 := zmod2_add_self (bitsOf th q)
        linear_combination e - a1
    change (PMF.map _ _) _ = (PMF.map _ _) _
    rw [PMF.map_apply, PMF.map_apply, ← (Equiv.ofBijective σ hinv.bijective).tsum_eq]
    refine tsum_congr fun w => ?_
    simp only [Equiv.ofBijective_apply, PMF.uniformOfFintype_apply]
    by_cases hw : publish E P t ⟨arrN 16 (Function.update tape k (tapeOf (σ w))), 0⟩ key ct pt k = Outcome.ok (some x)
    · have := (key1 (σ w)).1 hw
      rw [hinv w] at this
      rw [if_pos hw.symm, if_pos this.symm]
    · rw [if_neg (fun e => hw e.symm), if_neg fun e => hw ((key1 (σ w)).2 (by rw [hinv w]; exact e.symm))]

/-- C41, the signer: what a signature contains about an opened repetition is what `publish` gives for the tapes that
are derived from the seeds of this repetition. -/
theorem C41_sign (E : Env) (hE : EnvWF E) (hI : InvWF E) (p : ℕ) (hp : p ∈ picnic3Params) (P : Params) (hP : getParamSet p = some P)
    (key pt ct msg : Buf) (hkl : key.length = 32) (hpt : pt.length = 32) (hct : ct.length = 32) (hm : msg.length + 200 ≤ 2 ^ 32) (S : Signature2)
    (hS : signPicnic3 E P key ct pt msg msg.length (allocateSignature2 E P) = Outcome.ok (some S)) (i t k : ℕ) (hi : S.challengeC[i]? = some t)
    (hk : S.challengeP[i]? = some k) :
    ∃ (seeds : List Buf) (tapes : RandomTape) (x : Published) (pf : Proof2), createRandomTapes E P seeds S.salt t = Outcome.ok tapes ∧
      publish E P t tapes key ct pt k = Outcome.ok (some x) ∧ S.proofs[t]? = some (some pf) ∧ pf.input = x.input ∧ x.msgs[k]? = some pf.msgs ∧
      (k ≠ 15 → pf.aux = x.aux) := by
  classical
  obtain ⟨P', hP', hi3⟩ := getParamSet_p3 hp
  have h3 := p3WF_of hP hi3
  have hW := paramsWF_of hP
  have hb := hW.bytes
  have hw := hW.words
  have hn := hW.nMax
  rw [signPicnic3_ok hE.perm hW (seedWF_of hP) (merkleWF_of hP) h3 (p3Sz_of hP hi3) (hE.lowmc _ _ hP) (hI.len _ hp _ hP)
    (hI.inv _ hp _ hP) (by omega) (by omega) (by omega) le_rfl hm] at hS
  unfold signR at hS
  have hsalt : (sSalt E P key ct pt (msg.take msg.length)).length = P.saltSizeBytes := sSalt_length
  have hroot : (sRoot E P key ct pt (msg.take msg.length)).length = P.seedSizeBytes := sRoot_length
  generalize sSalt E P key ct pt (msg.take msg.length) = salt at *
  generalize sRoot E P key ct pt (msg.take msg.length) = root at *
  by_cases hR : ofBits ((lowmcOf P (E.lowmc P)).enc (bitsOf key) (bitsOf pt)) P.stateSizeBytes = ct.take P.stateSizeBytes
  · rw [if_pos hR] at hS
    cases hx : expandR E P E.fuel (sHash E P salt root key ct pt (msg.take msg.length)) with
    | none => rw [hx] at hS; cases hS
    | some r =>
      obtain ⟨C, Q⟩ := r
      rw [hx] at hS
      injection hS with hS
      injection hS with hS
      subst hS
      have hc := expandR_wf h3 hx
      obtain ⟨hiC, hti⟩ := List.getElem?_eq_some_iff.1 (show C[i]? = some t from hi)
      obtain ⟨hiQ, hki⟩ := List.getElem?_eq_some_iff.1 (show Q[i]? = some k from hk)
      have htC : t ∈ C := hti ▸ List.getElem_mem hiC
      have hhid : hidOf C Q t = k := by
        rw [hidOf, ← hti, hc.nodup.idxOf_getElem i hiC, List.getD_eq_getElem _ _ hiQ, hki]
      have hkk : k < 16 := by
        have := hc.ltQ k (hki ▸ List.getElem_mem hiQ)
        rwa [h3.parties] at this
      refine ⟨_, _, _, sPf E P salt root key pt t k, createRandomTapes_ok (s := fun j => sNode E P salt root t (2 ^ 4 - 1 + j)) hE.perm h3 (fun j _ => sNode_length hroot t _) hsalt,
        (publish_ok (E := E) (P := P) (t := t) (tp := sTape E P salt root t) (key := key) (ct := ct) (pt := pt) (k := k) hW h3 (hE.lowmc _ _ hP)
          (hI.len _ hp _ hP) (hI.inv _ hp _ hP) (fun j _ => sTape_length t j) (by omega) (by omega) (by omega)).trans (by rw [if_pos hR]), ?_, ?_, ?_, ?_⟩
      · change (arrN P.numMPCRounds fun t => if t ∈ C then some (sPf E P salt root key pt t (hidOf C Q t)) else none)[t]? = _
        rw [arrN_getElem? (hc.ltC t htC), if_pos htC, hhid]
      · rfl
      · change (arrN 16 (sMsgs E P salt root key pt t))[k]? = _
        exact arrN_getElem? hkk
      · intro hk15
        unfold sPf pubOf
        dsimp only
        rw [if_pos hk15, if_pos hk15]
        rfl
  · rw [if_neg hR] at hS; cases hS

/-- C41, the verifier: for an opened repetition it runs `replay` on the tapes and the proof. -/
theorem C41_verify (E : Env) (P : Params) (S : Signature2) (tapes : RandomTape) (ct pt : Buf) (t i k : ℕ) (pf : Proof2)
    (h1 : containsU16 S.challengeC P.numOpenedRounds t = Outcome.ok true) (h2 : indexOfU16 S.challengeC P.numOpenedRounds t = Outcome.ok i)
    (hk : S.challengeP[i]? = some k) (hpf : S.proofs[t]? = some (some pf)) :
    verifyOnline E P S tapes ct pt t = (do
      let (ok, msgs) ← replay E P t tapes pf.aux pf.input pf.msgs ct pt k
      if !ok then pure none
      else do
        let d ← commitV E P (E.junkBuf siteCommit t P.digestSizeBytes) pf.input msgs
        pure (some (some d))) := by
  have e1 : rd S.challengeP i = Outcome.ok k := by unfold rd; rw [hk]
  have e2 : rd S.proofs t = Outcome.ok (some pf) := by unfold rd; rw [hpf]
  unfold verifyOnline replay
  dsimp only
  rw [h1, ok_bind, if_pos rfl, h2, ok_bind, e1, ok_bind, e2, ok_bind]
  simp only [deref, ok_bind]
  by_cases h : k ≠ P.numMPCParties - 1
  · rw [if_pos h, if_pos h]; simp only [ok_bind, bind_assoc, pure_eq_ok]
  · rw [if_neg h, if_neg h]; simp only [ok_bind, bind_assoc, pure_eq_ok]

/-! ### A concrete case: two secret keys for one public key -/

theorem mulVec_id {P : Params} (hP : ParamsWF P) (v : Bits) {i : ℕ} (hi : i < P.stateSizeBits) :
    mulVec P.stateSizeBits (matBits P.stateSizeWords (idMatrix P)) v i = v i := by
  unfold mulVec
  rw [if_pos hi, sum_eq_single i]
  · rw [matBits_idMatrix hP hi hi, if_pos rfl, one_mul]
  · intro j hj hne
    rw [matBits_idMatrix hP hi (mem_range.1 hj), if_neg (Ne.symm hne), zero_mul]
  · intro h; exact absurd (mem_range.2 hi) h

/-- The key with the given bits. -/
def exKey (l : List ℕ) : Buf := ofBits (fun j => if j ∈ l then 1 else 0) 32

/-- With the identity matrices of the example environments both keys map the plaintext 0 to the same ciphertext. -/
theorem ex_collision {P : Params} (hP : ParamsWF P) (h3 : P3WF P) (hR : P.numRounds = 4) (hn : 6 ≤ P.stateSizeBits) {i : ℕ} (hi : i < P.stateSizeBits) :
    (lowmcOf P (idConsts P)).enc (bitsOf (exKey [5])) (bitsOf (zeros 32)) i = (lowmcOf P (idConsts P)).enc (bitsOf (exKey [3, 5])) (bitsOf (zeros 32)) i := by
  have hnM := hP.nMax
  have hfull := h3.full
  have hw := hP.words
  have hXn : (lowmcOf P (idConsts P)).n = P.stateSizeBits := rfl
  have hXm : (lowmcOf P (idConsts P)).m = P.numSboxes := rfl
  have hXr : (lowmcOf P (idConsts P)).r = 4 := hR
  have hXK : ∀ r, (lowmcOf P (idConsts P)).K r = matBits P.stateSizeWords (idMatrix P) := fun _ => rfl
  have hXL : ∀ r, (lowmcOf P (idConsts P)).L r = matBits P.stateSizeWords (idMatrix P) := fun _ => rfl
  have hXC : ∀ r, ∀ i < P.stateSizeBits, (lowmcOf P (idConsts P)).RC r i = if i = 0 then 1 else 0 := fun r i hi => by
    have : (lowmcOf P (idConsts P)).RC r = trunc P.stateSizeBits (bitsOf ((idConsts P).RC r)) := rfl
    rw [this, trunc, if_pos hi, idConsts, bitsOf_ofBits _ (by omega)]
  generalize lowmcOf P (idConsts P) = X at hXn hXm hXr hXK hXL hXC ⊢
  have h0 : ∀ l, ∀ i < P.stateSizeBits, X.state (bitsOf (exKey l)) (bitsOf (zeros 32)) 0 i = if i ∈ l then 1 else 0 := fun l i hi => by
    rw [LowMC.state, Pi.add_apply, bitsOf_zeros, hXn, hXK, mulVec_id hP _ hi, exKey, bitsOf_ofBits _ (by omega), zero_add]
  have hs : ∀ l r, ∀ i < P.stateSizeBits, X.state (bitsOf (exKey l)) (bitsOf (zeros 32)) (r + 1) i =
      sboxLayer P.numSboxes (X.state (bitsOf (exKey l)) (bitsOf (zeros 32)) r) i + (if i = 0 then 1 else 0) + if i ∈ l then 1 else 0 := fun l r i hi => by
    rw [LowMC.state, Pi.add_apply, Pi.add_apply, hXn, hXm, hXK, hXL, hXC r i hi, mulVec_id hP _ hi, mulVec_id hP _ hi]
    refine congrArg _ ?_
    rw [exKey, bitsOf_ofBits _ (by omega)]
  rw [LowMC.enc, LowMC.enc, hXr]
  generalize hA : X.state (bitsOf (exKey [5])) (bitsOf (zeros 32)) = A
  generalize hB : X.state (bitsOf (exKey [3, 5])) (bitsOf (zeros 32)) = B
  have a0 := h0 [5]; have b0 := h0 [3, 5]; have as := hs [5]; have bs := hs [3, 5]
  rw [hA] at a0 as
  rw [hB] at b0 bs
  by_cases hi' : 3 ≤ i ∧ i < 6
  · -- the S-box of bits 3, 4, 5
    have step : ∀ (s : Bits), sboxLayer P.numSboxes s 5 = s 5 + s 4 * s 3 ∧ sboxLayer P.numSboxes s 4 = s 5 + s 4 + s 5 * s 3 ∧
        sboxLayer P.numSboxes s 3 = s 5 + s 4 + s 3 + s 5 * s 4 := fun s => by
      refine ⟨?_, ?_, ?_⟩ <;> simp only [sboxLayer, sbox] <;> rw [if_pos (by omega)] <;> rfl
    have ia : ∀ r, A (r + 1) 5 = A r 5 + A r 4 * A r 3 + 1 ∧ A (r + 1) 4 = A r 5 + A r 4 + A r 5 * A r 3 ∧ A (r + 1) 3 = A r 5 + A r 4 + A r 3 + A r 5 * A r 4 := fun r => by
      refine ⟨?_, ?_, ?_⟩
      · rw [as r 5 (by omega), (step _).1]; simp
      · rw [as r 4 (by omega), (step _).2.1]; simp
      · rw [as r 3 (by omega), (step _).2.2]; simp
    have ib : ∀ r, B (r + 1) 5 = B r 5 + B r 4 * B r 3 + 1 ∧ B (r + 1) 4 = B r 5 + B r 4 + B r 5 * B r 3 ∧ B (r + 1) 3 = B r 5 + B r 4 + B r 3 + B r 5 * B r 4 + 1 := fun r => by
      refine ⟨?_, ?_, ?_⟩
      · rw [bs r 5 (by omega), (step _).1]; simp
      · rw [bs r 4 (by omega), (step _).2.1]; simp
      · rw [bs r 3 (by omega), (step _).2.2]; simp
    have za : A 0 5 = 1 ∧ A 0 4 = 0 ∧ A 0 3 = 0 := ⟨by rw [a0 5 (by omega)]; simp, by rw [a0 4 (by omega)]; simp, by rw [a0 3 (by omega)]; simp⟩
    have zb : B 0 5 = 1 ∧ B 0 4 = 0 ∧ B 0 3 = 1 := ⟨by rw [b0 5 (by omega)]; simp, by rw [b0 4 (by omega)]; simp, by rw [b0 3 (by omega)]; simp⟩
    have : i = 3 ∨ i = 4 ∨ i = 5 := by omega
    have fin : A 4 5 = B 4 5 ∧ A 4 4 = B 4 4 ∧ A 4 3 = B 4 3 := by
      have a1 : A 1 5 = 0 ∧ A 1 4 = 1 ∧ A 1 3 = 1 := by
        have e := ia 0
        rw [za.1, za.2.1, za.2.2] at e
        exact ⟨e.1.trans (by decide), e.2.1.trans (by decide), e.2.2.trans (by decide)⟩
      have a2 : A 2 5 = 0 ∧ A 2 4 = 1 ∧ A 2 3 = 0 := by
        have e := ia 1
        rw [a1.1, a1.2.1, a1.2.2] at e
        exact ⟨e.1.trans (by decide), e.2.1.trans (by decide), e.2.2.trans (by decide)⟩
      have a3 : A 3 5 = 1 ∧ A 3 4 = 1 ∧ A 3 3 = 1 := by
        have e := ia 2
        rw [a2.1, a2.2.1, a2.2.2] at e
        exact ⟨e.1.trans (by decide), e.2.1.trans (by decide), e.2.2.trans (by decide)⟩
      have a4 : A 4 5 = 1 ∧ A 4 4 = 1 ∧ A 4 3 = 0 := by
        have e := ia 3
        rw [a3.1, a3.2.1, a3.2.2] at e
        exact ⟨e.1.trans (by decide), e.2.1.trans (by decide), e.2.2.trans (by decide)⟩
      have b1 : B 1 5 = 0 ∧ B 1 4 = 0 ∧ B 1 3 = 1 := by
        have e := ib 0
        rw [zb.1, zb.2.1, zb.2.2] at e
        exact ⟨e.1.trans (by decide), e.2.1.trans (by decide), e.2.2.trans (by decide)⟩
      have b2 : B 2 5 = 1 ∧ B 2 4 = 0 ∧ B 2 3 = 0 := by
        have e := ib 1
        rw [b1.1, b1.2.1, b1.2.2] at e
        exact ⟨e.1.trans (by decide), e.2.1.trans (by decide), e.2.2.trans (by decide)⟩
      have b3 : B 3 5 = 0 ∧ B 3 4 = 1 ∧ B 3 3 = 0 := by
        have e := ib 2
        rw [b2.1, b2.2.1, b2.2.2] at e
        exact ⟨e.1.trans (by decide), e.2.1.trans (by decide), e.2.2.trans (by decide)⟩
      have b4 : B 4 5 = 1 ∧ B 4 4 = 1 ∧ B 4 3 = 0 := by
        have e := ib 3
        rw [b3.1, b3.2.1, b3.2.2] at e
        exact ⟨e.1.trans (by decide), e.2.1.trans (by decide), e.2.2.trans (by decide)⟩
      exact ⟨a4.1.trans b4.1.symm, a4.2.1.trans b4.2.1.symm, a4.2.2.trans b4.2.2.symm⟩
    rcases this with rfl | rfl | rfl
    · exact fin.2.2
    · exact fin.2.1
    · exact fin.1
  · -- all others: the keys agree
    have key : ∀ r, ∀ i < P.stateSizeBits, ¬(3 ≤ i ∧ i < 6) → A r i = B r i := by
      intro r
      induction r with
      | zero =>
        intro i hi h
        rw [a0 i hi, b0 i hi]
        have e : i ∈ [5] ↔ i ∈ [3, 5] := by simp; omega
        simp only [e]
      | succ r ih =>
        intro i hi h
        rw [as r i hi, bs r i hi]
        have e : i ∈ [5] ↔ i ∈ [3, 5] := by simp; omega
        have e2 : sboxLayer P.numSboxes (A r) i = sboxLayer P.numSboxes (B r) i := by
          unfold sboxLayer
          rw [ih (3 * (i / 3) + 2) (by omega) (by omega), ih (3 * (i / 3) + 1) (by omega) (by omega), ih (3 * (i / 3)) (by omega) (by omega), ih i hi h]
        rw [e2]
        simp only [e]
    exact key 4 i hi hi'

/-- Concrete case for C41_privacy: two different keys with the same public key, for all Picnic3 parameter sets and all choices
of the unopened party; the data published with the first key and zero tapes are accepted, and published with the second
key for some other tape of the unopened party. -/
theorem C41_example (p : ℕ) (hp : p ∈ picnic3Params) (k : ℕ) (hk : k < 16) :
    ∃ (P : Params) (ct : Buf), getParamSet p = some P ∧ ct.length = 32 ∧ exKey [5] ≠ exKey [3, 5] ∧
      PadZero (exKey [5]) P.stateSizeBits ∧ PadZero (exKey [3, 5]) P.stateSizeBits ∧
      Relation P (altEnv.lowmc P) (exKey [5]) (zeros 32) ct ∧ Relation P (altEnv.lowmc P) (exKey [3, 5]) (zeros 32) ct ∧
      ∃ (x : Published) (m th : Buf), th.length = 2 * P.andSizeBytes ∧ bitsOf x.input 5 = 1 ∧ Shape P k x m ∧
        publish altEnv P 0 ⟨arrN 16 fun _ => zeros (2 * P.andSizeBytes), 0⟩ (exKey [5]) ct (zeros 32) k = Outcome.ok (some x) ∧
        replay altEnv P 0 ⟨arrN 16 fun _ => zeros (2 * P.andSizeBytes), 0⟩ x.aux x.input m ct (zeros 32) k =
          Outcome.ok (true, ⟨x.msgs, P.stateSizeBits * P.numRounds, some k⟩) ∧
        publish altEnv P 0 ⟨arrN 16 (Function.update (fun _ => zeros (2 * P.andSizeBytes)) k th), 0⟩ (exKey [3, 5]) ct (zeros 32) k = Outcome.ok (some x) := by
  classical
  obtain ⟨P, hP, hi3⟩ := getParamSet_p3 hp
  have h3 := p3WF_of hP hi3
  have hW := paramsWF_of hP
  have hb := hW.bytes
  have hnM := hW.nMax
  have hbw := h3.bytes
  have hrn : P.numRounds = 4 ∧ 6 ≤ P.stateSizeBits := by
    simp only [picnic3Params, List.mem_cons, List.not_mem_nil, or_false] at hp
    rcases hp with rfl | rfl | rfl <;> (injection hP with h; subst h; decide)
  have hl : ∀ l, (exKey l).length = 32 := fun l => ofBits_length _ _
  have hpad : ∀ l, (∀ i ∈ l, i < 6) → PadZero (exKey l) P.stateSizeBits := fun l h i hi hi8 => by
    rw [exKey, bitsOf_ofBits _ (by omega), if_neg fun h' => by have := h i h'; omega]
  have p1 := hpad [5] (by simp)
  have p2 := hpad [3, 5] (by simp)
  obtain ⟨ct, hct⟩ : ∃ ct, ct = ofBits ((lowmcOf P (idConsts P)).enc (bitsOf (exKey [5])) (bitsOf (zeros 32))) 32 := ⟨_, rfl⟩
  have hR := hW.rounds
  have r1 : Relation P (altEnv.lowmc P) (exKey [5]) (zeros 32) ct := fun i hi => by
    rw [bytesFor] at hi
    rw [hct, bitsOf_ofBits _ (by omega)]
    by_cases h : i < P.stateSizeBits
    · rw [if_pos h]; rfl
    · rw [if_neg h, enc_ge hR (by omega)]
  have r2 : Relation P (altEnv.lowmc P) (exKey [3, 5]) (zeros 32) ct := fun i hi => by
    rw [r1 i hi]
    by_cases h : i < P.stateSizeBits
    · rw [if_pos h, if_pos h]; exact ex_collision hW h3 hrn.1 hrn.2 h
    · rw [if_neg h, if_neg h]
  have hctl : ct.length = 32 := by rw [hct, ofBits_length]
  have htl : ∀ j < 16, ((fun _ : ℕ => zeros (2 * P.andSizeBytes)) j).length = 2 * P.andSizeBytes := fun _ _ => by simp
  obtain ⟨x, m, hx, hsh, hrep⟩ := (C41_accepted altEnv altEnv_wf altEnv_inv p hp P hP 0 k hk (fun _ => zeros (2 * P.andSizeBytes)) htl
    (exKey [5]) (zeros 32) ct (hl _) (by simp) hctl p1 r1).1
  have hrep := hrep (zeros (2 * P.andSizeBytes)) (by simp)
  have hupd : Function.update (fun _ : ℕ => zeros (2 * P.andSizeBytes)) k (zeros (2 * P.andSizeBytes)) = fun _ => zeros (2 * P.andSizeBytes) :=
    Function.update_eq_self k (fun _ : ℕ => zeros (2 * P.andSizeBytes))
  rw [hupd] at hrep
  obtain ⟨th, hth, hex⟩ := (C41_accepted altEnv altEnv_wf altEnv_inv p hp P hP 0 k hk (fun _ => zeros (2 * P.andSizeBytes)) htl
    (exKey [3, 5]) (zeros 32) ct (hl _) (by simp) hctl p2 r2).2 x m hsh hrep
  refine ⟨P, ct, hP, hctl, fun e => ?_, p1, p2, r1, r2, x, m, th, hth, ?_, hsh, hx, hrep, (hex th hth).2 fun _ _ => rfl⟩
  · have := congrArg (fun b => bitsOf b 3) e
    simp only [exKey] at this
    rw [bitsOf_ofBits _ (by omega), bitsOf_ofBits _ (by omega)] at this
    simp at this
  · have hx' : Outcome.ok (some (pubOf altEnv P (fun _ => zeros (2 * P.andSizeBytes)) (exKey [5]) (zeros 32) k)) = Outcome.ok (some x) := by
      rw [← hx]
      have hw := hW.words
      have := publish_ok (E := altEnv) (P := P) (t := 0) (tp := fun _ => zeros (2 * P.andSizeBytes)) (key := exKey [5]) (ct := ct) (pt := zeros 32) (k := k) hW h3
        (altEnv_wf.lowmc _ _ hP) (altEnv_inv.len _ hp _ hP) (altEnv_inv.inv _ hp _ hP) htl (by rw [hl]; omega) (by simp; omega) (by omega)
      rw [if_pos ((relation_iff hW (by omega)).2 r1)] at this
      exact this.symm
    injection hx' with hx'
    injection hx' with hx'
    have hz : kap P (altEnv.lowmc P) (fun _ => zeros (2 * P.andSizeBytes)) 5 = 0 := by
      have : lam P (fun _ => zeros (2 * P.andSizeBytes)) 0 = 0 := by
        funext i
        rw [lam, tpar]
        exact sum_eq_zero fun j _ => bitsOf_zeros _ _
      rw [kap, this]
      unfold mulVec
      simp
    rw [← hx', pub_input_bit hW h3 (by omega), pMk_bit hW (by omega), hz, exKey, bitsOf_ofBits _ (by omega)]
    simp

end Picnic
