import Verif.Proofs.Conf3Tree
import Verif.Proofs.P3Congr

/-
Picnic3 signatures in terms of Verif/Spec/Picnic3.lean: shares, encoding, challenge, signing.
-/

namespace Picnic

open Spec Spec.Challenge Spec.Tree Spec.Picnic3 Finset
open Spec.Picnic1 (toBits int16)

section
variable {E : Env} {P : Params} {salt : Buf} {t : ℕ} {v : Round} {tp : ℕ → Buf}

/-! ### shares -/

/-- The shares with the correction bits of `computeAuxTape`. -/
theorem shareOK_aux (h3 : P3WF P) (htp : ∀ j < 16, (inst3 E P).tape salt t j v = bitsOf (tp j)) (hl : (tp 15).length = 2 * P.andSizeBytes)
    (ha : v.aux = auxOf E P tp) (u : Option ℕ) :
    ShareOK P ((inst3 E P).share salt t v) (fun j => bitsOf (auxTp P (E.lowmc P) tp j)) u := by
  intro j hj _ r i hi hr
  have hrn : P.stateSizeBits * (r + 1) ≤ P.stateSizeBits * P.numRounds := Nat.mul_le_mul_left _ hr
  rw [Nat.mul_succ] at hrn
  have ht := h3.tape
  have hrn2 : P.stateSizeBits * 2 * r = 2 * (P.stateSizeBits * r) := by ring
  have hq := pos_div (n := P.stateSizeBits) (r := r) (q := i) (by omega)
  have hq2 := pos_div (n := P.stateSizeBits) (r := r) (q := P.stateSizeBits + i) (by omega)
  rw [← Nat.add_assoc] at hq2
  rw [share_mask htp hj hi, share_gate htp hj hi]
  by_cases h : j = 15
  · subst h
    rw [if_pos rfl, ha, auxOf_bit h3 hr hi hl]
    dsimp only
    rw [auxTp, if_pos rfl, bitsOf_ofBits _ (by omega), bitsOf_ofBits _ (by omega), auxTape, auxTape, if_neg (by rw [hq.2]; omega),
      if_pos (by
        rw [hq2.2]
        have : P.stateSizeBits * 2 * P.numRounds = 2 * (P.stateSizeBits * P.numRounds) := by ring
        omega), hq2.1, hq2.2, Nat.add_sub_cancel_left]
    exact ⟨rfl, rfl⟩
  · rw [if_neg h]
    dsimp only
    rw [auxTp_ne h]
    exact ⟨rfl, rfl⟩

/-- The shares with given correction bits, for all parties but `k`. -/
theorem shareOK_set (h3 : P3WF P) (htp : ∀ j < 16, (inst3 E P).tape salt t j v = bitsOf (tp j) ∨ j = k) (hl : (tp 15).length = 2 * P.andSizeBytes)
    {ot : ℕ → Buf} {aux : Buf} (ha : k ≠ 15 → v.aux = aux) (hot : ∀ j < 16, j ≠ k → ot j = if j = 15 then setAuxP P (tp 15) aux else tp j) :
    ShareOK P ((inst3 E P).share salt t v) (fun j => bitsOf (ot j)) (some k) := by
  intro j hj hu r i hi hr
  have hk : j ≠ k := fun e => hu (by rw [e])
  have hrn : P.stateSizeBits * (r + 1) ≤ P.stateSizeBits * P.numRounds := Nat.mul_le_mul_left _ hr
  rw [Nat.mul_succ] at hrn
  have ht := h3.tape
  have hrn2 : P.stateSizeBits * 2 * r = 2 * (P.stateSizeBits * r) := by ring
  have hrn3 : P.stateSizeBits * 2 * P.numRounds = 2 * (P.stateSizeBits * P.numRounds) := by ring
  have hq := pos_div (n := P.stateSizeBits) (r := r) (q := i) (by omega)
  have hq2 := pos_div (n := P.stateSizeBits) (r := r) (q := P.stateSizeBits + i) (by omega)
  rw [← Nat.add_assoc] at hq2
  have htj : (inst3 E P).tape salt t j v = bitsOf (tp j) := (htp j hj).resolve_right hk
  have s1 : (inst3 E P).share salt t v j (2 * P.stateSizeBits * r + i) = bitsOf (tp j) (P.stateSizeBits * 2 * r + i) := by
    unfold Picnic3.Inst.share
    change (if j = 15 ∧ P.stateSizeBits ≤ (2 * P.stateSizeBits * r + i) % (2 * P.stateSizeBits) then _ else _) = _
    rw [Nat.mul_comm 2 P.stateSizeBits, hq.2, if_neg (by omega), htj]
  have s2 : (inst3 E P).share salt t v j (2 * P.stateSizeBits * r + P.stateSizeBits + i) =
      if j = 15 then bitsOf v.aux (P.stateSizeBits * r + i) else bitsOf (tp j) (P.stateSizeBits * 2 * r + P.stateSizeBits + i) := by
    unfold Picnic3.Inst.share
    change (if j = 15 ∧ P.stateSizeBits ≤ (2 * P.stateSizeBits * r + P.stateSizeBits + i) % (2 * P.stateSizeBits) then
      toBits v.aux (P.stateSizeBits * ((2 * P.stateSizeBits * r + P.stateSizeBits + i) / (2 * P.stateSizeBits)) +
        ((2 * P.stateSizeBits * r + P.stateSizeBits + i) % (2 * P.stateSizeBits) - P.stateSizeBits)) else _) = _
    rw [Nat.mul_comm 2 P.stateSizeBits, hq2.1, hq2.2, toBits_eq, Nat.add_sub_cancel_left, htj]
    by_cases h : j = 15
    · rw [if_pos h, if_pos ⟨h, by omega⟩]
    · rw [if_neg h, if_neg (fun h2 => h h2.1)]
  rw [s1, s2]
  dsimp only
  rw [hot j hj hk]
  by_cases h : j = 15
  · subst h
    rw [if_pos rfl, if_pos rfl, ha (fun e => hk e.symm)]
    unfold setAuxP
    rw [bitsOf_ofBits _ (by omega), bitsOf_ofBits _ (by omega), if_neg (by rw [hq.2]; omega), if_pos (by rw [hq2.2]; omega), hq2.1, hq2.2,
      Nat.add_sub_cancel_left]
    exact ⟨rfl, rfl⟩
  · rw [if_neg h, if_neg h]
    exact ⟨rfl, rfl⟩

theorem commit_eq (j : ℕ) : (inst3 E P).commit salt t v j = p3Com E P salt t j (v.seed j) (if j = 15 then v.aux else []) := by
  rw [Picnic3.Inst.commit, inst3_hash, p3Com, int16_eq, int16_eq]; rfl

end

/-! ### challenge -/

section
variable {E : Env} {P : Params}

theorem nextDigest_eq (E : Env) (P : Params) : (fun d => (inst3 E P).hash ([1] ++ d) (inst3 E P).digest) = nextDigest E P := by
  funext d
  exact inst3_hash1 (by decide) d _

theorem challenge3_iff (h3 : P3WF P) {d : Buf} {C Q : List ℕ} : (inst3 E P).Challenge d C Q ↔
    IsChallenge3 P.numMPCRounds P.numMPCParties P.numOpenedRounds (nextDigest E P) d C Q := by
  unfold Picnic3.Inst.Challenge
  rw [nextDigest_eq, h3.parties]
  exact Iff.rfl

theorem closed_eq (T : ℕ) (C : List ℕ) : closed T C = missing T C := rfl

theorem opened_flatMap (h3 : P3WF P) {C Q : List ℕ} (hc : ChalWF P C Q) {h : ℕ → Buf} :
    (opened (inst3 E P).depth (inst3 E P).T (closed (inst3 E P).T C)).flatMap h =
      (mrevN (ceilLog2 P.numMPCRounds) P.numMPCRounds (missing P.numMPCRounds C)).flatMap fun r => h (r + 1) := by
  have hT1 := h3.Tpos
  have hT2 := h3.T
  have hlg := ceilLog2_le (by omega : 1 ≤ P.numMPCRounds) (by omega)
  have hne := (mrev_facts h3 hc.lenC hc.ltC).2.2.2.2.2.1
  have hlt : ∀ t ∈ missing P.numMPCRounds C, t < P.numMPCRounds := fun t ht => (mem_missing.1 ht).1
  rw [inst3_depth h3, closed_eq]
  change (opened (ceilLog2 P.numMPCRounds) P.numMPCRounds (missing P.numMPCRounds C)).flatMap h = _
  rw [mrevN_eq (by omega) hlg hlt hne, List.flatMap_map]
  refine List.flatMap_congr fun x hx => ?_
  rw [Nat.sub_add_cancel (opened_pos hlg hlt hne hx)]

theorem opened_mem (h3 : P3WF P) {C Q : List ℕ} (hc : ChalWF P C Q) {x : ℕ} :
    x ∈ opened (inst3 E P).depth (inst3 E P).T (closed (inst3 E P).T C) ↔
      1 ≤ x ∧ x - 1 ∈ mrevN (ceilLog2 P.numMPCRounds) P.numMPCRounds (missing P.numMPCRounds C) := by
  have hT1 := h3.Tpos
  have hT2 := h3.T
  have hlg := ceilLog2_le (by omega : 1 ≤ P.numMPCRounds) (by omega)
  have hne := (mrev_facts h3 hc.lenC hc.ltC).2.2.2.2.2.1
  have hlt : ∀ t ∈ missing P.numMPCRounds C, t < P.numMPCRounds := fun t ht => (mem_missing.1 ht).1
  rw [inst3_depth h3, closed_eq]
  change x ∈ opened (ceilLog2 P.numMPCRounds) P.numMPCRounds (missing P.numMPCRounds C) ↔ _
  rw [mrevN_eq (by omega) hlg hlt hne]
  constructor
  · intro hx
    exact ⟨opened_pos hlg hlt hne hx, List.mem_map_of_mem hx⟩
  · rintro ⟨h1, h2⟩
    obtain ⟨y, hy, e⟩ := List.mem_map.1 h2
    have := opened_pos hlg hlt hne hy
    rwa [show x = y by omega]

/-- The encoding. -/
theorem encode3_eq {sg : Signature2} {d salt : Buf} {C Q : List ℕ} {s h : ℕ → Buf} {v : ℕ → Round} (hd : sg.challengeHash = d) (hs : sg.salt = salt)
    (hi : sg.iSeedInfo = (revealed (inst3 E P).depth (inst3 E P).T C).flatMap s)
    (hcv : sg.cvInfo = (opened (inst3 E P).depth (inst3 E P).T (closed (inst3 E P).T C)).flatMap h) (hC : sg.challengeC = C) (hQ : sg.challengeP = Q)
    (hp : ∀ t < P.numMPCRounds, t ∈ C → pfBytes (hidOf C Q t) (pfOf sg t) = (v t).encode (hid C Q t)) :
    (inst3 E P).encode d salt C Q s h v = sig2Bytes P sg := by
  unfold Picnic3.Inst.encode sig2Bytes pre2
  rw [hd, hs, hi, hcv]
  refine congrArg _ (List.flatMap_congr fun t ht => ?_)
  have ht : t < P.numMPCRounds := List.mem_range.1 ht
  unfold rBytes
  rw [hC, hQ]
  by_cases h : t ∈ C
  · rw [if_pos h, if_pos h, hp t ht h]
  · rw [if_neg h, if_neg h]

/-- The encoding of one round. -/
theorem encodeRound_eq {p : Proof2} {v : Round} {k : ℕ} (hs : p.seedInfo = (revealed 4 16 [k]).flatMap v.node) (ha : k ≠ 15 → p.aux = v.aux)
    (hi : p.input = v.key) (hm : p.msgs = v.msgs k) (hc : p.C = v.com k) : pfBytes k p = v.encode k := by
  unfold pfBytes Round.encode
  rw [hs, hi, hm, hc]
  by_cases h : k = 15
  · rw [if_neg (by simpa using h), if_pos h]; simp
  · rw [if_pos h, if_neg h, ha h]; simp

/-- The digest. -/
theorem challengeDigest3_eq {v : ℕ → Round} {h : ℕ → Buf} {ct pt salt msg root : Buf} {ch : ℕ → Buf} (hr : h 1 = root)
    (hch : ∀ t < P.numMPCRounds, ch t = H E P HASH_PREFIX_NONE (cat 16 (v t).com) P.digestSizeBytes) :
    (inst3 E P).challengeDigest v h ct pt salt msg = H E P HASH_PREFIX_NONE (hcpInput P ch root salt ct pt msg) P.digestSizeBytes := by
  unfold Picnic3.Inst.challengeDigest hcpInput
  rw [inst3_hash, hr]
  have : (List.range (inst3 E P).T).flatMap (fun t => (inst3 E P).comDigest (v t)) = cat P.numMPCRounds ch := by
    refine List.flatMap_congr fun t ht => ?_
    rw [hch t (List.mem_range.1 ht)]; rfl
  rw [this]; rfl

theorem msgDigest_eq (v : Round) : (inst3 E P).msgDigest v = H E P HASH_PREFIX_NONE (v.key ++ cat 16 v.msgs) P.digestSizeBytes := rfl

end

/-! ### signing -/

section
variable {E : Env} {P : Params} {salt root key pk pt msg : Buf} {t : ℕ} {v : Round}

theorem node16 {j : ℕ} (hj : j < 16) : Node 4 16 (16 + j) := up_self ⟨by omega, by omega⟩

theorem bVl_vVl {D n : ℕ} {ld : ℕ → Option Buf} : bVl E P salt D n ld = vVl E P salt D n [] [] ld := by
  unfold bVl vVl
  have e1 : (fun i : ℕ => decide (i ∈ ([] : List ℕ))) = fun _ => false := by funext i; simp
  have e2 : inVl P.digestSizeBytes [] [] = fun _ => zeros P.digestSizeBytes := by funext i; simp [inVl]
  rw [e1, e2]

theorem top_nil {D n : ℕ} (r : ℕ) : r ∈ ([] : List ℕ) ↔ Top D n (Present D n []) (r + 1) := by
  refine ⟨fun h => (List.not_mem_nil h).elim, fun h => (h.2.2.1 ?_).elim⟩
  exact up_mono (fun y hy => ⟨hy, fun ⟨h, hh, _⟩ => List.not_mem_nil hh⟩) h.1

/-- `v` is round `t` of the signer. -/
structure SRound (E : Env) (P : Params) (salt root key pt : Buf) (t : ℕ) (v : Round) : Prop where
  node : ∀ x, Node 4 16 x → v.node x = sNode E P salt root t (x - 1)
  aux : v.aux = auxOf E P (sTape E P salt root t)
  mkey : v.key = (sMk E P salt root key t).take P.stateSizeBytes
  msgs : ∀ j < 16, v.msgs j = sMsgs E P salt root key pt t j
  com : ∀ j < 16, v.com j = sCom E P salt root t j

theorem SRound.seed (h : SRound E P salt root key pt t v) {j : ℕ} (hj : j < 16) : v.seed j = sNode E P salt root t (2 ^ 4 - 1 + j) := by
  rw [Round.seed, h.node _ (node16 hj), show 16 + j - 1 = 2 ^ 4 - 1 + j by omega]

theorem sMk_bits (hP : ParamsWF P) (t : ℕ) : ∀ i < P.stateSizeBits, bitsOf ((sMk E P salt root key t).take P.stateSizeBytes) i =
    bitsOf (sMk E P salt root key t) i := fun i hi => bitsOf_take (by have := hP.bytes; omega)

theorem key_eq (hP : ParamsWF P) {κ : Bits} (hk : ∀ i < P.stateSizeBits, κ i = kap P (E.lowmc P) (sTape E P salt root t) i) :
    Picnic1.ofBits (inst3 E P).blk (toBits (key.take P.stateSizeBytes) + trunc (inst3 E P).X.n κ) = (sMk E P salt root key t).take P.stateSizeBytes := by
  have hb := hP.bytes
  have hw := hP.words
  rw [inst3_blk hP, ofBits_eq, toBits_eq]
  refine buf_ext (by rw [ofBits_length, List.length_take, sMk_length]; omega) fun i hi => ?_
  rw [ofBits_length] at hi
  rw [bitsOf_ofBits _ hi, bitsOf_take hi, sMk, bitsOf_ofBits _ (by omega), Pi.add_apply, bitsOf_take hi, add_comm]
  congr 1
  change trunc P.stateSizeBits κ i = _
  unfold trunc
  by_cases h : i < P.stateSizeBits
  · rw [if_pos h, hk i h]
  · rw [if_neg h, kap, mulVec_ge (by omega)]

/-- The rounds of the signer are those of the specification. -/
theorem sRound_iff (hP : ParamsWF P) (h3 : P3WF P) (hI : InvOK P (E.lowmc P)) :
    ((inst3 E P).SeedTree salt t 4 16 (sLeaf E P salt root t) v.node ∧ (∃ κ, (inst3 E P).Prepared salt t v κ ∧
      v.key = Picnic1.ofBits (inst3 E P).blk (toBits (key.take P.stateSizeBytes) + trunc (inst3 E P).X.n κ)) ∧
      ∀ j < 16, (inst3 E P).Sends (pt.take P.stateSizeBytes) ((inst3 E P).share salt t v) v j ∧ v.com j = (inst3 E P).commit salt t v j) →
    SRound E P salt root key pt t v := by
  rintro ⟨h1, ⟨κ, h2, hk⟩, h4⟩
  have hb := hP.bytes
  have hnode := seedTree_val (by decide) h1
  have hseed : ∀ j < 16, v.seed j = sNode E P salt root t (2 ^ 4 - 1 + j) := fun j hj => by
    rw [Round.seed, hnode _ (node16 hj), show 16 + j - 1 = 2 ^ 4 - 1 + j by omega]; rfl
  have htp : ∀ j < 16, (inst3 E P).tape salt t j v = bitsOf (sTape E P salt root t j) := fun j hj => by
    rw [tape3_eq hP, hseed j hj]; rfl
  obtain ⟨ha, hκ⟩ := (prepared_iff hP h3 hI htp (sTape_length t 15) κ).1 h2
  rw [key_eq hP hκ] at hk
  have hs := sends_to (v := v) (pt := pt.take P.stateSizeBytes) (mu := fun _ => bitsOf (zeros P.andSizeBytes)) (pt' := bitsOf pt)
    (mk := bitsOf (sMk E P salt root key t)) hP h3 (shareOK_aux h3 htp (sTape_length t 15) ha none)
    (fun i hi => by rw [hk, sMk_bits hP t i hi]) (fun i hi => bitsOf_take (by omega)) (fun _ _ _ _ _ => bitsOf_zeros _ _)
    (fun j hj => ⟨fun h => (Option.some_ne_none _ h.symm).elim, fun _ => (h4 j hj).1⟩)
  exact ⟨hnode, ha, hk, hs.2, fun j hj => by rw [(h4 j hj).2, commit_eq, hseed j hj, ha]; rfl⟩

/-- The rounds of the signer are rounds of the specification. -/
theorem sRound_spec (hP : ParamsWF P) (h3 : P3WF P) (hI : InvOK P (E.lowmc P)) (t : ℕ) {v : Round}
    (hv : v = ⟨fun x => sNode E P salt root t (x - 1), auxOf E P (sTape E P salt root t), (sMk E P salt root key t).take P.stateSizeBytes,
      sMsgs E P salt root key pt t, sCom E P salt root t⟩) :
    (inst3 E P).SeedTree salt t 4 16 (sLeaf E P salt root t) v.node ∧ (inst3 E P).Prepared salt t v (kap P (E.lowmc P) (sTape E P salt root t)) ∧
      v.key = Picnic1.ofBits (inst3 E P).blk (toBits (key.take P.stateSizeBytes) + trunc (inst3 E P).X.n (kap P (E.lowmc P) (sTape E P salt root t))) ∧
      ∀ j < 16, (inst3 E P).Sends (pt.take P.stateSizeBytes) ((inst3 E P).share salt t v) v j ∧ v.com j = (inst3 E P).commit salt t v j := by
  have hb := hP.bytes
  have hR : SRound E P salt root key pt t v := by subst hv; exact ⟨fun _ _ => rfl, rfl, rfl, fun _ _ => rfl, fun _ _ => rfl⟩
  have htp : ∀ j < 16, (inst3 E P).tape salt t j v = bitsOf (sTape E P salt root t j) := fun j hj => by
    rw [tape3_eq hP, hR.seed hj]; rfl
  have hs := sends_of (v := v) (pt := pt.take P.stateSizeBytes) (mu := fun _ => bitsOf (zeros P.andSizeBytes)) (pt' := bitsOf pt)
    (mk := bitsOf (sMk E P salt root key t)) hP h3 (shareOK_aux h3 htp (sTape_length t 15) hR.aux none)
    (fun i hi => by rw [hR.mkey, sMk_bits hP t i hi]) (fun i hi => bitsOf_take (by omega)) (fun _ _ _ _ _ => bitsOf_zeros _ _) hR.msgs
  refine ⟨?_, (prepared_iff hP h3 hI htp (sTape_length t 15) _).2 ⟨hR.aux, fun _ _ => rfl⟩, ?_, fun j hj => ⟨hs.2 j hj (by simp), ?_⟩⟩
  · subst hv
    exact seedTree_mk (by decide) (by decide)
  · rw [hR.mkey, key_eq hP fun _ _ => rfl]
  · rw [hR.com j hj, commit_eq, hR.seed hj, hR.aux]; rfl

theorem SRound.msgDigest (h : SRound E P salt root key pt t v) : (inst3 E P).msgDigest v = sCv E P salt root key pt t := by
  rw [msgDigest_eq, h.mkey, sCv, cat_congr h.msgs]

theorem SRound.encode (h : SRound E P salt root key pt t v) {k : ℕ} (hk : k < 16) : pfBytes k (sPf E P salt root key pt t k) = v.encode k := by
  refine encodeRound_eq ?_ (fun hk15 => ?_) h.mkey.symm (h.msgs k hk).symm (h.com k hk).symm
  · have hl : ∀ h ∈ [k], h < 16 := fun h hh => by rw [List.mem_singleton.1 hh]; exact hk
    rw [revealed_flatMap (D := 4) (n := 16) (by decide) (by decide) (by decide) hl]
    refine List.flatMap_congr fun r hr => ?_
    have := (revealed_facts (D := 4) (n := 16) (by decide) (by decide) (by decide) hl ((revN_mem (by decide) (by decide) (by decide) hl).1 hr)).2.1
    rw [h.node _ this, Nat.add_sub_cancel]
  · rw [h.aux]
    exact if_pos hk15

/-- Pieces of a signature of the specification determine the signature of the model. -/
theorem signed_eq (h3 : P3WF P) {s h : ℕ → Buf} {v : ℕ → Round} (hr : root.length = P.seedSizeBytes)
    (hs : ∀ x, Node (ceilLog2 P.numMPCRounds) P.numMPCRounds x → s x = sTree E P salt root (x - 1))
    (hv : ∀ t < P.numMPCRounds, SRound E P salt root key pt t (v t)) (hm : (inst3 E P).Merkle salt v (fun _ => True) h) :
    (inst3 E P).challengeDigest v h (pk.take P.stateSizeBytes) (pt.take P.stateSizeBytes) salt msg = sHash E P salt root key pk pt msg ∧
    ∀ C Q, ChalWF P C Q → (inst3 E P).encode (sHash E P salt root key pk pt msg) salt C Q s h v =
      sig2Bytes P (sSig E P salt root key pk pt msg C Q) := by
  have hT1 := h3.Tpos
  have hT2 := h3.T
  have hlg := ceilLog2_le (by omega : 1 ≤ P.numMPCRounds) (by omega)
  have hD := clog_pos (by omega : 2 ≤ P.numMPCRounds) (by omega)
  have hmv : ∀ i, Node (ceilLog2 P.numMPCRounds) P.numMPCRounds (i + 1) → h (i + 1) = sMerkle E P salt root key pt i := by
    intro i hi
    unfold sMerkle
    rw [bVl_vVl]
    refine merkle_val (l := []) (v := v) (S := fun _ => True) (inst3_depth h3).symm hlg (by simp) (fun t ht _ => by rw [(hv t ht).msgDigest]) (by simp) (fun r => top_nil r)
      (by simp) hm rfl i ?_
    exact up_mono (fun y hy => ⟨hy, fun ⟨h, hh, _⟩ => List.not_mem_nil hh⟩) hi
  refine ⟨challengeDigest3_eq (hmv 0 (exb_iff.1 (exb_root (by omega) hlg))) fun t ht => ?_, fun C Q hc => ?_⟩
  · rw [sCh, cat_congr (hv t ht).com]
  · obtain ⟨m1, m2, m3, m4, m5, m6, m7⟩ := mrev_facts h3 hc.lenC hc.ltC
    refine encode3_eq rfl rfl ?_ ?_ rfl rfl fun t ht hC => ?_
    · rw [inst3_depth h3]
      change _ = (revealed (ceilLog2 P.numMPCRounds) P.numMPCRounds C).flatMap s
      rw [revealed_flatMap hD (by omega) hlg hc.ltC]
      refine List.flatMap_congr fun r hr => ?_
      have := (revealed_facts hD (by omega) hlg hc.ltC ((revN_mem hD (by omega) hlg hc.ltC).1 hr)).2.1
      rw [hs _ this, Nat.add_sub_cancel]
    · rw [opened_flatMap h3 hc]
      refine List.flatMap_congr fun r hr => ?_
      rw [hmv r (exb_iff.1 (m3 r hr))]
    · rw [pfOf_sSig hc hC]
      exact (hv t ht).encode (hid_lt h3 hc hC).2

theorem secrets_eq (hP : ParamsWF P) (h3 : P3WF P) : (inst3 E P).secrets (key.take P.stateSizeBytes) (pk.take P.stateSizeBytes) (pt.take P.stateSizeBytes) msg =
    sSaltRoot E P key pk pt msg := by
  rw [Picnic3.Inst.secrets, inst3_hash, sSaltRoot, int16_eq, h3.salt]
  simp only [List.append_assoc]
  rfl

end

end Picnic
