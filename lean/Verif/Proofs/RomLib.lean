import Verif.Proofs.RomMain

/-
C62: with SHAKE in place of the oracle the signer makes the signatures of the specification.
-/

namespace Picnic.Rom

open Spec Spec.Zkb Spec.Rom Spec.Picnic1 Spec.Challenge

variable {N M : ℕ} {I : Inst} {sk ct pt msg : Bytes}

theorem hash_take (m : Bytes) {n k : ℕ} (h : n ≤ k) : I.hash m n = (I.hash m k).take n := by
  unfold Inst.hash shake
  rw [← List.map_take, List.take_range, Nat.min_eq_left h]

theorem shake_len (m : Bytes) (n : ℕ) : (I.hash m n).length = n := by
  unfold Inst.hash shake
  simp

theorem bits_table {m : Bytes} (hm : m.length ≤ N) {n : ℕ} (hn : n ≤ M) {i : ℕ} (hi : i < 8 * n) :
    bits (ask (shakeTable I N M) m) i = toBits (I.hash m n) i := by
  rw [bits_lt _ (by omega)]
  unfold ask
  rw [dif_pos hm]
  simp only [shakeTable]
  rw [hash_take m hn, toBits_eq, toBits_eq, bitsOf_take hi]

theorem ofBits_toBits {b : Bytes} {n : ℕ} (h : b.length = n) {v : Bits} (hv : ∀ i < 8 * n, v i = toBits b i) : Spec.Picnic1.ofBits n v = b := by
  rw [ofBits_eq]
  refine buf_ext (by simp [h]) fun i hi => ?_
  rw [ofBits_length] at hi
  rw [bitsOf_ofBits _ hi, hv i hi, toBits_eq]

theorem hash_table {m : Bytes} (hm : m.length ≤ N) {n : ℕ} (hn : n ≤ M) : Rom.hash (shakeTable I N M) m n = I.hash m n := by
  unfold Rom.hash bytes
  exact ofBits_toBits (shake_len m n) fun i hi => bits_table hm hn hi

section

variable (hlen : ∀ (a : Answers I M) q, (pts I sk ct pt msg (shakeTable I N M) a q).length ≤ N) (hN : I.digest + 1 ≤ N) (hsd : I.seed ≤ I.digest)
  (hM1 : 3 * I.T * I.seed + 32 ≤ M) (hM2 : I.digest ≤ M) (hM3 : I.blk + I.gate ≤ M) (hM4 : I.unruh = true → I.seed + I.gate + I.blk ≤ M)

/-- The answers of SHAKE. -/
local notation "𝔞" => answers I (shakeTable I N M) sk ct pt msg

include hlen in
theorem lib_bits (q : Query I.T I.unruh) {n : ℕ} (hn : n ≤ M) {i : ℕ} (hi : i < 8 * n) :
    bits (𝔞 q) i = toBits (I.hash (pts I sk ct pt msg (shakeTable I N M) 𝔞 q) n) i := by
  rw [answers_fixed, ← bits_table (hlen _ q) hn hi]

include hlen in
theorem lib_bytes (q : Query I.T I.unruh) {n : ℕ} (hn : n ≤ M) : bytes n (𝔞 q) = I.hash (pts I sk ct pt msg (shakeTable I N M) 𝔞 q) n := by
  unfold bytes
  exact ofBits_toBits (shake_len _ n) fun i hi => lib_bits hlen q hn hi

include hlen hM1 in
theorem lib_secrets : secrets 𝔞 = I.secrets sk ct pt msg := by
  unfold secrets
  rw [lib_bytes hlen .secrets hM1]
  unfold pts
  simp only [point]
  rfl

include hlen hM1 in
theorem lib_seed (t j : ℕ) : seed 𝔞 t j = I.seedOf (I.secrets sk ct pt msg) t j := by
  unfold seed
  rw [lib_secrets hlen hM1]

include hlen hM1 in
theorem lib_salt : salt 𝔞 = I.saltOf (I.secrets sk ct pt msg) := by
  unfold salt
  rw [lib_secrets hlen hM1]

include hlen hN hsd hM1 hM2 hM3 in
/-- The tapes. -/
theorem lib_tape (t : Fin I.T) (j : Fin 3) {i : ℕ} (hi : i < 8 * tapeLen I j) :
    bits (𝔞 (.tape t j)) i = toBits (I.tape (I.seedOf (I.secrets sk ct pt msg) t j) (I.saltOf (I.secrets sk ct pt msg)) t j (tapeLen I j)) i := by
  have ht : tapeLen I j ≤ M := by
    unfold tapeLen
    split_ifs <;> omega
  rw [lib_bits hlen _ ht hi]
  unfold pts
  simp only [point]
  rw [lib_salt hlen hM1, hash_table (by simp only [Use.text, List.length_append, List.length_singleton]; rw [seed_len _ t j.2]; omega) hM2,
    lib_seed hlen hM1]
  rfl

include hlen hN hsd hM2 in
theorem lib_com (t : Fin I.T) (j : Fin 3) (v : Picnic1.View) (hv : view I sk pt 𝔞 t j = v) : bytes I.digest (𝔞 (.com t j)) = I.commit v := by
  rw [lib_bytes hlen _ hM2]
  unfold pts
  simp only [point]
  rw [hash_table (by simp only [Use.text, List.length_append, List.length_singleton]; rw [seed_len _ t j.2]; omega) hM2, hv, ← hv]
  rfl

include hlen hN hsd hM2 hM4 in
theorem lib_g (hu : I.unruh = true) (t : Fin I.T) (j : Fin 3) (v : Picnic1.View) (hv : view I sk pt 𝔞 t j = v) : bytes (I.gLen j) (𝔞 (.g hu t j)) = I.G j v := by
  have hg : I.gLen j ≤ M := by
    have := hM4 hu
    unfold Inst.gLen
    split_ifs <;> omega
  rw [lib_bytes hlen _ hg]
  unfold pts
  simp only [point]
  rw [hash_table (by simp only [Use.text, List.length_append, List.length_singleton]; rw [seed_len _ t j.2]; omega) hM2, ← hv]
  unfold Inst.G Use.text
  congr 1
  fin_cases j <;> rfl

theorem trunc_trunc {n k : ℕ} (h : n ≤ k) (v : Bits) : Spec.trunc k (Spec.trunc n v) = Spec.trunc n v := by
  funext i
  unfold Spec.trunc
  split_ifs <;> first | rfl | omega

include hlen hN hsd hM1 hM2 hM3 in
/-- The views are those of the specification. -/
theorem lib_view (hS : Sizes I) {t : Fin I.T} {v : ℕ → Picnic1.View} (hv : I.Run sk pt (I.saltOf (I.secrets sk ct pt msg)) (I.secrets sk ct pt msg) t v) :
    ∀ j < 3, v j = view I sk pt 𝔞 t j := by
  have hn := hS.n
  have hg := hS.gate
  set s := I.secrets sk ct pt msg with hs
  have htape : ∀ (j : Fin 3) {i : ℕ}, i < 8 * tapeLen I j → bits (𝔞 (.tape t j)) i = toBits (I.tape (v j).seed (I.saltOf s) t j (tapeLen I j)) i := fun j i hi => by
    rw [lib_tape hlen hN hsd hM1 hM2 hM3 t j hi, hv.seed j j.2]
  have tl : ∀ j : ℕ, j ≠ 2 → tapeLen I j = I.blk + I.gate := fun j hj => if_neg hj
  have hshare : ∀ j : Fin 3, (j : ℕ) ≠ 2 → toBits (I.keyShare (v j).seed (I.saltOf s) t j) = Spec.trunc I.X.n (bits (𝔞 (.tape t j))) := fun j hj => by
    unfold Inst.keyShare
    rw [toBits_ofBits, trunc_trunc hn]
    funext i
    unfold Spec.trunc
    split_ifs with hi
    · have := htape j (i := i) (by rw [tl j hj]; omega)
      rw [this, tl j hj, toBits_eq, toBits_eq, bitsOf_take (by omega)]
    · rfl
  have hkey : ∀ j < 3, toBits (v j).key = keyBits I sk 𝔞 t j := by
    have k0 : toBits (v 0).key = keyBits I sk 𝔞 t 0 := by
      rw [hv.key0]
      exact hshare 0 (by decide)
    have k1 : toBits (v 1).key = keyBits I sk 𝔞 t 1 := by
      rw [hv.key1]
      exact hshare 1 (by decide)
    intro j hj
    rcases (show j = 0 ∨ j = 1 ∨ j = 2 by omega) with rfl | rfl | rfl
    · exact k0
    · exact k1
    · rw [hv.key2, toBits_ofBits, k0, k1]
      rfl
  have hgt : ∀ j < 3, ∀ p < 8 * I.gate, toBits (I.gateTape (v j).seed (I.saltOf s) t j) p = tapeBits I 𝔞 t j p := fun j hj p hp => by
    have e := htape (Fin.ofNat 3 j) (i := offset I j + p)
    rw [fin3 hj] at e
    unfold tapeBits Spec.trunc
    rw [if_pos hp]
    by_cases h2 : j = 2
    · subst h2
      have t2 : tapeLen I 2 = I.gate := rfl
      have o2 : offset I 2 = 0 := rfl
      rw [t2, o2] at e
      beta_reduce
      rw [o2, e (by omega), Nat.zero_add]
      rfl
    · have o2 : offset I j = 8 * I.blk := if_neg h2
      rw [tl j h2, o2] at e
      beta_reduce
      rw [o2, e (by omega)]
      unfold Inst.gateTape
      rw [if_neg h2, toBits_eq, toBits_eq, bitsOf_drop]
  have hgu := gates_unique (X := I.X) (pt := toBits pt) (key := keyBits I sk 𝔞 t) (tape := tapeBits I 𝔞 t) hS.m
    (v := fun j => I.bitView (I.saltOf s) t j (v j)) (fun j hj i _ => congrFun (hkey j hj) i) (fun j hj p hp => hgt j hj p (by omega)) hv.gates
  have hgates : ∀ j < 3, toBits (v j).gates = gateBits I sk pt 𝔞 t j := fun j hj => by
    funext p
    by_cases hp : p < 3 * I.X.m * I.X.r
    · exact hgu j hj p hp
    · unfold gateBits
      rw [gates_ge _ _ (by omega)]
      by_cases hp' : p < 8 * I.gate
      · have := hv.pad j hj p (by omega) hp'
        unfold toBits
        rw [this]
        rfl
      · exact toBits_ge (by rw [hv.len j hj]; omega)
  intro j hj
  have kl : (v j).key.length = I.blk := by
    rcases (show j = 0 ∨ j = 1 ∨ j = 2 by omega) with rfl | rfl | rfl
    · rw [hv.key0]; exact ofBits_len' _ _
    · rw [hv.key1]; exact ofBits_len' _ _
    · rw [hv.key2]; exact ofBits_len' _ _
  have e1 : (v j).seed = seed 𝔞 t j := by rw [hv.seed j hj, lib_seed hlen hM1]
  have e2 : (v j).key = Spec.Picnic1.ofBits I.blk (keyBits I sk 𝔞 t j) := (ofBits_toBits kl fun i _ => by rw [hkey j hj]).symm
  have e3 : (v j).gates = Spec.Picnic1.ofBits I.gate (gateBits I sk pt 𝔞 t j) := (ofBits_toBits (hv.len j hj) fun i _ => by rw [hgates j hj]).symm
  have e4 : (v j).out = Spec.Picnic1.ofBits I.blk (Zkb.output I.X (toBits pt) j ⟨keyBits I sk 𝔞 t j, gateBits I sk pt 𝔞 t j, tapeBits I 𝔞 t j⟩) := by
    rw [hv.out j hj]
    unfold Zkb.output Inst.bitView
    dsimp only
    rw [hkey j hj, hgates j hj]
  unfold view
  rw [← e1, ← e2, ← e3, ← e4]

include hlen hN hsd hM1 hM2 hM3 hM4 in
/-- With SHAKE in place of the oracle the signer makes the signature of the specification. -/
theorem lib_real (hS : Sizes I) {s : Bytes} (h : I.IsSignature sk ct pt msg s) :
    ∃ e, real I (shakeTable I N M) sk ct pt msg = some ⟨s, shakeTable I N M, I.secrets sk ct pt msg, e⟩ := by
  obtain ⟨v, e, h⟩ := h
  dsimp only at h
  obtain ⟨hrun, hch, hsig⟩ := h
  have hv : ∀ (t : Fin I.T) (j : ℕ), j < 3 → v t j = view I sk pt 𝔞 t j := fun t j hj => lib_view hlen hN hsd hM1 hM2 hM3 hS (hrun t t.2) j hj
  have hcom : ∀ (t : Fin I.T) (j : Fin 3), bytes I.digest (𝔞 (.com t j)) = I.commit (v t j) := fun t j => lib_com hlen hN hsd hM2 t j _ (hv t j j.2).symm
  have hg : ∀ hu (t : Fin I.T) (j : Fin 3), bytes (I.gLen j) (𝔞 (.g hu t j)) = I.G j (v t j) := fun hu t j =>
    lib_g hlen hN hsd hM2 hM4 hu t j _ (hv t j j.2).symm
  have hd : bytes I.digest (𝔞 .digest) = I.challengeDigest (fun t j => (v t j).out) (fun t j => I.commit (v t j)) (fun t j => I.G j (v t j)) ct pt
      (I.saltOf (I.secrets sk ct pt msg)) msg := by
    rw [(C59_zkb_uses I).2.2.2.1, lib_bytes hlen _ hM2]
    unfold pts
    simp only [point]
    rw [lib_salt hlen hM1]
    congr 3
    · funext t j
      rw [hv t j j.2]
    · funext t j
      exact hcom t j
    · by_cases hu : I.unruh = true
      · rw [dif_pos hu, if_pos hu]
        congr 1
        funext t j
        exact hg hu t j
      · rw [dif_neg hu, if_neg hu]
  have hnext : ∀ n, ∀ d : Bytes, d.length = I.digest → stream (fun d => Rom.hash (shakeTable I N M) (Use.text (T := I.T) I (.next d)) I.digest) d n =
      stream (fun d => I.hash ([1] ++ d) I.digest) d n := by
    intro n
    induction n with
    | zero => intro d _; simp only [stream]
    | succ n ih =>
      intro d hd
      simp only [stream]
      rw [hash_table (by simp only [Use.text, List.length_append, List.length_singleton]; omega) hM2]
      have e1 : Use.text (T := I.T) I (.next d) = [1] ++ d := rfl
      rw [e1, ih _ (shake_len _ _)]
  have hdl : (bytes I.digest (𝔞 .digest)).length = I.digest := bytes_len' _ _
  have hc : IsChallenge I.T (fun d => Rom.hash (shakeTable I N M) (Use.text (T := I.T) I (.next d)) I.digest) (bytes I.digest (𝔞 .digest)) e := by
    obtain ⟨n, h1, h2⟩ := hch
    refine ⟨n, ?_, ?_⟩
    · rw [hnext n _ hdl, hd]; exact h1
    · rw [hnext n _ hdl, hd]; exact h2
  have hce : challenge I (shakeTable I N M) (bytes I.digest (𝔞 .digest)) = some e := by
    have hex : ∃ e, IsChallenge I.T (fun d => Rom.hash (shakeTable I N M) (Use.text (T := I.T) I (.next d)) I.digest) (bytes I.digest (𝔞 .digest)) e := ⟨e, hc⟩
    unfold challenge
    rw [dif_pos hex, isChallenge_unique hex.choose_spec hc]
  refine ⟨e, ?_⟩
  unfold real
  dsimp only
  rw [hce, Option.map_some, lib_secrets hlen hM1, hsig]
  congr 2
  unfold signature Inst.encode
  rw [lib_salt hlen hM1]
  congr 1
  rw [List.flatMap_congr]
  intro t ht
  rw [List.mem_range] at ht
  beta_reduce
  rw [dif_pos ht]
  have h3 := challenge_lt hce t
  have v0 := hv ⟨t, ht⟩ (e.getD t 0) h3
  have v1 := hv ⟨t, ht⟩ ((e.getD t 0 + 1) % 3) (Nat.mod_lt _ (by omega))
  have v2 := hv ⟨t, ht⟩ 2 (by omega)
  have c2 := hcom ⟨t, ht⟩ (Fin.ofNat 3 (e.getD t 0 + 2))
  have f2 : ((Fin.ofNat 3 (e.getD t 0 + 2) : Fin 3) : ℕ) = (e.getD t 0 + 2) % 3 := rfl
  rw [f2] at c2
  unfold Inst.openViews
  dsimp only at v0 v1 v2 c2 ⊢
  rw [← v0, ← v1, ← v2, c2]
  congr 1
  by_cases hu : I.unruh = true
  · have g2 := hg hu ⟨t, ht⟩ (Fin.ofNat 3 (e.getD t 0 + 2))
    rw [f2] at g2
    rw [dif_pos hu, if_pos hu, g2]
  · rw [dif_neg hu, if_neg hu]

end

end Picnic.Rom
