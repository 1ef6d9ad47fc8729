import Verif.Spec.Picnic3Sec
import Verif.Proofs.Conf3Tree

/-
Soundness of Picnic3 at the level of the specification.
-/

namespace Spec.Picnic3

open Finset Spec.Tree Spec.Picnic1 Picnic

variable {I : Inst}

theorem hash_length (m : Bytes) (n : ℕ) : (I.hash m n).length = n := by simp [Inst.hash]

/-! ### the simulated computation -/

theorem layer_add (x y z w : Bits) (i : ℕ) : layer (x + y) (z + w) i = layer x z i + layer y w i := by
  unfold layer
  split_ifs <;> simp only [Pi.add_apply] <;> ring

theorem layer_congr {n : ℕ} (hn : n % 3 = 0) {x y z w : Bits} (h1 : ∀ i < n, x i = y i) (h2 : ∀ i < n, z i = w i) {i : ℕ} (hi : i < n) :
    layer x z i = layer y w i := by
  unfold layer
  split_ifs with a b
  · rw [h1 i hi, h2 (i - 1) (by omega)]
  · rw [h1 i hi, h1 (i + 1) (by omega), h2 (i + 1) (by omega)]
  · rw [h1 i hi, h1 (i + 1) (by omega), h1 (i + 2) (by omega), h2 i hi]

theorem in_lt {n i : ℕ} (hn : n % 3 = 0) (hi : i < n) : in1 i < n ∧ in2 i < n := by
  unfold in1 in2
  omega

/-- The public state is the state of LowMC plus the masks, if all parties follow the protocol. -/
theorem public_state (hn : I.X.n = 3 * I.X.m) {sh : ℕ → Bits} {κ : Bits} {w : ℕ → Bits} (hm : I.Masks sh κ w) {pt key : Bits} {msg : ℕ → Bits}
    (hs : ∀ j < 16, ∀ r < I.X.r, ∀ i < I.X.n, msg j (I.X.n * r + i) =
      I.public pt key msg r (in1 i) * sh j (2 * I.X.n * r + in2 i) + I.public pt key msg r (in2 i) * sh j (2 * I.X.n * r + in1 i) +
        sh j (2 * I.X.n * r + I.X.n + i)) :
    ∀ r ≤ I.X.r, ∀ i < I.X.n, I.public pt key msg r i = I.X.state (key + κ) pt r i + I.mask sh r i := by
  have hn3 : I.X.n % 3 = 0 := by omega
  intro r
  induction r with
  | zero =>
    intro _ i hi
    rw [Inst.public, LowMC.state, mulVec_add, ← hm.key i hi]
    simp only [Pi.add_apply]
    linear_combination - (zmod2_add_self (mulVec I.X.n (I.X.K 0) κ i))
  | succ r ih =>
    intro hr i hi
    have ih := ih (by omega)
    have hmask : ∀ q, I.mask sh r q = ∑ j ∈ range 16, sh j (2 * I.X.n * r + q) := fun q => by rw [Inst.mask, if_neg (by omega)]
    have hgate : ∀ q < I.X.n, I.public pt key msg r (in1 q) * I.public pt key msg r (in2 q) + ∑ j ∈ range 16, msg j (I.X.n * r + q) =
        ((fun q => I.X.state (key + κ) pt r (in1 q) * I.X.state (key + κ) pt r (in2 q)) + w r) q := by
      intro q hq
      have hq12 := in_lt hn3 hq
      have e : ∑ j ∈ range 16, msg j (I.X.n * r + q) = I.public pt key msg r (in1 q) * I.mask sh r (in2 q) +
          I.public pt key msg r (in2 q) * I.mask sh r (in1 q) + (I.mask sh r (in1 q) * I.mask sh r (in2 q) + w r q) := by
        rw [← hm.gate r (by omega) q hq, hmask, hmask, mul_sum, mul_sum, ← sum_add_distrib, ← sum_add_distrib]
        exact sum_congr rfl fun j hj => hs j (mem_range.1 hj) r (by omega) q hq
      rw [e, ih _ hq12.1, ih _ hq12.2]
      simp only [Pi.add_apply]
      generalize I.X.state (key + κ) pt r (in1 q) = a
      generalize I.X.state (key + κ) pt r (in2 q) = b
      generalize I.mask sh r (in1 q) = c
      generalize I.mask sh r (in2 q) = d
      generalize w r q = e
      revert a b c d e
      decide
    have hlay : ∀ q < I.X.n, layer (I.public pt key msg r) (fun q => I.public pt key msg r (in1 q) * I.public pt key msg r (in2 q) +
        ∑ j ∈ range 16, msg j (I.X.n * r + q)) q = (sboxLayer I.X.m (I.X.state (key + κ) pt r) + layer (I.mask sh r) (w r)) q := by
      intro q hq
      rw [layer_congr (y := I.X.state (key + κ) pt r + I.mask sh r) hn3 (fun i hi => ih i hi) hgate hq, layer_add, Pi.add_apply,
        layer_sbox I.X.m _ (by omega)]
    rw [Inst.public, LowMC.state]
    rw [mulVec_congr hlay, mulVec_add, mulVec_add, ← hm.round r (by omega) i hi]
    simp only [Pi.add_apply]
    linear_combination - (zmod2_add_self (mulVec I.X.n (I.X.K (r + 1)) κ i))

theorem public_congr {pt key : Bits} {msg msg' : ℕ → Bits} (h : ∀ j < 16, msg j = msg' j) (r : ℕ) :
    I.public pt key msg r = I.public pt key msg' r := by
  induction r with
  | zero => rfl
  | succ r ih =>
    rw [Inst.public, Inst.public]
    have e : ∀ q, ∑ j ∈ range 16, msg j (I.X.n * r + q) = ∑ j ∈ range 16, msg' j (I.X.n * r + q) := fun q =>
      sum_congr rfl fun j hj => by rw [h j (mem_range.1 hj)]
    rw [ih]
    simp only [e]

/-- If all parties follow the protocol after a correct preprocessing, then the result is that of LowMC. -/
theorem result_enc (hn : I.X.n = 3 * I.X.m) {sh : ℕ → Bits} {κ : Bits} {w : ℕ → Bits} (hm : I.Masks sh κ w) {pt : Bytes} {v : Round}
    (hs : ∀ j < 16, I.Sends pt sh v j) : ∀ i < I.X.n, toBits (I.result pt v) i = I.X.enc (toBits v.key + κ) (toBits pt) i := by
  intro i hi
  have h := public_state hn hm (pt := toBits pt) (key := toBits v.key) (msg := fun j => toBits (v.msgs j)) (fun j hj r hr i hi => (hs j hj).2.2 r hr i hi)
    I.X.r le_rfl i hi
  rw [Inst.mask, if_pos rfl, add_zero] at h
  rw [LowMC.enc, ← h, Inst.result, ofBits_eq, toBits_eq, bitsOf_ofBits]
  unfold Inst.blk bytesFor
  omega

/-! ### binding -/

theorem blocks_inj {d : ℕ} {f g : ℕ → Bytes} : ∀ {n : ℕ}, (∀ j < n, (f j).length = d) → (∀ j < n, (g j).length = d) →
    (List.range n).flatMap f = (List.range n).flatMap g → ∀ j < n, f j = g j := by
  intro n
  induction n with
  | zero => intro _ _ _ j hj; omega
  | succ n ih =>
    intro hf hg e j hj
    rw [List.range_succ, List.flatMap_append, List.flatMap_append] at e
    simp only [List.flatMap_cons, List.flatMap_nil, List.append_nil] at e
    obtain ⟨e1, e2⟩ := List.append_inj' e (by rw [hf n (by omega), hg n (by omega)])
    by_cases h : j = n
    · rw [h]; exact e2
    · exact ih (fun j hj => hf j (by omega)) (fun j hj => hg j (by omega)) e1 j (by omega)

theorem child_length {salt : Bytes} {rep : ℕ} {s : ℕ → Bytes} {x : ℕ} (h : I.Child salt rep s x) : (s x).length = I.seed := by
  have hx : x % 2 = 0 ∨ x % 2 = 1 := by omega
  rw [h, List.length_take, List.length_drop, hash_length]
  rcases hx with e | e <;> rw [e] <;> omega

theorem single_lt' {k : ℕ} (hk : k < 16) : ∀ h ∈ [k], h < 16 := fun h hh => by rw [List.mem_singleton.1 hh]; exact hk

theorem node16' {j : ℕ} (hj : j < 16) : Node 4 16 (16 + j) := up_self ⟨by omega, by omega⟩

theorem partial_seed {salt : Bytes} {t k : ℕ} {v : Round} (hk : k < 16) (h : I.PartialTree salt t 4 16 [k] v.node) {j : ℕ} (hj : j < 16) (hjk : j ≠ k) :
    (v.seed j).length = I.seed := by
  obtain ⟨i, hi⟩ := revealed_cover (D := 4) (n := 16) (by decide) (by decide) (by decide) (single_lt' hk) (by simp) hj (by simpa using hjk)
  by_cases h0 : i = 0
  · refine h.1 _ ?_
    rw [h0] at hi
    simpa using hi
  · exact child_length (s := v.node) (x := 16 + j) (h.2 _ (node16' hj) ⟨i, by omega, hi⟩)

theorem tree_seed {salt root : Bytes} {t : ℕ} {v : Round} (h : I.SeedTree salt t 4 16 root v.node) {j : ℕ} (hj : j < 16) :
    (v.seed j).length = I.seed := child_length (s := v.node) (x := 16 + j) (h.2 _ (by omega) (node16' hj))

section
variable {ct pt salt : Bytes} {τ τ' a b c : Transcript} {t : ℕ}

/-- What the checks say about a repetition, opened or not. -/
theorem Inst.Accepts.round (h : I.Accepts ct pt salt τ) (ht : t < I.T) :
    (∀ j < 16, τ.Opens t j → ((τ.v t).seed j).length = I.seed ∧ (j = 15 → (τ.v t).aux.length = I.gate) ∧ (τ.v t).com j = I.commit salt t (τ.v t) j) ∧
    ∀ j < 16, ((τ.v t).com j).length = I.digest := by
  obtain ⟨⟨-, h2, h3, -⟩, h0⟩ := h
  by_cases hC : t ∈ τ.C
  · obtain ⟨o1, o2, o3, -⟩ := h3 t hC
    refine ⟨fun j hj hjo => ⟨partial_seed (h0 t hC).2 o1 hj (hjo hC), fun e => (o2.aux fun e2 => hjo hC (e.trans e2.symm)).1, (o3 j hj (hjo hC)).2⟩, fun j hj => ?_⟩
    by_cases e : j = hid τ.C τ.Q t
    · rw [e]; exact o2.com
    · rw [(o3 j hj e).2]; exact hash_length _ _
  · obtain ⟨o1, ⟨κ, o2⟩, o3⟩ := h2 t ht hC
    exact ⟨fun j hj _ => ⟨tree_seed o1 hj, fun _ => o2.1, o3 j hj⟩, fun j hj => by rw [o3 j hj]; exact hash_length _ _⟩

/-- Equal digests of commitments: parties that are opened in both transcripts have the same seed and correction bits. -/
theorem same_party (h : I.Accepts ct pt salt τ) (h' : I.Accepts ct pt salt τ') (ht : t < I.T) (hd : I.comDigest (τ.v t) = I.comDigest (τ'.v t))
    (n1 : ¬ I.Collide (comString (τ.v t)) (comString (τ'.v t)))
    (n2 : ∀ j < 16, τ.Opens t j → τ'.Opens t j → ¬ I.Collide (commitString salt t (τ.v t) j) (commitString salt t (τ'.v t) j)) {j : ℕ} (hj : j < 16)
    (hjo : τ.Opens t j) (hjo' : τ'.Opens t j) : (τ.v t).seed j = (τ'.v t).seed j ∧ (j = 15 → (τ.v t).aux = (τ'.v t).aux) := by
  obtain ⟨r1, r2⟩ := h.round ht
  obtain ⟨r1', r2'⟩ := h'.round ht
  have e1 : comString (τ.v t) = comString (τ'.v t) := by
    by_contra hne
    exact n1 ⟨hne, hd⟩
  have e2 := blocks_inj r2 r2' e1 j hj
  obtain ⟨s1, s2, s3⟩ := r1 j hj hjo
  obtain ⟨s1', s2', s3'⟩ := r1' j hj hjo'
  rw [s3, s3'] at e2
  have e3 : commitString salt t (τ.v t) j = commitString salt t (τ'.v t) j := by
    by_contra hne
    exact n2 j hj hjo hjo' ⟨hne, e2⟩
  unfold commitString at e3
  have e4 := List.append_cancel_right (List.append_cancel_right (List.append_cancel_right e3))
  obtain ⟨e5, e6⟩ := List.append_inj e4 (by rw [s1, s1'])
  refine ⟨e5, fun e => ?_⟩
  rw [if_pos e, if_pos e] at e6
  exact e6

theorem share_same {v v' : Round} {j : ℕ} (h : v.seed j = v'.seed j ∧ (j = 15 → v.aux = v'.aux)) : I.share salt t v j = I.share salt t v' j := by
  funext p
  unfold Inst.share Inst.tape
  split_ifs with hc
  · rw [h.2 hc.1]
  · rw [h.1]

/-- The nodes on the path of an opened repetition. -/
theorem Inst.Accepts.path (hτ : I.Accepts ct pt salt τ) (hC : t ∈ τ.C) {k : ℕ} (hk : k ≤ I.depth) : (τ.h ((2 ^ I.depth + t) / 2 ^ k)).length = I.digest ∧
    (1 ≤ k → I.MerkleNode salt τ.h ((2 ^ I.depth + t) / 2 ^ k)) := by
  have ht := (hτ.2 t hC).1
  have hT : I.T ≤ 2 ^ I.depth := Nat.le_pow_clog (by decide) _
  obtain ⟨⟨-, -, -, hM, -⟩, -⟩ := hτ
  have hp : 2 ^ I.depth = 2 ^ k * 2 ^ (I.depth - k) := by rw [← pow_add]; congr 1; omega
  have hk0 : 0 < 2 ^ k := by positivity
  have h1 : 1 ≤ (2 ^ I.depth + t) / 2 ^ k := by
    rw [Nat.one_le_div_iff hk0]
    have := Nat.pow_le_pow_right (show 0 < 2 by decide) hk
    omega
  have hnode : 1 ≤ k → I.MerkleNode salt τ.h ((2 ^ I.depth + t) / 2 ^ k) := fun hk1 => by
    refine hM.inner _ ?_ ⟨t, ht, hC, k, rfl⟩ h1
    rw [Nat.div_lt_iff_lt_mul hk0]
    have := Nat.pow_le_pow_right (show 0 < 2 by decide) hk1
    nlinarith [Nat.one_le_two_pow (n := I.depth)]
  refine ⟨?_, hnode⟩
  by_cases hk1 : 1 ≤ k
  · rw [hnode hk1]; exact hash_length _ _
  · obtain rfl : k = 0 := by omega
    rw [pow_zero, Nat.div_one, hM.leaf t ht hC]; exact hash_length _ _

/-- Equal roots: all digests on the path of an opened repetition are equal. -/
theorem same_path (h : I.Accepts ct pt salt a) (h' : I.Accepts ct pt salt b) (ha : t ∈ a.C) (hb : t ∈ b.C) (hr : a.h 1 = b.h 1)
    (hn : ∀ k, 1 ≤ k → k ≤ I.depth → ¬ I.Collide (I.nodeString salt a.h ((2 ^ I.depth + t) / 2 ^ k)) (I.nodeString salt b.h ((2 ^ I.depth + t) / 2 ^ k))) :
    ∀ d ≤ I.depth, a.h ((2 ^ I.depth + t) / 2 ^ (I.depth - d)) = b.h ((2 ^ I.depth + t) / 2 ^ (I.depth - d)) := by
  have ht := (h.2 t ha).1
  have hT : I.T ≤ 2 ^ I.depth := Nat.le_pow_clog (by decide) _
  have hpath : ∀ (τ : Transcript), I.Accepts ct pt salt τ → t ∈ τ.C → ∀ k ≤ I.depth, (τ.h ((2 ^ I.depth + t) / 2 ^ k)).length = I.digest ∧
      (1 ≤ k → I.MerkleNode salt τ.h ((2 ^ I.depth + t) / 2 ^ k)) := fun τ hτ hC k hk => hτ.path hC hk
  intro d
  induction d with
  | zero =>
    intro _
    have e : (2 ^ I.depth + t) / 2 ^ (I.depth - 0) = 1 := by
      rw [Nat.sub_zero, Nat.add_div_left _ (by positivity), Nat.div_eq_of_lt (by omega)]
    rw [e, hr]
  | succ d ih =>
    intro hd
    have ih := ih (by omega)
    obtain ⟨k, hk⟩ : ∃ k, k = I.depth - (d + 1) := ⟨_, rfl⟩
    rw [show I.depth - d = k + 1 by omega] at ih
    rw [← hk]
    obtain ⟨-, na⟩ := hpath a h ha (k + 1) (by omega)
    obtain ⟨-, nb⟩ := hpath b h' hb (k + 1) (by omega)
    obtain ⟨la, -⟩ := hpath a h ha k (by omega)
    obtain ⟨lb, -⟩ := hpath b h' hb k (by omega)
    have e1 : I.nodeString salt a.h ((2 ^ I.depth + t) / 2 ^ (k + 1)) = I.nodeString salt b.h ((2 ^ I.depth + t) / 2 ^ (k + 1)) := by
      by_contra hne
      refine hn (k + 1) (by omega) (by omega) ⟨hne, ?_⟩
      have := na (by omega)
      have := nb (by omega)
      unfold Inst.MerkleNode at *
      unfold Inst.nodeString
      rw [← na (by omega), ← nb (by omega), ih]
    unfold Inst.nodeString at e1
    have e2 := List.append_cancel_right (List.append_cancel_right e1)
    have hx : (2 ^ I.depth + t) / 2 ^ (k + 1) = (2 ^ I.depth + t) / 2 ^ k / 2 := by rw [pow_succ, Nat.div_div_eq_div_mul]
    have hy : (2 ^ I.depth + t) / 2 ^ k ≤ 2 ^ I.depth + t := Nat.div_le_self _ _
    rw [hx] at e2
    generalize (2 ^ I.depth + t) / 2 ^ k = y at *
    by_cases hpar : y % 2 = 0
    · rw [show 2 * (y / 2) = y by omega, List.append_assoc, List.append_assoc] at e2
      exact (List.append_inj (List.append_cancel_left e2) (by rw [la, lb])).1
    · have e3 : 2 * (y / 2) + 1 = y := by omega
      rw [e3, if_pos (by omega), if_pos (by omega)] at e2
      exact (List.append_inj' e2 (by rw [la, lb])).2

/-- Equal roots: the digests of the messages are equal. -/
theorem same_leaf (h : I.Accepts ct pt salt a) (h' : I.Accepts ct pt salt b) (ha : t ∈ a.C) (hb : t ∈ b.C) (hr : a.h 1 = b.h 1)
    (hn : ∀ k, 1 ≤ k → k ≤ I.depth → ¬ I.Collide (I.nodeString salt a.h ((2 ^ I.depth + t) / 2 ^ k)) (I.nodeString salt b.h ((2 ^ I.depth + t) / 2 ^ k))) :
    I.msgDigest (a.v t) = I.msgDigest (b.v t) := by
  have ht := (h.2 t ha).1
  have hall := same_path h h' ha hb hr hn
  have := hall I.depth le_rfl
  rw [Nat.sub_self, pow_zero, Nat.div_one] at this
  obtain ⟨⟨-, -, -, hM, -⟩, -⟩ := h
  obtain ⟨⟨-, -, -, hM', -⟩, -⟩ := h'
  rwa [hM.leaf t ht ha, hM'.leaf t ht hb] at this

/-- The masked key and all messages of two openings with the same digest are equal. -/
theorem same_msgs (h : I.Accepts ct pt salt a) (h' : I.Accepts ct pt salt b) (ha : t ∈ a.C) (hb : t ∈ b.C)
    (he : msgString (a.v t) = msgString (b.v t)) : (a.v t).key = (b.v t).key ∧ ∀ j < 16, (a.v t).msgs j = (b.v t).msgs j := by
  have hlen : ∀ (τ : Transcript), I.Accepts ct pt salt τ → t ∈ τ.C → (τ.v t).key.length = I.blk ∧ ∀ j < 16, ((τ.v t).msgs j).length = I.gate := by
    intro τ hτ hC
    obtain ⟨-, o2, o3, -⟩ := hτ.1.2.2.1 t hC
    refine ⟨o2.key, fun j hj => ?_⟩
    by_cases e : j = hid τ.C τ.Q t
    · rw [e]; exact o2.msgs.1
    · exact (o3 j hj e).1.1
  obtain ⟨e1, e2⟩ := List.append_inj he (by rw [(hlen a h ha).1, (hlen b h' hb).1])
  exact ⟨e1, blocks_inj (hlen a h ha).2 (hlen b h' hb).2 e2⟩

theorem sends_congr {v v' : Round} {sh sh' : ℕ → Bits} {j : ℕ} (hk : v.key = v'.key) (hm : ∀ j < 16, v.msgs j = v'.msgs j) (hj : j < 16) (hs : sh j = sh' j)
    (h : I.Sends pt sh v j) : I.Sends pt sh' v' j := by
  obtain ⟨h1, h2, h3⟩ := h
  refine ⟨by rwa [← hm j hj], by rwa [← hm j hj], fun r hr i hi => ?_⟩
  have := h3 r hr i hi
  dsimp only at this ⊢
  rw [public_congr (msg' := fun j => toBits (v'.msgs j)) (fun j hj => by rw [hm j hj])] at this
  rw [← hm j hj, ← hk, ← hs]
  exact this

/-! ### honest provers -/

theorem mem_of_firsts {l : List ℕ} {x : ℕ} (h : x ∈ Challenge.firsts l) : x ∈ l := by
  have key : ∀ (l acc : List ℕ), x ∈ l.foldl (fun acc x => if x ∈ acc then acc else acc ++ [x]) acc → x ∈ l ∨ x ∈ acc := by
    intro l
    induction l with
    | nil => intro acc h; exact Or.inr h
    | cons y l ih =>
      intro acc h
      rw [List.foldl_cons] at h
      rcases ih _ h with h | h
      · exact Or.inl (List.mem_cons_of_mem _ h)
      · split_ifs at h
        · exact Or.inr h
        · rcases List.mem_append.1 h with h | h
          · exact Or.inr h
          · rw [List.mem_singleton.1 h]; exact Or.inl (List.mem_cons_self ..)
  rcases key l [] h with h | h
  · exact h
  · exact absurd h (by simp)

theorem honest_partial {D n rep : ℕ} {root : Bytes} {s : ℕ → Bytes} {l : List ℕ} (hD : 1 ≤ D) (hn1 : 1 ≤ n) (hn : n ≤ 2 ^ D) (hl : ∀ h ∈ l, h < n)
    (h : I.SeedTree salt rep D n root s) : I.PartialTree salt rep D n l s := by
  refine ⟨fun x hx => ?_, fun x hx ⟨k, hk, hkr⟩ => ?_⟩
  · have := revealed_facts hD hn1 hn hl hx
    exact child_length (h.2 x this.1 this.2.1)
  · have := (revealed_facts hD hn1 hn hl hkr).1
    exact h.2 x (this.trans (Nat.div_le_self _ _)) hx

/-- A prover that follows the protocol passes the checks for every challenge. -/
theorem honest_checks {root : Bytes} {s h : ℕ → Bytes} {v : ℕ → Round} {κ : ℕ → Bits} {C Q : List ℕ} (hT : 2 ≤ I.T) (hS : I.SeedTree salt 0 I.depth I.T root s)
    (hv : ∀ t < I.T, I.SeedTree salt t 4 16 (s (2 ^ I.depth + t)) (v t).node ∧ I.Prepared salt t (v t) (κ t) ∧
      (v t).key.length = I.blk ∧ I.result pt (v t) = ct ∧
      ∀ j < 16, I.Sends pt (I.share salt t (v t)) (v t) j ∧ (v t).com j = I.commit salt t (v t) j)
    (hM : I.Merkle salt v (fun _ => True) h) (hC : ∀ t ∈ C, t < I.T ∧ hid C Q t < 16) : I.Accepts ct pt salt ⟨s, h, v, C, Q⟩ := by
  have hTd : I.T ≤ 2 ^ I.depth := Nat.le_pow_clog (by decide) _
  have hD : 1 ≤ I.depth := Nat.clog_pos (by decide) hT
  refine ⟨⟨honest_partial hD (by omega) hTd (fun t ht => (hC t ht).1) hS, fun t ht _ => ?_, fun t ht => ?_, ⟨fun t ht _ => hM.leaf t ht trivial, ?_, hM.absent⟩, ?_⟩, hC⟩
  · obtain ⟨v1, v2, v3, v4, v5⟩ := hv t ht
    exact ⟨v1, ⟨_, v2⟩, fun j hj => (v5 j hj).2⟩
  · obtain ⟨v1, v2, v3, v4, v5⟩ := hv t (hC t ht).1
    have hk := (hC t ht).2
    refine ⟨honest_partial (by decide) (by decide) (by decide) (single_lt' hk) v1, ⟨fun _ => ⟨v2.1, v2.2.1⟩, v3, ⟨(v5 _ hk).1.1, (v5 _ hk).1.2.1⟩, ?_⟩,
      fun j hj _ => v5 j hj, v4⟩
    rw [(v5 _ hk).2]; exact hash_length _ _
  · rintro x hx ⟨t, ht, -, k, hk⟩ h1
    exact hM.inner x hx ⟨t, ht, trivial, k, hk⟩ h1
  · intro x hx
    have hx := mem_of_firsts hx
    obtain ⟨t, ht, hxt⟩ := List.mem_map.1 hx
    obtain ⟨k, hkD, rfl⟩ : ∃ k ≤ I.depth, x = (2 ^ I.depth + t) / 2 ^ k := by
      classical exact ⟨_, Nat.findGreatest_le _, hxt.symm⟩
    have ht : t < I.T := by
      have := List.mem_filter.1 ht
      exact List.mem_range.1 this.1
    change (h ((2 ^ I.depth + t) / 2 ^ k)).length = I.digest
    have hk0 : 0 < 2 ^ k := by positivity
    by_cases hk1 : 1 ≤ k
    · rw [hM.inner _ ?_ ⟨t, ht, trivial, k, rfl⟩ ?_]
      · exact hash_length _ _
      · rw [Nat.div_lt_iff_lt_mul hk0]
        have := Nat.pow_le_pow_right (show 0 < 2 by decide) hk1
        nlinarith [Nat.one_le_two_pow (n := I.depth)]
      · rw [Nat.one_le_div_iff hk0]
        have := Nat.pow_le_pow_right (show 0 < 2 by decide) hkD
        omega
    · obtain rfl : k = 0 := by omega
      rw [pow_zero, Nat.div_one, hM.leaf t ht trivial]; exact hash_length _ _

end

end Spec.Picnic3
