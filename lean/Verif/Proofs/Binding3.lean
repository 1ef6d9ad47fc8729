import Verif.Spec.Binding
import Verif.Proofs.Extract3
import Verif.Proofs.P3Challenge

/-
A Picnic3 signature is determined by its challenge digest, up to collisions.
-/

namespace Spec.Challenge

theorem stream3_prefix (b N : ℕ) (next : List (BitVec 8) → List (BitVec 8)) : ∀ (n k : ℕ) (d : List (BitVec 8)),
    ∃ l, stream3 b N next d (n + k) = stream3 b N next d n ++ l := by
  intro n
  induction n with
  | zero => intro k d; exact ⟨_, rfl⟩
  | succ n ih =>
    intro k d
    obtain ⟨l, e⟩ := ih k (next d)
    exact ⟨l, by rw [show n + 1 + k = (n + k) + 1 by omega, stream3, stream3, e, List.append_assoc]⟩

theorem stream3_take {b N u : ℕ} {next : List (BitVec 8) → List (BitVec 8)} {d : List (BitVec 8)} {m m' : ℕ} (h : u ≤ (stream3 b N next d m).length)
    (h' : u ≤ (stream3 b N next d m').length) : (stream3 b N next d m).take u = (stream3 b N next d m').take u := by
  rcases Nat.le_total m m' with hm | hm
  · obtain ⟨k, rfl⟩ := Nat.exists_eq_add_of_le hm
    obtain ⟨l, e⟩ := stream3_prefix b N next m k d
    rw [e, List.take_append_of_le_length h]
  · obtain ⟨k, rfl⟩ := Nat.exists_eq_add_of_le hm
    obtain ⟨l, e⟩ := stream3_prefix b N next m' k d
    rw [e, List.take_append_of_le_length h']

/-- The challenge is a function of the digest. -/
theorem isChallenge3_unique {T N u : ℕ} {next : List (BitVec 8) → List (BitVec 8)} {d : List (BitVec 8)} {C Q C' Q' : List ℕ}
    (h : IsChallenge3 T N u next d C Q) (h' : IsChallenge3 T N u next d C' Q') : C = C' ∧ Q = Q' := by
  obtain ⟨bC, bP, k, m, h1, h2, h3, h4, h5, h6, h7⟩ := h
  obtain ⟨bC', bP', k', m', h1', h2', h3', h4', h5', h6', h7'⟩ := h'
  obtain rfl : bC = bC' := le_antisymm ((h1 _).2 ((h1' _).1 le_rfl)) ((h1' _).2 ((h1 _).1 le_rfl))
  obtain rfl : bP = bP' := le_antisymm ((h2 _).2 ((h2' _).1 le_rfl)) ((h2' _).2 ((h2 _).1 le_rfl))
  obtain rfl : k = k' := by
    rcases Nat.lt_trichotomy k k' with h | h | h
    · exact absurd (h4' k h) (by omega)
    · exact h
    · exact absurd (h4 k' h) (by omega)
  exact ⟨h5.trans h5'.symm, h7.trans ((stream3_take h6 h6').trans h7'.symm)⟩

theorem isChallenge3_range {T N u : ℕ} {next : List (BitVec 8) → List (BitVec 8)} {d : List (BitVec 8)} {C Q : List ℕ}
    (h : IsChallenge3 T N u next d C Q) : C.length = u ∧ (∀ t ∈ C, t < T) ∧ ∀ k ∈ Q, k < N := by
  obtain ⟨bC, bP, k, m, h1, h2, h3, h4, rfl, h6, rfl⟩ := h
  refine ⟨by rw [List.length_take]; omega, fun t ht => Picnic.stream3_lt (Spec.Picnic3.mem_of_firsts (List.mem_of_mem_take ht)),
    fun t ht => Picnic.stream3_lt (List.mem_of_mem_take ht)⟩

end Spec.Challenge

namespace Spec.Picnic3

open Spec.Challenge Spec.Tree Spec.Picnic1 Picnic

variable {I : Inst} {ct pt msg sig salt ct' pt' msg' sig' salt' : Bytes} {a b : Transcript}

theorem Inst.TranscriptOf.accepts (h : I.TranscriptOf ct pt msg sig salt a) : I.Accepts ct pt salt a := by
  obtain ⟨-, h2, h3, -⟩ := h
  obtain ⟨-, hC, hQ⟩ := isChallenge3_range h3
  refine ⟨h2, fun t ht => ⟨hC t ht, ?_⟩⟩
  unfold hid
  by_cases hl : a.C.idxOf t < a.Q.length
  · rw [List.getD_eq_getElem _ _ hl]
    exact hQ _ (List.getElem_mem hl)
  · rw [List.getD_eq_default _ _ (by omega)]
    decide

/-! ### seed trees -/

/-- Two trees with the same leaves below the nodes in `E`: all seeds in `E` are the same, up to collisions. -/
theorem tree_up {D n rep : ℕ} {E : ℕ → Prop} {s s' : ℕ → Bytes} (hn : n ≤ 2 ^ D)
    (hE : ∀ x, E x → Node D n x) (hdown : ∀ x y, E x → y / 2 = x → Node D n y → E y ∧ I.Child salt rep s y ∧ I.Child salt rep s' y)
    (hleaf : ∀ y, Leaf D n y → E y → s y = s' y) (hcol : ∀ x, E x → x < 2 ^ D → ¬ I.SeedCollide D n salt salt rep s s' x) :
    ∀ x, E x → s x = s' x := by
  have key : ∀ m x, 2 ^ (D + 1) - x ≤ m → E x → s x = s' x := by
    intro m
    induction m with
    | zero =>
      intro x hx hEx
      have := up_lt (leaf_atDepth hn) (hE x hEx)
      omega
    | succ m ih =>
      intro x hx hEx
      have hN := hE x hEx
      have hp := up_pos (leaf_atDepth hn) hN
      have hlt := up_lt (leaf_atDepth hn) hN
      by_cases hxD : x < 2 ^ D
      · obtain ⟨e1, c1, c1'⟩ := hdown x (2 * x) hEx (by omega) (node_child hn hN hxD)
        have ih1 := ih (2 * x) (by omega) e1
        by_contra hne
        refine hcol x hEx hxD ⟨fun e => hne ?_, ?_⟩
        · have := List.append_cancel_right (List.append_cancel_right (List.append_cancel_right e))
          exact List.append_cancel_left this
        · have q : ∀ (s : ℕ → Bytes), I.Child salt rep s (2 * x) → s (2 * x) = (I.hash (seedString salt rep s x) (2 * I.seed)).take I.seed := fun s h => by
            rw [h, show 2 * x / 2 = x by omega, show 2 * x % 2 = 0 by omega, Nat.zero_mul, List.drop_zero]
            rfl
          rw [q s c1, q s' c1'] at ih1
          unfold Inst.seedBytes
          split_ifs with h2
          · obtain ⟨e2, c2, c2'⟩ := hdown x (2 * x + 1) hEx (by omega) h2
            have ih2 := ih (2 * x + 1) (by omega) e2
            have q2 : ∀ (s : ℕ → Bytes), I.Child salt rep s (2 * x + 1) → s (2 * x + 1) = ((I.hash (seedString salt rep s x) (2 * I.seed)).drop I.seed).take I.seed :=
              fun s h => by
                rw [h, show (2 * x + 1) / 2 = x by omega, show (2 * x + 1) % 2 = 1 by omega, Nat.one_mul]
                rfl
            rw [q2 s c2, q2 s' c2'] at ih2
            rw [two_mul, List.take_add, List.take_add]
            rw [two_mul] at ih1 ih2
            rw [ih1, ih2]
          · exact ih1
      · exact hleaf x ((up_leaf (leaf_atDepth hn) (by omega)).1 hN) hEx
  exact fun x => key _ x le_rfl

theorem mem16 {x : ℕ} (h1 : 1 ≤ x) (h2 : x < 32) : Node 4 16 x := by
  have : ∃ k ≤ 4, 16 ≤ x * 2 ^ k ∧ x * 2 ^ k < 32 := by
    rcases (by omega : x = 1 ∨ (2 ≤ x ∧ x < 4) ∨ (4 ≤ x ∧ x < 8) ∨ (8 ≤ x ∧ x < 16) ∨ 16 ≤ x) with h | h | h | h | h
    · exact ⟨4, by omega, by omega, by omega⟩
    · exact ⟨3, by omega, by omega, by omega⟩
    · exact ⟨2, by omega, by omega, by omega⟩
    · exact ⟨1, by omega, by omega, by omega⟩
    · exact ⟨0, by omega, by omega, by omega⟩
  obtain ⟨k, hk, e1, e2⟩ := this
  exact ⟨x * 2 ^ k, k, ⟨e1, by omega⟩, hk, Nat.mul_div_cancel _ (by positivity)⟩

/-- A whole tree with 16 leaves. -/
theorem closed_tree {rep : ℕ} {root root' : Bytes} {s s' : ℕ → Bytes} (h : I.SeedTree salt rep 4 16 root s) (h' : I.SeedTree salt rep 4 16 root' s')
    (hl : ∀ j < 16, s (16 + j) = s' (16 + j)) (hc : ∀ x, 1 ≤ x → x < 16 → ¬ I.SeedCollide 4 16 salt salt rep s s' x) : root = root' := by
  rw [← h.1, ← h'.1]
  refine tree_up (E := fun x => 1 ≤ x ∧ x < 32) (D := 4) (n := 16) (by decide) (fun x hx => mem16 hx.1 hx.2) (fun x y hx hy hN => ?_) (fun y hy _ => ?_)
    (fun x hx hx2 => hc x hx.1 hx2) 1 ⟨le_rfl, by decide⟩
  · have := node_lt hN
    exact ⟨⟨by omega, by omega⟩, h.2 y (by omega) hN, h'.2 y (by omega) hN⟩
  · have h1 := hy.1
    have h2 := hy.2
    have := hl (y - 16) (by omega)
    rwa [show 16 + (y - 16) = y by omega] at this

/-- The revealed part of a tree. -/
theorem partial_tree {D n rep : ℕ} {l : List ℕ} {s s' : ℕ → Bytes} (hD : 1 ≤ D) (hn1 : 1 ≤ n) (hn : n ≤ 2 ^ D) (hl : ∀ h ∈ l, h < n)
    (h : I.PartialTree salt rep D n l s) (h' : I.PartialTree salt rep D n l s') (hle : ∀ j < n, j ∉ l → s (2 ^ D + j) = s' (2 ^ D + j))
    (hc : ∀ x, Expanded D n l x → ¬ I.SeedCollide D n salt salt rep s s' x) : ∀ x ∈ revealed D n l, s x = s' x := by
  have hnot : ∀ x, (∃ k, x / 2 ^ k ∈ revealed D n l) → ¬ Up D (Picked D l) x := by
    rintro x ⟨k, hk⟩ hu
    obtain ⟨h2, -, -, hr⟩ := revealed_facts hD hn1 hn hl hk
    exact (rev_node hn1 hn (picked_atDepth hn hl) hr).2.2 (up_of_desc (picked_atDepth hn hl) hu (by omega))
  intro x hx
  refine tree_up (E := fun x => Node D n x ∧ ∃ k, x / 2 ^ k ∈ revealed D n l) (D := D) (n := n) hn (fun x hx => hx.1) (fun x y hx hy hN => ?_) (fun y hy hE => ?_)
    (fun x hx hxD => hc x ⟨hxD, hx⟩) x ⟨(revealed_facts hD hn1 hn hl hx).2.1, 0, by simpa using hx⟩
  · obtain ⟨-, k, hk⟩ := hx
    have hk' : y / 2 ^ (k + 1) ∈ revealed D n l := by
      rwa [pow_succ', ← Nat.div_div_eq_div_mul, hy]
    exact ⟨⟨hN, k + 1, hk'⟩, h.2 y hN ⟨k + 1, by omega, hk'⟩, h'.2 y hN ⟨k + 1, by omega, hk'⟩⟩
  · have h1 := hy.1
    have h2 := hy.2
    have e : 2 ^ D + (y - 2 ^ D) = y := by omega
    have := hle (y - 2 ^ D) (by omega) fun hm => hnot y hE.2 (up_self ⟨_, hm, e.symm⟩)
    rwa [e] at this

/-! ### Merkle tree -/

/-- The opened nodes of the Merkle tree hang on paths of opened repetitions. -/
theorem opened_parent {D n : ℕ} {C : List ℕ} (hn : n ≤ 2 ^ D) (hne : C ≠ []) (hC : ∀ t ∈ C, t < n) {x : ℕ} (hx : x ∈ opened D n (closed n C)) :
    2 ≤ x ∧ x < 2 ^ D + n ∧ ∃ t ∈ C, ∃ k, 1 ≤ k ∧ k ≤ D ∧ (2 ^ D + t) / 2 ^ k = x / 2 := by
  classical
  obtain ⟨h, hh, rfl⟩ := List.mem_map.1 (mem_of_firsts hx)
  have hhn : h < n := by simpa using (List.mem_filter.1 hh).1
  have hPr : AtDepth D (Present D n (closed n C)) := fun y hy => leaf_atDepth hn y hy.1
  have hroot : Up D (Present D n (closed n C)) 1 := by
    obtain ⟨t, l, rfl⟩ := List.exists_cons_of_ne_nil hne
    have ht := hC t (by simp)
    refine (up_root hPr).2 ⟨2 ^ D + t, ⟨by omega, by omega⟩, fun ⟨q, hq, e⟩ => ?_⟩
    obtain rfl : t = q := by omega
    simp [closed] at hq
  have hself : ¬ Up D (Present D n (closed n C)) ((2 ^ D + h) / 2 ^ 0) := by
    rw [pow_zero, Nat.div_one, up_leaf hPr (by omega)]
    exact fun hp => hp.2 ⟨h, hh, rfl⟩
  have hD1 : (2 ^ D + h) / 2 ^ D = 1 := by rw [Nat.add_div_left _ (by positivity), Nat.div_eq_of_lt (by omega)]
  set K := Nat.findGreatest (fun k => ¬ Up D (Present D n (closed n C)) ((2 ^ D + h) / 2 ^ k)) D with hK
  have hKs : ¬ Up D (Present D n (closed n C)) ((2 ^ D + h) / 2 ^ K) :=
    Nat.findGreatest_spec (P := fun k => ¬ Up D (Present D n (closed n C)) ((2 ^ D + h) / 2 ^ k)) (Nat.zero_le D) hself
  have hKD : K ≤ D := Nat.findGreatest_le _
  have hKlt : K < D := by
    refine lt_of_le_of_ne hKD fun e => hKs ?_
    rw [e, hD1]
    exact hroot
  have hK1 : Up D (Present D n (closed n C)) ((2 ^ D + h) / 2 ^ (K + 1)) := by
    by_contra hno
    exact Nat.findGreatest_is_greatest (P := fun k => ¬ Up D (Present D n (closed n C)) ((2 ^ D + h) / 2 ^ k)) (Nat.lt_succ_self K) (by omega) hno
  have hdiv : (2 ^ D + h) / 2 ^ (K + 1) = (2 ^ D + h) / 2 ^ K / 2 := by rw [pow_succ, Nat.div_div_eq_div_mul]
  rw [hdiv] at hK1
  have hpos := up_pos hPr hK1
  have hle : (2 ^ D + h) / 2 ^ K ≤ 2 ^ D + h := Nat.div_le_self _ _
  refine ⟨by omega, by omega, ?_⟩
  obtain ⟨y, k, ⟨hy, hyp⟩, hk, e⟩ := hK1
  obtain ⟨hy1, hy2⟩ := hy
  refine ⟨y - 2 ^ D, ?_, k, ?_, hk, by rw [← e, show 2 ^ D + (y - 2 ^ D) = y by omega]⟩
  · by_contra hno
    exact hyp ⟨y - 2 ^ D, by simp only [closed, List.mem_filter, List.mem_range, decide_eq_true_eq]; exact ⟨by omega, hno⟩, by omega⟩
  · by_contra hk0
    obtain rfl : k = 0 := by omega
    rw [pow_zero, Nat.div_one] at e
    omega

/-! ### signatures -/

theorem encode_digest {d : Bytes} {C Q : List ℕ} {s h : ℕ → Bytes} {v : ℕ → Round} (hd : d.length = I.digest) :
    (I.encode d salt C Q s h v).take I.digest = d := by
  unfold Inst.encode
  rw [List.append_assoc, List.append_assoc, List.append_assoc, List.take_append_of_le_length hd.ge, ← hd, List.take_length]

theorem challengeDigest_eq : I.challengeDigest a.v a.h ct pt salt msg = I.hash (I.challengeString ct pt msg salt a) I.digest := rfl

/-- Two transcripts of signatures with the same challenge digest. -/
theorem clash_or_same (hT : 2 ≤ I.T) (hu : 1 ≤ I.u) (hct : ct.length = ct'.length) (hpt : pt.length = pt'.length)
    (h : I.TranscriptOf ct pt msg sig salt a) (h' : I.TranscriptOf ct' pt' msg' sig' salt' b) (hd : sig.take I.digest = sig'.take I.digest) :
    I.Clash ct pt msg salt a ct' pt' msg' salt' b ∨ (sig = sig' ∧ ct = ct' ∧ pt = pt' ∧ msg = msg') := by
  by_cases hcl : I.Clash ct pt msg salt a ct' pt' msg' salt' b
  · exact Or.inl hcl
  refine Or.inr ?_
  have hA := h.accepts
  have hB := h'.accepts
  obtain ⟨hs, -, hch, rfl⟩ := h
  obtain ⟨hs', -, hch', rfl⟩ := h'
  rw [challengeDigest_eq, challengeDigest_eq, encode_digest (hash_length _ _), encode_digest (hash_length _ _)] at hd
  rw [challengeDigest_eq] at hch hch'
  -- the challenge
  rw [← hd] at hch'
  obtain ⟨hC, hQ⟩ := isChallenge3_unique hch hch'
  obtain ⟨hCl, -, -⟩ := isChallenge3_range hch
  have hCne : a.C ≠ [] := fun e => by rw [e] at hCl; simp at hCl; omega
  have hTd : I.T ≤ 2 ^ I.depth := Nat.le_pow_clog (by decide) _
  have hD : 1 ≤ I.depth := Nat.clog_pos (by decide) hT
  have hroot : ∀ (τ : Transcript) (ct pt salt : Bytes), I.Accepts ct pt salt τ → τ.C ≠ [] → (τ.h 1).length = I.digest := by
    intro τ ct pt salt hτ hne
    obtain ⟨t, l, e⟩ := List.exists_cons_of_ne_nil hne
    have := (hτ.path (t := t) (by rw [e]; simp) le_rfl).1
    rwa [Nat.add_div_left _ (by positivity), Nat.div_eq_of_lt (by have := (hτ.2 t (by rw [e]; simp)).1; omega)] at this
  have hstr : I.challengeString ct pt msg salt a = I.challengeString ct' pt' msg' salt' b := by
    by_contra hne
    exact hcl (.challenge ⟨hne, hd⟩)
  rw [Inst.challengeString, Inst.challengeString] at hstr
  have hlen : ((List.range I.T).flatMap fun t => I.comDigest (a.v t)).length = ((List.range I.T).flatMap fun t => I.comDigest (b.v t)).length := by
    simp only [List.length_flatMap, Inst.comDigest, hash_length]
  have hr1 := hroot a _ _ _ hA hCne
  have hr2 := hroot b _ _ _ hB (by rw [← hC]; exact hCne)
  obtain ⟨e1, hmsg⟩ := List.append_inj hstr (by simp only [List.length_append]; omega)
  obtain ⟨e2, hptE⟩ := List.append_inj e1 (by simp only [List.length_append]; omega)
  obtain ⟨e3, hctE⟩ := List.append_inj e2 (by simp only [List.length_append]; omega)
  obtain ⟨e4, hsalt⟩ := List.append_inj e3 (by simp only [List.length_append]; omega)
  obtain ⟨e5, hrt⟩ := List.append_inj e4 hlen
  subst hmsg hptE hctE hsalt
  refine ⟨?_, rfl, rfl, rfl⟩
  have hcomD := blocks_inj (d := I.digest) (fun t _ => hash_length _ _) (fun t _ => hash_length _ _) e5
  -- the parties
  have hparty : ∀ t < I.T, ∀ j < 16, a.Opens t j → ((a.v t).seed j = (b.v t).seed j ∧ (j = 15 → (a.v t).aux = (b.v t).aux)) := fun t ht j hj ho =>
    same_party hA hB ht (hcomD t ht) (fun e => hcl (.com t ht e)) (fun j hj o o' e => hcl (.commit t j ht hj o o' e)) hj ho
      (by unfold Transcript.Opens at ho ⊢; rwa [← hC, ← hQ])
  have hcom : ∀ t < I.T, ∀ j < 16, (a.v t).com j = (b.v t).com j := fun t ht => by
    refine blocks_inj (hA.round ht).2 (hB.round ht).2 ?_
    by_contra hne
    exact hcl (.com t ht ⟨hne, hcomD t ht⟩)
  -- seeds
  have hleaves : ∀ t < I.T, t ∉ a.C → a.s (2 ^ I.depth + t) = b.s (2 ^ I.depth + t) := fun t ht hto =>
    closed_tree (hA.1.2.1 t ht hto).1 (hB.1.2.1 t ht (by rwa [← hC])).1 (fun j hj => (hparty t ht j hj fun h => absurd h hto).1)
      fun x hx hx2 e => hcl (.closedSeed t x ht hto (by rwa [← hC]) hx hx2 e)
  have hseeds : ∀ x ∈ revealed I.depth I.T a.C, a.s x = b.s x := by
    refine partial_tree hD (by omega) hTd (fun t ht => (hA.2 t ht).1) hA.1.1 ?_ hleaves fun x hx e => hcl (.rootSeed x hx (by rwa [← hC]) e)
    rw [hC]
    exact hB.1.1
  -- paths
  have hpath : ∀ t ∈ a.C, ∀ k ≤ I.depth, a.h ((2 ^ I.depth + t) / 2 ^ k) = b.h ((2 ^ I.depth + t) / 2 ^ k) := fun t ht k hk => by
    have := same_path hA hB ht (by rwa [← hC]) hrt (fun k h1 h2 e => hcl (.node t k ht (by rwa [← hC]) h1 h2 e)) (I.depth - k) (by omega)
    rwa [show I.depth - (I.depth - k) = k by omega] at this
  have hopened : ∀ x ∈ opened I.depth I.T (closed I.T a.C), a.h x = b.h x := by
    intro x hx
    obtain ⟨h2, hxl, t, ht, k, hk1, hk, e⟩ := opened_parent hTd hCne (fun t ht => (hA.2 t ht).1) hx
    have la := hA.1.2.2.2.2 x hx
    have lb := hB.1.2.2.2.2 x (by rwa [← hC])
    have na := (hA.path ht hk).2 hk1
    have nb := (hB.path (t := t) (by rwa [← hC]) hk).2 hk1
    have hp := hpath t ht k hk
    have e1 : I.nodeString salt a.h ((2 ^ I.depth + t) / 2 ^ k) = I.nodeString salt b.h ((2 ^ I.depth + t) / 2 ^ k) := by
      by_contra hne
      refine hcl (.node t k ht (by rwa [← hC]) hk1 hk ⟨hne, ?_⟩)
      unfold Inst.MerkleNode at na nb
      unfold Inst.nodeString
      rw [← na, ← nb, hp]
    rw [e] at e1
    unfold Inst.nodeString at e1
    have e2 := List.append_cancel_right (List.append_cancel_right e1)
    by_cases hpar : x % 2 = 0
    · rw [show 2 * (x / 2) = x by omega, List.append_assoc, List.append_assoc] at e2
      exact (List.append_inj (List.append_cancel_left e2) (by rw [la, lb])).1
    · rw [show 2 * (x / 2) + 1 = x by omega, if_pos hxl, if_pos hxl] at e2
      exact (List.append_inj' e2 (by rw [la, lb])).2
  -- opened repetitions
  have hround : ∀ t ∈ a.C, (a.v t).encode (hid a.C a.Q t) = (b.v t).encode (hid a.C a.Q t) := by
    intro t ht
    have htb : t ∈ b.C := by rwa [← hC]
    have htT := (hA.2 t ht).1
    have hk := (hA.2 t ht).2
    have hp : ∀ j < 16, j ≠ hid a.C a.Q t → _ := fun j hj hne => hparty t htT j hj fun _ => hne
    have hm : msgString (a.v t) = msgString (b.v t) := by
      by_contra hne
      exact hcl (.msg t ht htb ⟨hne, same_leaf hA hB ht htb hrt fun k h1 h2 e => hcl (.node t k ht htb h1 h2 e)⟩)
    obtain ⟨hkey, hmsgs⟩ := same_msgs hA hB ht htb hm
    have hnodes : ∀ x ∈ revealed 4 16 [hid a.C a.Q t], (a.v t).node x = (b.v t).node x := by
      refine partial_tree (by decide) (by decide) (by decide) (single_lt' hk) (hA.1.2.2.1 t ht).1 ?_ (fun j hj hjn => ?_)
        fun x hx e => hcl (.openSeed t x ht htb hx (by rwa [← hC, ← hQ]) e)
      · rw [hC, hQ]
        exact (hB.1.2.2.1 t htb).1
      · exact (hp j hj (by simpa using hjn)).1
    unfold Round.encode
    have haux : (if hid a.C a.Q t = 15 then [] else (a.v t).aux) = if hid a.C a.Q t = 15 then [] else (b.v t).aux := by
      split_ifs with h15
      · rfl
      · exact (hp 15 (by decide) (Ne.symm h15)).2 rfl
    rw [haux, hkey, hmsgs _ hk, hcom t htT _ hk]
    congr 4
    exact List.flatMap_congr hnodes
  -- the encoding
  have hdig : I.challengeDigest a.v a.h ct pt salt msg = I.challengeDigest b.v b.h ct pt salt msg := hd
  rw [hdig]
  unfold Inst.encode
  rw [← hC, ← hQ, List.flatMap_congr hseeds, List.flatMap_congr hopened]
  congr 1
  refine List.flatMap_congr fun t _ => ?_
  split_ifs with ht
  · exact hround t ht
  · rfl

end Spec.Picnic3
