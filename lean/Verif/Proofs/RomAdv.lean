import Verif.Proofs.RomMain

/-
C62: adversaries that ask a bounded number of questions.
-/

namespace Picnic.Rom

open Spec Spec.Zkb Spec.Rom Spec.Picnic1 Spec.Challenge

variable {N M : ℕ} {I : Inst} {sk ct pt msg : Bytes} {α : Type}

/-! ### Procedures -/

theorem run_congr {O O' : Oracle N M} (A : Adv N M α) (h : ∀ x ∈ A.asked O, O x = O' x) : A.run O = A.run O' ∧ A.asked O = A.asked O' := by
  induction A with
  | done r => exact ⟨rfl, rfl⟩
  | ask x next ih =>
    have hx : O x = O' x := h x (by simp only [Adv.asked, List.mem_cons, true_or])
    have := ih (O x) fun y hy => h y (by simp only [Adv.asked, List.mem_cons, hy, or_true])
    simp only [Adv.run, Adv.asked]
    rw [← hx]
    exact ⟨this.1, by rw [this.2]⟩

variable (I N M α) in
/-- A function of the oracle that depends only on the answers to some questions and on the strings of the chain of digests, which are not counted. -/
structure Local where
  run : Oracle N M → α
  asked : Oracle N M → List (Arg N)
  congr : ∀ O O', (∀ x ∈ asked O, O x = O' x) → (∀ d : Bytes, d.length = I.digest → ask O (Use.text (T := I.T) I (.next d)) = ask O' (Use.text (T := I.T) I (.next d))) →
    run O = run O' ∧ asked O = asked O'

/-- Procedures are such functions. -/
def Local.ofAdv (A : Adv N M α) : Local N M I α := ⟨fun O => A.run O, fun O => A.asked O, fun _ _ h _ => run_congr A h⟩

variable (sk ct pt msg) in
/-- The procedure asks for a secret string. -/
def Hit (A : Bytes → Local N M I α) (x : Play N M) : Prop :=
  ∃ y ∈ (A x.sig).asked x.oracle, y.1 ∈ Secret I x.oracle sk ct pt msg x.secrets x.e

theorem secretString_len_ge (h : sk.length = I.blk) : I.blk + msg.length + 2 ≤ (I.secretString sk ct pt msg).length := by
  unfold Inst.secretString
  simp only [List.length_append, int16_len]
  omega

theorem next_secret {p : ℕ} (hI : I.Is p) (hsk : sk.length = I.blk) (hct : ct.length = I.blk) (hpt : pt.length = I.blk) (O : Oracle N M) (s : Bytes) (e : List ℕ)
    {d : Bytes} (hd : d.length = I.digest) : Use.text (T := I.T) I (.next d) ∉ Secret I O sk ct pt msg s e := by
  have hs := rom_sizes hI
  rintro (h | ⟨t, ht, h | ⟨key, gates, out, h⟩ | ⟨-, key, gates, h⟩⟩)
  · have := congrArg List.length h
    rw [secretString_len hsk hct hpt] at this
    simp only [Use.text, List.length_append, List.length_singleton] at this
    omega
  · have := congrArg List.length h
    simp only [Use.text, List.length_append, List.length_singleton, int16_len, hash_len] at this
    omega
  · simp only [Use.text, List.singleton_append, List.cons_append, List.append_assoc, List.cons.injEq] at h
    exact absurd h.1 (by decide)
  · have := congrArg List.length h
    simp only [Use.text, List.length_append, List.length_singleton, int16_len, hash_len] at this
    omega

/-- What is seen by an observer decides whether a procedure asks for a secret string, and what it gets otherwise. -/
theorem hit_observe {p : ℕ} (hI : I.Is p) (hsk : sk.length = I.blk) (hct : ct.length = I.blk) (hpt : pt.length = I.blk) (b : Prop) (A : Bytes → Local N M I Prop)
    (y : Option (Play N M)) :
    y.map (observe I sk ct pt msg) ∈ {o | (o = none ∧ b) ∨ ∃ x, o = some x ∧ ∀ z : Play N M, observe I sk ct pt msg z = x → ¬ Hit sk ct pt msg A z → (A z.sig).run z.oracle} ↔
      y.elim b fun x => (A x.sig).run x.oracle ∨ Hit sk ct pt msg A x := by
  rw [Set.mem_ofPred_eq]
  cases y with
  | none => simp
  | some x =>
    simp only [Option.map_some, reduceCtorEq, false_and, false_or, Option.some.injEq, exists_eq_left', Option.elim_some]
    constructor
    · intro h
      by_cases hx : Hit sk ct pt msg A x
      · exact Or.inr hx
      · exact Or.inl (h x rfl hx)
    · intro h z hz hn
      have hsig : z.sig = x.sig := (Prod.ext_iff.1 hz).1
      have hval : ∀ m : Arg N, m.1 ∉ Secret I z.oracle sk ct pt msg z.secrets z.e → z.oracle m = x.oracle m ∧ m.1 ∉ Secret I x.oracle sk ct pt msg x.secrets x.e := fun m hm => by
        have := congrFun (Prod.ext_iff.1 hz).2 m
        simp only [observe] at this
        rw [if_neg hm] at this
        by_cases hx : m.1 ∈ Secret I x.oracle sk ct pt msg x.secrets x.e
        · rw [if_pos hx] at this
          simp at this
        · rw [if_neg hx, Option.some.injEq] at this
          exact ⟨this, hx⟩
      have hno : ∀ m ∈ (A z.sig).asked z.oracle, m.1 ∉ Secret I z.oracle sk ct pt msg z.secrets z.e := fun m hm hs => hn ⟨m, hm, hs⟩
      obtain ⟨e1, e2⟩ := (A z.sig).congr z.oracle x.oracle (fun m hm => (hval m (hno m hm)).1) fun d hd => by
        unfold ask
        split_ifs with hl
        · exact (hval ⟨_, hl⟩ (next_secret hI hsk hct hpt _ _ _ hd)).1
        · rfl
      rcases h with h | ⟨m, hm, hs⟩
      · rw [e1, hsig]
        exact h
      · rw [← hsig, ← e2] at hm
        exact absurd hs (hval m (hno m hm)).2

/-! ### Events -/

/-- Events for the seeds and the salt, at a place that depends on other things. -/
theorem prob_secrets' {n : ℕ} (o : Oracle N M → Answers I M → ℕ) (hn : ∀ O a, o O a + n ≤ 8 * M)
    (ho : ∀ (O : Oracle N M) (a a' : Answers I M), (∀ q, q ≠ .secrets → a q = a' q) → o O a = o O a') {E : Oracle N M × Answers I M → Prop}
    (h : ∀ (O : Oracle N M) (a a' : Answers I M), E (O, a) → E (O, a') → (∀ q, q ≠ .secrets → a q = a' q) →
      (∀ i, i < o O a ∨ o O a + n ≤ i → bits (a .secrets) i = bits (a' .secrets) i) →
      ∀ i, o O a ≤ i → i < o O a + n → bits (a .secrets) i = bits (a' .secrets) i) : prob E ≤ 1 / 2 ^ n := by
  rw [← card_keys]
  refine prob_le_of_inj (K := Fin n → ZMod 2) (fun ω k => (ω.1, Function.update ω.2 .secrets (bump (o ω.1 ω.2) n k (ω.2 .secrets)))) ?_
  rintro ⟨O, a⟩ ⟨O', a'⟩ k k' hE hE' he
  rw [Prod.mk.injEq] at he
  obtain ⟨e1, e2⟩ := he
  dsimp only at e1 e2
  subst e1
  have hq : ∀ q, q ≠ .secrets → a q = a' q := fun q hq => by
    have := congrFun e2 q
    rwa [Function.update_of_ne hq, Function.update_of_ne hq] at this
  rw [← ho O a a' hq] at e2
  have e3 : bump (o O a) n k (a .secrets) = bump (o O a) n k' (a' .secrets) := by
    have := congrFun e2 .secrets
    simpa using this
  obtain ⟨e4, e5⟩ := bump_inj (hn O a) e3 (h O a a' hE hE' hq fun i hi => bump_off e3 hi)
  refine ⟨Prod.ext rfl (funext fun q => ?_), e5⟩
  by_cases hqs : q = .secrets
  · rw [hqs]; exact e4
  · exact hq q hqs

/-- Events for a hash value at a string that may depend on the oracle elsewhere. -/
theorem prob_hash' {n : ℕ} (hM : n ≤ M) (m : Oracle N M → Answers I M → Bytes) (hm : ∀ O a, (m O a).length ≤ N)
    (hmm : ∀ (O : Oracle N M) a v, m (Function.update O ⟨m O a, hm O a⟩ v) a = m O a) (y : Oracle N M → Answers I M → Bytes)
    {E : Oracle N M × Answers I M → Prop} (hE : ∀ ω, E ω → Rom.hash ω.1 (m ω.1 ω.2) n = y ω.1 ω.2)
    (hy : ∀ (O O' : Oracle N M) (a : Answers I M), E (O, a) → (∀ x : Arg N, x.1 ≠ m O a → O x = O' x) → m O a = m O' a → y O a = y O' a) :
    prob E ≤ 1 / 2 ^ (8 * n) := by
  rw [← card_keys]
  refine prob_le_of_inj (K := Fin (8 * n) → ZMod 2) (fun ω k => (Function.update ω.1 ⟨m ω.1 ω.2, hm ω.1 ω.2⟩ (bump 0 (8 * n) k (ω.1 ⟨m ω.1 ω.2, hm ω.1 ω.2⟩)), ω.2)) ?_
  rintro ⟨O, a⟩ ⟨O', a'⟩ k k' h h' he
  rw [Prod.mk.injEq] at he
  obtain ⟨e1, e2⟩ := he
  dsimp only at e1 e2
  subst e2
  have hmeq : m O a = m O' a := by
    have : m _ a = m _ a := congrArg (fun X => m X a) e1
    rwa [hmm, hmm] at this
  have hsub : (⟨m O' a, hm O' a⟩ : Arg N) = ⟨m O a, hm O a⟩ := Subtype.ext hmeq.symm
  rw [hsub] at e1
  have e3 : bump 0 (8 * n) k (O ⟨m O a, hm O a⟩) = bump 0 (8 * n) k' (O' ⟨m O a, hm O a⟩) := by
    have := congrFun e1 ⟨m O a, hm O a⟩
    simpa using this
  have hoff : ∀ x : Arg N, x.1 ≠ m O a → O x = O' x := fun x hx => by
    have := congrFun e1 x
    have hx' : x ≠ ⟨m O a, hm O a⟩ := fun e => hx (by rw [e])
    rwa [Function.update_of_ne hx', Function.update_of_ne hx'] at this
  have hys : y O a = y O' a := hy O O' a h hoff hmeq
  have hh := (hE _ h).trans (hys.trans (hE _ h').symm)
  dsimp only at hh
  rw [← hmeq] at hh
  obtain ⟨e4, e5⟩ := bump_inj (by omega) e3 fun i _ hi => by
    have := congrFun (congrArg toBits hh) i
    unfold Rom.hash bytes at this
    rw [toBits_ofBits, toBits_ofBits, Spec.trunc, Spec.trunc, if_pos (by omega), if_pos (by omega)] at this
    unfold ask at this
    rwa [dif_pos (hm O a), dif_pos (hm O a)] at this
  refine ⟨Prod.ext (funext fun x => ?_) rfl, e5⟩
  by_cases hx : x.1 = m O a
  · have : x = ⟨m O a, hm O a⟩ := Subtype.ext hx
    rw [this]
    exact e4
  · exact hoff x hx

/-! ### The simulator -/

theorem challenge_next {O O' : Oracle N M} (h : ∀ d : Bytes, d.length = I.digest → ask O (Use.text (T := I.T) I (.next d)) = ask O' (Use.text (T := I.T) I (.next d)))
    {d : Bytes} (hd : d.length = I.digest) : challenge I O d = challenge I O' d := by
  have hs : ∀ n, ∀ d : Bytes, d.length = I.digest → stream (fun d => Rom.hash O (Use.text (T := I.T) I (.next d)) I.digest) d n =
      stream (fun d => Rom.hash O' (Use.text (T := I.T) I (.next d)) I.digest) d n := by
    intro n
    induction n with
    | zero => intro d _; simp only [stream]
    | succ n ih =>
      intro d hd
      simp only [stream]
      have : Rom.hash O (Use.text (T := I.T) I (.next d)) I.digest = Rom.hash O' (Use.text (T := I.T) I (.next d)) I.digest := by
        unfold Rom.hash
        rw [h d hd]
      rw [this, ih _ (hash_len _ _ _)]
  unfold challenge
  refine pick_congr ?_
  funext e
  unfold IsChallenge
  simp only [hs _ d hd]

variable (I ct pt msg) in
/-- The strings into which the simulator writes. -/
def spts (O : Oracle N M) (a : Answers I M) (e : List ℕ) (q : Query I.T I.unruh) : Bytes :=
  point I (Rom.hash O · I.digest) [] ct pt msg a (simView I ct pt a e) q

variable (I) in
/-- The oracle of the simulator. -/
noncomputable def swrite (O : Oracle N M) (a : Answers I M) (e : List ℕ) (p : Query I.T I.unruh → Bytes) : Oracle N M :=
  open Classical in fun x => if h : ∃ q, Shown e q ∧ p q = x then a h.choose else O x

theorem sim_eq (O : Oracle N M) (a : Answers I M) : sim I O a ct pt msg = (challenge I O (bytes I.digest (a .digest))).map fun e =>
    (⟨signature I a (simView I ct pt a e) e, swrite I O a e (spts I ct pt msg O a e), secrets a, e⟩ : Play N M) := rfl

theorem swrite_congr {O O' : Oracle N M} {a a' : Answers I M} {e : List ℕ} {p p' : Query I.T I.unruh → Bytes} (hp : ∀ q, Shown e q → p q = p' q)
    (ha : ∀ q, Shown e q → a q = a' q) {x : Arg N} (hx : O x = O' x) : swrite I O a e p x = swrite I O' a' e p' x := by
  have hpred : (fun q => Shown e q ∧ p q = x.1) = fun q => Shown e q ∧ p' q = x.1 := by
    funext q
    exact propext (and_congr_right fun hq => by rw [hp q hq])
  unfold swrite
  have key : ∀ (P P' : Query I.T I.unruh → Prop) (i : Decidable (∃ q, P q)) (i' : Decidable (∃ q, P' q)), P = P' → (∀ q, P q → a q = a' q) →
      (if h : ∃ q, P q then a h.choose else O x) = if h : ∃ q, P' q then a' h.choose else O' x := by
    rintro P _ i i' rfl h
    by_cases hh : ∃ q, P q
    · rw [dif_pos hh, dif_pos hh]
      exact h _ hh.choose_spec
    · rw [dif_neg hh, dif_neg hh]
      exact hx
  exact key _ _ _ _ hpred fun q hq => ha q hq.1

/-- The seed plays no role in a view but as seed. -/
theorem view_rest {a a' : Answers I M} (h : ∀ q, q ≠ .secrets → a q = a' q) (t : Fin I.T) (j : ℕ) :
    (view I sk pt a t j).key = (view I sk pt a' t j).key ∧ (view I sk pt a t j).gates = (view I sk pt a' t j).gates ∧
    (view I sk pt a t j).out = (view I sk pt a' t j).out := by
  have h1 : keyBits I sk a t = keyBits I sk a' t := key_congr fun j => h _ (by simp)
  have h2 : tapeBits I a t = tapeBits I a' t := tape_congr fun j => h _ (by simp)
  unfold view gateBits
  dsimp only
  rw [h1, h2]
  exact ⟨rfl, rfl, rfl⟩

theorem simView_rest {a a' : Answers I M} (h : ∀ q, q ≠ .secrets → a q = a' q) (e : List ℕ) (t : Fin I.T) (j : ℕ) :
    (simView I ct pt a e t j).key = (simView I ct pt a' e t j).key ∧ (simView I ct pt a e t j).gates = (simView I ct pt a' e t j).gates ∧
    (simView I ct pt a e t j).out = (simView I ct pt a' e t j).out := by
  have hv := view_rest (sk := []) (pt := pt) h t
  unfold simView
  dsimp only
  rw [(hv _).2.2, (hv ((e.getD t 0 + 1) % 3)).2.2]
  split_ifs
  · exact ⟨(hv j).1, (hv j).2.1, rfl⟩
  · exact hv j

theorem simView_seed (a : Answers I M) (e : List ℕ) (t : Fin I.T) (j : ℕ) : (simView I ct pt a e t j).seed = seed a t j := by
  unfold simView
  dsimp only
  split_ifs <;> rfl

/-- The simulator does not use the seeds of unopened parties. -/
theorem sim_seed (O : Oracle N M) {a a' : Answers I M} {e : List ℕ} (he : ∀ t, e.getD t 0 < 3) (h : ∀ q, q ≠ .secrets → a q = a' q)
    (hsalt : salt a = salt a') (hseed : ∀ (t : Fin I.T) (j : ℕ), j < 3 → j ≠ (e.getD t 0 + 2) % 3 → seed a t j = seed a' t j) :
    signature I a (simView I ct pt a e) e = signature I a' (simView I ct pt a' e) e ∧
    swrite I O a e (spts I ct pt msg O a e) = swrite I O a' e (spts I ct pt msg O a' e) := by
  have hv := fun t j => simView_rest (ct := ct) (pt := pt) h e t j
  constructor
  · unfold signature
    rw [hsalt]
    refine congrArg (I.encode e (salt a')) (funext fun t => ?_)
    by_cases ht : t < I.T
    · rw [dif_pos ht, dif_pos ht]
      have h3 := he t
      dsimp only
      rw [simView_seed, simView_seed, simView_seed, simView_seed, hseed ⟨t, ht⟩ _ h3 (by dsimp only; omega),
        hseed ⟨t, ht⟩ ((e.getD t 0 + 1) % 3) (Nat.mod_lt _ (by omega)) (by dsimp only; omega), (hv _ _).2.1, (hv _ 2).1, h (.com _ _) (by simp)]
      by_cases hu : I.unruh = true
      · rw [dif_pos hu, dif_pos hu, h (.g _ _ _) (by simp)]
      · rw [dif_neg hu, dif_neg hu]
    · rw [dif_neg ht, dif_neg ht]
  · funext x
    refine swrite_congr (fun q hq => ?_) (fun q hq => h q ?_) rfl
    · unfold spts
      cases q with
      | secrets => exact hq.elim
      | tape t j => simp only [point]; rw [hseed t j j.2 hq, hsalt]
      | com t j => simp only [point]; rw [hseed t j j.2 hq, (hv t j).1, (hv t j).2.1, (hv t j).2.2]
      | g hu t j => simp only [point]; rw [hseed t j j.2 hq, (hv t j).1, (hv t j).2.1]
      | digest =>
        simp only [point]
        rw [hsalt]
        have e1 : (fun (t : Fin I.T) (j : Fin 3) => (simView I ct pt a e t j).out) = fun (t : Fin I.T) (j : Fin 3) => (simView I ct pt a' e t j).out := by
          funext t j
          exact (hv t j).2.2
        have e2 : ∀ (t : Fin I.T) (j : Fin 3), a (.com t j) = a' (.com t j) := fun t j => h _ (by simp)
        have e3 : ∀ hu (t : Fin I.T) (j : Fin 3), a (.g hu t j) = a' (.g hu t j) := fun hu t j => h _ (by simp)
        rw [e1]
        simp only [e2, e3]
    · rintro rfl
      exact hq.elim

/-- The three strings that are made of a seed. -/
def seedText (I : Inst) (k : Fin 3) (s : Bytes) : Bytes :=
  if k = 0 then Use.text (T := I.T) I (.tapeSeed s) else if k = 1 then Use.text (T := I.T) I (.comSeed s) else Use.text (T := I.T) I (.gSeed s)

theorem seedText_eq (k : Fin 3) (s : Bytes) : seedText I k s = [if k = 0 then 2 else if k = 1 then 4 else 5] ++ s := by
  unfold seedText
  split_ifs <;> simp only [Use.text]

theorem text_tapeSeed (s : Bytes) : Use.text (T := I.T) I (.tapeSeed s) = seedText I 0 s := rfl
theorem text_comSeed (s : Bytes) : Use.text (T := I.T) I (.comSeed s) = seedText I 1 s := rfl
theorem text_gSeed (s : Bytes) : Use.text (T := I.T) I (.gSeed s) = seedText I 2 s := rfl

theorem seedText_inj {k k' : Fin 3} {s s' : Bytes} (h : seedText I k s = seedText I k' s') : s = s' := by
  rw [seedText_eq, seedText_eq, List.singleton_append, List.singleton_append] at h
  exact (List.cons.inj h).2

theorem seedText_len (k : Fin 3) (s : Bytes) : (seedText I k s).length = s.length + 1 := by
  rw [seedText_eq]
  simp [Nat.add_comm]

theorem seedText_plain (k : Fin 3) {s : Bytes} (h : s.length = I.seed) : seedText I k s ∈ Plain I := by
  unfold seedText
  split_ifs
  · exact plain_tape h
  · exact plain_com h
  · exact plain_g h

theorem seedText_next (k : Fin 3) (s d : Bytes) : seedText I k s ≠ Use.text (T := I.T) I (.next d) := by
  rw [seedText_eq]
  simp only [Use.text, List.singleton_append]
  intro h
  have := (List.cons.inj h).1
  split_ifs at this <;> simp at this

/-- The hash values of the seed of an unopened party play no role for the simulator. -/
theorem sim_hash {O O' : Oracle N M} (a : Answers I M) (e : List ℕ) {k : Fin 3} {s : Bytes}
    (hO : ∀ m, m ≠ seedText I k s → ask O m = ask O' m) (hs : ∀ (t : Fin I.T) (j : Fin 3), (j : ℕ) ≠ (e.getD t 0 + 2) % 3 → seed a t j ≠ s)
    {x : Arg N} (hx : x.1 ≠ seedText I k s) :
    swrite I O a e (spts I ct pt msg O a e) x = swrite I O' a e (spts I ct pt msg O' a e) x := by
  have hh : ∀ m n, m ≠ seedText I k s → Rom.hash O m n = Rom.hash O' m n := fun m n hm => by
    unfold Rom.hash
    rw [hO m hm]
  have ht : ∀ (s' : Bytes) k', s' ≠ s → seedText I k' s' ≠ seedText I k s := fun s' k' h he => h (seedText_inj he)
  refine swrite_congr (fun q hq => ?_) (fun _ _ => rfl) ?_
  · unfold spts
    cases q with
    | secrets => exact hq.elim
    | tape t j => simp only [point]; rw [text_tapeSeed, hh _ _ (ht _ 0 (hs t j hq))]
    | com t j => simp only [point]; rw [text_comSeed, hh _ _ (ht _ 1 (hs t j hq))]
    | g hu t j => simp only [point]; rw [text_gSeed, hh _ _ (ht _ 2 (hs t j hq))]
    | digest => simp only [point]
  · have := hO x.1 hx
    unfold ask at this
    rwa [dif_pos x.2, dif_pos x.2] at this

/-- The simulator does not write into the strings made of seeds. -/
theorem spts_plain {p : ℕ} (hI : I.Is p) (hct : ct.length = I.blk) (hpt : pt.length = I.blk) (O : Oracle N M) (a : Answers I M) (e : List ℕ) {q : Query I.T I.unruh}
    (hq : Shown e q) : spts I ct pt msg O a e q ∉ Plain I := by
  have hs := rom_sizes hI
  have hv : ∀ t j, (simView I ct pt a e t j).key.length = I.blk ∧ (simView I ct pt a e t j).gates.length = I.gate ∧ (simView I ct pt a e t j).out.length = I.blk := by
    intro t j
    unfold simView
    dsimp only
    split_ifs
    · exact ⟨ofBits_len' _ _, ofBits_len' _ _, ofBits_len' _ _⟩
    · exact ⟨ofBits_len' _ _, ofBits_len' _ _, ofBits_len' _ _⟩
  have main : ∃ u : Use I.T, Use.WF I u ∧ spts I ct pt msg O a e q = Use.text I u ∧ (∀ s, u ≠ .tapeSeed s ∧ u ≠ .comSeed s ∧ u ≠ .gSeed s ∧ u ≠ .next s) := by
    unfold spts
    cases q with
    | secrets => exact hq.elim
    | tape t j =>
      simp only [point]
      refine ⟨_, ?_, rfl, fun s => ⟨nofun, nofun, nofun, nofun⟩⟩
      simp only [Use.WF]
      refine ⟨hash_len _ _ _, salt_len a, by have := t.2; omega, by omega, ?_⟩
      unfold tapeLen
      split_ifs <;> omega
    | com t j =>
      simp only [point]
      refine ⟨_, ?_, rfl, fun s => ⟨nofun, nofun, nofun, nofun⟩⟩
      simp only [Use.WF]
      exact ⟨hash_len _ _ _, hv t j⟩
    | g hu t j =>
      simp only [point]
      refine ⟨_, ?_, rfl, fun s => ⟨nofun, nofun, nofun, nofun⟩⟩
      simp only [Use.WF]
      refine ⟨hu, hash_len _ _ _, fun k hk => ?_, (hv t j).2.1⟩
      split_ifs at hk with h2
      · rw [Option.mem_def, Option.some.injEq] at hk
        rw [← hk]
        exact (hv t j).1
      · simp at hk
    | digest =>
      simp only [point]
      refine ⟨_, ?_, rfl, fun s => ⟨nofun, nofun, nofun, nofun⟩⟩
      simp only [Use.WF]
      refine ⟨fun t j => (hv t j).2.2, fun _ _ => bytes_len' _ _, ?_, fun G hG => ?_, hct, hpt, salt_len a⟩
      · by_cases hu : I.unruh = true
        · rw [dif_pos hu]
          exact hu.symm
        · rw [dif_neg hu]
          simp [hu]
      · by_cases hu : I.unruh = true
        · rw [dif_pos hu, Option.mem_def, Option.some.injEq] at hG
          intro t j
          rw [← hG]
          exact bytes_len' _ _
        · rw [dif_neg hu] at hG
          simp at hG
  obtain ⟨u, hw, ht, hne⟩ := main
  rw [ht]
  rintro (⟨s, hl, h | h | h⟩ | ⟨d, hl, h⟩)
  · exact (hne s).1 (C59_zkb I p hI _ _ hw (by simp only [Use.WF]; exact hl) h)
  · exact (hne s).2.1 (C59_zkb I p hI _ _ hw (by simp only [Use.WF]; exact hl) h)
  · exact (hne s).2.2.1 (C59_zkb I p hI _ _ hw (by simp only [Use.WF]; exact hl) h)
  · exact (hne d).2.2.2 (C59_zkb I p hI _ _ hw (by simp only [Use.WF]; exact hl) h)

theorem swrite_plain {p : ℕ} (hI : I.Is p) (hct : ct.length = I.blk) (hpt : pt.length = I.blk) (O : Oracle N M) (a : Answers I M) (e : List ℕ) {m : Bytes}
    (hm : m ∈ Plain I) : ask (swrite I O a e (spts I ct pt msg O a e)) m = ask O m := by
  unfold ask
  by_cases h : m.length ≤ N
  · rw [dif_pos h, dif_pos h]
    unfold swrite
    rw [dif_neg]
    rintro ⟨q, hq, he⟩
    exact spts_plain hI hct hpt O a e hq (by rw [he]; exact hm)
  · rw [dif_neg h, dif_neg h]

end Picnic.Rom
