import Verif.Proofs.AdaptCourse

/-
C63: forgers that choose the messages; the game with the simulator and a forger that asks no signer.
-/

namespace Picnic.Rom

open Spec Spec.Zkb Spec.Rom Spec.Picnic1 Spec.Challenge

variable {N M : ℕ} {I : Inst} {sk ct pt : Bytes} {k : ℕ} {O : Oracle N M}

/-! ### Written values -/

/-- Values that are written one after the other. -/
noncomputable def stack : {k : ℕ} → Oracle N M → (Fin k → Answers I M) → (Fin k → List ℕ) → (Fin k → Query I.T I.unruh → Bytes) → Oracle N M
  | 0, X, _, _, _ => X
  | _ + 1, X, a, es, p => stack (swrite I X (a 0) (es 0) (p 0)) (fun i => a i.succ) (fun i => es i.succ) fun i => p i.succ

theorem stack_off {x : Arg N} : ∀ {k : ℕ} {X : Oracle N M} {a : Fin k → Answers I M} {es : Fin k → List ℕ} {p : Fin k → Query I.T I.unruh → Bytes},
    (¬ ∃ i q, Shown (es i) q ∧ p i q = x.1) → stack X a es p x = X x
  | 0, _, _, _, _, _ => rfl
  | k + 1, X, a, es, p, h => by
    rw [stack, stack_off fun ⟨i, hq⟩ => h ⟨i.succ, hq⟩]
    exact swrite_off fun hq => h ⟨0, hq⟩

theorem stack_on {x : Arg N} : ∀ {k : ℕ} {X : Oracle N M} {a : Fin k → Answers I M} {es : Fin k → List ℕ} {p : Fin k → Query I.T I.unruh → Bytes},
    (∃ i q, Shown (es i) q ∧ p i q = x.1) → (∃ i q, Shown (es i) q ∧ p i q = x.1 ∧ stack X a es p x = a i q) ∧ ∀ X' : Oracle N M, stack X' a es p x = stack X a es p x
  | 0, _, _, _, _, ⟨i, _⟩ => i.elim0
  | k + 1, X, a, es, p, h => by
    by_cases h1 : ∃ (i : Fin k) (q : _), Shown (es i.succ) q ∧ p i.succ q = x.1
    · obtain ⟨⟨i, q, h2, h3, h4⟩, h5⟩ := stack_on (X := swrite I X (a 0) (es 0) (p 0)) (a := fun i => a i.succ) (es := fun i => es i.succ) (p := fun i => p i.succ) h1
      exact ⟨⟨i.succ, q, h2, h3, h4⟩, fun X' => h5 _⟩
    · have h0 : ∃ q, Shown (es 0) q ∧ p 0 q = x.1 := by
        obtain ⟨i, hq⟩ := h
        revert hq
        exact Fin.cases (fun hq => hq) (fun i hq => absurd ⟨i, hq⟩ h1) i
      obtain ⟨⟨q, h2, h3, h4⟩, h5⟩ := swrite_on (X := X) (a := a 0) h0
      refine ⟨⟨0, q, h2, h3, ?_⟩, fun X' => ?_⟩
      · rw [stack, stack_off h1]
        exact h4
      · rw [stack, stack, stack_off h1, stack_off h1]
        exact h5 X'

/-! ### The strings that do not depend on the message -/

theorem spts_msg {q : Query I.T I.unruh} (hq : q ≠ .digest) (hq' : q ≠ .secrets) (m m' : Bytes) (O : Oracle N M) (a : Answers I M) (e : List ℕ) :
    spts I ct pt m O a e q = spts I ct pt m' O a e q := by
  unfold spts
  cases q with
  | secrets => exact absurd rfl hq'
  | digest => exact absurd rfl hq
  | tape t j => simp only [point]
  | com t j => simp only [point]
  | g hu t j => simp only [point]

theorem shown_secrets {e : List ℕ} {q : Query I.T I.unruh} (h : Shown e q) : q ≠ .secrets := by
  rintro rfl
  exact h

variable (ct pt) in
/-- The strings into which the simulator writes, apart from that with the message. -/
noncomputable def fpts (O : Oracle N M) (a : Answers I M) (e : List ℕ) (q : Query I.T I.unruh) : Bytes :=
  if q = .digest then List.replicate (N + 1) 0 else spts I ct pt [] O a e q

theorem fpts_digest (O : Oracle N M) (a : Answers I M) (e : List ℕ) : N < (fpts ct pt O a e .digest).length := by
  unfold fpts
  rw [if_pos rfl, List.length_replicate]
  omega

theorem fpts_eq {q : Query I.T I.unruh} {e : List ℕ} (h : Shown e q) (hq : q ≠ .digest) (m : Bytes) (O : Oracle N M) (a : Answers I M) :
    fpts ct pt O a e q = spts I ct pt m O a e q := by
  unfold fpts
  rw [if_neg hq]
  exact spts_msg hq (shown_secrets h) _ _ O a e

variable (I ct pt) in
/-- The string with the message. -/
def dpt (m : Bytes) (a : Answers I M) (e : List ℕ) : Bytes :=
  Use.text I (.challenge (fun t j => (simView I ct pt a e t j).out) (fun t j => bytes I.digest (a (.com t j)))
      (if h : I.unruh = true then some fun t j => bytes (I.gLen j) (a (.g h t j)) else none) ct pt (salt a) m)

theorem spts_digest (m : Bytes) (O : Oracle N M) (a : Answers I M) (e : List ℕ) : spts I ct pt m O a e .digest = dpt I ct pt m a e := by
  unfold spts dpt
  simp only [point]

variable (I) in
/-- A string from which the challenge for a message is read. -/
def IsDig (ct pt : Bytes) (x m : Bytes) : Prop := ∃ outs coms gs salt, IsCh I ct pt x outs coms gs salt m

theorem dpt_isDig (hct : ct.length = I.blk) (hpt : pt.length = I.blk) (m : Bytes) (a : Answers I M) (e : List ℕ) : IsDig I ct pt (dpt I ct pt m a e) m :=
  ⟨_, _, _, _, sim_digest_wf hct hpt a e, rfl⟩

theorem isDig_inj {n : ℕ} (hI : I.Is n) {x m m' : Bytes} (h : IsDig I ct pt x m) (h' : IsDig I ct pt x m') : m = m' := by
  obtain ⟨_, _, _, _, h1, h2⟩ := h
  obtain ⟨_, _, _, _, h3, h4⟩ := h'
  have := C59_zkb I n hI _ _ h1 h3 (h2.symm.trans h4)
  rw [Use.challenge.injEq] at this
  exact this.2.2.2.2.2.2

/-- The other strings are not of this kind. -/
theorem fpts_notDig {n : ℕ} (hI : I.Is n) (hct : ct.length = I.blk) (hpt : pt.length = I.blk) {e : List ℕ} {q : Query I.T I.unruh} (hq : Shown e q) (hd : q ≠ .digest)
    (O : Oracle N M) (a : Answers I M) (msg m : Bytes) : ¬ IsDig I ct pt (spts I ct pt msg O a e q) m := by
  rintro ⟨outs, coms, gs, salt, hw, h⟩
  have key : ∀ m', m = m' := fun m' => by
    obtain ⟨u, hu, e', -, hm⟩ := spts_use (O := O) hI hct hpt (msg := m') a e hq
    rw [spts_msg hd (shown_secrets hq) msg m'] at h
    have := C59_zkb I n hI _ _ hu hw (e'.symm.trans h)
    exact hm _ _ _ _ _ _ _ this
  have h1 := key []
  have h2 := key [0]
  rw [h1] at h2
  simp at h2

theorem plain_notDig {n : ℕ} (hI : I.Is n) {x m : Bytes} (hx : x ∈ Plain I) : ¬ IsDig I ct pt x m := by
  rintro ⟨outs, coms, gs, salt, h⟩
  exact (plain_not hI hx).1 _ _ _ _ _ h

/-! ### The forger without a signer -/

open Classical in
variable (ct pt) in
/-- The procedure with the signatures of the simulator.  It answers itself the questions for the strings with the messages. -/
noncomputable def lazy : Player N M (Bytes × Bytes) → {k : ℕ} → (Fin k → Answers I M) → (Fin k → List ℕ) → (Bytes → Option (Val M)) → Adv N M (Bytes × Bytes)
  | .done r, _, _, _, _ => .done r
  | .ask x next, _, a, es, dig => match dig x.1 with
    | some v => lazy (next v) a es dig
    | none => .ask x fun v => lazy (next v) a es dig
  | .sign _ _, 0, _, _, _ => .done ([], [])
  | .sign m next, _ + 1, a, es, dig => lazy (next (signature I (a 0) (simView I ct pt (a 0) (es 0)) (es 0))) (fun i => a i.succ) (fun i => es i.succ)
      fun x => if x = dpt I ct pt m (a 0) (es 0) then some (a 0 .digest) else dig x

theorem lazy_len {l : ℕ} (X : Oracle N M) (P : Player N M (Bytes × Bytes)) : ∀ {k : ℕ} (a : Fin k → Answers I M) (es : Fin k → List ℕ) (dig : Bytes → Option (Val M)) seen k' Q,
    P.Within l seen k' Q → ((lazy ct pt P a es dig).asked X).length ≤ Q := by
  induction P with
  | done r =>
    intro k a es dig seen k' Q _
    simp [lazy, Adv.asked]
  | ask x next ih =>
    rintro k a es dig seen k' Q ⟨h1, h2⟩
    rw [lazy]
    cases dig x.1 with
    | some v =>
      have := ih v a es dig seen k' _ (h2 v)
      dsimp only
      omega
    | none =>
      have := ih (X x) a es dig seen k' _ (h2 (X x))
      simp only [Adv.asked, List.length_cons]
      omega
  | sign m next ih =>
    rintro k a es dig seen k' Q ⟨h1, -, -, h2⟩
    cases k with
    | zero => simp [lazy, Adv.asked]
    | succ k =>
      rw [lazy]
      exact ih _ _ _ _ _ _ _ (h2 _)

theorem lazy_ends {S : Set (Bytes × Bytes)} (hS : ([], []) ∈ S) (X : Oracle N M) (P : Player N M (Bytes × Bytes)) : ∀ {k : ℕ} (a : Fin k → Answers I M) (es : Fin k → List ℕ)
    (dig : Bytes → Option (Val M)), P.Ends S → (lazy ct pt P a es dig).run X ∈ S := by
  induction P with
  | done r =>
    intro k a es dig h
    exact h
  | ask x next ih =>
    intro k a es dig h
    rw [lazy]
    cases dig x.1 with
    | some v => exact ih v a es dig (h v)
    | none => exact ih (X x) a es dig (h (X x))
  | sign m next ih =>
    intro k a es dig h
    cases k with
    | zero => exact hS
    | succ k =>
      rw [lazy]
      exact ih _ _ _ _ (h _)

/-! ### The game -/

variable (ct pt) in
/-- The messages with the signatures of the simulator. -/
noncomputable def simSigned {α : Type} : Player N M α → {k : ℕ} → Oracle N M → (Fin k → Answers I M) → List (Bytes × Bytes)
  | .done _, _, _, _ => []
  | .ask x next, _, O, a => simSigned (next (O x)) O a
  | .sign _ _, 0, _, _ => []
  | .sign m next, _ + 1, O, a =>
    match Rom.sim I O (a 0) ct pt m with
    | none => []
    | some p => (m, p.sig) :: simSigned (next p.sig) p.oracle fun i => a i.succ

/-- The strings with the messages, their values and the signatures; `dig` are the values of strings with earlier messages. -/
structure Told (ct pt : Bytes) (H X : Oracle N M) {k : ℕ} (a : Fin k → Answers I M) (es : Fin k → List ℕ) (dig : Bytes → Option (Val M)) (l : List (Bytes × Bytes))
    (mm : Fin k → Bytes) : Prop where
  sigs : l = List.ofFn fun i => (mm i, signature I (a i) (simView I ct pt (a i) (es i)) (es i))
  other : ∀ x : Arg N, dig x.1 = none → (∀ i, x.1 ≠ dpt I ct pt (mm i) (a i) (es i)) → X x = H x
  old : ∀ (x : Arg N) v, dig x.1 = some v → (∀ i, x.1 ≠ dpt I ct pt (mm i) (a i) (es i)) → X x = v
  digest : ∀ (x : Arg N) i, x.1 = dpt I ct pt (mm i) (a i) (es i) → ∃ i, x.1 = dpt I ct pt (mm i) (a i) (es i) ∧ X x = a i .digest

/-- What the game leaves when no key has been seen. -/
structure After (O : Oracle N M) (seen D : List Bytes) (dig : Bytes → Option (Val M)) (l : List (Bytes × Bytes)) (A : Adv N M (Bytes × Bytes)) (H : Oracle N M) {k : ℕ} (a : Fin k → Answers I M) (es : Fin k → List ℕ) (ct pt : Bytes) (c : Course N M (Bytes × Bytes)) (ms : List Bytes) (r : Bytes × Bytes) : Prop where
  ends : ∀ i, ∃ e, challenge I O (bytes I.digest (a i .digest)) = some e
  new : ∀ i q, Shown (es i) q → fpts ct pt O (a i) (es i) q ∉ D ∨ q = .digest
  result : c.result = some (ms, r)
  run : A.run H = r
  asked : ∀ y ∈ A.asked H, y.1 ∈ c.asked
  written : ∀ i q, Shown (es i) q → fpts ct pt O (a i) (es i) q ∈ c.written ∨ q = .digest
  same : ∀ x : Arg N, (∀ m ∈ ms.reverse ++ seen, ¬ IsDig I ct pt x.1 m) → c.oracle x = H x
  told : ∃ mm, Told ct pt H c.oracle a es dig l mm

theorem swrite_pred {X Y : Oracle N M} {a : Answers I M} {e : List ℕ} {p p' : Query I.T I.unruh → Bytes} {x : Arg N}
    (hp : ∀ q, Shown e q → (p q = x.1 ↔ p' q = x.1)) (hx : X x = Y x) : swrite I X a e p x = swrite I Y a e p' x := by
  have hpred : (fun q => Shown e q ∧ p q = x.1) = fun q => Shown e q ∧ p' q = x.1 := by
    funext q
    exact propext (and_congr_right fun hq => hp q hq)
  unfold swrite
  by_cases h : ∃ q, Shown e q ∧ p q = x.1
  · have h' : ∃ q, Shown e q ∧ p' q = x.1 := by rwa [hpred] at h
    rw [dif_pos h, dif_pos h']
    congr 1
    simp only [hpred]
  · have h' : ¬ ∃ q, Shown e q ∧ p' q = x.1 := by rwa [hpred] at h
    rw [dif_neg h, dif_neg h', hx]

theorem lazy_play {G : List Bytes → Bytes × Bytes → Local N M I Prop} {n : ℕ} (hI : I.Is n) (hct : ct.length = I.blk) (hpt : pt.length = I.blk) (P : Player N M (Bytes × Bytes)) :
    ∀ {k : ℕ} (a : Fin k → Answers I M) (es : Fin k → List ℕ) (seen D : List Bytes) (X Y : Oracle N M) (dig : Bytes → Option (Val M)),
      P.Uses k → (∀ m ∈ Plain I, ask X m = ask O m) → (∀ i, es i = chals a O i) → (∀ x v, dig x = some v → ∃ m ∈ seen, IsDig I ct pt x m) →
      (∀ (x : Arg N) v, dig x.1 = some v → X x = v) → (∀ x : Arg N, dig x.1 = none → X x = Y x) → simEv sk ct pt G False P seen D X a →
      KeySeen I sk ct pt (P.sim I ct pt X a) ∨ ∃ ms r, After O seen D dig (simSigned ct pt P X a) (lazy ct pt P a es dig) (stack Y a es fun i => fpts ct pt O (a i) (es i)) a es ct pt
        (P.sim I ct pt X a) ms r := by
  induction P with
  | done r =>
    intro k a es seen D X Y dig hU hX hes hd1 hd2 hd3 h
    obtain rfl : k = 0 := hU
    refine Or.inr ⟨[], r, fun i => i.elim0, fun i => i.elim0, rfl, rfl, ?_, fun i => i.elim0, fun x hx => ?_, fun i => i.elim0, ?_, fun x hx _ => hd3 x hx,
      fun x v hx _ => hd2 x v hx, fun x i => i.elim0⟩
    · intro y hy
      simp [lazy, Adv.asked] at hy
    · refine hd3 x ?_
      cases hd : dig x.1 with
      | none => rfl
      | some v =>
        obtain ⟨m, hm, h⟩ := hd1 _ _ hd
        exact absurd h (hx m (by simpa using hm))
    · rw [simSigned, List.ofFn_zero]
  | ask x next ih =>
    intro k a es seen D X Y dig hU hX hes hd1 hd2 hd3 h
    rcases h with h | h
    · exact Or.inl (keySeen_ask (Or.inl h))
    · rcases ih (X x) a es seen (x.1 :: D) X Y dig (hU _) hX hes hd1 hd2 hd3 h with h | ⟨ms, r, h⟩
      · exact Or.inl (keySeen_ask (Or.inr h))
      · have hnew : ∀ i q, Shown (es i) q → fpts ct pt O (a i) (es i) q ∉ D ∨ q = .digest := fun i q hq =>
          (h.new i q hq).imp (fun hn hm => hn (List.mem_cons_of_mem _ hm)) id
        refine Or.inr ⟨ms, r, ?_⟩
        cases hd : dig x.1 with
        | some v =>
          have hl : lazy ct pt (.ask x next) a es dig = lazy ct pt (next (X x)) a es dig := by rw [lazy, hd2 x v hd, hd]
          rw [hl]
          exact ⟨h.ends, hnew, h.result, h.run, fun y hy => Set.mem_insert_of_mem _ (h.asked y hy), h.written, h.same, h.told⟩
        | none =>
          have hx : stack Y a es (fun i => fpts ct pt O (a i) (es i)) x = X x := by
            rw [stack_off, hd3 x hd]
            rintro ⟨i, q, hq, hqx⟩
            rcases h.new i q hq with hn | rfl
            · exact hn (by rw [hqx]; exact List.mem_cons_self)
            · have h1 := fpts_digest (ct := ct) (pt := pt) O (a i) (es i)
              have h2 := x.2
              rw [hqx] at h1
              omega
          have hl : lazy ct pt (.ask x next) a es dig = .ask x fun v => lazy ct pt (next v) a es dig := by rw [lazy, hd]
          rw [hl]
          refine ⟨h.ends, hnew, h.result, ?_, fun y hy => ?_, h.written, h.same, h.told⟩
          · rw [Adv.run, hx]
            exact h.run
          · rw [Adv.asked, hx] at hy
            rcases List.mem_cons.1 hy with rfl | hy
            · exact Set.mem_insert _ _
            · exact Set.mem_insert_of_mem _ (h.asked y hy)
  | sign m next ih =>
    intro k a es seen D X Y dig hU hX hes hd1 hd2 hd3 h
    obtain ⟨hk, hU⟩ := hU
    obtain ⟨k, rfl⟩ : ∃ k', k = k' + 1 := ⟨k - 1, by omega⟩
    simp only [Nat.add_sub_cancel] at hU
    simp only [simEv] at h
    have hc : challenge I X (bytes I.digest (a 0 .digest)) = challenge I O (bytes I.digest (a 0 .digest)) :=
      challenge_next (fun d hd => hX _ (plain_next hd)) (bytes_len' _ _)
    have hsp : ∀ e, spts I ct pt m X (a 0) e = spts I ct pt m O (a 0) e := fun e =>
      spts_agree (fun t j l => hX _ (seedText_plain l (seed_len (a 0) t j.2))) e
    cases hp : Rom.sim I X (a 0) ct pt m with
    | none => rw [hp] at h; exact h.elim
    | some p =>
      rw [hp, Option.elim_some] at h
      obtain ⟨hn, h⟩ := h
      have hp' := hp
      rw [sim_eq, Option.map_eq_some_iff] at hp'
      obtain ⟨e, he, hpe⟩ := hp'
      have h0 : es 0 = e := by
        rw [hes 0, chals, ← hc, he]
        rfl
      have e1 : p.e = e := by rw [← hpe]
      have e2 : p.sig = signature I (a 0) (simView I ct pt (a 0) e) e := by rw [← hpe]
      have e3 : p.oracle = swrite I X (a 0) e (spts I ct pt m X (a 0) e) := by rw [← hpe]
      rcases h with h | h
      · exact Or.inl (keySeen_sign hp (Or.inl h))
      -- strings with messages
      have hdq : ∀ {x : Arg N} {m' : Bytes}, IsDig I ct pt x.1 m' → ∀ q, Shown e q → spts I ct pt m X (a 0) e q = x.1 → q = .digest := by
        intro x m' hx q hq hqx
        by_contra hd
        exact fpts_notDig hI hct hpt hq hd X (a 0) m m' (by rw [hqx]; exact hx)
      have hi := ih p.sig (fun i => a i.succ) (fun i => es i.succ) (m :: seen) (knownAfter sk ct pt D m X (a 0) p.e) p.oracle
        (swrite I Y (a 0) (es 0) (fpts ct pt O (a 0) (es 0))) (fun x => open Classical in if x = dpt I ct pt m (a 0) (es 0) then some (a 0 .digest) else dig x)
        (hU _) (fun y hy => by rw [e3, swrite_plain hI hct hpt X (a 0) e hy, hX y hy]) (fun i => hes i.succ)
        (fun x v hx => by
          split_ifs at hx with hxd
          · exact ⟨m, by simp, hxd ▸ dpt_isDig hct hpt m (a 0) (es 0)⟩
          · obtain ⟨m', hm', hx⟩ := hd1 x v hx
            exact ⟨m', List.mem_cons_of_mem _ hm', hx⟩)
        (fun x v hx => by
          rw [e3]
          split_ifs at hx with hxd
          · have hon : ∃ q, Shown e q ∧ spts I ct pt m X (a 0) e q = x.1 := ⟨.digest, trivial, by rw [spts_digest, hxd, h0]⟩
            obtain ⟨⟨q, hq, hqx, hv⟩, -⟩ := swrite_on (X := X) (a := a 0) hon
            have hqd := hdq (x := x) (m' := m) (by rw [hxd]; exact dpt_isDig hct hpt m (a 0) (es 0)) q hq hqx
            rw [hv, hqd]
            exact Option.some.inj hx
          · rw [swrite_off, hd2 x v hx]
            rintro ⟨q, hq, hqx⟩
            obtain ⟨m', -, hx'⟩ := hd1 _ _ hx
            have := hdq hx' q hq hqx
            rw [this, spts_digest, ← h0] at hqx
            exact hxd hqx.symm)
        (fun x hx => by
          split_ifs at hx with hxd
          rw [e3, h0]
          refine swrite_pred (fun q hq => ?_) (hd3 x hx)
          by_cases hqd : q = .digest
          · subst hqd
            constructor
            · intro hq'
              rw [spts_digest, ← h0] at hq'
              exact absurd hq'.symm hxd
            · intro hq'
              have h1 := fpts_digest (ct := ct) (pt := pt) O (a 0) e
              have h2 := x.2
              rw [hq'] at h1
              omega
          · rw [fpts_eq hq hqd m, hsp])
        h
      rcases hi with h | ⟨ms, r, h⟩
      · exact Or.inl (keySeen_sign hp (Or.inr h))
      · have hl : lazy ct pt (.sign m next) a es dig = lazy ct pt (next p.sig) (fun i => a i.succ) (fun i => es i.succ)
            fun x => open Classical in if x = dpt I ct pt m (a 0) (es 0) then some (a 0 .digest) else dig x := by
          rw [lazy, e2, h0]
        refine Or.inr ⟨m :: ms, r, ?_, ?_, ?_, ?_, ?_, ?_, ?_, ?_⟩
        · exact Fin.cases ⟨e, by rw [← hc, he]⟩ h.ends
        · refine Fin.cases (fun q hq => ?_) (fun i q hq => ?_)
          · by_cases hqd : q = .digest
            · exact Or.inr hqd
            · refine Or.inl ?_
              rw [fpts_eq hq hqd m, ← hsp, h0]
              rw [h0] at hq
              rw [e1] at hn
              exact hn q hq
          · refine (h.new i q hq).imp (fun hn hm => hn ?_) id
            unfold knownAfter
            simp [hm]
        · simp only [Player.sim, hp]
          rw [h.result]
          rfl
        · rw [hl, stack]
          exact h.run
        · rw [hl, stack]
          intro y hy
          simp only [Player.sim, hp]
          exact h.asked y hy
        · simp only [Player.sim, hp]
          refine Fin.cases (fun q hq => ?_) (fun i q hq => ?_)
          · by_cases hqd : q = .digest
            · exact Or.inr hqd
            · refine Or.inl (Or.inr ⟨q, ?_, ?_⟩)
              · rw [e1, ← h0]
                exact hq
              · rw [fpts_eq hq hqd m, ← hsp, h0, e1]
                rfl
          · exact (h.written i q hq).imp Or.inl id
        · intro x hx
          simp only [Player.sim, hp]
          rw [stack]
          refine h.same x fun m' hm' => hx m' ?_
          simpa using hm'
        · obtain ⟨mm, g1, g2, g3, g4⟩ := h.told
          refine ⟨Fin.cons m mm, ?_, fun x hx hi => ?_, fun x v hx hi => ?_, fun x i hx => ?_⟩
          · simp only [simSigned, hp]
            rw [List.ofFn_succ, g1, e2, h0]
            simp only [Fin.cons_zero, Fin.cons_succ]
          · simp only [Player.sim, hp]
            rw [stack]
            have h1 : x.1 ≠ dpt I ct pt m (a 0) (es 0) := by simpa using hi 0
            exact g2 x (by rw [if_neg h1]; exact hx) fun i => by simpa using hi i.succ
          · simp only [Player.sim, hp]
            have h1 : x.1 ≠ dpt I ct pt m (a 0) (es 0) := by simpa using hi 0
            exact g3 x v (by rw [if_neg h1]; exact hx) fun i => by simpa using hi i.succ
          · simp only [Player.sim, hp]
            by_cases hs : ∃ i : Fin k, x.1 = dpt I ct pt (mm i) (a i.succ) (es i.succ)
            · obtain ⟨i, hi⟩ := hs
              obtain ⟨i, hi, hv⟩ := g4 x i hi
              exact ⟨i.succ, by simpa using hi, hv⟩
            · have h1 : x.1 = dpt I ct pt m (a 0) (es 0) := by
                revert hx
                refine Fin.cases (fun hx => by simpa using hx) (fun i hx => ?_) i
                exact absurd ⟨i, by simpa using hx⟩ hs
              exact ⟨0, by simpa using h1, g3 x _ (by rw [if_pos h1]) fun i hi => hs ⟨i, hi⟩⟩

end Picnic.Rom
