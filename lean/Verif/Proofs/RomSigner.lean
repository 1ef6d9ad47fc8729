import Verif.Proofs.RomHit

/-
C62: several signatures; signers and simulators as functions of the oracle that depend on few of its values.
-/

namespace Picnic.Rom

open Spec Spec.Zkb Spec.Rom Spec.Picnic1 Spec.Challenge

variable {N M : ℕ} {I : Inst} {sk ct pt msg : Bytes} {α : Type}

/-! ### Lists of strings -/

/-- The strings that the oracle has values for. -/
def toArgs (l : List Bytes) : List (Arg N) := l.filterMap fun m => if h : m.length ≤ N then some ⟨m, h⟩ else none

theorem mem_toArgs {l : List Bytes} {x : Arg N} : x ∈ toArgs l ↔ x.1 ∈ l := by
  unfold toArgs
  rw [List.mem_filterMap]
  constructor
  · rintro ⟨m, hm, h⟩
    split_ifs at h with hl
    rw [Option.some.injEq] at h
    rw [← h]
    exact hm
  · intro h
    exact ⟨x.1, h, by rw [dif_pos x.2]⟩

theorem toArgs_len (l : List Bytes) : (toArgs l : List (Arg N)).length ≤ l.length := List.length_filterMap_le _ _

theorem ask_of_args {O O' : Oracle N M} {l : List Bytes} (h : ∀ x ∈ (toArgs l : List (Arg N)), O x = O' x) {m : Bytes} (hm : m ∈ l) : ask O m = ask O' m := by
  unfold ask
  split_ifs with hl
  · exact h ⟨m, hl⟩ (mem_toArgs.2 hm)
  · rfl

/-! ### The signer -/

theorem pts_agree {O O' : Oracle N M} {a : Answers I M} (h : ∀ (t : Fin I.T) (j k : Fin 3), ask O (seedText I k (seed a t j)) = ask O' (seedText I k (seed a t j))) :
    pts I sk ct pt msg O a = pts I sk ct pt msg O' a := by
  have h1 : ∀ (t : Fin I.T) (j k : Fin 3) n, Rom.hash O (seedText I k (seed a t j)) n = Rom.hash O' (seedText I k (seed a t j)) n := fun t j k n => by
    unfold Rom.hash
    rw [h]
  refine funext fun q => ?_
  unfold pts
  cases q with
  | secrets => simp only [point]
  | tape t j => simp only [point]; rw [text_tapeSeed, h1]
  | com t j => simp only [point]; rw [text_comSeed, h1]
  | g hu t j => simp only [point]; rw [text_gSeed, h1]
  | digest => simp only [point]

/-- The strings made of the seeds. -/
noncomputable def seedTexts (a : Answers I M) : List Bytes :=
  (Finset.univ : Finset (Fin I.T × Fin 3 × Fin 3)).toList.map fun x => seedText I x.2.2 (seed a x.1 x.2.1)

theorem seedTexts_len (a : Answers I M) : (seedTexts a).length = 9 * I.T := by
  unfold seedTexts
  simp only [List.length_map, Finset.length_toList, Finset.card_univ, Fintype.card_prod, Fintype.card_fin]
  ring

theorem mem_seedTexts (a : Answers I M) (t : Fin I.T) (j k : Fin 3) : seedText I k (seed a t j) ∈ seedTexts a := by
  unfold seedTexts
  rw [List.mem_map]
  exact ⟨(t, j, k), by simp, rfl⟩

theorem seedTexts_seed (a : Answers I M) {m : Bytes} (h : m ∈ seedTexts a) : m.length = I.seed + 1 := by
  unfold seedTexts at h
  rw [List.mem_map] at h
  obtain ⟨x, -, rfl⟩ := h
  rw [seedText_len, seed_len a x.1 x.2.1.2]

theorem card_query : Fintype.card (Query I.T I.unruh) ≤ 9 * I.T + 2 := by
  refine le_trans (Fintype.card_le_of_injective (β := Option (Option (Fin 3 × Fin I.T × Fin 3))) (fun
    | .secrets => none
    | .digest => some none
    | .tape t j => some (some (0, t, j))
    | .com t j => some (some (1, t, j))
    | .g _ t j => some (some (2, t, j))) fun x y h => by cases x <;> cases y <;> simp_all) (le_of_eq ?_)
  simp only [Fintype.card_option, Fintype.card_prod, Fintype.card_fin]
  ring

variable (I sk ct pt msg) in
/-- What the signer asks for. -/
noncomputable def signerTexts (O : Oracle N M) : List Bytes :=
  (Finset.univ : Finset (Query I.T I.unruh)).toList.map (pts I sk ct pt msg O (answers I O sk ct pt msg)) ++ seedTexts (answers I O sk ct pt msg)

theorem signerTexts_len (O : Oracle N M) : (signerTexts I sk ct pt msg O).length ≤ 18 * I.T + 2 := by
  unfold signerTexts
  have := card_query (I := I)
  simp only [List.length_append, List.length_map, Finset.length_toList, Finset.card_univ, seedTexts_len]
  omega

theorem mem_signer_pts (O : Oracle N M) (q : Query I.T I.unruh) : pts I sk ct pt msg O (answers I O sk ct pt msg) q ∈ signerTexts I sk ct pt msg O := by
  unfold signerTexts
  rw [List.mem_append, List.mem_map]
  exact Or.inl ⟨q, by simp, rfl⟩

theorem mem_signer_seed (O : Oracle N M) {m : Bytes} (h : m ∈ seedTexts (answers I O sk ct pt msg)) : m ∈ signerTexts I sk ct pt msg O := by
  unfold signerTexts
  rw [List.mem_append]
  exact Or.inr h

theorem signer_congr {O O' : Oracle N M} (h : ∀ x ∈ (toArgs (signerTexts I sk ct pt msg O) : List (Arg N)), O x = O' x) :
    answers I O' sk ct pt msg = answers I O sk ct pt msg ∧ signerTexts I sk ct pt msg O = signerTexts I sk ct pt msg O' := by
  have hp : pts I sk ct pt msg O (answers I O sk ct pt msg) = pts I sk ct pt msg O' (answers I O sk ct pt msg) :=
    pts_agree fun t j k => ask_of_args h (mem_signer_seed O (mem_seedTexts _ t j k))
  have e : answers I O' sk ct pt msg = answers I O sk ct pt msg := answers_unique O' _ fun q => by
    rw [← hp, ← ask_of_args h (mem_signer_pts O q)]
    exact answers_fixed O q
  refine ⟨e, ?_⟩
  unfold signerTexts
  rw [e, hp]

variable (I sk ct pt msg) in
noncomputable def signer : Local N M I (Option Bytes) where
  run O := (real I O sk ct pt msg).map (·.sig)
  asked O := toArgs (signerTexts I sk ct pt msg O)
  congr O O' h h' := by
    obtain ⟨e1, e2⟩ := signer_congr h
    refine ⟨?_, by rw [e2]⟩
    unfold real
    simp only [e1, challenge_next h' (bytes_len' _ _), Option.map_map]
    rfl

variable (I sk ct pt) in
/-- What several signers ask for. -/
noncomputable def signersAsked (O : Oracle N M) : (k : ℕ) → (Fin k → Bytes) → List (Arg N)
  | 0, _ => []
  | k + 1, ms => (signer I sk ct pt (ms 0)).asked O ++ signersAsked O k fun i => ms i.succ

theorem realAll_succ (O : Oracle N M) (k : ℕ) (ms : Fin (k + 1) → Bytes) : realAll I O sk ct pt (k + 1) ms =
    ((signer I sk ct pt (ms 0)).run O).bind fun s => (realAll I O sk ct pt k fun i => ms i.succ).map (s :: ·) := by
  simp only [realAll, signer]
  cases real I O sk ct pt (ms 0) <;> rfl

theorem signersAsked_len (O : Oracle N M) : ∀ (k : ℕ) (ms : Fin k → Bytes), (signersAsked I sk ct pt O k ms).length ≤ k * (18 * I.T + 2)
  | 0, _ => by simp [signersAsked]
  | k + 1, ms => by
    have h1 := signersAsked_len O k fun i => ms i.succ
    have h2 : ((signer I sk ct pt (ms 0)).asked O).length ≤ 18 * I.T + 2 := le_trans (toArgs_len _) (signerTexts_len O)
    simp only [signersAsked, List.length_append]
    calc _ ≤ (18 * I.T + 2) + k * (18 * I.T + 2) := add_le_add h2 h1
      _ = _ := by ring

theorem mem_signersAsked {O : Oracle N M} {x : Arg N} : ∀ {k : ℕ} {ms : Fin k → Bytes}, x ∈ signersAsked I sk ct pt O k ms →
    ∃ i, x.1 ∈ signerTexts I sk ct pt (ms i) O
  | 0, _, h => by simp [signersAsked] at h
  | k + 1, ms, h => by
    simp only [signersAsked, List.mem_append] at h
    rcases h with h | h
    · exact ⟨0, mem_toArgs.1 h⟩
    · obtain ⟨i, hi⟩ := mem_signersAsked h
      exact ⟨i.succ, hi⟩

theorem signers_congr {O O' : Oracle N M} (h' : ∀ d : Bytes, d.length = I.digest → ask O (Use.text (T := I.T) I (.next d)) = ask O' (Use.text (T := I.T) I (.next d))) :
    ∀ (k : ℕ) (ms : Fin k → Bytes), (∀ x ∈ signersAsked I sk ct pt O k ms, O x = O' x) →
      realAll I O sk ct pt k ms = realAll I O' sk ct pt k ms ∧ signersAsked I sk ct pt O k ms = signersAsked I sk ct pt O' k ms
  | 0, ms, _ => ⟨rfl, rfl⟩
  | k + 1, ms, h => by
    simp only [signersAsked, List.mem_append] at h
    obtain ⟨e1, e2⟩ := signers_congr h' k (fun i => ms i.succ) fun x hx => h x (Or.inr hx)
    obtain ⟨e3, e4⟩ := (signer I sk ct pt (ms 0)).congr O O' (fun x hx => h x (Or.inl hx)) h'
    refine ⟨by rw [realAll_succ, realAll_succ, e1, e3], ?_⟩
    simp only [signersAsked]
    rw [e2, e4]

variable (I sk ct pt) in
noncomputable def signers {k : ℕ} (ms : Fin k → Bytes) : Local N M I (Option (List Bytes)) where
  run O := realAll I O sk ct pt k ms
  asked O := signersAsked I sk ct pt O k ms
  congr _ _ h h' := signers_congr h' k ms h

/-- A procedure that begins by making signatures. -/
noncomputable def withSigners {k : ℕ} (sk ct pt : Bytes) (ms : Fin k → Bytes) (b : Prop) (A : List Bytes → Local N M I Prop) (s : Bytes) : Local N M I Prop where
  run O := ((signers I sk ct pt ms).run O).elim b fun l => (A (s :: l)).run O
  asked O := (signers I sk ct pt ms).asked O ++ ((signers I sk ct pt ms).run O).elim [] fun l => (A (s :: l)).asked O
  congr O O' h h' := by
    simp only [List.mem_append] at h
    obtain ⟨e1, e2⟩ := (signers I sk ct pt ms).congr O O' (fun x hx => h x (Or.inl hx)) h'
    rw [← e1, ← e2]
    rcases hr : (signers I sk ct pt ms).run O with _ | l
    · exact ⟨rfl, rfl⟩
    · rw [hr] at h
      obtain ⟨e3, e4⟩ := (A (s :: l)).congr O O' (fun x hx => h x (Or.inr hx)) h'
      simp only [Option.elim_some]
      exact ⟨e3, congrArg _ e4⟩

theorem withSigners_len {k : ℕ} (ms : Fin k → Bytes) (b : Prop) {A : List Bytes → Local N M I Prop} {Q : ℕ} (hA : ∀ l O, ((A l).asked O).length ≤ Q) (s : Bytes)
    (O : Oracle N M) : ((withSigners sk ct pt ms b A s).asked O).length ≤ k * (18 * I.T + 2) + Q := by
  simp only [withSigners, List.length_append]
  refine add_le_add (signersAsked_len O k ms) ?_
  cases (signers I sk ct pt ms).run O with
  | none => simp
  | some l => exact hA _ _

/-! ### The simulator -/

theorem spts_agree {O O' : Oracle N M} {a : Answers I M} (h : ∀ (t : Fin I.T) (j k : Fin 3), ask O (seedText I k (seed a t j)) = ask O' (seedText I k (seed a t j)))
    (e : List ℕ) : spts I ct pt msg O a e = spts I ct pt msg O' a e := by
  have h1 : ∀ (t : Fin I.T) (j k : Fin 3) n, Rom.hash O (seedText I k (seed a t j)) n = Rom.hash O' (seedText I k (seed a t j)) n := fun t j k n => by
    unfold Rom.hash
    rw [h]
  refine funext fun q => ?_
  unfold spts
  cases q with
  | secrets => simp only [point]
  | tape t j => simp only [point]; rw [text_tapeSeed, h1]
  | com t j => simp only [point]; rw [text_comSeed, h1]
  | g hu t j => simp only [point]; rw [text_gSeed, h1]
  | digest => simp only [point]

theorem sim_agree {O O' : Oracle N M} {a : Answers I M} (h : ∀ x ∈ (toArgs (seedTexts a) : List (Arg N)), O x = O' x)
    (h' : ∀ d : Bytes, d.length = I.digest → ask O (Use.text (T := I.T) I (.next d)) = ask O' (Use.text (T := I.T) I (.next d))) :
    (sim I O a ct pt msg = none ∧ sim I O' a ct pt msg = none) ∨
      ∃ p p', sim I O a ct pt msg = some p ∧ sim I O' a ct pt msg = some p' ∧ p.sig = p'.sig ∧ ∀ x, O x = O' x → p.oracle x = p'.oracle x := by
  have hc : challenge I O (bytes I.digest (a .digest)) = challenge I O' (bytes I.digest (a .digest)) := challenge_next h' (bytes_len' _ _)
  have hp := spts_agree (ct := ct) (pt := pt) (msg := msg) (O := O) (O' := O') (a := a) fun t j k => ask_of_args h (mem_seedTexts a t j k)
  rw [sim_eq, sim_eq, ← hc]
  rcases challenge I O (bytes I.digest (a .digest)) with _ | e
  · exact Or.inl ⟨rfl, rfl⟩
  · refine Or.inr ⟨_, _, rfl, rfl, rfl, fun x hx => ?_⟩
    dsimp only
    rw [← hp e]
    exact swrite_congr (fun _ _ => rfl) (fun _ _ => rfl) hx

/-- A procedure that begins with the simulator, with given answers. -/
noncomputable def withSim (sk ct pt msg : Bytes) (b : Prop) (a : Answers I M) (A : List Bytes → Local N M I Prop) (l : List Bytes) : Local N M I Prop where
  run O := (sim I O a ct pt msg).elim b fun x => (A (x.sig :: l)).run x.oracle ∨ ∃ y ∈ (A (x.sig :: l)).asked x.oracle, y.1 = I.secretString sk ct pt msg
  asked O := toArgs (seedTexts a) ++ (sim I O a ct pt msg).elim [] fun x => (A (x.sig :: l)).asked x.oracle
  congr O O' h h' := by
    simp only [List.mem_append] at h
    rcases sim_agree (ct := ct) (pt := pt) (msg := msg) (fun x hx => h x (Or.inl hx)) h' with ⟨h1, h2⟩ | ⟨p, p', h1, h2, h3, h4⟩
    · rw [h1, h2]
      exact ⟨rfl, rfl⟩
    · rw [h1] at h ⊢
      rw [h2]
      simp only [Option.elim_some] at h ⊢
      rw [← h3]
      obtain ⟨e1, e2⟩ := (A (p.sig :: l)).congr p.oracle p'.oracle (fun x hx => h4 x (h x (Or.inr hx))) fun d hd => by
          have := h' d hd
          unfold ask at this ⊢
          split_ifs with hl
          · rw [dif_pos hl, dif_pos hl] at this
            exact h4 _ this
          · rfl
      rw [e1, e2]
      exact ⟨rfl, rfl⟩

theorem withSim_len (b : Prop) (a : Answers I M) {A : List Bytes → Local N M I Prop} {Q : ℕ} (hA : ∀ l O, ((A l).asked O).length ≤ Q) (l : List Bytes)
    (O : Oracle N M) : ((withSim sk ct pt msg b a A l).asked O).length ≤ 9 * I.T + Q := by
  simp only [withSim, List.length_append]
  refine add_le_add (le_trans (toArgs_len _) (le_of_eq (seedTexts_len a))) ?_
  cases sim I O a ct pt msg with
  | none => simp
  | some l => exact hA _ _

end Picnic.Rom
