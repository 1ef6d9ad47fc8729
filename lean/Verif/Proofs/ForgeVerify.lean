import Verif.Proofs.ForgeProc
import Verif.Proofs.ForgeSound
import Verif.Proofs.Binding1

/-
C63: the strings that a verifier hashes.
-/

namespace Picnic.Rom

open Spec Spec.Zkb Spec.Rom Spec.Picnic1 Spec.Challenge

variable {N M : ℕ} {I : Inst} {O O' : Oracle N M} {ct pt msg sig salt : Bytes} {t : ℕ}

/-! ### Reading signatures -/

variable (I) in
structure Parsed (sig : Bytes) (e : List ℕ) (salt : Bytes) (o : ℕ → Opening) : Prop where
  eq : sig = I.encode e salt o
  salt : salt.length = 32
  len : e.length = I.T
  lt : ∀ v ∈ e, v < 3
  fits : ∀ t < I.T, I.Fits (e.getD t 0) (o t)

theorem opening_inj {e : ℕ} {o o' : Opening} (h : I.Fits e o) (h' : I.Fits e o') (he : o.encode = o'.encode) : o = o' := by
  unfold Opening.encode at he
  obtain ⟨he, e6⟩ := List.append_inj' he (by rw [h.key, h'.key])
  obtain ⟨he, e5⟩ := List.append_inj' he (by rw [h.seed1, h'.seed1])
  obtain ⟨he, e4⟩ := List.append_inj' he (by rw [h.seed0, h'.seed0])
  obtain ⟨he, e3⟩ := List.append_inj' he (by rw [h.gates, h'.gates])
  obtain ⟨e1, e2⟩ := List.append_inj' he (by rw [h.g, h'.g])
  cases o
  cases o'
  simp_all

theorem opening_len {e : ℕ} {o o' : Opening} (h : I.Fits e o) (h' : I.Fits e o') : o.encode.length = o'.encode.length := by
  unfold Opening.encode
  simp only [List.length_append]
  rw [h.key, h'.key, h.seed1, h'.seed1, h.seed0, h'.seed0, h.gates, h'.gates, h.g, h'.g, h.com, h'.com]

theorem parsed_unique {e e' : List ℕ} {salt salt' : Bytes} {o o' : ℕ → Opening} (h : Parsed I sig e salt o) (h' : Parsed I sig e' salt' o') :
    e = e' ∧ salt = salt' ∧ ∀ t < I.T, o t = o' t := by
  have he := h.eq.symm.trans h'.eq
  unfold Inst.encode at he
  rw [List.append_assoc, List.append_assoc] at he
  obtain ⟨e1, e2⟩ := List.append_inj he (by rw [encodeChallenge_length, encodeChallenge_length])
  obtain ⟨e3, e4⟩ := List.append_inj e2 (by rw [h.salt, h'.salt])
  have e5 := encodeChallenge_inj h.len h'.len h.lt h'.lt e1
  subst e5
  refine ⟨rfl, e3, fun t ht => ?_⟩
  have hs := fun n (hn : n ≤ I.T) => show ∀ t < n, (o t).encode = (o' t).encode by
    have hp : (List.range n).flatMap (fun t => (o t).encode) = (List.range n).flatMap (fun t => (o' t).encode) := by
      obtain ⟨k, hk⟩ := Nat.exists_eq_add_of_le hn
      rw [hk, List.range_add, List.flatMap_append, List.flatMap_append] at e4
      refine (List.append_inj e4 ?_).1
      rw [List.length_flatMap, List.length_flatMap]
      congr 1
      exact List.map_congr_left fun t ht => opening_len (h.fits t (by have := List.mem_range.1 ht; omega)) (h'.fits t (by have := List.mem_range.1 ht; omega))
    clear e4 ht
    induction n with
    | zero => intro t ht; omega
    | succ n ih =>
      rw [List.range_succ, List.flatMap_append, List.flatMap_append] at hp
      obtain ⟨h1, h2⟩ := List.append_inj' hp (by simp only [List.flatMap_singleton]; exact opening_len (h.fits n hn) (h'.fits n hn))
      intro t ht
      by_cases htn : t = n
      · subst htn
        simpa only [List.flatMap_singleton] using h2
      · exact ih (by omega) h1 t (by omega)
  exact opening_inj (h.fits t ht) (h'.fits t ht) (hs I.T le_rfl t ht)

open Classical in
variable (I) in
/-- Reading a signature. -/
noncomputable def parse (sig : Bytes) : Option (List ℕ × Bytes × (ℕ → Opening)) :=
  if h : ∃ x : List ℕ × Bytes × (ℕ → Opening), Parsed I sig x.1 x.2.1 x.2.2 then some h.choose else none

theorem parse_some {x : List ℕ × Bytes × (ℕ → Opening)} (h : parse I sig = some x) : Parsed I sig x.1 x.2.1 x.2.2 := by
  unfold parse at h
  split_ifs at h with h1
  obtain rfl := Option.some.inj h
  exact h1.choose_spec

theorem parse_of {e : List ℕ} {o : ℕ → Opening} (h : Parsed I sig e salt o) : ∃ o', parse I sig = some (e, salt, o') ∧ ∀ t < I.T, o' t = o t := by
  have h1 : ∃ x : List ℕ × Bytes × (ℕ → Opening), Parsed I sig x.1 x.2.1 x.2.2 := ⟨(e, salt, o), h⟩
  obtain ⟨e1, e2, e3⟩ := parsed_unique h1.choose_spec h
  refine ⟨h1.choose.2.2, ?_, e3⟩
  unfold parse
  rw [dif_pos h1]
  refine congrArg some ?_
  rw [← e1, ← e2]

/-! ### Opened views -/

theorem toBits_of_pad {n : ℕ} {b : Bytes} (h : ZeroPad n b) (hl : b.length ≤ bytesFor n) {i : ℕ} (hi : n ≤ i) : toBits b i = 0 := by
  by_cases h1 : i < 8 * bytesFor n
  · have := h i hi h1
    unfold Picnic1.toBits
    rw [this]
    rfl
  · exact toBits_ge (by omega)

theorem openedBy_unique {p : ℕ} (hI : I.Is p) {e : ℕ} {o : Opening} {a b a' b' : Picnic1.View} (h : OpenedBy I O pt salt t e o a b) (h' : OpenedBy I O pt salt t e o a' b') :
    a = a' ∧ b = b' := by
  have hs := (rom_sizes hI).1
  have k1 : a.key = a'.key := h.key0.trans h'.key0.symm
  have k2 : b.key = b'.key := h.key1.trans h'.key1.symm
  have s1 : a.seed = a'.seed := h.seed0.trans h'.seed0.symm
  have s2 : b.seed = b'.seed := h.seed1.trans h'.seed1.symm
  have g2 : b.gates = b'.gates := h.gates1.trans h'.gates1.symm
  have eb : bitViewOf I O salt t ((e + 1) % 3) b = bitViewOf I O salt t ((e + 1) % 3) b' := by
    unfold bitViewOf
    rw [k2, s2, g2]
  have hb : b = b' := by
    have := h.out1
    rw [eb, ← h'.out1] at this
    cases b
    cases b'
    simp_all
  have hc' := h'.consistent
  rw [← eb] at hc'
  have hg := consistent_unique hs.m (fun i _ => by simp [bitViewOf, k1]) (fun p _ => by simp [bitViewOf, s1]) ⟨fun _ _ => rfl, fun _ _ => rfl, fun _ _ => rfl⟩ h.consistent hc'
  have g1 : a.gates = a'.gates := by
    refine buf_ext (h.gates0.trans h'.gates0.symm) fun i _ => ?_
    rw [← toBits_eq, ← toBits_eq]
    by_cases hi : i < 3 * I.X.m * I.X.r
    · exact hg i hi
    · rw [toBits_of_pad h.pad0 (le_of_eq h.gates0) (by omega), toBits_of_pad h'.pad0 (le_of_eq h'.gates0) (by omega)]
  refine ⟨?_, hb⟩
  have ea : bitViewOf I O salt t e a = bitViewOf I O salt t e a' := by
    unfold bitViewOf
    rw [k1, s1, g1]
  have := h.out0
  rw [ea, ← h'.out0] at this
  cases a
  cases a'
  simp_all

open Classical in
variable (I O pt) in
/-- The opened views. -/
noncomputable def openOf (salt : Bytes) (t e : ℕ) (o : Opening) : Option (Picnic1.View × Picnic1.View) :=
  if h : ∃ x : Picnic1.View × Picnic1.View, OpenedBy I O pt salt t e o x.1 x.2 then some h.choose else none

theorem openOf_some {p : ℕ} (hI : I.Is p) {e : ℕ} {o : Opening} {a b : Picnic1.View} (h : OpenedBy I O pt salt t e o a b) : openOf I O pt salt t e o = some (a, b) := by
  have h1 : ∃ x : Picnic1.View × Picnic1.View, OpenedBy I O pt salt t e o x.1 x.2 := ⟨(a, b), h⟩
  unfold openOf
  rw [dif_pos h1]
  obtain ⟨e1, e2⟩ := openedBy_unique hI h1.choose_spec h
  exact congrArg some (Prod.ext e1 e2)

theorem openOf_spec {e : ℕ} {o : Opening} {x : Picnic1.View × Picnic1.View} (h : openOf I O pt salt t e o = some x) : OpenedBy I O pt salt t e o x.1 x.2 := by
  unfold openOf at h
  split_ifs at h with h1
  obtain rfl := Option.some.inj h
  exact h1.choose_spec

/-! ### The strings -/

variable (N) in
/-- The strings that can be asked for. -/
def args (l : List Bytes) : List (Arg N) := l.filterMap fun x => if h : x.length ≤ N then some ⟨x, h⟩ else none

theorem args_len (l : List Bytes) : (args N l).length ≤ l.length := List.length_filterMap_le _ _

theorem mem_args {l : List Bytes} {x : Arg N} (h : x.1 ∈ l) : x ∈ args N l := by
  unfold args
  rw [List.mem_filterMap]
  exact ⟨x.1, h, by rw [dif_pos x.2]⟩

theorem of_mem_args {l : List Bytes} {x : Arg N} (h : x ∈ args N l) : x.1 ∈ l := by
  unfold args at h
  rw [List.mem_filterMap] at h
  obtain ⟨y, hy, h⟩ := h
  split_ifs at h
  obtain rfl := Option.some.inj h
  exact hy

theorem ask_args {l : List Bytes} (h : ∀ x ∈ args N l, O' x = O x) {x : Bytes} (hx : x ∈ l) : ask O' x = ask O x := by
  unfold ask
  split_ifs with hl
  · exact h ⟨x, hl⟩ (mem_args hx)
  · rfl

variable (I) in
def seedStrs (o : Opening) : List Bytes :=
  [Use.text (T := I.T) I (.tapeSeed o.seed0), Use.text (T := I.T) I (.tapeSeed o.seed1), Use.text (T := I.T) I (.comSeed o.seed0),
    Use.text (T := I.T) I (.comSeed o.seed1), Use.text (T := I.T) I (.gSeed o.seed0), Use.text (T := I.T) I (.gSeed o.seed1)]

variable (I O) in
def tapeStr (s salt : Bytes) (t j : ℕ) : Bytes := Use.text (T := I.T) I (.tape (hashUse I O (.tapeSeed s) I.digest) salt t j (tapeLen I j))

variable (I O) in
def gStr (j : ℕ) (v : Picnic1.View) : Bytes :=
  Use.text (T := I.T) I (.g (hashUse I O (.gSeed v.seed) I.digest) (if j = 2 then some v.key else none) v.gates)

variable (I) in
/-- Stage 1: the seeds. -/
noncomputable def strs1 (sig : Bytes) : List Bytes :=
  match parse I sig with
  | none => []
  | some (_, _, o) => (List.range I.T).flatMap fun t => seedStrs I (o t)

variable (I O) in
/-- Stage 2: the tapes. -/
noncomputable def strs2 (sig : Bytes) : List Bytes :=
  match parse I sig with
  | none => []
  | some (e, salt, o) => (List.range I.T).flatMap fun t => [tapeStr I O (o t).seed0 salt t (e.getD t 0), tapeStr I O (o t).seed1 salt t ((e.getD t 0 + 1) % 3)]

variable (I O) in
def viewStrs (e : ℕ) : Option (Picnic1.View × Picnic1.View) → List Bytes
  | none => []
  | some x => [viewText I O x.1, viewText I O x.2] ++ if I.unruh then [gStr I O e x.1, gStr I O ((e + 1) % 3) x.2] else []

variable (I O pt) in
/-- Stage 3: commitments and G. -/
noncomputable def strs3 (sig : Bytes) : List Bytes :=
  match parse I sig with
  | none => []
  | some (e, salt, o) => (List.range I.T).flatMap fun t => viewStrs I O (e.getD t 0) (openOf I O pt salt t (e.getD t 0) (o t))

def emptyView : Picnic1.View := ⟨[], [], [], []⟩

variable (I O ct pt) in
/-- Stage 4: the challenge. -/
noncomputable def strs4 (msg sig : Bytes) : List Bytes :=
  open Classical in
  match parse I sig with
  | none => []
  | some (e, salt, o) =>
    if ∀ t < I.T, openOf I O pt salt t (e.getD t 0) (o t) ≠ none then
      [challengeText I O ct pt msg e salt o (fun t => ((openOf I O pt salt t (e.getD t 0) (o t)).getD (emptyView, emptyView)).1)
        fun t => ((openOf I O pt salt t (e.getD t 0) (o t)).getD (emptyView, emptyView)).2]
    else []

theorem len1 (sig : Bytes) : (strs1 I sig).length ≤ 6 * I.T := by
  unfold strs1
  split
  · simp
  · rw [List.length_flatMap]
    simp [seedStrs, mul_comm]

theorem len2 (sig : Bytes) : (strs2 I O sig).length ≤ 2 * I.T := by
  unfold strs2
  split
  · simp
  · rw [List.length_flatMap]
    simp [mul_comm]

theorem viewStrs_len (e : ℕ) (x : Option (Picnic1.View × Picnic1.View)) : (viewStrs I O e x).length ≤ 4 := by
  cases x
  · simp [viewStrs]
  · unfold viewStrs
    split_ifs <;> simp

theorem len3 (sig : Bytes) : (strs3 I O pt sig).length ≤ 4 * I.T := by
  unfold strs3
  split
  · simp
  · rw [List.length_flatMap]
    refine le_trans (List.sum_le_card_nsmul _ 4 ?_) (by simp [mul_comm])
    intro x hx
    obtain ⟨t, -, rfl⟩ := List.mem_map.1 hx
    exact viewStrs_len _ _

theorem len4 (msg sig : Bytes) : (strs4 I O ct pt msg sig).length ≤ 1 := by
  unfold strs4
  split
  · simp
  · split_ifs <;> simp

theorem hashUse_congr {u : Use I.T} {n : ℕ} (h : ask O' (Use.text I u) = ask O (Use.text I u)) : hashUse I O' u n = hashUse I O u n := by
  unfold hashUse Rom.hash
  rw [h]

theorem strs2_congr (h1 : ∀ x ∈ strs1 I sig, ask O' x = ask O x) : strs2 I O' sig = strs2 I O sig := by
  unfold strs1 at h1
  unfold strs2
  split
  · rfl
  · rename_i e salt o hp
    rw [hp] at h1
    dsimp only at h1
    refine List.flatMap_congr fun t ht => ?_
    unfold tapeStr
    rw [hashUse_congr (O' := O') (O := O) (u := .tapeSeed (o t).seed0) (h1 _ (List.mem_flatMap.2 ⟨t, ht, by simp [seedStrs]⟩)),
      hashUse_congr (O' := O') (O := O) (u := .tapeSeed (o t).seed1) (h1 _ (List.mem_flatMap.2 ⟨t, ht, by simp [seedStrs]⟩))]

/-- The tape of an opened party. -/
theorem tapeOf_congr {s : Bytes} {j : ℕ} (h1 : ask O' (Use.text (T := I.T) I (.tapeSeed s)) = ask O (Use.text (T := I.T) I (.tapeSeed s)))
    (h2 : ask O' (tapeStr I O s salt t j) = ask O (tapeStr I O s salt t j)) : tapeOf I O' s salt t j (tapeLen I j) = tapeOf I O s salt t j (tapeLen I j) := by
  unfold tapeOf
  rw [hashUse_congr h1]
  exact hashUse_congr h2

theorem keyShareOf_congr {s : Bytes} {j : ℕ} (hj : j ≠ 2) (h : tapeOf I O' s salt t j (tapeLen I j) = tapeOf I O s salt t j (tapeLen I j)) :
    keyShareOf I O' s salt t j = keyShareOf I O s salt t j := by
  unfold tapeLen at h
  rw [if_neg hj] at h
  unfold keyShareOf
  rw [h]

theorem gateTapeOf_congr {s : Bytes} {j : ℕ} (h : tapeOf I O' s salt t j (tapeLen I j) = tapeOf I O s salt t j (tapeLen I j)) :
    gateTapeOf I O' s salt t j = gateTapeOf I O s salt t j := by
  unfold tapeLen at h
  unfold gateTapeOf
  split_ifs at h ⊢ with hj
  · subst hj
    exact h
  · rw [h]

theorem openedBy_congr {e : ℕ} {o : Opening} (h0 : tapeOf I O' o.seed0 salt t e (tapeLen I e) = tapeOf I O o.seed0 salt t e (tapeLen I e))
    (h1 : tapeOf I O' o.seed1 salt t ((e + 1) % 3) (tapeLen I ((e + 1) % 3)) = tapeOf I O o.seed1 salt t ((e + 1) % 3) (tapeLen I ((e + 1) % 3)))
    (he : e < 3) {a b : Picnic1.View} (h : OpenedBy I O pt salt t e o a b) : OpenedBy I O' pt salt t e o a b := by
  have ha : bitViewOf I O' salt t e a = bitViewOf I O salt t e a := by
    unfold bitViewOf
    rw [h.seed0, gateTapeOf_congr h0]
  have hb : bitViewOf I O' salt t ((e + 1) % 3) b = bitViewOf I O salt t ((e + 1) % 3) b := by
    unfold bitViewOf
    rw [h.seed1, gateTapeOf_congr h1]
  refine ⟨h.seed0, h.seed1, ?_, ?_, h.gates0, h.pad0, h.gates1, ?_, ?_, ?_⟩
  · rw [h.key0]
    split_ifs with h2
    · rfl
    · rw [keyShareOf_congr h2 h0]
  · rw [h.key1]
    split_ifs with h2
    · rfl
    · rw [keyShareOf_congr (by omega) h1]
  · rw [ha, hb]
    exact h.consistent
  · rw [ha]
    exact h.out0
  · rw [hb]
    exact h.out1

theorem tapes_congr {e : List ℕ} {o : ℕ → Opening} (hp : parse I sig = some (e, salt, o)) (h1 : ∀ x ∈ strs1 I sig, ask O' x = ask O x) (h2 : ∀ x ∈ strs2 I O sig, ask O' x = ask O x)
    (ht : t < I.T) : tapeOf I O' (o t).seed0 salt t (e.getD t 0) (tapeLen I (e.getD t 0)) = tapeOf I O (o t).seed0 salt t (e.getD t 0) (tapeLen I (e.getD t 0)) ∧
    tapeOf I O' (o t).seed1 salt t ((e.getD t 0 + 1) % 3) (tapeLen I ((e.getD t 0 + 1) % 3)) = tapeOf I O (o t).seed1 salt t ((e.getD t 0 + 1) % 3) (tapeLen I ((e.getD t 0 + 1) % 3)) := by
  unfold strs1 at h1
  unfold strs2 at h2
  rw [hp] at h1 h2
  dsimp only at h1 h2
  constructor
  · exact tapeOf_congr (h1 _ (List.mem_flatMap.2 ⟨t, List.mem_range.2 ht, by simp [seedStrs]⟩)) (h2 _ (List.mem_flatMap.2 ⟨t, List.mem_range.2 ht, by simp⟩))
  · exact tapeOf_congr (h1 _ (List.mem_flatMap.2 ⟨t, List.mem_range.2 ht, by simp [seedStrs]⟩)) (h2 _ (List.mem_flatMap.2 ⟨t, List.mem_range.2 ht, by simp⟩))

theorem opened_iff {e : List ℕ} {o : ℕ → Opening} (hp : parse I sig = some (e, salt, o)) (h1 : ∀ x ∈ strs1 I sig, ask O' x = ask O x) (h2 : ∀ x ∈ strs2 I O sig, ask O' x = ask O x)
    (ht : t < I.T) (a b : Picnic1.View) : OpenedBy I O' pt salt t (e.getD t 0) (o t) a b ↔ OpenedBy I O pt salt t (e.getD t 0) (o t) a b := by
  have he : e.getD t 0 < 3 := getD_lt (parse_some hp).lt t
  obtain ⟨e1, e2⟩ := tapes_congr hp h1 h2 ht
  exact ⟨openedBy_congr e1.symm e2.symm he, openedBy_congr e1 e2 he⟩

theorem openOf_congr {e : List ℕ} {o : ℕ → Opening} (hp : parse I sig = some (e, salt, o)) (h1 : ∀ x ∈ strs1 I sig, ask O' x = ask O x) (h2 : ∀ x ∈ strs2 I O sig, ask O' x = ask O x)
    (ht : t < I.T) : openOf I O' pt salt t (e.getD t 0) (o t) = openOf I O pt salt t (e.getD t 0) (o t) := by
  unfold openOf
  refine pick_congr ?_
  funext x
  exact propext (opened_iff hp h1 h2 ht x.1 x.2)

/-- The strings of an opened view. -/
theorem viewText_congr {v : Picnic1.View} (h : ask O' (Use.text (T := I.T) I (.comSeed v.seed)) = ask O (Use.text (T := I.T) I (.comSeed v.seed))) :
    viewText I O' v = viewText I O v := by
  unfold viewText
  rw [hashUse_congr h]

theorem gStr_congr {v : Picnic1.View} {j : ℕ} (h : ask O' (Use.text (T := I.T) I (.gSeed v.seed)) = ask O (Use.text (T := I.T) I (.gSeed v.seed))) :
    gStr I O' j v = gStr I O j v := by
  unfold gStr
  rw [hashUse_congr h]

theorem mem_strs1 {e : List ℕ} {o : ℕ → Opening} (hp : parse I sig = some (e, salt, o)) (ht : t < I.T) {x : Bytes} (hx : x ∈ seedStrs I (o t)) : x ∈ strs1 I sig := by
  unfold strs1
  rw [hp]
  exact List.mem_flatMap.2 ⟨t, List.mem_range.2 ht, hx⟩

theorem strs3_congr (h1 : ∀ x ∈ strs1 I sig, ask O' x = ask O x) (h2 : ∀ x ∈ strs2 I O sig, ask O' x = ask O x) : strs3 I O' pt sig = strs3 I O pt sig := by
  unfold strs3
  split
  · rfl
  · rename_i e salt o hp
    refine List.flatMap_congr fun t ht => ?_
    have ht := List.mem_range.1 ht
    rw [openOf_congr hp h1 h2 ht]
    cases hx : openOf I O pt salt t (e.getD t 0) (o t) with
    | none => rfl
    | some x =>
      have hO := openOf_spec hx
      unfold viewStrs
      dsimp only
      rw [viewText_congr (O' := O') (O := O) (v := x.1) (by rw [hO.seed0]; exact h1 _ (mem_strs1 hp ht (by simp [seedStrs]))),
        viewText_congr (O' := O') (O := O) (v := x.2) (by rw [hO.seed1]; exact h1 _ (mem_strs1 hp ht (by simp [seedStrs]))),
        gStr_congr (O' := O') (O := O) (v := x.1) (by rw [hO.seed0]; exact h1 _ (mem_strs1 hp ht (by simp [seedStrs]))),
        gStr_congr (O' := O') (O := O) (v := x.2) (by rw [hO.seed1]; exact h1 _ (mem_strs1 hp ht (by simp [seedStrs])))]

theorem mem_strs3 {p : ℕ} (hI : I.Is p) {e : List ℕ} {o : ℕ → Opening} (hp : parse I sig = some (e, salt, o)) (ht : t < I.T) {a b : Picnic1.View}
    (h : OpenedBy I O pt salt t (e.getD t 0) (o t) a b) : viewText I O a ∈ strs3 I O pt sig ∧ viewText I O b ∈ strs3 I O pt sig ∧
    (I.unruh = true → gStr I O (e.getD t 0) a ∈ strs3 I O pt sig ∧ gStr I O ((e.getD t 0 + 1) % 3) b ∈ strs3 I O pt sig) := by
  have key : ∀ x ∈ viewStrs I O (e.getD t 0) (some (a, b)), x ∈ strs3 I O pt sig := by
    intro x hx
    unfold strs3
    rw [hp]
    refine List.mem_flatMap.2 ⟨t, List.mem_range.2 ht, ?_⟩
    rwa [openOf_some hI h]
  unfold viewStrs at key
  exact ⟨key _ (by simp), key _ (by simp), fun hu => ⟨key _ (by simp [hu]), key _ (by simp [hu])⟩⟩

theorem commits_congr {p : ℕ} (hI : I.Is p) {e : List ℕ} {o : ℕ → Opening} (hp : parse I sig = some (e, salt, o))
    (h1 : ∀ x ∈ strs1 I sig, ask O' x = ask O x) (h3 : ∀ x ∈ strs3 I O pt sig, ask O' x = ask O x) (ht : t < I.T) {a b : Picnic1.View}
    (h : OpenedBy I O pt salt t (e.getD t 0) (o t) a b) : Rom.commitOf I O' a = Rom.commitOf I O a ∧ Rom.commitOf I O' b = Rom.commitOf I O b ∧
      (I.unruh = true → Rom.gOf I O' (e.getD t 0) a = Rom.gOf I O (e.getD t 0) a ∧ Rom.gOf I O' ((e.getD t 0 + 1) % 3) b = Rom.gOf I O ((e.getD t 0 + 1) % 3) b) := by
  obtain ⟨m1, m2, m3⟩ := mem_strs3 hI hp ht h
  have c0 : ask O' (Use.text (T := I.T) I (.comSeed a.seed)) = ask O (Use.text (T := I.T) I (.comSeed a.seed)) := by
    rw [h.seed0]
    exact h1 _ (mem_strs1 hp ht (by simp [seedStrs]))
  have c1 : ask O' (Use.text (T := I.T) I (.comSeed b.seed)) = ask O (Use.text (T := I.T) I (.comSeed b.seed)) := by
    rw [h.seed1]
    exact h1 _ (mem_strs1 hp ht (by simp [seedStrs]))
  have g0 : ask O' (Use.text (T := I.T) I (.gSeed a.seed)) = ask O (Use.text (T := I.T) I (.gSeed a.seed)) := by
    rw [h.seed0]
    exact h1 _ (mem_strs1 hp ht (by simp [seedStrs]))
  have g1 : ask O' (Use.text (T := I.T) I (.gSeed b.seed)) = ask O (Use.text (T := I.T) I (.gSeed b.seed)) := by
    rw [h.seed1]
    exact h1 _ (mem_strs1 hp ht (by simp [seedStrs]))
  have k : ∀ x, ask O' x = ask O x → ∀ n, Rom.hash O' x n = Rom.hash O x n := fun x hx n => by unfold Rom.hash; rw [hx]
  refine ⟨?_, ?_, fun hu => ⟨?_, ?_⟩⟩
  · unfold Rom.commitOf
    rw [viewText_congr c0, k _ (h3 _ m1)]
  · unfold Rom.commitOf
    rw [viewText_congr c1, k _ (h3 _ m2)]
  · have := gStr_congr (j := e.getD t 0) g0
    have h4 := k _ (h3 _ (m3 hu).1) (I.gLen (e.getD t 0))
    unfold gStr at this h4
    unfold Rom.gOf
    rw [hashUse, this, h4]
    rfl
  · have := gStr_congr (j := (e.getD t 0 + 1) % 3) g1
    have h4 := k _ (h3 _ (m3 hu).2) (I.gLen ((e.getD t 0 + 1) % 3))
    unfold gStr at this h4
    unfold Rom.gOf
    rw [hashUse, this, h4]
    rfl

theorem text_challenge_congr {outs outs' coms coms' : Fin I.T → Fin 3 → Bytes} {gs gs' : Option (Fin I.T → Fin 3 → Bytes)} (h1 : outs = outs') (h2 : coms = coms') (h3 : gs = gs') :
    Use.text I (.challenge outs coms gs ct pt salt msg) = Use.text I (.challenge outs' coms' gs' ct pt salt msg) := by
  rw [h1, h2, h3]

/-- The string for the challenge. -/
theorem challengeText_congr {p : ℕ} (hI : I.Is p) {e : List ℕ} {o o' : ℕ → Opening} (hp : parse I sig = some (e, salt, o)) (ho : ∀ t < I.T, o' t = o t)
    (h1 : ∀ x ∈ strs1 I sig, ask O' x = ask O x) (h3 : ∀ x ∈ strs3 I O pt sig, ask O' x = ask O x) {a b a' b' : ℕ → Picnic1.View}
    (h : ∀ t < I.T, OpenedBy I O pt salt t (e.getD t 0) (o t) (a t) (b t)) (ha : ∀ t < I.T, a' t = a t) (hb : ∀ t < I.T, b' t = b t) :
    challengeText I O' ct pt msg e salt o' a' b' = challengeText I O ct pt msg e salt o a b := by
  have hc := fun (t : ℕ) (ht : t < I.T) => commits_congr hI hp h1 h3 ht (h t ht)
  unfold challengeText
  refine text_challenge_congr ?_ ?_ ?_
  · funext t j
    rw [ha t t.2, hb t t.2]
  · funext t j
    obtain ⟨c1, c2, -⟩ := hc t t.2
    rw [ha t t.2, hb t t.2, c1, c2, ho t t.2]
  · split_ifs with hu
    · refine congrArg some ?_
      funext t j
      obtain ⟨c3, c4⟩ := (hc t t.2).2.2 hu
      rw [ha t t.2, hb t t.2, c3, c4, ho t t.2]
    · rfl

theorem strs4_congr {p : ℕ} (hI : I.Is p) (h1 : ∀ x ∈ strs1 I sig, ask O' x = ask O x) (h2 : ∀ x ∈ strs2 I O sig, ask O' x = ask O x) (h3 : ∀ x ∈ strs3 I O pt sig, ask O' x = ask O x) :
    strs4 I O' ct pt msg sig = strs4 I O ct pt msg sig := by
  classical
  unfold strs4
  split
  · rfl
  · rename_i e salt o hp
    have hop : ∀ t < I.T, openOf I O' pt salt t (e.getD t 0) (o t) = openOf I O pt salt t (e.getD t 0) (o t) := fun t ht => openOf_congr hp h1 h2 ht
    by_cases hall : ∀ t < I.T, openOf I O pt salt t (e.getD t 0) (o t) ≠ none
    · rw [if_pos hall, if_pos fun t ht => by rw [hop t ht]; exact hall t ht]
      refine congrArg (fun x => [x]) (challengeText_congr hI hp (fun _ _ => rfl) h1 h3 (fun t ht => ?_) (fun t ht => ?_) fun t ht => ?_)
      · obtain ⟨x, hx⟩ := Option.ne_none_iff_exists'.1 (hall t ht)
        rw [hx]
        exact openOf_spec hx
      · rw [hop t ht]
      · rw [hop t ht]
    · rw [if_neg hall, if_neg fun h => hall fun t ht => by rw [← hop t ht]; exact h t ht]

theorem mem_strs4 {p : ℕ} (hI : I.Is p) {e : List ℕ} {o o' : ℕ → Opening} (hp : parse I sig = some (e, salt, o)) (ho : ∀ t < I.T, o' t = o t) {a b : ℕ → Picnic1.View}
    (h : ∀ t < I.T, OpenedBy I O pt salt t (e.getD t 0) (o t) (a t) (b t)) : challengeText I O ct pt msg e salt o' a b ∈ strs4 I O ct pt msg sig := by
  classical
  have hop : ∀ t < I.T, openOf I O pt salt t (e.getD t 0) (o t) = some (a t, b t) := fun t ht => openOf_some hI (h t ht)
  unfold strs4
  rw [hp]
  dsimp only
  rw [if_pos fun t ht => by rw [hop t ht]; exact Option.some_ne_none _, List.mem_singleton]
  refine challengeText_congr hI hp ho (fun _ _ => rfl) (fun _ _ => rfl) (fun t ht => ?_) (fun t ht => ?_) fun t ht => ?_
  · rw [hop t ht]
    exact h t ht
  · rw [hop t ht]
    rfl
  · rw [hop t ht]
    rfl

theorem isChallenge_congr (h : ∀ d : Bytes, d.length = I.digest → ask O (Use.text (T := I.T) I (.next d)) = ask O' (Use.text (T := I.T) I (.next d)))
    {d : Bytes} (hd : d.length = I.digest) (e : List ℕ) : IsChallenge I.T (fun d => hashUse I O (.next d) I.digest) d e ↔ IsChallenge I.T (fun d => hashUse I O' (.next d) I.digest) d e := by
  have hs : ∀ n, ∀ d : Bytes, d.length = I.digest → stream (fun d => hashUse I O (.next d) I.digest) d n = stream (fun d => hashUse I O' (.next d) I.digest) d n := by
    intro n
    induction n with
    | zero => intro d _; simp only [stream]
    | succ n ih =>
      intro d hd
      simp only [stream]
      rw [hashUse_congr (O' := O') (O := O) (u := .next d) (h d hd).symm, ih (hashUse I O (.next d) I.digest) (hash_len' _ _ _)]
  unfold IsChallenge
  simp only [hs _ d hd]

theorem isChallenge_facts {next : Bytes → Bytes} {d : Bytes} {e : List ℕ} (h : IsChallenge I.T next d e) : e.length = I.T ∧ ∀ v ∈ e, v < 3 := by
  obtain ⟨n, h1, rfl⟩ := h
  exact ⟨by rw [List.length_take]; omega, fun v hv => stream_lt (List.mem_of_mem_take hv)⟩

theorem parsed_of {a b : ℕ → Picnic1.View} (h : ValidBy I O ct pt msg sig a b) : ∃ (e : List ℕ) (salt : Bytes) (o o' : ℕ → Opening),
    parse I sig = some (e, salt, o') ∧ (∀ t < I.T, o' t = o t) ∧ sig = I.encode e salt o ∧ salt.length = 32 ∧
    (∀ t < I.T, I.Fits (e.getD t 0) (o t) ∧ (e.getD t 0 ≠ 0 → ZeroPad I.X.n (o t).key) ∧ OpenedBy I O pt salt t (e.getD t 0) (o t) (a t) (b t)) ∧
    IsChallenge I.T (fun d => hashUse I O (.next d) I.digest) (Rom.hash O (challengeText I O ct pt msg e salt o a b) I.digest) e := by
  obtain ⟨e, salt, o, h1, h2, h3, h4⟩ := h
  obtain ⟨hl, hlt⟩ := isChallenge_facts h4
  obtain ⟨o', e1, e2⟩ := parse_of ⟨h1, h2, hl, hlt, fun t ht => (h3 t ht).1⟩
  exact ⟨e, salt, o, o', e1, e2, h1, h2, h3, h4⟩

/-- Validity depends only on these strings and on the chain of digests. -/
theorem validBy_congr {p : ℕ} (hI : I.Is p) (h1 : ∀ x ∈ strs1 I sig, ask O' x = ask O x) (h2 : ∀ x ∈ strs2 I O sig, ask O' x = ask O x) (h3 : ∀ x ∈ strs3 I O pt sig, ask O' x = ask O x)
    (h4 : ∀ x ∈ strs4 I O ct pt msg sig, ask O' x = ask O x)
    (hn : ∀ d : Bytes, d.length = I.digest → ask O (Use.text (T := I.T) I (.next d)) = ask O' (Use.text (T := I.T) I (.next d))) {a b : ℕ → Picnic1.View}
    (h : ValidBy I O ct pt msg sig a b) : ValidBy I O' ct pt msg sig a b := by
  obtain ⟨e, salt, o, o', hp, ho, g1, g2, g3, g4⟩ := parsed_of h
  have hop : ∀ t < I.T, OpenedBy I O pt salt t (e.getD t 0) (o' t) (a t) (b t) := fun t ht => by
    rw [ho t ht]
    exact (g3 t ht).2.2
  refine ⟨e, salt, o, g1, g2, fun t ht => ⟨(g3 t ht).1, (g3 t ht).2.1, ?_⟩, ?_⟩
  · have := (opened_iff hp h1 h2 ht (a t) (b t)).2 (hop t ht)
    rwa [ho t ht] at this
  · rw [← isChallenge_congr hn (hash_len' _ _ _)]
    have hc : challengeText I O' ct pt msg e salt o a b = challengeText I O ct pt msg e salt o a b :=
      (challengeText_congr hI hp (fun t ht => (ho t ht).symm) h1 h3 hop (fun _ _ => rfl) fun _ _ => rfl).trans
        (challengeText_congr hI hp (fun t ht => (ho t ht).symm) (fun _ _ => rfl) (fun _ _ => rfl) hop (fun _ _ => rfl) fun _ _ => rfl).symm
    have hm : challengeText I O ct pt msg e salt o a b ∈ strs4 I O ct pt msg sig := mem_strs4 hI hp (fun t ht => (ho t ht).symm) hop
    rw [hc]
    have : Rom.hash O' (challengeText I O ct pt msg e salt o a b) I.digest = Rom.hash O (challengeText I O ct pt msg e salt o a b) I.digest := by
      unfold Rom.hash
      rw [h4 _ hm]
    rwa [this]

end Picnic.Rom
