import Verif.Proofs.AdaptBound

/-
C65: another signature with the string for the challenge of a simulated signature.
-/

namespace Picnic.Rom

open Spec Spec.Zkb Spec.Rom Spec.Picnic1 Spec.Challenge

variable {N M : ℕ} {I : Inst} {sk ct pt : Bytes} {k q : ℕ} {O : Oracle N M}

/-! ### What has the digest of a chosen value -/

theorem lazy_shown {n : ℕ} {hI : I.Is n} {hct : ct.length = I.blk} {hpt : pt.length = I.blk} {hN : I.digest + 1 ≤ N} {a : Fin k → Answers I M} {ha : Digests a}
    {P : Player N M (Bytes × Bytes)} {hA : ∀ O O', (((lazyBase hI hct hpt hN a ha P).adv O).asked O').length ≤ q} (hc : ¬ ((lazyBase hI hct hpt hN a ha P).world hI hA).Clash O)
    {x : Bytes} (hx : x ∈ ((lazyBase hI hct hpt hN a ha P).world hI hA).All O) {i : Fin k} {u : Query I.T I.unruh}
    (hv : Rom.hash ((lazyBase hI hct hpt hN a ha P).H O) x I.digest = bytes I.digest (a i u)) : fpts ct pt O (a i) (chals a O i) u = x := by
  rcases hx with ⟨y, hy, rfl⟩ | hx
  · exfalso
    obtain ⟨j, hj⟩ := World.exists_at hy
    refine hc (Or.inr ⟨⟨j, hj.lt⟩, Fintype.equivFin _ (i, u), y, hj, ?_⟩)
    have e1 := World.hash_off (w := (lazyBase hI hct hpt hN a ha P).world hI hA) (((lazyBase hI hct hpt hN a ha P).world hI hA).fresh O y hy) I.digest
    rw [← e1]
    refine hv.trans ?_
    show _ = bytes I.digest (a ((Fintype.equivFin (Fin k × Query I.T I.unruh)).symm (Fintype.equivFin _ (i, u))).1 ((Fintype.equivFin (Fin k × Query I.T I.unruh)).symm (Fintype.equivFin _ (i, u))).2)
    rw [Equiv.symm_apply_apply]
  · obtain ⟨hl, hend, hq⟩ := hx
    have eH : (lazyBase hI hct hpt hN a ha P).H O = stack O a (chals a O) fun i => fpts ct pt O (a i) (chals a O i) := by
      simp only [lazyBase]
      rw [if_pos hend]
    obtain ⟨⟨i', u', -, e1, e⟩, -⟩ := stack_on (X := O) (x := ⟨x, hl⟩) (a := a) hq
    rw [eH] at hv
    unfold Rom.hash ask at hv
    rw [dif_pos hl, e] at hv
    have := ha (a₁ := (i', u')) (a₂ := (i, u)) hv
    rw [Prod.mk.injEq] at this
    obtain ⟨rfl, rfl⟩ := this
    exact e1

theorem simView_lens (a : Answers I M) (e : List ℕ) (t : Fin I.T) (j : ℕ) :
    (simView I ct pt a e t j).key.length = I.blk ∧ (simView I ct pt a e t j).gates.length = I.gate ∧ (simView I ct pt a e t j).out.length = I.blk := by
  unfold simView
  dsimp only
  split_ifs <;> exact ⟨ofBits_len' _ _, ofBits_len' _ _, ofBits_len' _ _⟩

theorem simView_seed' (a : Answers I M) (e : List ℕ) (t : Fin I.T) (j : ℕ) : (simView I ct pt a e t j).seed = seed a t j := by
  unfold simView
  dsimp only
  split_ifs <;> rfl

/-- A view with a commitment of the simulator is that of the simulator. -/
theorem lazy_view {n : ℕ} {hI : I.Is n} {hct : ct.length = I.blk} {hpt : pt.length = I.blk} {hN : I.digest + 1 ≤ N} {a : Fin k → Answers I M} {ha : Digests a}
    {P : Player N M (Bytes × Bytes)} {hA : ∀ O O', (((lazyBase hI hct hpt hN a ha P).adv O).asked O').length ≤ q} (hc : ¬ ((lazyBase hI hct hpt hN a ha P).world hI hA).Clash O)
    {v : Picnic1.View} (hl : v.seed.length = I.seed ∧ v.key.length = I.blk ∧ v.gates.length = I.gate ∧ v.out.length = I.blk)
    (h1 : Use.text (T := I.T) I (.comSeed v.seed) ∈ ((lazyBase hI hct hpt hN a ha P).world hI hA).All O)
    (h2 : viewText I ((lazyBase hI hct hpt hN a ha P).H O) v ∈ ((lazyBase hI hct hpt hN a ha P).world hI hA).All O) {i : Fin k} {t : Fin I.T} {j : Fin 3}
    (hv : Rom.commitOf I ((lazyBase hI hct hpt hN a ha P).H O) v = bytes I.digest (a i (.com t j))) : v = simView I ct pt (a i) (chals a O i) t j := by
  have e := lazy_shown hc h2 hv
  unfold fpts at e
  rw [if_neg (by simp)] at e
  unfold spts at e
  simp only [point] at e
  unfold viewText at e
  have := C59_zkb I n hI _ _ (by simp only [Use.WF]; exact ⟨hash_len' _ _ _, simView_lens _ _ _ _⟩) (by simp only [Use.WF]; exact ⟨hash_len' _ _ _, hl.2⟩) e
  rw [Use.com.injEq] at this
  obtain ⟨e1, e2, e3, e4⟩ := this
  have hsl : (seed (a i) t j).length = I.seed := seed_len _ _ j.2
  have hsN : (seedText I 1 (seed (a i) t j)).length ≤ N := by
    have := rom_sizes hI
    rw [seedText_len, hsl]
    omega
  have hm : (⟨_, hsN⟩ : Arg N) ∈ (lazyBase hI hct hpt hN a ha P).base.asked O := simProc_seed hN a O i (mem_toArgs.2 (mem_seedTexts _ t j 1))
  have hs : v.seed = seed (a i) t j := by
    by_contra hne
    have hnc := World.noColl_all (w := (lazyBase hI hct hpt hN a ha P).world hI hA) (O := O) (fun i l h => hc (Or.inl ⟨i, l, h⟩)) fun i l h => hc (Or.inr ⟨i, l, h⟩)
    refine hnc _ h1 (seedText I 1 (seed (a i) t j)) (Or.inl ⟨⟨_, hsN⟩, List.mem_append_left _ hm, rfl⟩) (fun h => hne ?_) ?_
    · rw [text_comSeed, seedText_eq, seedText_eq] at h
      exact List.append_cancel_left h
    · refine e1.symm.trans ?_
      exact (World.hash_off (w := (lazyBase hI hct hpt hN a ha P).world hI hA) (x := ⟨_, hsN⟩) ((lazyBase hI hct hpt hN a ha P).fresh O _ hm) I.digest).symm
  cases v
  simp only at e2 e3 e4 hs
  rw [← simView_seed' (ct := ct) (pt := pt) (a i) (chals a O i) t j] at hs
  rw [← e2, ← e3, ← e4, hs]

/-! ### The signature -/

theorem lazy_twin {n : ℕ} {hI : I.Is n} {hct : ct.length = I.blk} {hpt : pt.length = I.blk} {hN : I.digest + 1 ≤ N} {a : Fin k → Answers I M} {ha : Digests a}
    {P : Player N M (Bytes × Bytes)} {hA : ∀ O O', (((lazyBase hI hct hpt hN a ha P).adv O).asked O').length ≤ q} (hc : ¬ ((lazyBase hI hct hpt hN a ha P).world hI hA).Clash O)
    (hN0 : 3 * I.T * (I.digest + I.seed + I.gate + 2 * I.blk) + 2 * I.blk + 33 ≤ N) {msg sig : Bytes}
    (hrun : ((lazyBase hI hct hpt hN a ha P).adv O).run ((lazyBase hI hct hpt hN a ha P).H O) = (msg, sig))
    {e : List ℕ} {salt : Bytes} {o : ℕ → Opening} (hP : Parsed I sig e salt o) {av bv : ℕ → Picnic1.View}
    (hop : ∀ t < I.T, OpenedBy I ((lazyBase hI hct hpt hN a ha P).H O) pt salt t (e.getD t 0) (o t) (av t) (bv t)) {i : Fin k} {m : Bytes}
    (hch : challengeText I ((lazyBase hI hct hpt hN a ha P).H O) ct pt msg e salt o av bv = dpt I ct pt m (a i) (chals a O i)) (he : e = chals a O i) :
    msg = m ∧ sig = signature I (a i) (simView I ct pt (a i) (chals a O i)) (chals a O i) := by
  have hC := challengeText_isCh (msg := msg) hct hpt hP hop
  rw [hch] at hC
  obtain ⟨-, ec, eg, es, em⟩ := isCh_unique hI hC ⟨sim_digest_wf hct hpt (a i) (chals a O i), rfl⟩
  refine ⟨em, ?_⟩
  obtain ⟨o', hp, ho⟩ := parse_of hP
  have hop' : ∀ t < I.T, OpenedBy I ((lazyBase hI hct hpt hN a ha P).H O) pt salt t (e.getD t 0) (o' t) (av t) (bv t) := fun t ht => by
    rw [ho t ht]
    exact hop t ht
  have hall : ∀ {x : Bytes}, x.length ≤ N → x ∈ strs1 I sig ∨ x ∈ strs3 I ((lazyBase hI hct hpt hN a ha P).H O) pt sig →
      x ∈ ((lazyBase hI hct hpt hN a ha P).world hI hA).All O := fun {x} hl hx => by
    refine Base.mem_all hI hA hl ?_
    rw [hrun]
    unfold vstrs
    simp only [List.mem_append]
    rcases hx with hx | hx
    · exact Or.inl (Or.inl (Or.inl hx))
    · exact Or.inl (Or.inr hx)
  rw [hP.eq, ← he, es]
  unfold signature Inst.encode
  congr 1
  refine List.flatMap_congr fun t ht => ?_
  have ht := List.mem_range.1 ht
  have hlt := getD_lt hP.lt t
  have hf := hP.fits t ht
  obtain ⟨la, lb⟩ := openedBy_lengths hlt hf (hop t ht)
  obtain ⟨m1, m2, -⟩ := mem_strs3 hI hp ht (hop' t ht)
  have ha1 : Use.text (T := I.T) I (.comSeed (av t).seed) ∈ ((lazyBase hI hct hpt hN a ha P).world hI hA).All O := by
    refine hall (Base.seedStr_len hI hN0 la.1) (Or.inl (mem_strs1 hp ht ?_))
    rw [(hop' t ht).seed0]
    simp [seedStrs]
  have hb1 : Use.text (T := I.T) I (.comSeed (bv t).seed) ∈ ((lazyBase hI hct hpt hN a ha P).world hI hA).All O := by
    refine hall (Base.seedStr_len hI hN0 lb.1) (Or.inl (mem_strs1 hp ht ?_))
    rw [(hop' t ht).seed1]
    simp [seedStrs]
  have ec' := fun j : Fin 3 => congrFun (congrFun ec ⟨t, ht⟩) j
  dsimp only at ec'
  have va : av t = simView I ct pt (a i) (chals a O i) ⟨t, ht⟩ (e.getD t 0) := by
    refine lazy_view hc la ha1 (hall (Base.viewStr_len hI hN0 la) (Or.inr m1)) (t := ⟨t, ht⟩) (j := ⟨e.getD t 0, hlt⟩) ?_
    rw [← ec', arrange, if_pos rfl]
  have vb : bv t = simView I ct pt (a i) (chals a O i) ⟨t, ht⟩ ((e.getD t 0 + 1) % 3) := by
    refine lazy_view hc lb hb1 (hall (Base.viewStr_len hI hN0 lb) (Or.inr m2)) (t := ⟨t, ht⟩) (j := ⟨(e.getD t 0 + 1) % 3, Nat.mod_lt _ (by omega)⟩) ?_
    rw [← ec', arrange, if_neg (by dsimp only; omega), if_pos rfl]
  beta_reduce
  rw [dif_pos ht]
  congr 1
  rw [← he] at va vb
  have k1 := (hop t ht).key0
  have k2 := (hop t ht).key1
  have x1 : (o t).com = bytes I.digest (a i (.com ⟨t, ht⟩ (Fin.ofNat 3 (e.getD t 0 + 2)))) := by
    have := ec' (Fin.ofNat 3 (e.getD t 0 + 2))
    rw [arrange, if_neg (by simp only [Fin.ofNat]; omega), if_neg (by simp only [Fin.ofNat]; omega)] at this
    exact this
  have x2 : (o t).g = if hu : I.unruh = true then bytes (I.gLen ((e.getD t 0 + 2) % 3)) (a i (.g hu ⟨t, ht⟩ (Fin.ofNat 3 (e.getD t 0 + 2)))) else [] := by
    by_cases hu : I.unruh = true
    · rw [dif_pos hu]
      rw [dif_pos hu, if_pos hu] at eg
      have := congrFun (congrFun (Option.some.inj eg) ⟨t, ht⟩) (Fin.ofNat 3 (e.getD t 0 + 2))
      dsimp only at this
      rw [arrange, if_neg (by simp only [Fin.ofNat]; omega), if_neg (by simp only [Fin.ofNat]; omega)] at this
      exact this
    · rw [dif_neg hu]
      have := hf.g
      rw [if_neg hu] at this
      exact List.eq_nil_of_length_eq_zero this
  have x3 : (o t).key = if e.getD t 0 = 0 then [] else (simView I ct pt (a i) e ⟨t, ht⟩ 2).key := by
    split_ifs with h0
    · have := hf.key
      rw [if_pos h0] at this
      exact List.eq_nil_of_length_eq_zero this
    · obtain h1 | h2 : e.getD t 0 = 1 ∨ e.getD t 0 = 2 := by omega
      · rw [if_pos h1, vb, h1] at k2
        exact k2.symm
      · rw [if_pos h2, va, h2] at k1
        exact k1.symm
  have x4 := (hop t ht).gates1
  have x5 := (hop t ht).seed0
  have x6 := (hop t ht).seed1
  rw [vb] at x4 x6
  rw [va] at x5
  cases h : o t
  rw [h] at x1 x2 x3 x4 x5 x6
  simp only at x1 x2 x3 x4 x5 x6
  rw [x1, x2, x3, ← x4, ← x5, ← x6]

/-! ### The other oracle -/

theorem use_other {n : ℕ} (hI : I.Is n) {X Y : Oracle N M} (h : ∀ x : Arg N, (∀ m, ¬ IsDig I ct pt x.1 m) → X x = Y x) {u : Use I.T} (hu : Use.WF I u)
    (hn : ∀ outs coms gs ct pt salt m, u ≠ .challenge outs coms gs ct pt salt m) (l : ℕ) : hashUse I Y u l = hashUse I X u l := by
  refine hashUse_ask ?_ l
  unfold ask
  split_ifs with hl
  · refine (h ⟨_, hl⟩ fun m hd => ?_).symm
    obtain ⟨_, _, _, _, h1, h2⟩ := hd
    exact hn _ _ _ _ _ _ _ (C59_zkb I n hI _ _ h1 hu h2.symm).symm
  · rfl

theorem tape_other {n : ℕ} (hI : I.Is n) {X Y : Oracle N M} (h : ∀ x : Arg N, (∀ m, ¬ IsDig I ct pt x.1 m) → X x = Y x) {s salt : Bytes} (hs : s.length = I.seed)
    (hsalt : salt.length = 32) {t j : ℕ} (ht : t < I.T) (hj : j < 3) : tapeOf I Y s salt t j (tapeLen I j) = tapeOf I X s salt t j (tapeLen I j) := by
  have hz := rom_sizes hI
  have htl : tapeLen I j < 2 ^ 16 := by
    unfold tapeLen
    split_ifs <;> omega
  unfold tapeOf
  rw [use_other hI h (u := .tapeSeed s) hs (by simp)]
  exact use_other hI h (u := .tape _ _ _ _ _) ⟨hash_len' _ _ _, hsalt, by omega, by omega, htl⟩ (by simp) _

theorem view_other {n : ℕ} (hI : I.Is n) {X Y : Oracle N M} (h : ∀ x : Arg N, (∀ m, ¬ IsDig I ct pt x.1 m) → X x = Y x) {v : Picnic1.View}
    (hl : v.seed.length = I.seed ∧ v.key.length = I.blk ∧ v.gates.length = I.gate ∧ v.out.length = I.blk) :
    Rom.commitOf I Y v = Rom.commitOf I X v ∧ (I.unruh = true → ∀ j, Rom.gOf I Y j v = Rom.gOf I X j v) := by
  constructor
  · unfold Rom.commitOf viewText
    rw [use_other hI h (u := .comSeed v.seed) hl.1 (by simp)]
    exact use_other hI h (u := .com _ _ _ _) ⟨hash_len' _ _ _, hl.2⟩ (by simp) _
  · intro hu j
    unfold Rom.gOf
    rw [use_other hI h (u := .gSeed v.seed) hl.1 (by simp)]
    refine use_other hI h (u := .g _ _ _) ⟨hu, hash_len' _ _ _, fun k hk => ?_, hl.2.2.1⟩ (by simp) _
    split_ifs at hk
    · obtain rfl := Option.some.inj hk
      exact hl.2.1
    · simp at hk

theorem challengeText_same {X Y : Oracle N M} {msg salt : Bytes} {e : List ℕ} {o o' : ℕ → Opening} {av bv av' bv' : ℕ → Picnic1.View}
    (h : ∀ t < I.T, o t = o' t ∧ av t = av' t ∧ bv t = bv' t ∧ Rom.commitOf I Y (av t) = Rom.commitOf I X (av t) ∧ Rom.commitOf I Y (bv t) = Rom.commitOf I X (bv t) ∧
      (I.unruh = true → ∀ j, Rom.gOf I Y j (av t) = Rom.gOf I X j (av t)) ∧ (I.unruh = true → ∀ j, Rom.gOf I Y j (bv t) = Rom.gOf I X j (bv t))) :
    challengeText I Y ct pt msg e salt o av bv = challengeText I X ct pt msg e salt o' av' bv' := by
  have h1 := fun t : Fin I.T => (h t t.2).1
  have h2 := fun t : Fin I.T => (h t t.2).2.1
  have h3 := fun t : Fin I.T => (h t t.2).2.2.1
  have h4 := fun t : Fin I.T => (h t t.2).2.2.2.1
  have h5 := fun t : Fin I.T => (h t t.2).2.2.2.2.1
  simp only [h2, h3] at h4 h5
  unfold challengeText
  simp only [h1, h2, h3, h4, h5]
  by_cases hu : I.unruh = true
  · have h6 := fun t : Fin I.T => (h t t.2).2.2.2.2.2.1 hu
    have h7 := fun t : Fin I.T => (h t t.2).2.2.2.2.2.2 hu
    simp only [h2, h3] at h6 h7
    simp only [h6, h7]
  · simp only [if_neg hu]

theorem strong_cases {n : ℕ} {hI : I.Is n} {hct : ct.length = I.blk} {hpt : pt.length = I.blk} {hN : I.digest + 1 ≤ N} {a : Fin k → Answers I M} {ha : Digests a}
    {P : Player N M (Bytes × Bytes)} {hA : ∀ O O', (((lazyBase hI hct hpt hN a ha P).adv O).asked O').length ≤ q} (hend : AllEnd a O)
    (hc : ¬ ((lazyBase hI hct hpt hN a ha P).world hI hA).Clash O) {msg sig : Bytes}
    (hN0 : 3 * I.T * (I.digest + I.seed + I.gate + 2 * I.blk) + 2 * I.blk + msg.length + 33 ≤ N)
    (hrun : ((lazyBase hI hct hpt hN a ha P).adv O).run ((lazyBase hI hct hpt hN a ha P).H O) = (msg, sig))
    {X : Oracle N M} {l : List (Bytes × Bytes)} {mm : Fin k → Bytes} (hT : Told ct pt ((lazyBase hI hct hpt hN a ha P).H O) X a (chals a O) (fun _ => none) l mm)
    {av bv : ℕ → Picnic1.View} (hv : ValidBy I X ct pt msg sig av bv) :
    ValidBy I ((lazyBase hI hct hpt hN a ha P).H O) ct pt msg sig av bv ∨ (msg, sig) ∈ l := by
  have hother : ∀ x : Arg N, (∀ m, ¬ IsDig I ct pt x.1 m) → X x = (lazyBase hI hct hpt hN a ha P).H O x := fun x hx =>
    hT.other x rfl fun i h => hx (mm i) (by rw [h]; exact dpt_isDig hct hpt _ _ _)
  have hnext : ∀ d : Bytes, d.length = I.digest → ask X (Use.text (T := I.T) I (.next d)) = ask ((lazyBase hI hct hpt hN a ha P).H O) (Use.text (T := I.T) I (.next d)) := fun d hd => by
    unfold ask
    split_ifs with hl
    · exact hother ⟨_, hl⟩ fun m => plain_notDig hI (plain_next hd)
    · rfl
  by_cases hx : ∃ x ∈ vstrs I ct pt X msg sig, ∃ i, x = dpt I ct pt (mm i) (a i) (chals a O i)
  · right
    obtain ⟨x, hx, i, hxi⟩ := hx
    obtain ⟨e, salt, o, g1, g2, g3, g4⟩ := hv
    obtain ⟨hl, hlt⟩ := isChallenge_facts g4
    have hP : Parsed I sig e salt o := ⟨g1, g2, hl, hlt, fun t ht => (g3 t ht).1⟩
    have hop : ∀ t < I.T, OpenedBy I X pt salt t (e.getD t 0) (o t) (av t) (bv t) := fun t ht => (g3 t ht).2.2
    have hxc : challengeText I X ct pt msg e salt o av bv = x := by
      obtain ⟨e', salt', o', av', bv', hP', hop', rfl⟩ := vstr_dig_text hI hx (by rw [hxi]; exact dpt_isDig hct hpt (mm i) (a i) (chals a O i))
      obtain ⟨rfl, rfl, ho⟩ := parsed_unique hP hP'
      refine challengeText_same fun t ht => ?_
      have := hop' t ht
      rw [← ho t ht] at this
      obtain ⟨h1, h2⟩ := openedBy_unique hI (hop t ht) this
      exact ⟨ho t ht, h1, h2, rfl, rfl, fun _ _ => rfl, fun _ _ => rfl⟩
    have hC := challengeText_isCh (msg := msg) hct hpt hP hop
    have hlen := isCh_len hC hN0
    rw [hxc] at hC hlen g4
    obtain ⟨i, hxi, hval⟩ := hT.digest ⟨x, hlen⟩ i hxi
    dsimp only at hxi
    have hdig : Rom.hash X x I.digest = bytes I.digest (a i .digest) := by
      unfold Rom.hash ask
      rw [dif_pos hlen, hval]
    have he : e = chals a O i := by
      have h1 := chals_eq hend i
      unfold challenge at h1
      split_ifs at h1 with h2
      have h3 := h2.choose_spec
      rw [Option.some.inj h1] at h3
      rw [hdig, isChallenge_congr (O' := O) (fun d hd => ?_) (bytes_len' _ _)] at g4
      · exact isChallenge_unique g4 h3
      · rw [hnext d hd]
        unfold ask
        split_ifs with hdl
        · exact (lazyBase hI hct hpt hN a ha P).off O ⟨_, hdl⟩ ((lazyBase hI hct hpt hN a ha P).next O d hd)
        · rfl
    have hopH : ∀ t < I.T, OpenedBy I ((lazyBase hI hct hpt hN a ha P).H O) pt salt t (e.getD t 0) (o t) (av t) (bv t) := fun t ht => by
      have hlt' := getD_lt hlt t
      exact openedBy_congr (tape_other hI hother (hP.fits t ht).seed0 g2 ht hlt') (tape_other hI hother (hP.fits t ht).seed1 g2 ht (Nat.mod_lt _ (by omega))) hlt' (hop t ht)
    have hcH : challengeText I ((lazyBase hI hct hpt hN a ha P).H O) ct pt msg e salt o av bv = dpt I ct pt (mm i) (a i) (chals a O i) := by
      rw [← hxi, ← hxc]
      refine challengeText_same fun t ht => ?_
      obtain ⟨la, lb⟩ := openedBy_lengths (getD_lt hlt t) (hP.fits t ht) (hop t ht)
      exact ⟨rfl, rfl, rfl, (view_other hI hother la).1, (view_other hI hother lb).1, (view_other hI hother la).2, (view_other hI hother lb).2⟩
    obtain ⟨h1, h2⟩ := lazy_twin hc (by omega) hrun hP hopH hcH he
    rw [hT.sigs, List.mem_ofFn]
    exact ⟨i, by rw [h1, h2]⟩
  · left
    push Not at hx
    have key : ∀ x ∈ vstrs I ct pt X msg sig, ask ((lazyBase hI hct hpt hN a ha P).H O) x = ask X x := fun x hm => by
      unfold ask
      split_ifs with hl
      · exact (hT.other ⟨x, hl⟩ rfl (hx x hm)).symm
      · rfl
    unfold vstrs at key
    simp only [List.mem_append] at key
    exact validBy_congr hI (fun x hx => key x (Or.inl (Or.inl (Or.inl hx)))) (fun x hx => key x (Or.inl (Or.inl (Or.inr hx))))
      (fun x hx => key x (Or.inl (Or.inr hx))) (fun x hx => key x (Or.inr hx)) hnext hv

end Picnic.Rom
