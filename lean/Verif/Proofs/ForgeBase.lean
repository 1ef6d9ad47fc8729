import Verif.Proofs.ForgeCore
import Verif.Proofs.ForgeVerify
import Verif.Proofs.RomMain

/-
C63: the questions of a forger and of a verifier, after those of a simulator.
-/

namespace Picnic.Rom

open Spec Spec.Zkb Spec.Rom Spec.Picnic1 Spec.Challenge

variable {N M : ℕ} {I : Inst} {ct pt : Bytes} {B p q : ℕ} {msgs : Set Bytes}

/-! ### Forger and verifier -/

variable (I ct pt) in
/-- The strings of the verifier. -/
noncomputable def vstrs (O : Oracle N M) (msg sig : Bytes) : List Bytes := strs1 I sig ++ strs2 I O sig ++ strs3 I O pt sig ++ strs4 I O ct pt msg sig

variable (I ct pt) in
/-- The questions of the forger and the verifier. -/
noncomputable def vasked (A : Adv N M (Bytes × Bytes)) (O : Oracle N M) : List (Arg N) :=
  A.asked O ++ args N (strs1 I (A.run O).2) ++ args N (strs2 I O (A.run O).2) ++ args N (strs3 I O pt (A.run O).2) ++ args N (strs4 I O ct pt (A.run O).1 (A.run O).2)

theorem run_eq {A : Adv N M (Bytes × Bytes)} {O O' : Oracle N M} (h : ∀ x ∈ A.asked O, O' x = O x) : A.run O' = A.run O := (run_congr A fun x hx => (h x hx).symm).1.symm

variable (ct pt) in
noncomputable def vproc {n : ℕ} (hI : I.Is n) (A : Adv N M (Bytes × Bytes)) : Proc N M :=
  ((((Proc.ofAdv A).append (fun O => args N (strs1 I (A.run O).2)) fun O O' h => by
    beta_reduce
    rw [run_eq h]).append (fun O => args N (strs2 I O (A.run O).2)) fun O O' h => by
    have h0 : ∀ x ∈ A.asked O, O' x = O x := fun x hx => h x (List.mem_append_left _ hx)
    have h1 : ∀ x ∈ strs1 I (A.run O).2, ask O' x = ask O x := fun x hx => ask_args (fun y hy => h y (List.mem_append_right _ hy)) hx
    beta_reduce
    rw [run_eq h0, strs2_congr h1]).append (fun O => args N (strs3 I O pt (A.run O).2)) fun O O' h => by
    have h0 : ∀ x ∈ A.asked O, O' x = O x := fun x hx => h x (List.mem_append_left _ (List.mem_append_left _ hx))
    have h1 : ∀ x ∈ strs1 I (A.run O).2, ask O' x = ask O x := fun x hx => ask_args (fun y hy => h y (List.mem_append_left _ (List.mem_append_right _ hy))) hx
    have h2 : ∀ x ∈ strs2 I O (A.run O).2, ask O' x = ask O x := fun x hx => ask_args (fun y hy => h y (List.mem_append_right _ hy)) hx
    beta_reduce
    rw [run_eq h0, strs3_congr h1 h2]).append (fun O => args N (strs4 I O ct pt (A.run O).1 (A.run O).2)) fun O O' h => by
    have h0 : ∀ x ∈ A.asked O, O' x = O x := fun x hx => h x (List.mem_append_left _ (List.mem_append_left _ (List.mem_append_left _ hx)))
    have h1 : ∀ x ∈ strs1 I (A.run O).2, ask O' x = ask O x := fun x hx =>
      ask_args (fun y hy => h y (List.mem_append_left _ (List.mem_append_left _ (List.mem_append_right _ hy)))) hx
    have h2 : ∀ x ∈ strs2 I O (A.run O).2, ask O' x = ask O x := fun x hx => ask_args (fun y hy => h y (List.mem_append_left _ (List.mem_append_right _ hy))) hx
    have h3 : ∀ x ∈ strs3 I O pt (A.run O).2, ask O' x = ask O x := fun x hx => ask_args (fun y hy => h y (List.mem_append_right _ hy)) hx
    beta_reduce
    rw [run_eq h0, strs4_congr hI h1 h2 h3]

theorem vproc_asked {n : ℕ} (hI : I.Is n) (A : Adv N M (Bytes × Bytes)) (O : Oracle N M) : (vproc ct pt hI A).asked O = vasked I ct pt A O := rfl

theorem vasked_len (A : Adv N M (Bytes × Bytes)) (O : Oracle N M) (hA : (A.asked O).length ≤ q) : (vasked I ct pt A O).length ≤ q + 12 * I.T + 1 := by
  unfold vasked
  simp only [List.length_append]
  have h1 := le_trans (args_len (N := N) _) (len1 (I := I) (A.run O).2)
  have h2 := le_trans (args_len (N := N) _) (len2 (I := I) (O := O) (A.run O).2)
  have h3 := le_trans (args_len (N := N) _) (len3 (I := I) (O := O) (pt := pt) (A.run O).2)
  have h4 := le_trans (args_len (N := N) _) (len4 (I := I) (O := O) (ct := ct) (pt := pt) (A.run O).1 (A.run O).2)
  omega

theorem mem_vasked {A : Adv N M (Bytes × Bytes)} {O : Oracle N M} {x : Arg N} : x ∈ vasked I ct pt A O ↔ x ∈ A.asked O ∨ x.1 ∈ vstrs I ct pt O (A.run O).1 (A.run O).2 := by
  unfold vasked vstrs
  simp only [List.mem_append]
  constructor
  · rintro ((((h | h) | h) | h) | h)
    · exact Or.inl h
    · exact Or.inr (Or.inl (Or.inl (Or.inl (of_mem_args h))))
    · exact Or.inr (Or.inl (Or.inl (Or.inr (of_mem_args h))))
    · exact Or.inr (Or.inl (Or.inr (of_mem_args h)))
    · exact Or.inr (Or.inr (of_mem_args h))
  · rintro (h | ((h | h) | h) | h)
    · exact Or.inl (Or.inl (Or.inl (Or.inl h)))
    · exact Or.inl (Or.inl (Or.inl (Or.inr (mem_args h))))
    · exact Or.inl (Or.inl (Or.inr (mem_args h)))
    · exact Or.inl (Or.inr (mem_args h))
    · exact Or.inr (mem_args h)

/-! ### The string for the challenge -/

theorem challengeText_isCh {O : Oracle N M} {sig msg salt : Bytes} {e : List ℕ} {o : ℕ → Opening} (hct : ct.length = I.blk) (hpt : pt.length = I.blk) (hp : Parsed I sig e salt o)
    {a b : ℕ → Picnic1.View} (h : ∀ t < I.T, OpenedBy I O pt salt t (e.getD t 0) (o t) (a t) (b t)) : IsCh I ct pt (challengeText I O ct pt msg e salt o a b)
      (fun t j => arrange (e.getD t 0) (a t).out (b t).out (Spec.Picnic1.ofBits I.blk (toBits (a t).out + toBits (b t).out + toBits ct)) j)
      (fun t j => arrange (e.getD t 0) (Rom.commitOf I O (a t)) (Rom.commitOf I O (b t)) (o t).com j)
      (if I.unruh then some fun t j => arrange (e.getD t 0) (Rom.gOf I O (e.getD t 0) (a t)) (Rom.gOf I O ((e.getD t 0 + 1) % 3) (b t)) (o t).g j else none) salt msg := by
  refine ⟨?_, rfl⟩
  have he := getD_lt hp.lt
  simp only [Use.WF]
  refine ⟨fun t j => ?_, fun t j => ?_, ?_, fun G hG t j => ?_, hct, hpt, hp.salt⟩
  · obtain ⟨la, lb⟩ := openedBy_lengths (he t) (hp.fits t t.2) (h t t.2)
    exact arrange_length (he t) (L := fun _ => I.blk) la.2.2.2 lb.2.2.2 (ofBits_len' _ _) j j.2
  · exact arrange_length (he t) (L := fun _ => I.digest) (hash_len' _ _ _) (hash_len' _ _ _) (hp.fits t t.2).com j j.2
  · split_ifs with hu
    · simp [hu]
    · simp [hu]
  · split_ifs at hG with hu
    · obtain rfl := Option.some.inj hG
      exact arrange_length (he t) (L := I.gLen) (hash_len' _ _ _) (hash_len' _ _ _) (by rw [(hp.fits t t.2).g, if_pos hu]) j j.2
    · simp at hG

theorem isCh_len {c : Bytes} {outs coms : Fin I.T → Fin 3 → Bytes} {gs : Option (Fin I.T → Fin 3 → Bytes)} {salt msg : Bytes} (h : IsCh I ct pt c outs coms gs salt msg)
    (hN : 3 * I.T * (I.digest + I.seed + I.gate + 2 * I.blk) + 2 * I.blk + msg.length + 33 ≤ N) : c.length ≤ N := by
  obtain ⟨hw, rfl⟩ := h
  simp only [Use.WF] at hw
  obtain ⟨w1, w2, -, w4, w5, w6, w7⟩ := hw
  refine le_trans (challenge_text_len (fun t => ⟨w1 t 0, w1 t 1, w1 t 2⟩) (fun t => ⟨w2 t 0, w2 t 1, w2 t 2⟩) (fun G hG t => ⟨w4 G hG t 0, w4 G hG t 1, w4 G hG t 2⟩)) ?_
  rw [w5, w6, w7]
  have e1 : I.T * (I.blk + I.blk + I.blk) + I.T * (I.digest + I.digest + I.digest) + I.T * (I.gLen ↑(0 : Fin 3) + I.gLen ↑(1 : Fin 3) + I.gLen ↑(2 : Fin 3)) ≤
      3 * I.T * (I.digest + I.seed + I.gate + 2 * I.blk) := by
    unfold Inst.gLen
    simp only [Fin.val_zero, Fin.val_one, Fin.val_two]
    norm_num
    nlinarith [Nat.zero_le (I.T * I.blk)]
  omega

/-! ### The simulator -/

variable (N M I ct pt B p msgs) in
/-- What a simulator leaves: questions it has asked, values it has written into the oracle, and a forger that may know signatures of `msgs`. -/
structure Base where
  base : Proc N M
  W : Oracle N M → Set Bytes
  H : Oracle N M → Oracle N M
  adv : Oracle N M → Adv N M (Bytes × Bytes)
  vals : Fin p → Bytes
  len : ∀ O, (base.asked O).length ≤ B
  plain : ∀ O, ∀ x ∈ base.asked O, (∀ outs coms gs salt msg, ¬ IsCh I ct pt x.1 outs coms gs salt msg) ∧ ¬ IsCom I x.1
  off : ∀ O (x : Arg N), x.1 ∉ W O → H O x = O x
  on : ∀ O, ∀ x ∈ W O, ∃ v, Rom.hash (H O) x I.digest = vals v
  inj : ∀ O, NoColl I (H O) (W O)
  fresh : ∀ O, ∀ x ∈ base.asked O, x.1 ∉ W O
  loc : ∀ O O', (∀ x ∈ base.asked O, O' x = O x) → W O' = W O ∧ adv O' = adv O ∧ ∀ x : Arg N, x.1 ∈ W O → H O' x = H O x
  known : ∀ O d key gates out, Use.WF I (.com d key gates out) → Use.text (T := I.T) I (.com d key gates out) ∈ W O → ∃ z ∈ base.asked O, Rom.hash O z.1 I.digest = d
  next : ∀ O (d : Bytes), d.length = I.digest → Use.text (T := I.T) I (.next d) ∉ W O
  chal : ∀ O c outs coms gs salt msg, IsCh I ct pt c outs coms gs salt msg → c ∈ W O → msg ∈ msgs

namespace Base

theorem after {n : ℕ} {b : Base N M I ct pt B p msgs} {O : Oracle N M} {m : List (Arg N)} {i : ℕ} {c : Arg N} {outs coms : Fin I.T → Fin 3 → Bytes}
    {gs : Option (Fin I.T → Fin 3 → Bytes)} {salt msg : Bytes} (hn : n = (b.base.asked O).length) (h : (b.base.asked O ++ m)[i]? = some c)
    (hc : IsCh I ct pt c.1 outs coms gs salt msg) : n ≤ i := by
  by_contra hlt
  rw [List.getElem?_append_left (by omega)] at h
  exact (b.plain O c (List.mem_iff_getElem?.2 ⟨i, h⟩)).1 _ _ _ _ _ hc

open Classical in
/-- All questions. -/
noncomputable def world (b : Base N M I ct pt B p msgs) {n : ℕ} (hI : I.Is n) (hA : ∀ O O', ((b.adv O).asked O').length ≤ q) : World N M I ct pt (B + (q + 12 * I.T + 1)) p where
  asked O := b.base.asked O ++ (vasked I ct pt (b.adv O) (b.H O)).filter fun x => decide (x.1 ∉ b.W O)
  W := b.W
  H := b.H
  vals := b.vals
  len O := by
    rw [List.length_append]
    exact add_le_add (b.len O) (le_trans (List.length_filter_le _ _) (vasked_len _ _ (hA _ _)))
  pre O O' i h := by
    by_cases hi : i < (b.base.asked O).length
    · refine take_append_of_take hi (b.base.pre O O' i fun x hx => h x ?_)
      rw [List.take_append_of_le_length hi.le]
      exact hx
    · have h' : ∀ x ∈ b.base.asked O, O' x = O x := fun x hx => h x (by
        rw [List.take_append, List.take_of_length_le (by omega)]
        exact List.mem_append_left _ hx)
      obtain ⟨e1, e2, e3⟩ := b.loc O O' h'
      rw [b.base.all h', e1, e2, List.take_append, List.take_append, show i + 1 - (b.base.asked O).length = i - (b.base.asked O).length + 1 by omega]
      refine congrArg _ ?_
      refine filter_pre (vproc ct pt hI (b.adv O)) (h := b.H O) (h' := b.H O') (fun x => decide (x.1 ∉ b.W O)) O O' (fun x hx => b.off O x (of_decide_eq_true hx))
        (fun x hx => b.off O' x (by rw [e1]; exact of_decide_eq_true hx)) (fun x hx => e3 x (not_not.1 (of_decide_eq_false hx))) fun x hx => h x ?_
      rw [List.take_append]
      exact List.mem_append_right _ hx
  off := b.off
  on := b.on
  inj := b.inj
  fresh O x hx := by
    rcases List.mem_append.1 hx with hx | hx
    · exact b.fresh O x hx
    · exact of_decide_eq_true (List.mem_filter.1 hx).2
  known O i c outs coms gs salt msg hi hc d key gates out hd hx := by
    obtain ⟨z, hz, e⟩ := b.known O d key gates out hd hx
    have hl := after rfl hi hc
    refine ⟨z, ?_, e⟩
    rw [List.take_append, List.take_of_length_le hl]
    exact List.mem_append_left _ hz
  inv O O' i c outs coms gs salt msg hi hc ho := by
    have hl := after rfl hi hc
    obtain ⟨e1, -, e3⟩ := b.loc O O' fun x hx => ho x (by
      rw [List.take_append, List.take_of_length_le hl]
      exact List.mem_append_left _ hx)
    exact ⟨e1, e3⟩

/-- The forger has made a valid signature on a new message. -/
def Wins (b : Base N M I ct pt B p msgs) (O : Oracle N M) : Prop :=
  ((b.adv O).run (b.H O)).1 ∉ msgs ∧ Valid I (b.H O) ct pt ((b.adv O).run (b.H O)).1 ((b.adv O).run (b.H O)).2

theorem mem_all {b : Base N M I ct pt B p msgs} {n : ℕ} (hI : I.Is n) (hA : ∀ O O', ((b.adv O).asked O').length ≤ q) {O : Oracle N M} {x : Bytes} (hl : x.length ≤ N)
    (hx : x ∈ vstrs I ct pt (b.H O) ((b.adv O).run (b.H O)).1 ((b.adv O).run (b.H O)).2) : x ∈ (b.world hI hA).All O := by
  classical
  by_cases hw : x ∈ b.W O
  · exact Or.inr hw
  · refine Or.inl ⟨⟨x, hl⟩, ?_, rfl⟩
    refine List.mem_append_right _ (List.mem_filter.2 ⟨mem_vasked.2 (Or.inr hx), ?_⟩)
    exact (decide_eq_true_iff).2 hw

theorem seedStr_len {n : ℕ} (hI : I.Is n) (hN : 3 * I.T * (I.digest + I.seed + I.gate + 2 * I.blk) + 2 * I.blk + 33 ≤ N) {s : Bytes} (hs : s.length = I.seed) :
    (Use.text (T := I.T) I (.comSeed s)).length ≤ N := by
  have h1 := rom_sizes hI
  simp only [Use.text, List.length_append, List.length_singleton]
  omega

theorem viewStr_len {n : ℕ} (hI : I.Is n) (hN : 3 * I.T * (I.digest + I.seed + I.gate + 2 * I.blk) + 2 * I.blk + 33 ≤ N) {H : Oracle N M} {v : Picnic1.View}
    (hv : v.seed.length = I.seed ∧ v.key.length = I.blk ∧ v.gates.length = I.gate ∧ v.out.length = I.blk) : (viewText I H v).length ≤ N := by
  have hz := zkb_sizes hI
  have hT : 1 ≤ I.T := by
    rcases Nat.eq_zero_or_pos I.T with h | h
    · rw [h] at hz; omega
    · exact h
  have : 3 * 1 * (I.digest + I.seed + I.gate + 2 * I.blk) ≤ 3 * I.T * (I.digest + I.seed + I.gate + 2 * I.blk) :=
    Nat.mul_le_mul_right _ (Nat.mul_le_mul_left _ hT)
  have h2 : (hashUse I H (.comSeed v.seed) I.digest).length = I.digest := hash_len' _ _ _
  unfold viewText
  simp only [Use.text, List.length_append, List.length_singleton]
  omega

theorem forged {b : Base N M I ct pt B p msgs} {n : ℕ} (hI : I.Is n) (hA : ∀ O O', ((b.adv O).asked O').length ≤ q) (hct : ct.length = I.blk) (hpt : pt.length = I.blk)
    (hN : ∀ O O', 3 * I.T * (I.digest + I.seed + I.gate + 2 * I.blk) + 2 * I.blk + ((b.adv O).run O').1.length + 33 ≤ N) {O : Oracle N M} (h : b.Wins O) :
    (b.world hI hA).Forged O := by
  classical
  obtain ⟨hmsg, av, bv, hv⟩ := h
  have hN := hN O (b.H O)
  have hall : ∀ {x : Bytes}, x.length ≤ N → x ∈ vstrs I ct pt (b.H O) ((b.adv O).run (b.H O)).1 ((b.adv O).run (b.H O)).2 → x ∈ (b.world hI hA).All O := fun hl hx => mem_all hI hA hl hx
  have hmemv := fun (x : Arg N) (hx : x.1 ∈ vstrs I ct pt (b.H O) ((b.adv O).run (b.H O)).1 ((b.adv O).run (b.H O)).2) =>
    (mem_vasked (A := b.adv O) (O := b.H O) (I := I) (ct := ct) (pt := pt)).2 (Or.inr hx)
  generalize ((b.adv O).run (b.H O)).1 = msg at *
  generalize ((b.adv O).run (b.H O)).2 = sig at *
  obtain ⟨e, salt, o, o', hp, ho, g1, g2, g3, g4⟩ := parsed_of hv
  obtain ⟨hl, hlt⟩ := isChallenge_facts g4
  have hP : Parsed I sig e salt o := ⟨g1, g2, hl, hlt, fun t ht => (g3 t ht).1⟩
  have hop : ∀ t < I.T, OpenedBy I (b.H O) pt salt t (e.getD t 0) (o t) (av t) (bv t) := fun t ht => (g3 t ht).2.2
  have hop' : ∀ t < I.T, OpenedBy I (b.H O) pt salt t (e.getD t 0) (o' t) (av t) (bv t) := fun t ht => by
    rw [ho t ht]
    exact hop t ht
  have hch := challengeText_isCh (msg := msg) hct hpt hP hop
  have hclen := isCh_len hch hN
  have hcW : challengeText I (b.H O) ct pt msg e salt o av bv ∉ b.W O := fun hw => hmsg (b.chal O _ _ _ _ _ _ hch hw)
  have hcm : challengeText I (b.H O) ct pt msg e salt o av bv ∈ vstrs I ct pt (b.H O) msg sig :=
    List.mem_append_right _ (mem_strs4 hI hp (fun t ht => (ho t ht).symm) hop')
  refine ⟨⟨_, hclen⟩, List.mem_append_right _ (List.mem_filter.2 ⟨hmemv _ hcm, (decide_eq_true_iff).2 hcW⟩), _, _, _, _, _, hch, fun t => ⟨e.getD t 0, getD_lt hlt t⟩, ?_, fun t => ?_⟩
  · have e1 : (List.ofFn fun t : Fin I.T => (⟨e.getD t 0, getD_lt hlt t⟩ : Fin 3).1) = e := by
      refine List.ext_getElem (by rw [List.length_ofFn, hl]) fun i h1 h2 => ?_
      rw [List.getElem_ofFn]
      exact List.getD_eq_getElem _ _ h2
    rw [e1]
    have e2 : Rom.hash O (challengeText I (b.H O) ct pt msg e salt o av bv) I.digest = Rom.hash (b.H O) (challengeText I (b.H O) ct pt msg e salt o av bv) I.digest :=
      ((b.world hI hA).hash_off (x := ⟨_, hclen⟩) hcW _).symm
    dsimp only
    rw [e2, isChallenge_congr (O' := b.H O) (fun d hd => ?_) (hash_len' _ _ _)]
    · exact g4
    · unfold ask
      split_ifs with hdl
      · exact (b.off O ⟨_, hdl⟩ (b.next O d hd)).symm
      · rfl
  · have he := getD_lt hlt t
    have hN0 : 3 * I.T * (I.digest + I.seed + I.gate + 2 * I.blk) + 2 * I.blk + 33 ≤ N := by omega
    obtain ⟨la, lb⟩ := openedBy_lengths he (hP.fits t t.2) (hop t t.2)
    obtain ⟨m1, m2, -⟩ := mem_strs3 hI hp t.2 (hop' t t.2)
    have hs3 : ∀ {x : Bytes}, x ∈ strs3 I (b.H O) pt sig → x ∈ vstrs I ct pt (b.H O) msg sig := fun hx => List.mem_append_left _ (List.mem_append_right _ hx)
    have hs1 : ∀ {x : Bytes}, x ∈ strs1 I sig → x ∈ vstrs I ct pt (b.H O) msg sig := fun hx => List.mem_append_left _ (List.mem_append_left _ (List.mem_append_left _ hx))
    refine ⟨o t, av t, bv t, hP.fits t t.2, hop t t.2, fun j => rfl, fun j => rfl, ⟨?_, hall (viewStr_len hI hN0 la) (hs3 m1)⟩, ?_, hall (viewStr_len hI hN0 lb) (hs3 m2)⟩
    · refine hall (seedStr_len hI hN0 la.1) (hs1 (mem_strs1 hp t.2 ?_))
      rw [(hop' t t.2).seed0]
      simp [seedStrs]
    · refine hall (seedStr_len hI hN0 lb.1) (hs1 (mem_strs1 hp t.2 ?_))
      rw [(hop' t t.2).seed1]
      simp [seedStrs]

/-! ### What the strings reveal -/

/-- The strings that the forger asks for or that are in its signature, and those that the simulator has written. -/
def Strings (b : Base N M I ct pt B p msgs) (O : Oracle N M) : Set Bytes :=
  {x | (∃ y ∈ (b.adv O).asked (b.H O), y.1 = x) ∨ (∃ av bv, ValidBy I (b.H O) ct pt ((b.adv O).run (b.H O)).1 ((b.adv O).run (b.H O)).2 av bv ∧
    ∃ t < I.T, x = viewText I (b.H O) (av t) ∨ x = viewText I (b.H O) (bv t)) ∨ x ∈ b.W O}

theorem vstr_com {n : ℕ} (hI : I.Is n) (hct : ct.length = I.blk) (hpt : pt.length = I.blk) {H : Oracle N M} {msg sig : Bytes} {av bv : ℕ → Picnic1.View}
    (hv : ValidBy I H ct pt msg sig av bv) {x : Bytes} (hx : x ∈ vstrs I ct pt H msg sig) (hc : IsCom I x) : ∃ t < I.T, x = viewText I H (av t) ∨ x = viewText I H (bv t) := by
  obtain ⟨e, salt, o, o', hp, ho, g1, g2, g3, g4⟩ := parsed_of hv
  obtain ⟨hl, hlt⟩ := isChallenge_facts g4
  have hs := rom_sizes hI
  have hP : Parsed I sig e salt o := ⟨g1, g2, hl, hlt, fun t ht => (g3 t ht).1⟩
  have hP' : Parsed I sig e salt o' := parse_some hp
  have hop : ∀ t < I.T, OpenedBy I H pt salt t (e.getD t 0) (o t) (av t) (bv t) := fun t ht => (g3 t ht).2.2
  have hop' : ∀ t < I.T, OpenedBy I H pt salt t (e.getD t 0) (o' t) (av t) (bv t) := fun t ht => by
    rw [ho t ht]
    exact hop t ht
  obtain ⟨d, key, gates, out, hw, rfl⟩ := hc
  have hne : ∀ {u : Use I.T}, Use.WF I u → (∀ d key gates out, u ≠ .com d key gates out) → Use.text (T := I.T) I (.com d key gates out) ≠ Use.text I u := fun hu hn h =>
    hn _ _ _ _ (C59_zkb I n hI _ _ hw hu h).symm
  unfold vstrs at hx
  simp only [List.mem_append] at hx
  rcases hx with ((hx | hx) | hx) | hx
  · exfalso
    unfold strs1 at hx
    rw [hp] at hx
    obtain ⟨t, ht, hx⟩ := List.mem_flatMap.1 hx
    have hf := hP'.fits t (List.mem_range.1 ht)
    simp only [seedStrs, List.mem_cons, List.not_mem_nil, or_false] at hx
    rcases hx with hx | hx | hx | hx | hx | hx
    · exact hne (u := .tapeSeed (o' t).seed0) hf.seed0 (by simp) hx
    · exact hne (u := .tapeSeed (o' t).seed1) hf.seed1 (by simp) hx
    · exact hne (u := .comSeed (o' t).seed0) hf.seed0 (by simp) hx
    · exact hne (u := .comSeed (o' t).seed1) hf.seed1 (by simp) hx
    · exact hne (u := .gSeed (o' t).seed0) hf.seed0 (by simp) hx
    · exact hne (u := .gSeed (o' t).seed1) hf.seed1 (by simp) hx
  · exfalso
    unfold strs2 at hx
    rw [hp] at hx
    obtain ⟨t, ht, hx⟩ := List.mem_flatMap.1 hx
    have ht := List.mem_range.1 ht
    have he := getD_lt hlt t
    have htl : ∀ j, tapeLen I j < 2 ^ 16 := fun j => by
      unfold tapeLen
      split_ifs <;> omega
    simp only [List.mem_cons, List.not_mem_nil, or_false, tapeStr] at hx
    rcases hx with hx | hx
    · exact hne (u := .tape _ _ _ _ _) ⟨hash_len' _ _ _, g2, by omega, by omega, htl _⟩ (by simp) hx
    · exact hne (u := .tape _ _ _ _ _) ⟨hash_len' _ _ _, g2, by omega, by omega, htl _⟩ (by simp) hx
  · unfold strs3 at hx
    rw [hp] at hx
    obtain ⟨t, ht, hx⟩ := List.mem_flatMap.1 hx
    have ht := List.mem_range.1 ht
    rw [openOf_some hI (hop' t ht)] at hx
    obtain ⟨la, lb⟩ := openedBy_lengths (getD_lt hlt t) (hP.fits t ht) (hop t ht)
    unfold viewStrs at hx
    rcases List.mem_append.1 hx with hx | hx
    · simp only [List.mem_cons, List.not_mem_nil, or_false] at hx
      exact ⟨t, ht, hx⟩
    · exfalso
      split_ifs at hx with hu
      · have hk : ∀ (j : ℕ) (v : Picnic1.View), v.key.length = I.blk → ∀ k ∈ (if j = 2 then some v.key else none), List.length k = I.blk := by
          intro j v hv k hk
          split_ifs at hk
          · obtain rfl := Option.some.inj hk
            exact hv
          · simp at hk
        simp only [List.mem_cons, List.not_mem_nil, or_false, gStr] at hx
        rcases hx with hx | hx
        · exact hne (u := .g _ _ _) ⟨hu, hash_len' _ _ _, hk _ _ la.2.1, la.2.2.1⟩ (by simp) hx
        · exact hne (u := .g _ _ _) ⟨hu, hash_len' _ _ _, hk _ _ lb.2.1, lb.2.2.1⟩ (by simp) hx
      · simp at hx
  · exfalso
    have hm : challengeText I H ct pt msg e salt o' av bv = Use.text (T := I.T) I (.com d key gates out) := by
      have h1 := mem_strs4 (ct := ct) (msg := msg) hI hp (fun _ _ => rfl) hop'
      have h2 := len4 (I := I) (O := H) (ct := ct) (pt := pt) msg sig
      obtain ⟨z, hz⟩ : ∃ z, strs4 I H ct pt msg sig = [z] := List.length_eq_one_iff.1 (le_antisymm h2 (List.length_pos_of_mem hx))
      rw [hz, List.mem_singleton] at h1 hx
      rw [h1, hx]
    have hch := challengeText_isCh (msg := msg) hct hpt hP' hop'
    exact hne hch.1 (by simp) (hm.symm.trans hch.2)

/-- **The bound.** -/
theorem prob_wins_clash (b : Base N M I ct pt B p msgs) {n : ℕ} (hI : I.Is n) (hM : I.digest ≤ M) (hA : ∀ O O', ((b.adv O).asked O').length ≤ q) (hct : ct.length = I.blk)
    (hpt : pt.length = I.blk) (hN : ∀ O O', 3 * I.T * (I.digest + I.seed + I.gate + 2 * I.blk) + 2 * I.blk + ((b.adv O).run O').1.length + 33 ≤ N) :
    prob (fun O => b.Wins O ∧ ¬ Reveal I ct pt (b.Strings O) ∨ (b.world hI hA).Clash O) ≤ ((B + (q + 12 * I.T + 1) : ℕ) : ℝ) * (2 / 3) ^ I.T +
      (((B + (q + 12 * I.T + 1) : ℕ) : ℝ) ^ 2 * (4 * I.T + 3) + ((B + (q + 12 * I.T + 1) : ℕ) : ℝ) * (I.T + 1) ^ 2 + ((B + (q + 12 * I.T + 1) : ℕ) : ℝ) * p) / 2 ^ (8 * I.digest) := by
  have hN1 : I.digest + 1 ≤ N := by
    have h1 := rom_sizes hI
    have h2 := hN (fun _ => 0) (fun _ => 0)
    omega
  refine le_trans (prob_mono fun O h => ?_) (World.prob_forged_clash hI hM hN1 (b.world hI hA))
  refine h.imp_left fun h => ⟨forged hI hA hct hpt hN h.1, fun hr => h.2 ?_⟩
  obtain ⟨x, hx, y, hy, z, hz, hk⟩ := hr
  obtain ⟨-, av, bv, hv⟩ := h.1
  have key : ∀ x ∈ {x | x ∈ (b.world hI hA).All O ∧ IsCom I x}, x ∈ b.Strings O := by
    rintro x ⟨⟨y, hy, rfl⟩ | hx, hc⟩
    · rcases List.mem_append.1 hy with hy | hy
      · exact absurd hc (b.plain O y hy).2
      · rcases mem_vasked.1 (List.mem_filter.1 hy).1 with hy | hy
        · exact Or.inl ⟨y, hy, rfl⟩
        · exact Or.inr (Or.inl ⟨av, bv, hv, vstr_com hI hct hpt hv hy hc⟩)
    · exact Or.inr (Or.inr hx)
  exact ⟨x, key x hx, y, key y hy, z, key z hz, hk⟩

theorem prob_wins (b : Base N M I ct pt B p msgs) {n : ℕ} (hI : I.Is n) (hM : I.digest ≤ M) (hA : ∀ O O', ((b.adv O).asked O').length ≤ q) (hct : ct.length = I.blk)
    (hpt : pt.length = I.blk) (hN : ∀ O O', 3 * I.T * (I.digest + I.seed + I.gate + 2 * I.blk) + 2 * I.blk + ((b.adv O).run O').1.length + 33 ≤ N) :
    prob (fun O => b.Wins O ∧ ¬ Reveal I ct pt (b.Strings O)) ≤ ((B + (q + 12 * I.T + 1) : ℕ) : ℝ) * (2 / 3) ^ I.T +
      (((B + (q + 12 * I.T + 1) : ℕ) : ℝ) ^ 2 * (4 * I.T + 3) + ((B + (q + 12 * I.T + 1) : ℕ) : ℝ) * (I.T + 1) ^ 2 + ((B + (q + 12 * I.T + 1) : ℕ) : ℝ) * p) / 2 ^ (8 * I.digest) :=
  le_trans (prob_mono fun _ h => Or.inl h) (prob_wins_clash b hI hM hA hct hpt hN)

end Base

end Picnic.Rom
