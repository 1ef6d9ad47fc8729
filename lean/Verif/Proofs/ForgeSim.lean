import Verif.Proofs.ForgeSimChain
import Verif.Proofs.RomMany

/-
C63: what the simulator of several signatures leaves to a forger.
-/

namespace Picnic.Rom

open Spec Spec.Zkb Spec.Rom Spec.Picnic1 Spec.Challenge

variable {N M : ℕ} {I : Inst} {O O' : Oracle N M} {ct pt : Bytes} {k : ℕ}

/-! ### The simulator in closed form -/

/-- Written values, one layer over the other. -/
noncomputable def layers (X : Oracle N M) : {k : ℕ} → (Fin k → Answers I M) → (Fin k → List ℕ) → (Fin k → Query I.T I.unruh → Bytes) → Oracle N M
  | 0, _, _, _ => X
  | _ + 1, a, es, p => swrite I (layers X (fun i => a i.succ) (fun i => es i.succ) fun i => p i.succ) (a 0) (es 0) (p 0)

theorem swrite_on {X : Oracle N M} {a : Answers I M} {e : List ℕ} {p : Query I.T I.unruh → Bytes} {x : Arg N} (h : ∃ q, Shown e q ∧ p q = x.1) :
    (∃ q, Shown e q ∧ p q = x.1 ∧ swrite I X a e p x = a q) ∧ ∀ X' : Oracle N M, swrite I X' a e p x = swrite I X a e p x := by
  refine ⟨⟨h.choose, h.choose_spec.1, h.choose_spec.2, ?_⟩, fun X' => ?_⟩
  · unfold swrite
    rw [dif_pos h]
  · unfold swrite
    rw [dif_pos h, dif_pos h]

theorem swrite_off {X : Oracle N M} {a : Answers I M} {e : List ℕ} {p : Query I.T I.unruh → Bytes} {x : Arg N} (h : ¬ ∃ q, Shown e q ∧ p q = x.1) :
    swrite I X a e p x = X x := by
  unfold swrite
  rw [dif_neg h]

theorem layers_off {X : Oracle N M} {x : Arg N} : ∀ {k : ℕ} {a : Fin k → Answers I M} {es : Fin k → List ℕ} {p : Fin k → Query I.T I.unruh → Bytes},
    (¬ ∃ i q, Shown (es i) q ∧ p i q = x.1) → layers X a es p x = X x
  | 0, _, _, _, _ => rfl
  | k + 1, a, es, p, h => by
    rw [layers, swrite_off fun hq => h ⟨0, hq⟩]
    exact layers_off fun ⟨i, hq⟩ => h ⟨i.succ, hq⟩

theorem layers_on {X : Oracle N M} {x : Arg N} : ∀ {k : ℕ} {a : Fin k → Answers I M} {es : Fin k → List ℕ} {p : Fin k → Query I.T I.unruh → Bytes},
    (∃ i q, Shown (es i) q ∧ p i q = x.1) → (∃ i q, Shown (es i) q ∧ p i q = x.1 ∧ layers X a es p x = a i q) ∧ ∀ X' : Oracle N M, layers X' a es p x = layers X a es p x
  | 0, _, _, _, ⟨i, _⟩ => i.elim0
  | k + 1, a, es, p, h => by
    by_cases h0 : ∃ q, Shown (es 0) q ∧ p 0 q = x.1
    · obtain ⟨⟨q, h1, h2, h3⟩, -⟩ := swrite_on (X := layers X (fun i => a i.succ) (fun i => es i.succ) fun i => p i.succ) (a := a 0) h0
      exact ⟨⟨0, q, h1, h2, h3⟩, fun X' => (swrite_on h0).2 _⟩
    · obtain ⟨⟨i, q, h1, h2, h3⟩, h4⟩ := layers_on (X := X) (x := x) (a := fun i => a i.succ) (es := fun i => es i.succ) (p := fun i => p i.succ) (by
        obtain ⟨i, hq⟩ := h
        revert hq
        refine Fin.cases (fun hq => absurd hq h0) (fun i hq => ⟨i, hq⟩) i)
      refine ⟨⟨i.succ, q, h1, h2, ?_⟩, fun X' => ?_⟩
      · rw [layers, swrite_off h0]
        exact h3
      · rw [layers, layers, swrite_off h0, swrite_off h0]
        exact h4 X'

theorem layers_plain {n : ℕ} (hI : I.Is n) (hct : ct.length = I.blk) (hpt : pt.length = I.blk) (ms : Fin k → Bytes) (a : Fin k → Answers I M) (es : Fin k → List ℕ)
    {m : Bytes} (hm : m ∈ Plain I) : ask (layers O a es fun i => spts I ct pt (ms i) O (a i) (es i)) m = ask O m := by
  unfold ask
  split_ifs with h
  · refine layers_off ?_
    rintro ⟨i, q, hq, e⟩
    exact spts_plain hI hct hpt O (a i) (es i) hq (by rw [e]; exact hm)
  · rfl

/-- The signatures. -/
def sigs (ct pt : Bytes) (a : Fin k → Answers I M) (es : Fin k → List ℕ) : List Bytes := List.ofFn fun i => signature I (a i) (simView I ct pt (a i) (es i)) (es i)

theorem simMany_eq {n : ℕ} (hI : I.Is n) (hct : ct.length = I.blk) (hpt : pt.length = I.blk) : ∀ {k : ℕ} (ms : Fin k → Bytes) (a : Fin k → Answers I M) (es : Fin k → List ℕ),
    (∀ i, challenge I O (bytes I.digest (a i .digest)) = some (es i)) →
    simMany I O ct pt ms a = some (sigs ct pt a es, layers O a es fun i => spts I ct pt (ms i) O (a i) (es i))
  | 0, _, _, _, _ => rfl
  | k + 1, ms, a, es, h => by
    have ih := simMany_eq hI hct hpt (fun i => ms i.succ) (fun i => a i.succ) (fun i => es i.succ) fun i => h i.succ
    have hp : ∀ m ∈ Plain I, ask (layers O (fun i : Fin k => a i.succ) (fun i => es i.succ) fun i => spts I ct pt (ms i.succ) O (a i.succ) (es i.succ)) m = ask O m :=
      fun m hm => layers_plain hI hct hpt _ _ _ hm
    rw [simMany, ih, Option.bind_some, sim_eq, challenge_next (fun d hd => hp _ (plain_next hd)) (bytes_len' _ _), h 0]
    have e1 := spts_agree (ct := ct) (pt := pt) (msg := ms 0) (a := a 0) (O' := O) (fun t j l => hp _ (seedText_plain l (seed_len (a 0) t j.2))) (es 0)
    simp only [Option.map_some, sigs, List.ofFn_succ, layers]
    rw [e1]

theorem simMany_some {n : ℕ} (hI : I.Is n) (hct : ct.length = I.blk) (hpt : pt.length = I.blk) : ∀ {k : ℕ} (ms : Fin k → Bytes) (a : Fin k → Answers I M)
    {x : List Bytes × Oracle N M}, simMany I O ct pt ms a = some x → ∀ i, ∃ e, challenge I O (bytes I.digest (a i .digest)) = some e
  | 0, _, _, _, _ => fun i => i.elim0
  | k + 1, ms, a, x, h => by
    rw [simMany, Option.bind_eq_some_iff] at h
    obtain ⟨r, hr, h⟩ := h
    have ih := simMany_some hI hct hpt _ _ hr
    choose es hes using ih
    have he := simMany_eq hI hct hpt (fun i => ms i.succ) (fun i => a i.succ) es hes
    rw [hr] at he
    obtain rfl := Option.some.inj he
    have hp : ∀ m ∈ Plain I, ask (layers O (fun i : Fin k => a i.succ) es fun i => spts I ct pt (ms i.succ) O (a i.succ) (es i)) m = ask O m :=
      fun m hm => layers_plain hI hct hpt _ _ _ hm
    dsimp only at h
    rw [sim_eq, challenge_next (fun d hd => hp _ (plain_next hd)) (bytes_len' _ _), Option.map_map, Option.map_eq_some_iff] at h
    obtain ⟨e, he, -⟩ := h
    refine Fin.cases ⟨e, he⟩ fun i => ⟨es i, hes i⟩

/-! ### Strings -/

/-- What the strings into which the simulator writes are hashed for. -/
theorem spts_use {n : ℕ} (hI : I.Is n) (hct : ct.length = I.blk) (hpt : pt.length = I.blk) {msg : Bytes} (a : Answers I M) (e : List ℕ) {q : Query I.T I.unruh}
    (hq : Shown e q) : ∃ u : Use I.T, Use.WF I u ∧ spts I ct pt msg O a e q = Use.text I u ∧
      (∀ d key gates out, u = .com d key gates out → ∃ (t : Fin I.T) (j : Fin 3), d = Rom.hash O (seedText I 1 (seed a t j)) I.digest) ∧
      ∀ outs coms gs ct' pt' salt msg', u = .challenge outs coms gs ct' pt' salt msg' → msg' = msg := by
  have hs := rom_sizes hI
  have hv : ∀ t j, (simView I ct pt a e t j).key.length = I.blk ∧ (simView I ct pt a e t j).gates.length = I.gate ∧ (simView I ct pt a e t j).out.length = I.blk := by
    intro t j
    unfold simView
    dsimp only
    split_ifs
    · exact ⟨ofBits_len' _ _, ofBits_len' _ _, ofBits_len' _ _⟩
    · exact ⟨ofBits_len' _ _, ofBits_len' _ _, ofBits_len' _ _⟩
  unfold spts
  cases q with
  | secrets => exact hq.elim
  | tape t j =>
    simp only [point]
    refine ⟨_, ?_, rfl, (by simp), (by simp)⟩
    simp only [Use.WF]
    refine ⟨hash_len _ _ _, salt_len a, by have := t.2; omega, by omega, ?_⟩
    unfold tapeLen
    split_ifs <;> omega
  | com t j =>
    simp only [point]
    refine ⟨_, ?_, rfl, fun d key gates out h => ?_, (by simp)⟩
    · simp only [Use.WF]
      exact ⟨hash_len _ _ _, hv t j⟩
    · rw [Use.com.injEq] at h
      exact ⟨t, j, h.1.symm⟩
  | g hu t j =>
    simp only [point]
    refine ⟨_, ?_, rfl, (by simp), (by simp)⟩
    simp only [Use.WF]
    refine ⟨hu, hash_len _ _ _, fun k hk => ?_, (hv t j).2.1⟩
    split_ifs at hk with h2
    · rw [Option.mem_def, Option.some.injEq] at hk
      rw [← hk]
      exact (hv t j).1
    · simp at hk
  | digest =>
    simp only [point]
    refine ⟨_, sim_digest_wf hct hpt a e, rfl, (by simp), fun outs coms gs ct' pt' salt msg' h => ?_⟩
    rw [Use.challenge.injEq] at h
    exact h.2.2.2.2.2.2.symm

theorem plain_not {n : ℕ} (hI : I.Is n) {x : Bytes} (hx : x ∈ Plain I) : (∀ outs coms gs salt msg, ¬ IsCh I ct pt x outs coms gs salt msg) ∧ ¬ IsCom I x := by
  constructor
  · rintro outs coms gs salt msg ⟨hw, h⟩
    rcases hx with ⟨s, hl, h' | h' | h'⟩ | ⟨d, hl, h'⟩
    · exact absurd (C59_zkb I n hI _ _ hw (by simp only [Use.WF]; exact hl) (h.symm.trans h')) (by simp)
    · exact absurd (C59_zkb I n hI _ _ hw (by simp only [Use.WF]; exact hl) (h.symm.trans h')) (by simp)
    · exact absurd (C59_zkb I n hI _ _ hw (by simp only [Use.WF]; exact hl) (h.symm.trans h')) (by simp)
    · exact absurd (C59_zkb I n hI _ _ hw (by simp only [Use.WF]; exact hl) (h.symm.trans h')) (by simp)
  · rintro ⟨d, key, gates, out, hw, h⟩
    rcases hx with ⟨s, hl, h' | h' | h'⟩ | ⟨d', hl, h'⟩
    · exact absurd (C59_zkb I n hI _ _ hw (by simp only [Use.WF]; exact hl) (h.symm.trans h')) (by simp)
    · exact absurd (C59_zkb I n hI _ _ hw (by simp only [Use.WF]; exact hl) (h.symm.trans h')) (by simp)
    · exact absurd (C59_zkb I n hI _ _ hw (by simp only [Use.WF]; exact hl) (h.symm.trans h')) (by simp)
    · exact absurd (C59_zkb I n hI _ _ hw (by simp only [Use.WF]; exact hl) (h.symm.trans h')) (by simp)

/-! ### The questions of the simulator -/

/-- Several lists of questions. -/
def Proc.list : {k : ℕ} → (Fin k → Proc N M) → Proc N M
  | 0, _ => Proc.const []
  | _ + 1, P => (P 0).seq (Proc.list fun i => P i.succ)

theorem Proc.mem_list {x : Arg N} : ∀ {k : ℕ} {P : Fin k → Proc N M}, x ∈ (Proc.list P).asked O ↔ ∃ i, x ∈ (P i).asked O
  | 0, P => by simp [Proc.list, Proc.const]
  | k + 1, P => by
    simp only [Proc.list, Proc.seq, List.mem_append]
    rw [Proc.mem_list, Fin.exists_fin_succ]

theorem Proc.len_list {L : ℕ} : ∀ {k : ℕ} {P : Fin k → Proc N M}, (∀ i, ((P i).asked O).length ≤ L) → ((Proc.list P).asked O).length ≤ k * L
  | 0, P, _ => by simp [Proc.list, Proc.const]
  | k + 1, P, h => by
    simp only [Proc.list, Proc.seq, List.length_append]
    have h1 := Proc.len_list fun i => h i.succ
    have h2 := h 0
    calc _ ≤ L + k * L := add_le_add h2 h1
      _ = _ := by ring

/-- The questions of the simulator: the strings made of the seeds, and the chains of digests. -/
noncomputable def simProc (hN : I.digest + 1 ≤ N) (a : Fin k → Answers I M) : Proc N M :=
  Proc.list fun i => (Proc.const (toArgs (seedTexts (a i)))).seq (chainProc M hN (bytes_len' I.digest (a i .digest)) (I.T + 1))

theorem simProc_len (hN : I.digest + 1 ≤ N) (a : Fin k → Answers I M) (O : Oracle N M) : ((simProc hN a).asked O).length ≤ k * (10 * I.T + 1) := by
  refine Proc.len_list fun i => ?_
  have h1 : (toArgs (seedTexts (a i)) : List (Arg N)).length ≤ 9 * I.T := le_trans (toArgs_len _) (le_of_eq (seedTexts_len _))
  simp only [Proc.seq, Proc.const, chainProc, List.length_append, List.length_map, List.length_range]
  omega

theorem simProc_seed (hN : I.digest + 1 ≤ N) (a : Fin k → Answers I M) (O : Oracle N M) (i : Fin k) {x : Arg N} (hx : x ∈ (toArgs (seedTexts (a i)) : List (Arg N))) :
    x ∈ (simProc hN a).asked O := Proc.mem_list.2 ⟨i, List.mem_append_left _ hx⟩

theorem simProc_plain (hN : I.digest + 1 ≤ N) (a : Fin k → Answers I M) (O : Oracle N M) {x : Arg N} (hx : x ∈ (simProc hN a).asked O) : x.1 ∈ Plain I := by
  obtain ⟨i, hx⟩ := Proc.mem_list.1 hx
  rcases List.mem_append.1 hx with hx | hx
  · have := mem_toArgs.1 hx
    unfold seedTexts at this
    obtain ⟨y, -, h⟩ := List.mem_map.1 this
    rw [← h]
    exact seedText_plain _ (seed_len _ _ y.2.1.2)
  · obtain ⟨j, -, rfl⟩ := List.mem_map.1 hx
    exact plain_next (chainAt_len (bytes_len' _ _) j)

theorem simProc_challenge (hN : I.digest + 1 ≤ N) (a : Fin k → Answers I M) (h : ∀ x ∈ (simProc hN a).asked O, O' x = O x) (i : Fin k) :
    challenge I O' (bytes I.digest (a i .digest)) = challenge I O (bytes I.digest (a i .digest)) := by
  refine challenge_chain (bytes_len' _ _) fun x hx => ?_
  obtain ⟨y, hy, rfl⟩ := chainProc_mem (M := M) hN (bytes_len' I.digest (a i .digest)) (I.T + 1) hx
  have := h y (Proc.mem_list.2 ⟨i, List.mem_append_right _ hy⟩)
  unfold ask
  rw [dif_pos y.2, dif_pos y.2]
  exact this

theorem simProc_spts (hN : I.digest + 1 ≤ N) (a : Fin k → Answers I M) (h : ∀ x ∈ (simProc hN a).asked O, O' x = O x) (i : Fin k) (msg : Bytes) (e : List ℕ) :
    spts I ct pt msg O' (a i) e = spts I ct pt msg O (a i) e :=
  spts_agree (fun t j l => ask_of_args (l := seedTexts (a i)) (fun x hx => h x (simProc_seed hN a O i hx)) (mem_seedTexts _ t j l)) e

/-! ### The forger after the simulator -/

/-- The digests of the answers are different. -/
def Digests (a : Fin k → Answers I M) : Prop := Function.Injective fun x : Fin k × Query I.T I.unruh => Rom.bytes I.digest (a x.1 x.2)

/-- All searches for a challenge end. -/
def AllEnd (a : Fin k → Answers I M) (O : Oracle N M) : Prop := ∀ i, ∃ e, challenge I O (bytes I.digest (a i .digest)) = some e

/-- The challenges. -/
noncomputable def chals (a : Fin k → Answers I M) (O : Oracle N M) (i : Fin k) : List ℕ := (challenge I O (bytes I.digest (a i .digest))).getD []

theorem chals_eq {a : Fin k → Answers I M} (h : AllEnd a O) (i : Fin k) : challenge I O (bytes I.digest (a i .digest)) = some (chals a O i) := by
  obtain ⟨e, he⟩ := h i
  unfold chals
  rw [he]
  rfl

open Classical in
/-- What the simulator leaves. -/
noncomputable def simBase {n : ℕ} (hI : I.Is n) (hct : ct.length = I.blk) (hpt : pt.length = I.blk) (hN : I.digest + 1 ≤ N) (ms : Fin k → Bytes) (a : Fin k → Answers I M)
    (ha : Digests a) (A : List Bytes → Adv N M (Bytes × Bytes)) :
    Base N M I ct pt (k * (10 * I.T + 1)) (Fintype.card (Fin k × Query I.T I.unruh)) (Set.range ms) where
  base := simProc hN a
  W O := {x | x.length ≤ N ∧ AllEnd a O ∧ ∃ i q, Shown (chals a O i) q ∧ spts I ct pt (ms i) O (a i) (chals a O i) q = x}
  H O := if AllEnd a O then layers O a (chals a O) fun i => spts I ct pt (ms i) O (a i) (chals a O i) else O
  adv O := if AllEnd a O then A (sigs ct pt a (chals a O)) else .done ([], [])
  vals v := bytes I.digest (a ((Fintype.equivFin (Fin k × Query I.T I.unruh)).symm v).1 ((Fintype.equivFin (Fin k × Query I.T I.unruh)).symm v).2)
  len O := simProc_len hN a O
  plain O x hx := plain_not hI (simProc_plain hN a O hx)
  off O x hx := by
    split_ifs with h
    · exact layers_off fun ⟨i, q, hq⟩ => hx ⟨x.2, h, i, q, hq⟩
    · rfl
  on O x hx := by
    obtain ⟨hl, h, hq⟩ := hx
    rw [if_pos h]
    obtain ⟨⟨i, q, -, -, e⟩, -⟩ := layers_on (X := O) (x := ⟨x, hl⟩) (a := a) hq
    refine ⟨Fintype.equivFin _ (i, q), ?_⟩
    rw [Equiv.symm_apply_apply]
    unfold Rom.hash ask
    rw [dif_pos hl, e]
  inj O x hx y hy hne he := by
    obtain ⟨hl, h, hq⟩ := hx
    obtain ⟨hl', -, hq'⟩ := hy
    rw [if_pos h] at he
    obtain ⟨⟨i, q, -, e1, e⟩, -⟩ := layers_on (X := O) (x := ⟨x, hl⟩) (a := a) hq
    obtain ⟨⟨i', q', -, e1', e'⟩, -⟩ := layers_on (X := O) (x := ⟨y, hl'⟩) (a := a) hq'
    unfold Rom.hash ask at he
    rw [dif_pos hl, dif_pos hl', e, e'] at he
    have := ha (a₁ := (i, q)) (a₂ := (i', q')) he
    rw [Prod.mk.injEq] at this
    obtain ⟨rfl, rfl⟩ := this
    exact hne (e1.symm.trans e1')
  fresh O x hx hw := by
    obtain ⟨-, -, i, q, hq, e⟩ := hw
    exact spts_plain hI hct hpt O (a i) _ hq (by rw [e]; exact simProc_plain hN a O hx)
  loc O O' h := by
    have h1 : ∀ i, challenge I O' (bytes I.digest (a i .digest)) = challenge I O (bytes I.digest (a i .digest)) := simProc_challenge hN a h
    have h2 : AllEnd a O' = AllEnd a O := by
      unfold AllEnd
      simp only [h1]
    have h3 : chals a O' = chals a O := by
      funext i
      unfold chals
      rw [h1]
    have h4 : ∀ i, spts I ct pt (ms i) O' (a i) (chals a O' i) = spts I ct pt (ms i) O (a i) (chals a O i) := fun i => by
      rw [h3, simProc_spts hN a h]
    refine ⟨?_, ?_, ?_⟩
    · simp only [h2, h4]
      rw [h3]
    · simp only [h2]
      rw [h3]
    · rintro x ⟨hl, hA, hq⟩
      simp only [h2, h4]
      rw [h3, if_pos hA, if_pos hA]
      exact (layers_on (X := O) (x := x) (a := a) hq).2 O'
  known O d key gates out hw hx := by
    obtain ⟨-, -, i, q, hq, e⟩ := hx
    obtain ⟨u, hu, e', hc, -⟩ := spts_use (O := O) hI hct hpt (msg := ms i) (a i) _ hq
    have := C59_zkb I n hI _ _ hu hw (e'.symm.trans e)
    obtain ⟨t, j, hd⟩ := hc _ _ _ _ this
    have hl : (seedText I 1 (seed (a i) t j)).length ≤ N := by
      have := rom_sizes hI
      rw [seedText_len, seed_len _ _ j.2]
      omega
    exact ⟨⟨_, hl⟩, simProc_seed hN a O i (mem_toArgs.2 (mem_seedTexts _ t j 1)), hd.symm⟩
  next O d hd hw := by
    obtain ⟨-, -, i, q, hq, e⟩ := hw
    exact spts_plain hI hct hpt O (a i) _ hq (by rw [e]; exact plain_next hd)
  chal O c outs coms gs salt msg hc hw := by
    obtain ⟨-, -, i, q, hq, e⟩ := hw
    obtain ⟨u, hu, e', -, hm⟩ := spts_use (O := O) hI hct hpt (msg := ms i) (a i) _ hq
    have := C59_zkb I n hI _ _ hu hc.1 (e'.symm.trans (e.trans hc.2))
    exact ⟨i, (hm _ _ _ _ _ _ _ this).symm⟩

end Picnic.Rom
