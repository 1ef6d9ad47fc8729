import Verif.Proofs.RomSwap
import Verif.Proofs.H3

/-
C62: the simulator shows what a signer who writes answers into the oracle shows.
-/

namespace Picnic.Rom

open Spec Spec.Zkb Spec.Rom Spec.Picnic1 Spec.Challenge

variable {N M : ℕ} {I : Inst}

theorem challenge_lt {O : Oracle N M} {d : Bytes} {e : List ℕ} (h : challenge I O d = some e) (t : ℕ) : e.getD t 0 < 3 := by
  unfold challenge at h
  split_ifs at h with hx
  obtain ⟨n, -, he⟩ := hx.choose_spec
  rw [Option.some.inj h] at he
  rw [List.getD_eq_getElem?_getD]
  by_cases ht : t < e.length
  · rw [List.getElem?_eq_getElem ht]
    have hm : e[t] ∈ (stream (fun d => Rom.hash O (Use.text (T := I.T) I (.next d)) I.digest) d n).take I.T := by
      have := List.getElem_mem ht
      rwa [← he]
    exact stream_lt (List.mem_of_mem_take hm)
  · rw [List.getElem?_eq_none (by omega)]
    simp

theorem pick_congr {α : Type} {p p' : α → Prop} (h : p = p') : (open Classical in if h : ∃ e, p e then some h.choose else none) =
    (open Classical in if h : ∃ e, p' e then some h.choose else none) := by
  subst h
  rfl

theorem hash_len (O : Oracle N M) (m : Bytes) (n : ℕ) : (Rom.hash O m n).length = n := bytes_len' _ _

theorem hash_plain {O O' : Oracle N M} (h : ∀ m ∈ Plain I, ask O m = ask O' m) {m : Bytes} (hm : m ∈ Plain I) (n : ℕ) : Rom.hash O m n = Rom.hash O' m n := by
  unfold Rom.hash
  rw [h m hm]

theorem challenge_congr {O O' : Oracle N M} (h : ∀ m ∈ Plain I, ask O m = ask O' m) {d : Bytes} (hd : d.length = I.digest) :
    challenge I O d = challenge I O' d := by
  have hs : ∀ n, ∀ d : Bytes, d.length = I.digest → stream (fun d => Rom.hash O (Use.text (T := I.T) I (.next d)) I.digest) d n =
      stream (fun d => Rom.hash O' (Use.text (T := I.T) I (.next d)) I.digest) d n := by
    intro n
    induction n with
    | zero => intro d _; simp only [stream]
    | succ n ih =>
      intro d hd
      simp only [stream]
      rw [hash_plain h (plain_next hd), ih _ (hash_len _ _ _)]
  unfold challenge
  refine pick_congr ?_
  funext e
  unfold IsChallenge
  simp only [hs _ d hd]

section

variable {sk ct pt msg : Bytes}

variable (I sk ct pt msg) in
/-- A signer who chooses the answers and writes them into the oracle. -/
noncomputable def hyb (O : Oracle N M) (a : Answers I M) : Option (Play N M) :=
  (challenge I (prog I sk ct pt msg O a) (bytes I.digest (a .digest))).map fun e => ⟨signature I a (view I sk pt a) e, prog I sk ct pt msg O a, secrets a, e⟩

variable (I sk pt) in
/-- The answers for the empty key that lead to the same opened views. -/
noncomputable def flip (sk' : Bytes) (O : Oracle N M) (a : Answers I M) : Answers I M :=
  match challenge I O (bytes I.digest (a .digest)) with
  | some e => conv I sk sk' pt e a
  | none => a

theorem conv_secrets (sk' : Bytes) (e : List ℕ) (a : Answers I M) : conv I sk sk' pt e a .secrets = a .secrets := rfl
theorem conv_digest (sk' : Bytes) (e : List ℕ) (a : Answers I M) : conv I sk sk' pt e a .digest = a .digest := rfl
theorem conv_com (sk' : Bytes) (e : List ℕ) (a : Answers I M) (t : Fin I.T) (j : Fin 3) : conv I sk sk' pt e a (.com t j) = a (.com t j) := rfl
theorem conv_g (sk' : Bytes) (e : List ℕ) (a : Answers I M) (h : I.unruh = true) (t : Fin I.T) (j : Fin 3) :
    conv I sk sk' pt e a (.g h t j) = a (.g h t j) := rfl

theorem flip_flip (hM : I.blk + I.gate ≤ M) (hS : Sizes I) {sk' : Bytes} (hk : IsKey I sk) (hk' : IsKey I sk') (O : Oracle N M) (a : Answers I M) :
    flip I sk' pt sk O (flip I sk pt sk' O a) = a := by
  rcases h : challenge I O (bytes I.digest (a .digest)) with _ | e
  · unfold flip
    simp only [h]
  · have e1 : flip I sk pt sk' O a = conv I sk sk' pt e a := by
      unfold flip
      simp only [h]
    rw [e1]
    unfold flip
    rw [conv_digest, h]
    exact conv_conv hM hS hk hk' fun t => challenge_lt h t

/-- Views of opened parties. -/
theorem view_conv (hM : I.blk + I.gate ≤ M) (hS : Sizes I) {sk' : Bytes} (hk : IsKey I sk) (hk' : IsKey I sk') {e : List ℕ} {t : Fin I.T} {c : ℕ}
    (he : e.getD t 0 = c) (hc : c < 3) (a : Answers I M) {j : ℕ} (hj : j < 3) (h : j ≠ (c + 2) % 3) :
    view I sk' pt (conv I sk sk' pt e a) t j = view I sk pt a t j := by
  rw [view_eq, view_eq, bview_conv hM hS hk hk' he hc hj h, seed_congr (conv_secrets sk' e a)]

section

variable (hM : I.blk + I.gate ≤ M) (hS : Sizes I) (hk : IsKey I sk) (hl : sk.length = I.blk)
  (hct : ct = Spec.Picnic1.ofBits I.blk (I.X.enc (toBits sk) (toBits pt))) {e : List ℕ} (he : ∀ t, e.getD t 0 < 3) (a : Answers I M)

include hM hS hk he in
theorem simView_open {t : Fin I.T} {j : ℕ} (hj : j < 3) (h : j ≠ (e.getD t 0 + 2) % 3) :
    simView I ct pt (conv I sk [] pt e a) e t j = view I sk pt a t j := by
  unfold simView
  rw [if_neg h]
  exact view_conv hM hS hk isKey_nil rfl (he t) a hj h

include hM hS hk hl hct he in
theorem simView_out (t : Fin I.T) (j : Fin 3) : (simView I ct pt (conv I sk [] pt e a) e t j).out = (view I sk pt a t j).out := by
  by_cases h : (j : ℕ) = (e.getD t 0 + 2) % 3
  · have h3 := he t
    unfold simView
    rw [if_pos h]
    dsimp only
    rw [view_conv hM hS hk isKey_nil rfl h3 a h3 (by omega), view_conv hM hS hk isKey_nil rfl h3 a (Nat.mod_lt _ (by omega)) (by omega), h]
    change _ = Spec.Picnic1.ofBits I.blk (Zkb.output I.X (toBits pt) _ (bview I sk pt a t _))
    rw [out_sum hS.m hl hS.n pt a t h3, hct]
    change Spec.Picnic1.ofBits I.blk (toBits (Spec.Picnic1.ofBits I.blk (Zkb.output I.X (toBits pt) _ (bview I sk pt a t _))) +
      toBits (Spec.Picnic1.ofBits I.blk (Zkb.output I.X (toBits pt) _ (bview I sk pt a t _))) + _) = _
    rw [toBits_ofBits, toBits_ofBits, toBits_ofBits, ofBits_eq, ofBits_eq]
    refine ofBits_congr ?_
    intro i hi
    simp only [Pi.add_apply, Spec.trunc, if_pos hi]
  · rw [simView_open hM hS hk he a j.2 h]

include hM hS hk hl hct he in
/-- The questions that concern opened parties, and that for the digest, are the same. -/
theorem point_sim (O : Oracle N M) {q : Query I.T I.unruh} (hq : Shown e q) :
    point I (Rom.hash O · I.digest) [] ct pt msg (conv I sk [] pt e a) (simView I ct pt (conv I sk [] pt e a) e) q = pts I sk ct pt msg O a q := by
  have hsd := seed_congr (conv_secrets (sk := sk) (pt := pt) [] e a)
  have hst := salt_congr (conv_secrets (sk := sk) (pt := pt) [] e a)
  unfold pts
  cases q with
  | secrets => exact hq.elim
  | tape t j =>
    simp only [point]
    rw [hsd, hst]
  | com t j =>
    simp only [point]
    rw [hsd, simView_open hM hS hk he a j.2 hq]
  | g hu t j =>
    simp only [point]
    rw [hsd, simView_open hM hS hk he a j.2 hq]
  | digest =>
    simp only [point]
    rw [hst]
    simp only [simView_out hM hS hk hl hct he a, conv_com, conv_g]

include hM hS hk he in
/-- The signatures are the same. -/
theorem signature_sim : signature I (conv I sk [] pt e a) (simView I ct pt (conv I sk [] pt e a) e) e = signature I a (view I sk pt a) e := by
  unfold signature
  rw [salt_congr (conv_secrets (sk := sk) (pt := pt) [] e a)]
  congr 1
  funext t
  by_cases ht : t < I.T
  · rw [dif_pos ht, dif_pos ht]
    have h3 := he t
    have v0 := simView_open (ct := ct) (pt := pt) hM hS hk he a (t := ⟨t, ht⟩) (j := e.getD t 0) h3 (by dsimp only; omega)
    have v1 := simView_open (ct := ct) (pt := pt) hM hS hk he a (t := ⟨t, ht⟩) (j := (e.getD t 0 + 1) % 3) (Nat.mod_lt _ (by omega)) (by dsimp only; omega)
    dsimp only
    rw [v0, v1]
    simp only [conv_com, conv_g]
    by_cases hz : e.getD t 0 = 0
    · rw [if_pos hz, if_pos hz]
    · rw [if_neg hz, if_neg hz, simView_open (ct := ct) (pt := pt) hM hS hk he a (t := ⟨t, ht⟩) (j := 2) (by omega) (by dsimp only; omega)]
  · rw [dif_neg ht, dif_neg ht]

theorem conv_shown {q : Query I.T I.unruh} (hq : Shown e q) : conv I sk [] pt e a q = a q := by
  cases q with
  | tape t j => exact conv_other hq
  | _ => rfl

/-- The strings that are not shown are secret. -/
theorem secret_of {O O' : Oracle N M} (h : ∀ m ∈ Plain I, ask O m = ask O' m) {q : Query I.T I.unruh} (hq : ¬ Shown e q) :
    pts I sk ct pt msg O a q ∈ Secret I O' sk ct pt msg (secrets a) e := by
  unfold pts
  cases q with
  | secrets => exact Or.inl (by simp only [point])
  | tape t j =>
    have hj : (j : ℕ) = (e.getD t 0 + 2) % 3 := not_not.1 hq
    refine Or.inr ⟨t, t.2, Or.inl ?_⟩
    simp only [point]
    rw [hash_plain h (plain_tape (seed_len a t j.2)), hj]
    rfl
  | com t j =>
    have hj : (j : ℕ) = (e.getD t 0 + 2) % 3 := not_not.1 hq
    refine Or.inr ⟨t, t.2, Or.inr (Or.inl ⟨(view I sk pt a t j).key, (view I sk pt a t j).gates, (view I sk pt a t j).out, ?_⟩)⟩
    simp only [point]
    rw [hash_plain h (plain_com (seed_len a t j.2)), hj]
    rfl
  | g hu t j =>
    have hj : (j : ℕ) = (e.getD t 0 + 2) % 3 := not_not.1 hq
    refine Or.inr ⟨t, t.2, Or.inr (Or.inr ⟨hu, if j = 2 then some (view I sk pt a t j).key else none, (view I sk pt a t j).gates, ?_⟩)⟩
    simp only [point]
    rw [hash_plain h (plain_g (seed_len a t j.2)), hj]
    rfl
  | digest => exact (hq trivial).elim

theorem secret_congr {O O' : Oracle N M} (h : ∀ m ∈ Plain I, ask O m = ask O' m) :
    Secret I O sk ct pt msg (secrets a) e = Secret I O' sk ct pt msg (secrets a) e := by
  have hl : ∀ t < I.T, (I.seedOf (secrets a) t ((e.getD t 0 + 2) % 3)).length = I.seed := fun t ht =>
    seed_len a ⟨t, ht⟩ (Nat.mod_lt _ (by omega))
  ext m
  unfold Secret
  simp only [Set.mem_ofPred_eq]
  refine or_congr_right (exists_congr fun t => and_congr_right fun ht => ?_)
  rw [hash_plain h (plain_tape (hl t ht)), hash_plain h (plain_com (hl t ht)), hash_plain h (plain_g (hl t ht))]

end

/-- The simulator shows the same. -/
theorem hyb_sim (hM : I.blk + I.gate ≤ M) (hS : Sizes I) (hk : IsKey I sk) (hl : sk.length = I.blk)
    (hct : ct = Spec.Picnic1.ofBits I.blk (I.X.enc (toBits sk) (toBits pt))) (O : Oracle N M) (a : Answers I M) (hg : Good I sk ct pt msg O a) :
    (hyb I sk ct pt msg O a).map (observe I sk ct pt msg) = (sim I O (flip I sk pt [] O a) ct pt msg).map (observe I sk ct pt msg) := by
  classical
  have hpl := ask_plain hg a
  have hc : challenge I (prog I sk ct pt msg O a) (bytes I.digest (a .digest)) = challenge I O (bytes I.digest (a .digest)) :=
    challenge_congr hpl (bytes_len' _ _)
  unfold hyb sim
  rw [hc]
  rcases h : challenge I O (bytes I.digest (a .digest)) with _ | e
  · have : flip I sk pt [] O a = a := by
      unfold flip
      simp only [h]
    rw [this, h]
    simp only [Option.map_none]
  · have hf : flip I sk pt [] O a = conv I sk [] pt e a := by
      unfold flip
      simp only [h]
    have he : ∀ t, e.getD t 0 < 3 := fun t => challenge_lt h t
    rw [hf, conv_digest, h, Option.map_some, Option.map_some, Option.map_some, Option.map_some]
    dsimp only
    rw [signature_sim hM hS hk he]
    refine congrArg some ?_
    have hsec : secrets (conv I sk [] pt e a) = secrets a := by
      unfold secrets
      rw [conv_secrets]
    rw [hsec]
    have hp : ∀ q, Shown e q → point I (Rom.hash O · I.digest) [] ct pt msg (conv I sk [] pt e a) (simView I ct pt (conv I sk [] pt e a) e) q =
        pts I sk ct pt msg O a q := fun q hq => point_sim hM hS hk hl hct he a O hq
    set O2 : Oracle N M := fun x => if h : ∃ q, Shown e q ∧ point I (Rom.hash O · I.digest) [] ct pt msg (conv I sk [] pt e a)
      (simView I ct pt (conv I sk [] pt e a) e) q = x then conv I sk [] pt e a h.choose else O x with hO2
    have on : ∀ q, Shown e q → ∀ x : Arg N, pts I sk ct pt msg O a q = x.1 → O2 x = a q := fun q hq x hx => by
      have hex : ∃ q, Shown e q ∧ point I (Rom.hash O · I.digest) [] ct pt msg (conv I sk [] pt e a) (simView I ct pt (conv I sk [] pt e a) e) q = x :=
        ⟨q, hq, (hp q hq).trans hx⟩
      simp only [hO2]
      rw [dif_pos hex, conv_shown _ hex.choose_spec.1]
      congr 1
      refine hg.inj (((hp _ hex.choose_spec.1).symm.trans hex.choose_spec.2).trans hx.symm)
    have off : ∀ x : Arg N, (∀ q, Shown e q → pts I sk ct pt msg O a q ≠ x.1) → O2 x = O x := fun x hx => by
      simp only [hO2]
      rw [dif_neg]
      rintro ⟨q, hq, hqx⟩
      exact hx q hq ((hp q hq).symm.trans hqx)
    have hpl2 : ∀ m ∈ Plain I, ask O2 m = ask O m := fun m hm => by
      unfold ask
      split_ifs with hmN
      · exact off ⟨m, hmN⟩ fun q _ hq => hg.plain q (by rw [hq]; exact hm)
      · rfl
    have hs1 := secret_congr (sk := sk) (ct := ct) (pt := pt) (msg := msg) a (O := prog I sk ct pt msg O a) (O' := O) (e := e) hpl
    have hs2 := secret_congr (sk := sk) (ct := ct) (pt := pt) (msg := msg) a (O := O2) (O' := O) (e := e) hpl2
    unfold observe
    refine Prod.ext rfl (funext fun x => ?_)
    dsimp only
    rw [hs1, hs2]
    by_cases hx : x.1 ∈ Secret I O sk ct pt msg (secrets a) e
    · rw [if_pos hx, if_pos hx]
    · rw [if_neg hx, if_neg hx]
      congr 1
      by_cases hq : ∃ q, pts I sk ct pt msg O a q = x.1
      · obtain ⟨q, hq⟩ := hq
        have hsh : Shown e q := by
          by_contra hns
          exact hx (hq ▸ secret_of a (fun _ _ => rfl) hns)
        rw [on q hsh x hq]
        exact write_at hg.inj O a hq
      · push Not at hq
        rw [off x fun q _ => hq q]
        exact write_off O a hq

end

end Picnic.Rom
