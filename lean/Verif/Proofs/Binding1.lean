import Verif.Spec.Binding
import Verif.Proofs.Soundness
import Verif.Proofs.Extract3

/-
A ZKB++ signature is determined by its challenge, up to collisions.
-/

namespace Spec.Picnic1

open Spec.Challenge Picnic

variable {I : Inst} {ct pt msg sig ct' pt' msg' sig' : Bytes} {x y : Transcript}

theorem Inst.hash_len (s : Bytes) (n : ℕ) : (I.hash s n).length = n := by
  simp [Inst.hash, shake]

theorem Inst.Challenge.facts {d : Bytes} {e : List ℕ} (h : I.Challenge d e) : e.length = I.T ∧ ∀ v ∈ e, v < 3 := by
  obtain ⟨n, h1, rfl⟩ := h
  exact ⟨by rw [List.length_take]; omega, fun v hv => stream_lt (List.mem_of_mem_take hv)⟩

theorem getD_lt {e : List ℕ} (h : ∀ v ∈ e, v < 3) (t : ℕ) : e.getD t 0 < 3 := by
  by_cases hl : t < e.length
  · rw [List.getD_eq_getElem _ _ hl]
    exact h _ (List.getElem_mem hl)
  · rw [List.getD_eq_default _ _ (by omega)]
    decide

theorem encodeChallenge_length (e : List ℕ) : (I.encodeChallenge e).length = bytesFor (2 * I.T) := by
  rw [Inst.encodeChallenge, ofBits_eq, ofBits_length]

theorem encodeChallenge_enc (e : List ℕ) : I.encodeChallenge e = encTrits I.T e := by
  rw [Inst.encodeChallenge, encTrits, ofBits_eq, numBytes_eq, bytesFor]

theorem encodeChallenge_inj {e e' : List ℕ} (hl : e.length = I.T) (hl' : e'.length = I.T) (h : ∀ v ∈ e, v < 3) (h' : ∀ v ∈ e', v < 3)
    (he : I.encodeChallenge e = I.encodeChallenge e') : e = e' := by
  rw [encodeChallenge_enc, encodeChallenge_enc] at he
  refine List.ext_getElem (hl.trans hl'.symm) fun t h1 h2 => ?_
  rw [← List.getD_eq_getElem e 0 h1, ← List.getD_eq_getElem e' 0 h2, ← chal_encTrits h (by omega : t < I.T), ← chal_encTrits h' (by omega : t < I.T), he]

theorem all_length {f g : ℕ → ℕ → Bytes} {L : ℕ → ℕ} (hf : ∀ t < I.T, ∀ j < 3, (f t j).length = L j) (hg : ∀ t < I.T, ∀ j < 3, (g t j).length = L j) :
    (I.all f).length = (I.all g).length := by
  unfold Inst.all
  rw [List.length_flatMap, List.length_flatMap]
  congr 1
  refine List.map_congr_left fun t ht => ?_
  have ht := List.mem_range.1 ht
  simp only [List.length_append, hf t ht 0 (by omega), hf t ht 1 (by omega), hf t ht 2 (by omega), hg t ht 0 (by omega), hg t ht 1 (by omega),
    hg t ht 2 (by omega)]

theorem all_inj {f g : ℕ → ℕ → Bytes} {L : ℕ → ℕ} (hf : ∀ t < I.T, ∀ j < 3, (f t j).length = L j) (hg : ∀ t < I.T, ∀ j < 3, (g t j).length = L j)
    (h : I.all f = I.all g) : ∀ t < I.T, ∀ j < 3, f t j = g t j := by
  intro t ht j hj
  have := Spec.Picnic3.blocks_inj (d := L 0 + L 1 + L 2) (fun t ht => by
      simp only [List.length_append, hf t ht 0 (by omega), hf t ht 1 (by omega), hf t ht 2 (by omega)]) (fun t ht => by
      simp only [List.length_append, hg t ht 0 (by omega), hg t ht 1 (by omega), hg t ht 2 (by omega)]) h t ht
  obtain ⟨e1, e2⟩ := List.append_inj' this (by rw [hf t ht 2 (by omega), hg t ht 2 (by omega)])
  obtain ⟨e3, e4⟩ := List.append_inj' e1 (by rw [hf t ht 1 (by omega), hg t ht 1 (by omega)])
  obtain rfl | rfl | rfl : j = 0 ∨ j = 1 ∨ j = 2 := by omega
  · exact e3
  · exact e4
  · exact e2

theorem arrange_0 (e : ℕ) (p q r : Bytes) : arrange e p q r e = p := if_pos rfl

theorem arrange_1 {e : ℕ} (he : e < 3) (p q r : Bytes) : arrange e p q r ((e + 1) % 3) = q := by
  rw [arrange, if_neg (by omega), if_pos rfl]

theorem arrange_2 {e : ℕ} (he : e < 3) (p q r : Bytes) : arrange e p q r ((e + 2) % 3) = r := by
  rw [arrange, if_neg (by omega), if_neg (by omega)]

theorem arrange_length {e : ℕ} (he : e < 3) {p q r : Bytes} {L : ℕ → ℕ} (hp : p.length = L e) (hq : q.length = L ((e + 1) % 3)) (hr : r.length = L ((e + 2) % 3))
    (j : ℕ) (hj : j < 3) : (arrange e p q r j).length = L j := by
  obtain rfl | rfl | rfl : j = e ∨ j = (e + 1) % 3 ∨ j = (e + 2) % 3 := by omega
  · rwa [arrange_0]
  · rwa [arrange_1 he]
  · rwa [arrange_2 he]

/-- Lengths in opened views. -/
theorem opened_lengths {salt : Bytes} {t e : ℕ} {o : Opening} {a b : View} (he : e < 3) (hF : I.Fits e o) (h : I.Opened pt salt t e o a b) :
    (a.key.length = I.blk ∧ a.gates.length = I.gate ∧ a.out.length = I.blk) ∧ (b.key.length = I.blk ∧ b.gates.length = I.gate ∧ b.out.length = I.blk) := by
  have h1 := hF.key
  refine ⟨⟨?_, h.gates0, ?_⟩, ?_, ?_, ?_⟩
  · rw [h.key0]
    split_ifs with h2
    · rw [h1, if_neg (by omega)]
    · exact keyShare_length _ _ _ _
  · rw [h.out0, ofBits_eq, ofBits_length]
  · rw [h.key1]
    split_ifs with h2
    · rw [h1, if_neg (by omega)]
    · exact keyShare_length _ _ _ _
  · rw [h.gates1, hF.gates]
  · rw [h.out1, ofBits_eq, ofBits_length]

/-- Views with the same commitment. -/
theorem view_same {a b : View} (hk : a.key.length = b.key.length) (hg : a.gates.length = b.gates.length) (ho : a.out.length = b.out.length)
    (hc : I.commit a = I.commit b) (h1 : ¬ I.Collide (I.viewString a) (I.viewString b)) (h2 : ¬ I.Collide (seedString a) (seedString b)) : a = b := by
  have e1 : I.viewString a = I.viewString b := by
    by_contra hne
    exact h1 ⟨hne, hc⟩
  unfold Inst.viewString at e1
  obtain ⟨e2, e3⟩ := List.append_inj' e1 ho
  obtain ⟨e4, e5⟩ := List.append_inj' e2 hg
  obtain ⟨e6, e7⟩ := List.append_inj' e4 hk
  have e8 : seedString a = seedString b := by
    by_contra hne
    exact h2 ⟨hne, List.append_cancel_left e6⟩
  have e9 : a.seed = b.seed := List.append_cancel_left (as := [4]) e8
  obtain ⟨as, ak, ag, ao⟩ := a
  obtain ⟨bs, bk, bg, bo⟩ := b
  simp only at e3 e5 e7 e9
  rw [e3, e5, e7, e9]

/-- Two transcripts of signatures with the same challenge. -/
theorem clash_or_same (hct : ct.length = ct'.length) (hpt : pt.length = pt'.length)
    (h : I.TranscriptOf ct pt msg sig x) (h' : I.TranscriptOf ct' pt' msg' sig' y)
    (hd : sig.take (bytesFor (2 * I.T)) = sig'.take (bytesFor (2 * I.T))) :
    I.Clash ct pt msg x ct' pt' msg' y ∨ (sig = sig' ∧ ct = ct' ∧ pt = pt' ∧ msg = msg') := by
  by_cases hcl : I.Clash ct pt msg x ct' pt' msg' y
  · exact Or.inl hcl
  refine Or.inr ?_
  obtain ⟨rfl, hs, hO, hch⟩ := h
  obtain ⟨rfl, hs', hO', hch'⟩ := h'
  obtain ⟨hl, h3⟩ := hch.facts
  obtain ⟨hl', h3'⟩ := hch'.facts
  have he : x.e = y.e := by
    unfold Inst.encode at hd
    rw [List.append_assoc, List.append_assoc, List.take_append_of_le_length (encodeChallenge_length _).ge,
      List.take_append_of_le_length (encodeChallenge_length _).ge, List.take_of_length_le (encodeChallenge_length _).le,
      List.take_of_length_le (encodeChallenge_length _).le] at hd
    exact encodeChallenge_inj hl hl' h3 h3' hd
  have hstr : I.challengeString ct pt msg x = I.challengeString ct' pt' msg' y := by
    by_contra hne
    exact hcl (.challenge x.e hne hch (by rw [he]; exact hch'))
  have e3 : ∀ t, x.e.getD t 0 < 3 := getD_lt h3
  rw [← he] at hO'
  unfold Inst.challengeString at hstr
  rw [← he] at hstr
  have lx := fun t ht => opened_lengths (e3 t) (hO t ht).1 (hO t ht).2.2
  have ly := fun t ht => opened_lengths (e3 t) (hO' t ht).1 (hO' t ht).2.2
  -- lengths of the parts
  have lo1 : ∀ t < I.T, ∀ j < 3, (arrange (x.e.getD t 0) (x.a t).out (x.b t).out
      (ofBits I.blk (toBits (x.a t).out + toBits (x.b t).out + toBits ct)) j).length = I.blk := fun t ht =>
    arrange_length (e3 t) (L := fun _ => I.blk) (lx t ht).1.2.2 (lx t ht).2.2.2 (by rw [ofBits_eq, ofBits_length])
  have lo2 : ∀ t < I.T, ∀ j < 3, (arrange (x.e.getD t 0) (y.a t).out (y.b t).out
      (ofBits I.blk (toBits (y.a t).out + toBits (y.b t).out + toBits ct')) j).length = I.blk := fun t ht =>
    arrange_length (e3 t) (L := fun _ => I.blk) (ly t ht).1.2.2 (ly t ht).2.2.2 (by rw [ofBits_eq, ofBits_length])
  have lc1 : ∀ t < I.T, ∀ j < 3, (arrange (x.e.getD t 0) (I.commit (x.a t)) (I.commit (x.b t)) (x.o t).com j).length = I.digest := fun t ht =>
    arrange_length (e3 t) (L := fun _ => I.digest) (I.hash_len _ _) (I.hash_len _ _) (hO t ht).1.com
  have lc2 : ∀ t < I.T, ∀ j < 3, (arrange (x.e.getD t 0) (I.commit (y.a t)) (I.commit (y.b t)) (y.o t).com j).length = I.digest := fun t ht =>
    arrange_length (e3 t) (L := fun _ => I.digest) (I.hash_len _ _) (I.hash_len _ _) (hO' t ht).1.com
  have lg1 : I.unruh = true → ∀ t < I.T, ∀ j < 3, (arrange (x.e.getD t 0) (I.G (x.e.getD t 0) (x.a t)) (I.G ((x.e.getD t 0 + 1) % 3) (x.b t)) (x.o t).g j).length = I.gLen j :=
    fun hu t ht => arrange_length (e3 t) (L := I.gLen) (I.hash_len _ _) (I.hash_len _ _) (by rw [(hO t ht).1.g, if_pos hu])
  have lg2 : I.unruh = true → ∀ t < I.T, ∀ j < 3, (arrange (x.e.getD t 0) (I.G (x.e.getD t 0) (y.a t)) (I.G ((x.e.getD t 0 + 1) % 3) (y.b t)) (y.o t).g j).length = I.gLen j :=
    fun hu t ht => arrange_length (e3 t) (L := I.gLen) (I.hash_len _ _) (I.hash_len _ _) (by rw [(hO' t ht).1.g, if_pos hu])
  have lgs : (if I.unruh then I.all (fun t => arrange (x.e.getD t 0) (I.G (x.e.getD t 0) (x.a t)) (I.G ((x.e.getD t 0 + 1) % 3) (x.b t)) (x.o t).g) else []).length =
      (if I.unruh then I.all (fun t => arrange (x.e.getD t 0) (I.G (x.e.getD t 0) (y.a t)) (I.G ((x.e.getD t 0 + 1) % 3) (y.b t)) (y.o t).g) else []).length := by
    split_ifs with hu
    · exact all_length (lg1 hu) (lg2 hu)
    · rfl
  have L1 := all_length (L := fun _ => I.blk) lo1 lo2
  have L2 := all_length (L := fun _ => I.digest) lc1 lc2
  obtain ⟨q1, hmsg⟩ := List.append_inj hstr (by simp only [List.length_append]; omega)
  obtain ⟨q2, hsalt⟩ := List.append_inj q1 (by simp only [List.length_append]; omega)
  obtain ⟨q3, hptE⟩ := List.append_inj q2 (by simp only [List.length_append]; omega)
  obtain ⟨q4, hctE⟩ := List.append_inj q3 (by simp only [List.length_append]; omega)
  obtain ⟨q5, hgs⟩ := List.append_inj q4 (by simp only [List.length_append]; omega)
  obtain ⟨-, hco⟩ := List.append_inj q5 (by simp only [List.length_append]; omega)
  refine ⟨?_, hctE, hptE, hmsg⟩
  have hco := all_inj (L := fun _ => I.digest) lc1 lc2 hco
  unfold Inst.encode
  rw [← he, hsalt]
  congr 1
  refine List.flatMap_congr fun t ht => ?_
  have ht := List.mem_range.1 ht
  have he3 := e3 t
  have c0 := hco t ht (x.e.getD t 0) he3
  have c1 := hco t ht ((x.e.getD t 0 + 1) % 3) (Nat.mod_lt _ (by decide))
  have c2 := hco t ht ((x.e.getD t 0 + 2) % 3) (Nat.mod_lt _ (by decide))
  rw [arrange_0, arrange_0] at c0
  rw [arrange_1 he3, arrange_1 he3] at c1
  rw [arrange_2 he3, arrange_2 he3] at c2
  obtain ⟨⟨a1, a2, a3⟩, a4, a5, a6⟩ := lx t ht
  obtain ⟨⟨b1, b2, b3⟩, b4, b5, b6⟩ := ly t ht
  have ea := view_same (by omega) (by omega) (by omega) c0 (fun e => hcl (.view0 t ht e)) (fun e => hcl (.seed0 t ht e))
  have eb := view_same (by omega) (by omega) (by omega) c1 (fun e => hcl (.view1 t ht e)) (fun e => hcl (.seed1 t ht e))
  obtain ⟨F, -, V⟩ := hO t ht
  obtain ⟨F', -, V'⟩ := hO' t ht
  have hg : (x.o t).g = (y.o t).g := by
    by_cases hu : I.unruh = true
    · rw [if_pos hu, if_pos hu] at hgs
      have := all_inj (lg1 hu) (lg2 hu) hgs t ht ((x.e.getD t 0 + 2) % 3) (Nat.mod_lt _ (by decide))
      rwa [arrange_2 he3, arrange_2 he3] at this
    · have g1 := F.g
      have g2 := F'.g
      rw [if_neg hu] at g1 g2
      rw [List.eq_nil_of_length_eq_zero g1, List.eq_nil_of_length_eq_zero g2]
  have hkey : (x.o t).key = (y.o t).key := by
    obtain h0 | h0 | h0 : x.e.getD t 0 = 0 ∨ x.e.getD t 0 = 1 ∨ x.e.getD t 0 = 2 := by omega
    · have g1 := F.key
      have g2 := F'.key
      rw [if_pos h0] at g1 g2
      rw [List.eq_nil_of_length_eq_zero g1, List.eq_nil_of_length_eq_zero g2]
    · have g1 := V.key1
      have g2 := V'.key1
      rw [if_pos h0] at g1 g2
      rw [← g1, ← g2, eb]
    · have g1 := V.key0
      have g2 := V'.key0
      rw [if_pos h0] at g1 g2
      rw [← g1, ← g2, ea]
  unfold Opening.encode
  rw [c2, hg, ← V.gates1, ← V'.gates1, ← V.seed0, ← V'.seed0, ← V.seed1, ← V'.seed1, hkey, ea, eb]

end Spec.Picnic1
