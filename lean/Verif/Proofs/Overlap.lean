import Verif.Model.Overlap
import Verif.Spec.Overlap
import Verif.Proofs.Keys
import Verif.Proofs.LowMC

/-
Helper lemmas for Props/Overlap: writing to areas of a memory, simulation of the value level functions of Model/Api by
the functions of Model/Overlap.
-/

namespace Picnic.Mem

open Spec (area leNum pkAt skAt Apart OnlyChanges)

/-! ### areas -/

/-- `m` with the bytes `d` at address `p` -/
def put (m : Buf) (p : Nat) (d : Buf) : Buf := m.take p ++ d ++ m.drop (p + d.length)

theorem wrN_put {m : Buf} {p : Nat} {d : Buf} (h : p + d.length ≤ m.length) : wrN m p d = .ok (put m p d) := wrN_ok h

theorem wrN_put_inv {m m' : Buf} {p : Nat} {d : Buf} (h : wrN m p d = .ok m') :
    p + d.length ≤ m.length ∧ m' = put m p d := by
  unfold wrN at h
  split at h
  · exact ⟨by assumption, (Outcome.ok.inj h).symm⟩
  · cases h

theorem rdN_area {m : Buf} {p n : Nat} (h : p + n ≤ m.length) : rdN m p n = .ok (area m p n) := rdN_ok h

theorem rdN_area_inv {m d : Buf} {p n : Nat} (h : rdN m p n = .ok d) : p + n ≤ m.length ∧ d = area m p n := by
  unfold rdN at h
  split at h
  · exact ⟨by assumption, (Outcome.ok.inj h).symm⟩
  · cases h

theorem area_length {m : Buf} {p n : Nat} (h : p + n ≤ m.length) : (area m p n).length = n := by
  unfold area; simp; omega

theorem put_length {m : Buf} {p : Nat} {d : Buf} (h : p + d.length ≤ m.length) : (put m p d).length = m.length := by
  unfold put; simp; omega

theorem put_get {m : Buf} {p : Nat} {d : Buf} (h : p + d.length ≤ m.length) (i : Nat) :
    (put m p d)[i]? = if p ≤ i ∧ i < p + d.length then d[i - p]? else m[i]? := by
  have hp : (m.take p).length = p := by simp; omega
  unfold put
  by_cases h1 : i < p
  · rw [if_neg (by omega), List.append_assoc, List.getElem?_append_left (by omega), List.getElem?_take_of_lt h1]
  · by_cases h2 : i < p + d.length
    · rw [if_pos ⟨by omega, h2⟩, List.getElem?_append_left (by simp; omega), List.getElem?_append_right (by omega), hp]
    · rw [if_neg (by omega), List.getElem?_append_right (by simp; omega), List.getElem?_drop]
      congr 1
      simp; omega

theorem area_get (m : Buf) (p n i : Nat) : (area m p n)[i]? = if i < n then m[p + i]? else none := by
  unfold area
  rw [List.getElem?_take, List.getElem?_drop]

theorem area_put_apart {m : Buf} {p : Nat} {d : Buf} {q n : Nat} (h : p + d.length ≤ m.length)
    (ha : Apart p d.length q n) : area (put m p d) q n = area m q n := by
  apply List.ext_getElem?
  intro i
  rw [area_get, area_get]
  by_cases hi : i < n
  · rw [if_pos hi, if_pos hi, put_get h, if_neg (by unfold Apart at ha; omega)]
  · rw [if_neg hi, if_neg hi]

theorem area_put_inside {m : Buf} {p : Nat} {d : Buf} {q n : Nat} (h : p + d.length ≤ m.length) (h1 : q ≤ p)
    (h2 : p + d.length ≤ q + n) (h3 : q + n ≤ m.length) : area (put m p d) q n = put (area m q n) (p - q) d := by
  apply List.ext_getElem?
  intro i
  rw [put_get (by rw [area_length h3]; omega), area_get, area_get]
  by_cases hi : i < n
  · rw [if_pos hi, if_pos hi, put_get h]
    by_cases h4 : p ≤ q + i ∧ q + i < p + d.length
    · rw [if_pos h4, if_pos (by omega)]; congr 1; omega
    · rw [if_neg h4, if_neg (by omega)]
  · rw [if_neg hi, if_neg (by omega), if_neg hi]

theorem put_full {b d : Buf} (h : d.length = b.length) : put b 0 d = d := by
  unfold put; simp [h]

theorem area_put_same {m : Buf} {p : Nat} {d : Buf} (h : p + d.length ≤ m.length) :
    area (put m p d) p d.length = d := by
  rw [area_put_inside h (Nat.le_refl _) (Nat.le_refl _) h, Nat.sub_self, put_full (area_length h).symm]

theorem area_put_eq {m : Buf} {p : Nat} {d : Buf} {n : Nat} (h : p + d.length ≤ m.length) (hn : d.length = n) :
    area (put m p d) p n = d := by subst hn; exact area_put_same h

/-- reading a part of what was written -/
theorem area_put_part {m : Buf} {p : Nat} {d : Buf} {q n : Nat} (h : p + d.length ≤ m.length) (h1 : p ≤ q)
    (h2 : q + n ≤ p + d.length) : area (put m p d) q n = area d (q - p) n := by
  apply List.ext_getElem?
  intro i
  rw [area_get, area_get]
  by_cases hi : i < n
  · rw [if_pos hi, if_pos hi, put_get h, if_pos (by omega)]; congr 1; omega
  · rw [if_neg hi, if_neg hi]

theorem area_zeros {k p n : Nat} (h : p + n ≤ k) : area (zeros k) p n = zeros n := by
  unfold area zeros; simp; omega

theorem area_area {m : Buf} {p n q k : Nat} (h : q + k ≤ n) : area (area m p n) q k = area m (p + q) k := by
  apply List.ext_getElem?
  intro i
  rw [area_get, area_get, area_get]
  by_cases hi : i < k
  · rw [if_pos hi, if_pos hi, if_pos (by omega), Nat.add_assoc]
  · rw [if_neg hi, if_neg hi]

theorem bytesInt_eq (b : Buf) : bytesInt b = leNum b := by
  induction b with
  | nil => rfl
  | cons x l ih => simp only [bytesInt, leNum, List.foldr_cons]; rw [ih]; rfl

theorem intBytes_length (n v : Nat) : (intBytes n v).length = n := by simp [intBytes]

theorem leNum_intBytes (n v : Nat) : leNum (intBytes n v) = v % 256 ^ n := by
  induction n generalizing v with
  | zero => simp [intBytes, leNum, Nat.mod_one]
  | succ n ih =>
    have : intBytes (n + 1) v = BitVec.ofNat 8 v :: intBytes n (v / 256) := by
      unfold intBytes
      rw [List.range_succ_eq_map, List.map_cons, List.map_map]
      simp only [Nat.pow_zero, Nat.div_one, List.cons.injEq, true_and]
      apply List.map_congr_left
      intro i _
      simp only [Function.comp, Nat.pow_succ', Nat.div_div_eq_div_mul]
    rw [this]
    show (BitVec.ofNat 8 v).toNat + 256 * leNum (intBytes n (v / 256)) = _
    rw [ih, BitVec.toNat_ofNat, Nat.pow_succ' (m := 256), Nat.mod_mul (a := 256)]

theorem leNum_lt (b : Buf) : leNum b < 256 ^ b.length := by
  induction b with
  | nil => simp [leNum]
  | cons x l ih =>
    show x.toNat + 256 * leNum l < _
    have := x.isLt
    rw [List.length_cons, Nat.pow_succ']
    omega

theorem leNum_zeros (n : Nat) : leNum (zeros n) = 0 := by
  induction n with
  | zero => rfl
  | succ n ih =>
    show (0 : Byte).toNat + 256 * leNum (zeros n) = 0
    rw [ih]; rfl

theorem onlyChanges_refl (m : Buf) (a : List (Nat × Nat)) : OnlyChanges m m a := ⟨rfl, fun _ _ => rfl⟩

theorem onlyChanges_put {m m' : Buf} {as : List (Nat × Nat)} (h : OnlyChanges m m' as) {p : Nat} {d : Buf} {a : Nat × Nat}
    (ha : a ∈ as) (h1 : a.1 ≤ p) (h2 : p + d.length ≤ a.1 + a.2) (h3 : p + d.length ≤ m'.length) :
    OnlyChanges m (put m' p d) as := by
  refine ⟨(put_length h3).trans h.1, fun i hi => ?_⟩
  rw [put_get h3, if_neg (by have := hi a ha; omega)]
  exact h.2 i hi

/-! ### simulation -/

/-- Whatever `x` returns, `y` returns something related. -/
def Sim {α β : Type} (R : α → β → Prop) (x : M α) (y : M β) : Prop := ∀ a, x = .ok a → ∃ b, y = .ok b ∧ R a b

theorem Sim.ok {α β : Type} {R : α → β → Prop} {a : α} {b : β} (h : R a b) : Sim R (.ok a) (.ok b) := by
  intro a' h'; cases h'; exact ⟨b, rfl, h⟩

theorem Sim.pure {α β : Type} {R : α → β → Prop} {a : α} {b : β} (h : R a b) : Sim R (Pure.pure a : M α) (Pure.pure b) :=
  Sim.ok h

theorem Sim.bind {α β γ δ : Type} {R : α → β → Prop} {S : γ → δ → Prop} {x : M α} {y : M β} {f : α → M γ} {g : β → M δ}
    (h : Sim R x y) (hf : ∀ a b, x = .ok a → R a b → Sim S (f a) (g b)) : Sim S (x >>= f) (y >>= g) := by
  intro c hc
  obtain ⟨a, ha, hfa⟩ := bind_eq_ok hc
  obtain ⟨b, hb, hab⟩ := h a ha
  obtain ⟨d, hd, hS⟩ := hf a b ha hab c hfa
  exact ⟨d, by rw [hb, ok_bind, hd], hS⟩

/-- The same computation on both sides. -/
theorem Sim.same {α γ δ : Type} {S : γ → δ → Prop} {x : M α} {f : α → M γ} {g : α → M δ}
    (hf : ∀ a, x = .ok a → Sim S (f a) (g a)) : Sim S (x >>= f) (x >>= g) :=
  Sim.bind (R := fun a b => a = b) (fun a h => ⟨a, h, rfl⟩) (by rintro a b h rfl; exact hf a h)

/-- A step only of the right hand side. -/
theorem Sim.right {α β δ : Type} {S : α → δ → Prop} {x : M α} {y : M β} {g : β → M δ} {b : β} (h : y = .ok b)
    (hg : Sim S x (g b)) : Sim S x (y >>= g) := by rw [h, ok_bind]; exact hg

/-- A step only of the left hand side. -/
theorem Sim.left {α γ δ : Type} {S : γ → δ → Prop} {x : M α} {f : α → M γ} {y : M δ}
    (hf : ∀ a, x = .ok a → Sim S (f a) y) : Sim S (x >>= f) y := by
  intro c hc
  obtain ⟨a, ha, hfa⟩ := bind_eq_ok hc
  exact hf a ha c hfa

theorem Sim.ite {α β : Type} {R : α → β → Prop} {c : Prop} [Decidable c] {x x' : M α} {y y' : M β}
    (h : c → Sim R x y) (h' : ¬c → Sim R x' y') : Sim R (if c then x else x') (if c then y else y') := by
  by_cases hc : c
  · rw [if_pos hc, if_pos hc]; exact h hc
  · rw [if_neg hc, if_neg hc]; exact h' hc

theorem Sim.loop {σ τ : Type} {R : σ → τ → Prop} {f : Nat → σ → M σ} {g : Nat → τ → M τ} {n : Nat} {s : σ} {t : τ}
    (h : R s t) (hs : ∀ i s t, R s t → Sim R (f i s) (g i t)) : Sim R (loop f n s) (loop g n t) := by
  induction n with
  | zero => exact Sim.ok h
  | succ n ih =>
    rw [loop_succ, loop_succ]
    exact Sim.bind ih fun a b _ hab => hs n a b hab

theorem Sim.loopFrom {σ τ : Type} {R : σ → τ → Prop} {f : Nat → σ → M σ} {g : Nat → τ → M τ} {lo hi : Nat} {s : σ} {t : τ}
    (h : R s t) (hs : ∀ i s t, R s t → Sim R (f i s) (g i t)) : Sim R (loopFrom lo hi f s) (loopFrom lo hi g t) :=
  Sim.loop h fun i s t hst => hs (lo + i) s t hst

/-! ### picnic_sign -/

/-- The buffer and the cursor of a serialisation into `buf0`, and the same serialisation into memory at `base`. -/
def Out (m0 : Buf) (base : Nat) (buf0 : Buf) (o : Buf × Nat) (o' : Buf × Nat) : Prop :=
  o.1.length = buf0.length ∧ o.2 ≤ buf0.length ∧ (∀ i, o.2 ≤ i → o.1[i]? = buf0[i]?) ∧
    o' = (put m0 base o.1, base + o.2)

theorem put_put {m : Buf} {p : Nat} {b d : Buf} {q : Nat} (h : p + b.length ≤ m.length) (h2 : q + d.length ≤ b.length) :
    put (put m p b) (p + q) d = put m p (put b q d) := by
  have hl : (put b q d).length = b.length := put_length h2
  have h3 : (put m p b).length = m.length := put_length h
  apply List.ext_getElem?
  intro i
  rw [put_get (by omega), put_get (by omega), put_get (by omega), put_get h2, hl]
  by_cases h4 : p ≤ i ∧ i < p + b.length
  · rw [if_pos h4, if_pos h4]
    by_cases h5 : p + q ≤ i ∧ i < p + q + d.length
    · rw [if_pos h5, if_pos (by omega)]; congr 1; omega
    · rw [if_neg h5, if_neg (by omega)]
  · rw [if_neg h4, if_neg h4, if_neg (by omega)]

theorem sim_emit {m0 : Buf} {base : Nat} {buf0 : Buf} {o o' : Buf × Nat} {src : Buf} {n : Nat}
    (hm : base + buf0.length ≤ m0.length) (h : Out m0 base buf0 o o') :
    Sim (Out m0 base buf0) (emit o src n) (emit o' src n) := by
  obtain ⟨h1, h2, h3, rfl⟩ := h
  unfold emit memcpy
  simp only [bind_assoc]
  refine Sim.same fun d hd => ?_
  have hdl : d.length = n := by obtain ⟨h4, rfl⟩ := rdN_area_inv hd; exact area_length h4
  refine Sim.left fun b hb => ?_
  obtain ⟨h4, rfl⟩ := wrN_put_inv hb
  refine Sim.right (wrN_put (by rw [put_length (by omega)]; omega)) ?_
  refine Sim.pure ⟨(put_length h4).trans h1, by simp only; omega, fun i hi => ?_, ?_⟩
  · simp only at hi ⊢
    rw [put_get h4, if_neg (by omega)]
    exact h3 i (by omega)
  · rw [put_put (by omega) h4, Nat.add_assoc]

/-- Results of the serialisations. -/
def OutO (m0 : Buf) (base : Nat) (buf0 : Buf) : Option (Buf × Nat) → Option (Buf × Nat) → Prop
  | none, none => True
  | some o, some o' => Out m0 base buf0 o (o'.1, base + o'.2)
  | _, _ => False

theorem out_start {m0 : Buf} {base : Nat} {buf0 : Buf} (hm : base + buf0.length ≤ m0.length)
    (hb : buf0 = area m0 base buf0.length) : Out m0 base buf0 (buf0, 0) (m0, base) := by
  refine ⟨rfl, Nat.zero_le _, fun _ _ => rfl, ?_⟩
  simp only [Nat.add_zero, Prod.mk.injEq, and_true]
  apply List.ext_getElem?
  intro i
  rw [put_get hm]
  by_cases h : base ≤ i ∧ i < base + buf0.length
  · rw [if_pos h, hb, area_get, if_pos (by omega)]; congr 1; omega
  · rw [if_neg h]

theorem sim_serialize {P : Params} {sig : Signature} {m0 : Buf} {base : Nat} {buf0 : Buf} {n : Nat}
    (hm : base + buf0.length ≤ m0.length) (hb : buf0 = area m0 base buf0.length) :
    Sim (OutO m0 base buf0) (Picnic.serializeSignature P sig buf0 n) (Mem.serializeSignature P sig m0 base n) := by
  unfold Picnic.serializeSignature Mem.serializeSignature
  refine Sim.ite (fun _ => Sim.pure trivial) fun _ => ?_
  refine Sim.bind (sim_emit hm (out_start hm hb)) fun o o' _ h => ?_
  refine Sim.bind (sim_emit hm h) fun o o' _ h => ?_
  refine Sim.bind (R := Out m0 base buf0) (Sim.loop h ?_) ?_
  · intro i o o' h
    refine Sim.same fun ch _ => Sim.same fun pr _ => ?_
    refine Sim.bind (sim_emit hm h) fun o o' _ h => ?_
    refine Sim.ite (fun _ => Sim.same fun g _ => Sim.bind (sim_emit hm h) fun o o' _ h => ?_)
      fun _ => Sim.bind (Sim.pure h) fun o o' _ h => ?_
    all_goals
      refine Sim.bind (sim_emit hm h) fun o o' _ h => ?_
      refine Sim.bind (sim_emit hm h) fun o o' _ h => ?_
      refine Sim.bind (sim_emit hm h) fun o o' _ h => ?_
      exact Sim.ite (fun _ => sim_emit hm h) fun _ => Sim.pure h
  · rintro o o' _ ⟨h1, h2, h3, rfl⟩
    refine Sim.pure ⟨h1, h2, h3, ?_⟩
    simp

theorem sim_serialize2 {P : Params} {sig : Signature2} {m0 : Buf} {base : Nat} {buf0 : Buf} {n : Nat}
    (hm : base + buf0.length ≤ m0.length) (hb : buf0 = area m0 base buf0.length) :
    Sim (OutO m0 base buf0) (Picnic.serializeSignature2 P sig buf0 n) (Mem.serializeSignature2 P sig m0 base n) := by
  unfold Picnic.serializeSignature2 Mem.serializeSignature2
  refine Sim.same fun br _ => ?_
  refine Sim.ite (fun _ => Sim.pure trivial) fun _ => ?_
  refine Sim.bind (sim_emit hm (out_start hm hb)) fun o o' _ h => ?_
  refine Sim.bind (sim_emit hm h) fun o o' _ h => ?_
  refine Sim.bind (sim_emit hm h) fun o o' _ h => ?_
  refine Sim.bind (sim_emit hm h) fun o o' _ h => ?_
  refine Sim.bind (R := Out m0 base buf0) (Sim.loop h ?_) ?_
  · intro i o o' h
    refine Sim.same fun c _ => Sim.ite (fun _ => ?_) fun _ => Sim.pure h
    refine Sim.same fun pr _ => Sim.same fun pr _ => ?_
    refine Sim.bind (sim_emit hm h) fun o o' _ h => ?_
    refine Sim.same fun idx _ => Sim.same fun pt _ => ?_
    refine Sim.ite (fun _ => Sim.bind (sim_emit hm h) fun o o' _ h => ?_)
      fun _ => Sim.bind (Sim.pure h) fun o o' _ h => ?_
    all_goals
      refine Sim.bind (sim_emit hm h) fun o o' _ h => ?_
      refine Sim.bind (sim_emit hm h) fun o o' _ h => ?_
      exact sim_emit hm h
  · rintro o o' _ ⟨h1, h2, h3, rfl⟩
    refine Sim.pure ⟨h1, h2, h3, ?_⟩
    simp

/-! ### key objects -/

section keys
variable {m : Buf} {p : Nat} {d : Buf}

theorem pkAt_put_apart {q : Nat} (h : p + d.length ≤ m.length) (ha : Apart p d.length q 68) :
    pkAt (put m p d) q = pkAt m q := by
  unfold Apart at ha
  unfold pkAt
  rw [area_put_apart h (by unfold Apart; omega), area_put_apart h (by unfold Apart; omega),
    area_put_apart h (by unfold Apart; omega)]

theorem skAt_put_apart {q : Nat} (h : p + d.length ≤ m.length) (ha : Apart p d.length q 104) :
    skAt (put m p d) q = skAt m q := by
  unfold Apart at ha
  unfold skAt
  rw [area_put_apart h (by unfold Apart; omega), area_put_apart h (by unfold Apart; omega),
    pkAt_put_apart h (by unfold Apart; omega)]

theorem pkAt_put_params (h : p + 68 ≤ m.length) {v : Nat} (hv : v < 2 ^ 32) :
    pkAt (put m p (intBytes 4 v)) p = { pkAt m p with params := v } := by
  have hl := intBytes_length 4 v
  unfold pkAt
  rw [area_put_eq (by omega) hl, area_put_apart (by omega) (by unfold Apart; omega),
    area_put_apart (by omega) (by unfold Apart; omega), leNum_intBytes, Nat.mod_eq_of_lt (by omega)]

theorem skAt_put_params (h : p + 104 ≤ m.length) {v : Nat} (hv : v < 2 ^ 32) :
    skAt (put m p (intBytes 4 v)) p = { skAt m p with params := v } := by
  have hl := intBytes_length 4 v
  unfold skAt
  rw [area_put_eq (by omega) hl, area_put_apart (by omega) (by unfold Apart; omega),
    pkAt_put_apart (by omega) (by unfold Apart; omega), leNum_intBytes, Nat.mod_eq_of_lt (by omega)]

theorem pkAt_put_plaintext {o : Nat} (h : p + 68 ≤ m.length) (hd : o + d.length ≤ 32) :
    pkAt (put m (p + 4 + o) d) p = { pkAt m p with plaintext := put (pkAt m p).plaintext o d } := by
  unfold pkAt
  rw [area_put_apart (by omega) (by unfold Apart; omega), area_put_inside (by omega) (by omega) (by omega) (by omega),
    area_put_apart (by omega) (by unfold Apart; omega)]
  simp only [Nat.add_sub_cancel_left]

theorem pkAt_put_ciphertext {o : Nat} (h : p + 68 ≤ m.length) (hd : o + d.length ≤ 32) :
    pkAt (put m (p + 36 + o) d) p = { pkAt m p with ciphertext := put (pkAt m p).ciphertext o d } := by
  unfold pkAt
  rw [area_put_apart (by omega) (by unfold Apart; omega), area_put_apart (by omega) (by unfold Apart; omega),
    area_put_inside (by omega) (by omega) (by omega) (by omega)]
  simp only [Nat.add_sub_cancel_left]

theorem skAt_put_data {o : Nat} (h : p + 104 ≤ m.length) (hd : o + d.length ≤ 32) :
    skAt (put m (p + 4 + o) d) p = { skAt m p with data := put (skAt m p).data o d } := by
  unfold skAt
  rw [area_put_apart (by omega) (by unfold Apart; omega), area_put_inside (by omega) (by omega) (by omega) (by omega),
    pkAt_put_apart (by omega) (by unfold Apart; omega)]
  simp only [Nat.add_sub_cancel_left]

theorem skAt_put_pk {q : Nat} (h1 : p + 36 ≤ q) (h2 : q + d.length ≤ p + 104) (h : p + 104 ≤ m.length) :
    skAt (put m q d) p = { skAt m p with pk := pkAt (put m q d) (p + 36) } := by
  unfold skAt
  rw [area_put_apart (by omega) (by unfold Apart; omega), area_put_apart (by omega) (by unfold Apart; omega)]

theorem pkAt_zero (h : p + 68 ≤ m.length) : pkAt (put m p (zeros 68)) p = PublicKey.zero := by
  have hl : (zeros 68).length = 68 := rfl
  unfold pkAt
  rw [area_put_part (by omega) (by omega) (by omega), area_put_part (by omega) (by omega) (by omega),
    area_put_part (by omega) (by omega) (by omega)]
  simp only [Nat.add_sub_cancel_left, Nat.sub_self]
  rw [area_zeros (by omega), area_zeros (by omega), area_zeros (by omega), leNum_zeros]
  rfl

theorem skAt_zero (h : p + 104 ≤ m.length) : skAt (put m p (zeros 104)) p = PrivateKey.zero := by
  have hl : (zeros 104).length = 104 := rfl
  unfold skAt pkAt
  rw [area_put_part (by omega) (by omega) (by omega), area_put_part (by omega) (by omega) (by omega),
    area_put_part (by omega) (by omega) (by omega), area_put_part (by omega) (by omega) (by omega),
    area_put_part (by omega) (by omega) (by omega)]
  simp only [Nat.add_sub_cancel_left, Nat.sub_self, Nat.add_assoc]
  rw [area_zeros (by omega), area_zeros (by omega), area_zeros (by omega), area_zeros (by omega), area_zeros (by omega),
    leNum_zeros]
  rfl

/-- copying a public key object -/
theorem pkAt_copy {q : Nat} (h : p + 68 ≤ m.length) (hq : q + 68 ≤ m.length) :
    pkAt (put m q (area m p 68)) q = pkAt m p := by
  have hl : (area m p 68).length = 68 := area_length h
  unfold pkAt
  rw [area_put_part (by omega) (by omega) (by omega), area_put_part (by omega) (by omega) (by omega),
    area_put_part (by omega) (by omega) (by omega)]
  simp only [Nat.add_sub_cancel_left, Nat.sub_self]
  rw [area_area (by omega), area_area (by omega), area_area (by omega)]
  rfl

end keys

theorem copy_put {m : Buf} {q p n : Nat} (h1 : p + n ≤ m.length) (h2 : q + n ≤ m.length) (ha : Apart q n p n) :
    copy m q p n = .ok (put m q (area m p n)) := by
  unfold copy
  rw [if_pos (by unfold Apart at ha; omega)]
  unfold memcpy
  rw [rdN_area h1, ok_bind, wrN_put (by rw [area_length h1]; exact h2)]

theorem getParams_pk {m : Buf} {p : Nat} (h : p + 68 ≤ m.length) : getParams m p = .ok (pkAt m p).params := by
  unfold getParams
  rw [rdN_area (by omega), ok_bind, bytesInt_eq]; rfl

theorem getParams_sk {m : Buf} {p : Nat} (h : p + 104 ≤ m.length) : getParams m p = .ok (skAt m p).params := by
  unfold getParams
  rw [rdN_area (by omega), ok_bind, bytesInt_eq]; rfl

theorem setParams_put {m : Buf} {p v : Nat} (h : p + 68 ≤ m.length) : setParams m p v = .ok (put m p (intBytes 4 v)) := by
  unfold setParams
  rw [wrN_put (by rw [intBytes_length]; omega)]

theorem memcpy_put_inv {dst src b : Buf} {o s n : Nat} (h : memcpy dst o src s n = .ok b) :
    s + n ≤ src.length ∧ o + n ≤ dst.length ∧ b = put dst o (area src s n) := by
  unfold memcpy at h
  obtain ⟨d, h1, h2⟩ := bind_eq_ok h
  obtain ⟨h3, rfl⟩ := rdN_area_inv h1
  obtain ⟨h4, rfl⟩ := wrN_put_inv h2
  rw [area_length h3] at h4
  exact ⟨h3, h4, rfl⟩

/-- What a call of `picnic_sign` in memory may do, compared with a call on separate buffers. -/
def Signed (m : Buf) (sig lenp cap : Nat) (r : Int × Buf × Nat) (r' : Int × Buf) : Prop :=
  r'.1 = r.1 ∧ (r.1 = 0 ∨ r.1 = -1) ∧ area r'.2 sig cap = r.2.1 ∧ leNum (area r'.2 lenp 8) = r.2.2 ∧
    (r.1 ≠ 0 → r'.2 = m) ∧ OnlyChanges m r'.2 [(sig, r.2.2), (lenp, 8)]

theorem signed_fail {m : Buf} {sig lenp : Nat} : Signed m sig lenp (leNum (area m lenp 8))
    (-1, area m sig (leNum (area m lenp 8)), leNum (area m lenp 8)) (-1, m) :=
  ⟨rfl, Or.inr rfl, rfl, rfl, fun _ => rfl, onlyChanges_refl _ _⟩

theorem signed_ok {m : Buf} {sig lenp cap : Nat} (hs : sig + cap ≤ m.length) (hl : lenp + 8 ≤ m.length)
    (hc : cap < 2 ^ 64) (ha : Apart sig cap lenp 8) {o o' : Buf × Nat}
    (h : Out m sig (area m sig cap) o (o'.1, sig + o'.2)) :
    Signed m sig lenp cap (0, o.1, o.2) (0, put o'.1 lenp (intBytes 8 o'.2)) ∧
      wrN o'.1 lenp (intBytes 8 o'.2) = .ok (put o'.1 lenp (intBytes 8 o'.2)) := by
  obtain ⟨b, n⟩ := o
  obtain ⟨m', n'⟩ := o'
  obtain ⟨h1, h2, h3, h4⟩ := h
  simp only [Prod.mk.injEq, Nat.add_left_cancel_iff] at h1 h2 h3 h4 ⊢
  obtain ⟨rfl, rfl⟩ := h4
  have hcl := area_length hs
  rw [hcl] at h1 h2
  have hi := intBytes_length 8 n'
  have hpl : (put m sig b).length = m.length := put_length (by omega)
  unfold Apart at ha
  refine ⟨⟨rfl, Or.inl rfl, ?_, ?_, fun h => absurd rfl h, ?_⟩, wrN_put (by omega)⟩
  · rw [area_put_apart (by omega) (by unfold Apart; omega), area_put_eq (by omega) h1]
  · rw [area_put_eq (by omega) hi, leNum_intBytes, Nat.mod_eq_of_lt]
    have : (256 : Nat) ^ 8 = 2 ^ 64 := by norm_num
    omega
  · refine onlyChanges_put ⟨hpl, fun i hi => ?_⟩ (a := (lenp, 8)) (by simp) (Nat.le_refl _) (by simp only; omega) (by omega)
    have hi := hi (sig, n') (by simp)
    simp only at hi
    rw [put_get (by omega)]
    split
    · rw [h3 _ (by omega), area_get, if_pos (by omega)]; congr 1; omega
    · rfl

theorem sim_sign {E : Env} {m : Buf} {sk msg mlen sig lenp : Nat} (hk : sk + 104 ≤ m.length) (hm : msg + mlen ≤ m.length)
    (hs : sig + leNum (area m lenp 8) ≤ m.length) (hl : lenp + 8 ≤ m.length)
    (ha : Apart sig (leNum (area m lenp 8)) lenp 8) :
    Sim (Signed m sig lenp (leNum (area m lenp 8)))
      (picnicSign E (some (skAt m sk)) (area m msg mlen) mlen (area m sig (leNum (area m lenp 8))) (leNum (area m lenp 8)))
      (sign E m sk msg mlen sig lenp) := by
  unfold picnicSign sign deref
  have hc : leNum (area m lenp 8) < 2 ^ 64 := by
    have := leNum_lt (area m lenp 8)
    rw [area_length hl] at this
    have h2 : (256 : Nat) ^ 8 = 2 ^ 64 := by norm_num
    omega
  have hcl := area_length hs
  simp only [ok_bind]
  refine Sim.right (getParams_sk hk) ?_
  cases hP : getParamSet (skAt m sk).params with
  | none => exact Sim.pure signed_fail
  | some P =>
    simp only
    refine Sim.right (getParams_sk hk) ?_
    refine Sim.right (rdN_area (p := sk + 4) (n := 32) (by omega)) ?_
    refine Sim.right (rdN_area (p := sk + 36 + 36) (n := 32) (by omega)) ?_
    refine Sim.right (rdN_area (p := sk + 36 + 4) (n := 32) (by omega)) ?_
    refine Sim.right (rdN_area hm) ?_
    refine Sim.ite (fun _ => ?_) fun _ => ?_
    · refine Sim.same fun s _ => ?_
      cases s with
      | none => exact Sim.pure signed_fail
      | some s =>
        simp only
        refine Sim.right (rdN_area hl) ?_
        rw [bytesInt_eq]
        refine Sim.bind (sim_serialize (by omega) (by rw [hcl])) fun o o' _ h => ?_
        match o, o', h with
        | none, none, _ => exact Sim.pure signed_fail
        | some o, some o', h =>
          obtain ⟨g1, g2⟩ := signed_ok hs hl hc ha h
          exact Sim.right g2 (Sim.pure g1)
    · refine Sim.same fun s _ => ?_
      cases s with
      | none => exact Sim.pure signed_fail
      | some s =>
        simp only
        refine Sim.right (rdN_area hl) ?_
        rw [bytesInt_eq]
        refine Sim.bind (sim_serialize2 (by omega) (by rw [hcl])) fun o o' _ h => ?_
        match o, o', h with
        | none, none, _ => exact Sim.pure signed_fail
        | some o, some o', h =>
          obtain ⟨g1, g2⟩ := signed_ok hs hl hc ha h
          exact Sim.right g2 (Sim.pure g1)

end Picnic.Mem
