import Verif.Proofs.Overlap

/-
Helper lemmas for Props/Overlap: LowMC and the key functions on memory simulate those of Model/Api.
-/

namespace Picnic.Mem

open Spec (area leNum pkAt skAt Apart OnlyChanges)

/-! ### lengths -/

/-- What `x` returns has property `Q`. -/
def Post {α : Type} (x : M α) (Q : α → Prop) : Prop := ∀ a, x = .ok a → Q a

theorem Post.ok {α : Type} {a : α} {Q : α → Prop} (h : Q a) : Post (.ok a) Q := by intro b hb; cases hb; exact h

theorem Post.bind {α β : Type} {x : M α} {f : α → M β} {R : α → Prop} {Q : β → Prop} (h : Post x R)
    (hf : ∀ a, R a → Post (f a) Q) : Post (x >>= f) Q := by
  intro b hb
  obtain ⟨a, ha, hfa⟩ := bind_eq_ok hb
  exact hf a (h a ha) b hfa

theorem Post.any {α : Type} {x : M α} : Post x fun _ => True := fun _ _ => trivial

theorem Post.loop {σ : Type} {f : Nat → σ → M σ} {n : Nat} {s : σ} {I : σ → Prop} (h : I s)
    (hs : ∀ i s, I s → Post (f i s) I) : Post (loop f n s) I := by
  induction n with
  | zero => exact Post.ok h
  | succ n ih => rw [loop_succ]; exact Post.bind ih fun a ha => hs n a ha

theorem post_wr {b : Buf} {i : Nat} {v : Byte} {k : Nat} (h : b.length = k) : Post (wr b i v) fun b' => b'.length = k := by
  intro b' hb
  unfold wr at hb
  split at hb
  · cases hb; simpa using h
  · cases hb

theorem post_setBit {b : Buf} {i : Nat} {v : Byte} {k : Nat} (h : b.length = k) :
    Post (setBit b i v) fun b' => b'.length = k := Post.bind Post.any fun _ _ => post_wr h

theorem post_stw {b : Buf} {i : Nat} {v : U32} {k : Nat} (h : b.length = k) :
    Post (stw b i v) fun b' => b'.length = k :=
  Post.bind (post_wr h) fun _ h => Post.bind (post_wr h) fun _ h => Post.bind (post_wr h) fun _ h => post_wr h

theorem post_xorArray {o a b : Buf} {n k : Nat} (h : o.length = k) : Post (xorArray o a b n) fun o' => o'.length = k :=
  Post.loop h fun _ _ h => Post.bind Post.any fun _ _ => Post.bind Post.any fun _ _ => post_stw h

theorem post_substitution {P : Params} {s : Buf} {k : Nat} (h : s.length = k) :
    Post (substitution s P) fun s' => s'.length = k :=
  Post.loop h fun _ _ h => Post.bind Post.any fun _ _ => Post.bind Post.any fun _ _ => Post.bind Post.any fun _ _ =>
    Post.bind (post_setBit h) fun _ h => Post.bind (post_setBit h) fun _ h => post_setBit h

theorem post_zeroTrailing {s : Buf} {n k : Nat} (h : s.length = k) :
    Post (zeroTrailingBits s n) fun s' => s'.length = k := Post.loop h fun _ _ h => post_setBit h

theorem post_memcpy {d s : Buf} {i j n k : Nat} (h : d.length = k) : Post (memcpy d i s j n) fun d' => d'.length = k := by
  intro b hb
  obtain ⟨h1, h2, rfl⟩ := memcpy_put_inv hb
  rw [put_length (by rw [area_length h1]; exact h2), h]

theorem post_matrixMul {P : Params} {t o s mat : Buf} {k : Nat} (h : o.length = k) :
    Post (matrixMul t o s mat P) fun o' => o'.length = k :=
  Post.bind Post.any fun _ _ => Post.bind Post.any fun _ _ => post_memcpy h

/-! ### LowMC -/

theorem put_again {m : Buf} {p : Nat} {b d : Buf} (h : p + b.length ≤ m.length) (hd : d.length = b.length) :
    put (put m p b) p d = put m p d := by
  have := put_put (q := 0) (d := d) h (by omega)
  rw [Nat.add_zero] at this
  rw [this, put_full hd]

theorem put_area {m : Buf} {p n : Nat} (h : p + n ≤ m.length) : put m p (area m p n) = m := by
  have hl := area_length h
  apply List.ext_getElem?
  intro i
  rw [put_get (by omega), hl]
  split
  · rw [area_get, if_pos (by omega)]; congr 1; omega
  · rfl

theorem sim_lowMC {E : Env} {P : Params} {m : Buf} {pt out key : Nat} (h1 : pt + 32 ≤ m.length) (h2 : out + 32 ≤ m.length)
    (h3 : key + 32 ≤ m.length) (hp : Apart out 32 pt 32) (hk : Apart out 32 key 32) :
    Sim (fun o m' => o.length = 32 ∧ m' = put m out o)
      (Picnic.lowMCEnc E P (area m pt 32) (area m out 32) (area m key 32)) (Mem.lowMCEnc E P m pt out key) := by
  unfold Picnic.lowMCEnc Mem.lowMCEnc
  have hlo := area_length h2
  have hlp := area_length h1
  refine Sim.left fun o ho => ?_
  obtain ⟨e1, e2, rfl⟩ := memcpy_put_inv ho
  rw [hlp] at e1
  rw [hlo] at e2
  have hpo : pt ≠ out := by unfold Apart at hp; omega
  simp only [hpo, ne_eq, not_false_eq_true, if_true]
  have hla : (area m pt (P.stateSizeWords * 4)).length = P.stateSizeWords * 4 := area_length (by omega)
  have hao : put m out (area m pt (P.stateSizeWords * 4)) =
      put m out (put (area m out 32) 0 (area (area m pt 32) 0 (P.stateSizeWords * 4))) := by
    rw [area_area (by omega), Nat.add_zero]
    have := put_put (m := m) (p := out) (b := area m out 32) (q := 0) (d := area m pt (P.stateSizeWords * 4)) (by omega)
      (by omega)
    rw [← this, put_area h2, Nat.add_zero]
  have ho32 : (put (area m out 32) 0 (area (area m pt 32) 0 (P.stateSizeWords * 4))).length = 32 := by
    rw [put_length, hlo]
    rw [area_length (by omega)]; omega
  refine Sim.right (copy_put (by omega) (by omega) (by unfold Apart at hp ⊢; omega)) ?_
  rw [hao]
  generalize put (area m out 32) 0 (area (area m pt 32) 0 (P.stateSizeWords * 4)) = o at ho32
  have rdk : ∀ o : Buf, o.length = 32 → rdN (put m out o) key PICNIC_MAX_LOWMC_BLOCK_SIZE = .ok (area m key 32) := by
    intro o ho
    rw [PICNIC_MAX_LOWMC_BLOCK_SIZE, rdN_area (by rw [put_length (by omega)]; exact h3),
      area_put_apart (by omega) (by rw [ho]; exact hk)]
  have rdo : ∀ o : Buf, o.length = 32 → rdN (put m out o) out PICNIC_MAX_LOWMC_BLOCK_SIZE = .ok o := by
    intro o ho
    rw [PICNIC_MAX_LOWMC_BLOCK_SIZE, rdN_area (by rw [put_length (by omega)]; exact h2), area_put_eq (by omega) ho]
  have wro : ∀ o o' : Buf, o.length = 32 → o'.length = 32 → wrN (put m out o) out o' = .ok (put m out o') := by
    intro o o' ho ho'
    rw [wrN_put (by rw [put_length (by omega)]; omega), put_again (by omega) (by omega)]
  refine Sim.right (rdk o ho32) ?_
  refine Sim.same fun rk _ => ?_
  refine Sim.right (rdo o ho32) ?_
  refine Sim.same fun o1 ho1 => ?_
  have ho1 := post_xorArray ho32 _ ho1
  refine Sim.right (wro o o1 ho32 ho1) ?_
  refine Sim.bind (R := fun s t => s.1.length = 32 ∧ t = (put m out s.1, s.2)) (Sim.loopFrom ⟨ho1, rfl⟩ ?_) ?_
  · rintro r ⟨o, rk⟩ _ ⟨ho, rfl⟩
    simp only at ho ⊢
    refine Sim.right (rdk o ho) ?_
    refine Sim.same fun rk _ => ?_
    refine Sim.right (rdo o ho) ?_
    refine Sim.same fun o1 ho1 => ?_
    have ho1 := post_substitution ho _ ho1
    refine Sim.same fun o2 ho2 => ?_
    have ho2 := post_matrixMul ho1 _ ho2
    refine Sim.same fun o3 ho3 => ?_
    have ho3 := post_xorArray ho2 _ ho3
    refine Sim.same fun o4 ho4 => ?_
    have ho4 := post_xorArray ho3 _ ho4
    refine Sim.right (wro o o4 ho ho4) ?_
    exact Sim.pure ⟨ho4, rfl⟩
  · rintro ⟨o, rk⟩ _ _ ⟨ho, rfl⟩
    exact Sim.pure ⟨ho, rfl⟩

/-! ### picnic_keygen -/

/-- The key objects at `pk` and `sk` have the given contents, everything else is as in `m`. -/
structure Keys (m : Buf) (pk sk : Nat) (m' : Buf) (vpk : PublicKey) (vsk : PrivateKey) : Prop where
  only : OnlyChanges m m' [(pk, 68), (sk, 104)]
  pk : pkAt m' pk = vpk
  sk : skAt m' sk = vsk

section keygen
variable {m m' : Buf} {pk sk : Nat} {vpk : PublicKey} {vsk : PrivateKey}
variable (hm1 : pk + 68 ≤ m.length) (hm2 : sk + 104 ≤ m.length) (ha : Apart pk 68 sk 104)
include hm1 hm2 ha

theorem Keys.put_pk (K : Keys m pk sk m' vpk vsk) {p : Nat} {d : Buf} (h1 : pk ≤ p) (h2 : p + d.length ≤ pk + 68)
    {vpk' : PublicKey} (h : pkAt (put m' p d) pk = vpk') : Keys m pk sk (put m' p d) vpk' vsk := by
  have hl := K.only.1
  refine ⟨onlyChanges_put K.only (a := (pk, 68)) (by simp) h1 h2 (by omega), h, ?_⟩
  rw [skAt_put_apart (by omega) (by unfold Apart at ha ⊢; omega), K.sk]

theorem Keys.put_sk (K : Keys m pk sk m' vpk vsk) {p : Nat} {d : Buf} (h1 : sk ≤ p) (h2 : p + d.length ≤ sk + 104)
    {vsk' : PrivateKey} (h : skAt (put m' p d) sk = vsk') : Keys m pk sk (put m' p d) vpk vsk' := by
  have hl := K.only.1
  refine ⟨onlyChanges_put K.only (a := (sk, 104)) (by simp) h1 h2 (by omega), ?_, h⟩
  rw [pkAt_put_apart (by omega) (by unfold Apart at ha ⊢; omega), K.pk]

theorem sim_keygen {E : Env} {rng : Rng} {parameters : Nat} :
    Sim (fun (r : Int × Option PublicKey × Option PrivateKey) (r' : Int × Buf) => r.1 = r'.1 ∧
        r.2 = (some (pkAt r'.2 pk), some (skAt r'.2 sk)) ∧ OnlyChanges m r'.2 [(pk, 68), (sk, 104)])
      (picnicKeygen E rng parameters (some (pkAt m pk)) (some (skAt m sk)))
      (keygen E rng m parameters (some pk) (some sk)) := by
  unfold picnicKeygen keygen
  have z1 : (zeros sizeofPk).length = 68 := rfl
  have z2 : (zeros sizeofSk).length = 104 := rfl
  have fin : ∀ {m' : Buf} {vpk : PublicKey} {vsk : PrivateKey} {r : Int}, Keys m pk sk m' vpk vsk →
      Sim (fun (r : Int × Option PublicKey × Option PrivateKey) (r' : Int × Buf) => r.1 = r'.1 ∧
        r.2 = (some (pkAt r'.2 pk), some (skAt r'.2 sk)) ∧ OnlyChanges m r'.2 [(pk, 68), (sk, 104)])
        (pure (r, some vpk, some vsk)) (pure (r, m')) := by
    intro m' vpk vsk r K
    exact Sim.pure ⟨rfl, by rw [K.pk, K.sk], K.only⟩
  refine Sim.ite (fun _ => Sim.pure ⟨rfl, rfl, onlyChanges_refl _ _⟩) fun hv => ?_
  have hp32 : parameters < 2 ^ 32 := by
    have : isValidParams parameters = true := by simpa using hv
    unfold isValidParams pidMaxIndex at this
    simp at this
    omega
  have K0 : Keys m pk sk m (pkAt m pk) (skAt m sk) := ⟨onlyChanges_refl _ _, rfl, rfl⟩
  simp only
  refine Sim.right (wrN_put (by omega)) ?_
  have K1 := K0.put_pk hm1 hm2 ha (d := zeros sizeofPk) (Nat.le_refl _) (by omega) (pkAt_zero hm1)
  have l1 := K1.only.1
  generalize put m pk (zeros sizeofPk) = m1 at K1 l1
  refine Sim.right (wrN_put (by omega)) ?_
  have K2 := K1.put_sk hm1 hm2 ha (d := zeros sizeofSk) (Nat.le_refl _) (by omega) (skAt_zero (by omega))
  have l2 := K2.only.1
  generalize put m1 sk (zeros sizeofSk) = m2 at K2 l2
  cases hP : getParamSet parameters with
  | none => exact fin K2
  | some P =>
    simp only
    refine Sim.right (setParams_put (by omega)) ?_
    have K3 := K2.put_sk hm1 hm2 ha (d := intBytes 4 parameters) (Nat.le_refl _) (by rw [intBytes_length]; omega)
      (skAt_put_params (by omega) hp32)
    have l3 := K3.only.1
    rw [K2.sk] at K3
    generalize put m2 sk (intBytes 4 parameters) = m3 at K3 l3
    refine Sim.right (setParams_put (by omega)) ?_
    have K4 := K3.put_pk hm1 hm2 ha (d := intBytes 4 parameters) (Nat.le_refl _) (by rw [intBytes_length]; omega)
      (pkAt_put_params (by omega) hp32)
    have l4 := K4.only.1
    rw [K3.pk] at K4
    generalize put m3 pk (intBytes 4 parameters) = m4 at K4 l4
    cases hr0 : rng 0 P.stateSizeBytes with
    | none => exact fin K4
    | some r0 =>
      simp only
      -- the secret key
      refine Sim.left fun d0 hd0 => ?_
      obtain ⟨e0, rfl⟩ := wrN_put_inv hd0
      have e0 : 0 + r0.length ≤ 32 := e0
      refine Sim.right (b := put m4 (sk + 4 + 0) r0) (by rw [data, wrN_put (by omega), Nat.add_zero]) ?_
      have K5 := K4.put_sk hm1 hm2 ha (p := sk + 4 + 0) (d := r0) (by omega) (by omega) (skAt_put_data (by omega) e0)
      have l5 := K5.only.1
      rw [K4.sk] at K5
      generalize put m4 (sk + 4 + 0) r0 = m5 at K5 l5
      unfold zeroTrailing
      simp only [bind_assoc, PICNIC_MAX_LOWMC_BLOCK_SIZE, data]
      refine Sim.right (rdN_area (by omega)) ?_
      have hd : area m5 (sk + 4) 32 = (skAt m5 sk).data := rfl
      rw [hd, K5.sk]
      refine Sim.same fun d1 hd1 => ?_
      have hl1 : d1.length = 32 := post_zeroTrailing (put_length e0) _ hd1
      refine Sim.right (b := put m5 (sk + 4 + 0) d1) (by rw [wrN_put (by omega), Nat.add_zero]) ?_
      have K6 := K5.put_sk hm1 hm2 ha (p := sk + 4 + 0) (d := d1) (by omega) (by omega) (skAt_put_data (by omega) (by omega))
      have l6 := K6.only.1
      rw [K5.sk, put_full (d := d1) (by rw [hl1]; exact (put_length (m := zeros 32) (d := r0) e0).symm)] at K6
      generalize put m5 (sk + 4 + 0) d1 = m6 at K6 l6
      cases hr1 : rng 1 P.stateSizeBytes with
      | none => exact fin K6
      | some r1 =>
        simp only
        -- the plaintext
        refine Sim.left fun d2 hd2 => ?_
        obtain ⟨e2, rfl⟩ := wrN_put_inv hd2
        have e2 : 0 + r1.length ≤ 32 := e2
        refine Sim.right (b := put m6 (pk + 4 + 0) r1) (by rw [plaintext, wrN_put (by omega), Nat.add_zero]) ?_
        have K7 := K6.put_pk hm1 hm2 ha (p := pk + 4 + 0) (d := r1) (by omega) (by omega) (pkAt_put_plaintext (by omega) e2)
        have l7 := K7.only.1
        rw [K6.pk] at K7
        generalize put m6 (pk + 4 + 0) r1 = m7 at K7 l7
        simp only [plaintext]
        refine Sim.right (rdN_area (by omega)) ?_
        have hd : area m7 (pk + 4) 32 = (pkAt m7 pk).plaintext := rfl
        rw [hd, K7.pk]
        refine Sim.same fun d3 hd3 => ?_
        have hl3 : d3.length = 32 := post_zeroTrailing (put_length e2) _ hd3
        refine Sim.right (b := put m7 (pk + 4 + 0) d3) (by rw [wrN_put (by omega), Nat.add_zero]) ?_
        have K8 := K7.put_pk hm1 hm2 ha (p := pk + 4 + 0) (d := d3) (by omega) (by omega)
          (pkAt_put_plaintext (by omega) (by omega))
        have l8 := K8.only.1
        rw [K7.pk, put_full (d := d3) (by rw [hl3]; exact (put_length (m := zeros 32) (d := r1) e2).symm)] at K8
        generalize put m7 (pk + 4 + 0) d3 = m8 at K8 l8
        -- the ciphertext
        have q1 : d3 = area m8 (pk + 4) 32 := (congrArg PublicKey.plaintext K8.pk).symm
        have q2 : PublicKey.zero.ciphertext = area m8 (pk + 36) 32 := (congrArg PublicKey.ciphertext K8.pk).symm
        have q3 : d1 = area m8 (sk + 4) 32 := (congrArg PrivateKey.data K8.sk).symm
        have S := sim_lowMC (E := E) (P := P) (m := m8) (pt := pk + 4) (out := pk + 36) (key := sk + 4) (by omega) (by omega)
          (by omega) (by unfold Apart; omega) (by unfold Apart at ha ⊢; omega)
        rw [← q1, ← q2, ← q3] at S
        refine Sim.bind S ?_
        rintro ct _ _ ⟨hct, rfl⟩
        have K9 := K8.put_pk hm1 hm2 ha (p := pk + 36 + 0) (d := ct) (by omega) (by omega)
          (pkAt_put_ciphertext (by omega) (by omega))
        have l9 := K9.only.1
        rw [K8.pk, put_full (d := ct) (by rw [hct]; rfl), Nat.add_zero] at K9
        rw [Nat.add_zero] at l9
        generalize put m8 (pk + 36) ct = m9 at K9 l9
        -- the copy
        refine Sim.right (copy_put (n := 68) (q := sk + 36) (by omega) (by omega) (by unfold Apart at ha ⊢; omega)) ?_
        have hl : (area m9 pk 68).length = 68 := area_length (by omega)
        have K10 := K9.put_sk hm1 hm2 ha (p := sk + 36) (d := area m9 pk 68) (by omega) (by omega)
          (skAt_put_pk (by omega) (by omega) (by omega))
        rw [K9.sk, pkAt_copy (by omega) (by omega), K9.pk] at K10
        exact fin K10

end keygen

/-! ### writing keys -/

theorem wr_put {m m' : Buf} {p : Nat} {v : Byte} (h : wr m p v = .ok m') : p + 1 ≤ m.length ∧ m' = put m p [v] := by
  unfold wr at h
  split at h
  · rename_i hp
    refine ⟨hp, ?_⟩
    cases h
    apply List.ext_getElem?
    intro i
    rw [put_get (by simpa using hp), List.getElem?_set]
    simp only [List.length_cons, List.length_nil]
    by_cases hi : p = i
    · subst hi; rw [if_pos rfl, if_pos hp, if_pos (by omega)]; simp
    · rw [if_neg hi, if_neg (by omega)]
  · cases h

theorem wr_put_ok {m : Buf} {p : Nat} {v : Byte} (h : p + 1 ≤ m.length) : wr m p v = .ok (put m p [v]) := by
  have : wr m p v = .ok (m.set p v) := by unfold wr; rw [if_pos (by omega)]
  rw [this, ← (wr_put this).2]

/-- Writing `d` at `o` of the buffer at `buf`, on both sides. -/
def Wr (m : Buf) (buf L : Nat) (b : Buf) (m' : Buf) : Prop :=
  b.length = L ∧ m' = put m buf b

theorem Wr.put {m : Buf} {buf L : Nat} {b m' : Buf} (hm : buf + L ≤ m.length) (h : Wr m buf L b m') {o : Nat} {d : Buf}
    (hd : o + d.length ≤ L) : Wr m buf L (put b o d) (put m' (buf + o) d) := by
  obtain ⟨h1, rfl⟩ := h
  exact ⟨(put_length (by omega)).trans h1, put_put (by omega) (by omega)⟩

/-- What lies apart from the buffer is not changed. -/
theorem Wr.read {m : Buf} {buf L : Nat} {b m' : Buf} (hm : buf + L ≤ m.length) (h : Wr m buf L b m') {q n : Nat}
    (ha : Apart buf L q n) : m'.length = m.length ∧ area m' q n = area m q n := by
  obtain ⟨h1, rfl⟩ := h
  exact ⟨put_length (by omega), area_put_apart (by omega) (by rw [h1]; exact ha)⟩

/-- `memcpy` from a key object to the buffer -/
theorem sim_copy {m : Buf} {buf L : Nat} {b m' : Buf} (hm : buf + L ≤ m.length) (h : Wr m buf L b m') {o q n : Nat}
    (hn : n ≤ 32) (hq : q + 32 ≤ m.length) (ha : Apart buf L q 32) :
    Sim (Wr m buf L) (memcpy b o (area m q 32) 0 n) (copy m' (buf + o) q n) := by
  intro b' hb
  obtain ⟨h1, h2, rfl⟩ := memcpy_put_inv hb
  have hb := h.1
  obtain ⟨e1, e2⟩ := h.read hm ha
  obtain ⟨e3, e4⟩ := h.read hm (q := q) (n := n) (by unfold Apart at ha ⊢; omega)
  have hl : (area m q n).length = n := area_length (by omega)
  refine ⟨_, copy_put (by omega) (by omega) (by unfold Apart at ha ⊢; omega), ?_⟩
  rw [area_area (by omega), Nat.add_zero, e4]
  exact h.put hm (by omega)

/-- Result of writing a key to the buffer at `buf` of length `L`. -/
def Wrote (m : Buf) (buf L : Nat) (r : Int × Option Buf) (r' : Int × Buf) : Prop :=
  r.1 = r'.1 ∧ r.2 = some (area r'.2 buf L) ∧ OnlyChanges m r'.2 [(buf, L)]

theorem Wr.fin {m : Buf} {buf L : Nat} {b m' : Buf} (hm : buf + L ≤ m.length) (h : Wr m buf L b m') {r : Int} :
    Sim (Wrote m buf L) (pure (r, some b)) (pure (r, m')) := by
  obtain ⟨h1, rfl⟩ := h
  refine Sim.pure ⟨rfl, ?_, ?_⟩
  · rw [area_put_eq (by omega) h1]
  · exact onlyChanges_put (onlyChanges_refl _ _) (a := (buf, L)) (by simp) (Nat.le_refl _) (by simp only; omega) (by omega)

theorem stateBytes_le {p : Nat} {P : Params} (hP : getParamSet p = some P) : P.stateSizeBytes ≤ 32 := by
  have h := paramsWF_of hP
  have := h.bytes
  have := h.nMax
  omega

theorem sim_writePk {m : Buf} {key buf L : Nat} (hk : key + 68 ≤ m.length) (hb : buf + L ≤ m.length)
    (ha : Apart buf L key 68) {buflen : Nat} :
    Sim (Wrote m buf L) (picnicWritePublicKey (some (pkAt m key)) (some (area m buf L)) buflen)
      (writePublicKey m (some key) (some buf) buflen) := by
  unfold picnicWritePublicKey writePublicKey
  have W : Wr m buf L (area m buf L) m := ⟨area_length hb, (put_area hb).symm⟩
  simp only
  refine Sim.right (getParams_pk hk) ?_
  cases hP : getParamSet (pkAt m key).params with
  | none => exact W.fin hb
  | some P =>
    have hn := stateBytes_le hP
    simp only
    refine Sim.ite (fun _ => W.fin hb) fun _ => ?_
    refine Sim.right (getParams_pk hk) ?_
    refine Sim.left fun b1 h1 => ?_
    obtain ⟨e1, rfl⟩ := wr_put h1
    rw [W.1] at e1
    have W1 := W.put hb (o := 0) (d := [BitVec.ofNat 8 (pkAt m key).params]) (by simpa using e1)
    rw [Nat.add_zero] at W1
    refine Sim.right (wr_put_ok (by omega)) ?_
    unfold Apart at ha
    refine Sim.bind (sim_copy hb W1 (q := key + 36) hn (by omega) (by unfold Apart; omega)) fun b2 m2 _ W2 => ?_
    refine Sim.bind (R := Wr m buf L) ?_ fun b3 m3 _ W3 => W3.fin hb
    rw [Nat.add_assoc]
    exact sim_copy hb W2 (q := key + 4) hn (by omega) (by unfold Apart; omega)

theorem sim_writeSk {m : Buf} {key buf L : Nat} (hk : key + 104 ≤ m.length) (hb : buf + L ≤ m.length)
    (ha : Apart buf L key 104) {buflen : Nat} :
    Sim (Wrote m buf L) (picnicWritePrivateKey (some (skAt m key)) (some (area m buf L)) buflen)
      (writePrivateKey m (some key) (some buf) buflen) := by
  unfold picnicWritePrivateKey writePrivateKey
  have W : Wr m buf L (area m buf L) m := ⟨area_length hb, (put_area hb).symm⟩
  simp only
  refine Sim.right (getParams_sk hk) ?_
  cases hP : getParamSet (skAt m key).params with
  | none => exact W.fin hb
  | some P =>
    have hn := stateBytes_le hP
    simp only
    refine Sim.ite (fun _ => W.fin hb) fun _ => ?_
    refine Sim.right (getParams_sk hk) ?_
    refine Sim.left fun b1 h1 => ?_
    obtain ⟨e1, rfl⟩ := wr_put h1
    rw [W.1] at e1
    have W1 := W.put hb (o := 0) (d := [BitVec.ofNat 8 (skAt m key).params]) (by simpa using e1)
    rw [Nat.add_zero] at W1
    refine Sim.right (wr_put_ok (by omega)) ?_
    unfold Apart at ha
    refine Sim.bind (sim_copy hb W1 (q := key + 4) hn (by omega) (by unfold Apart; omega)) fun b2 m2 _ W2 => ?_
    rw [Nat.add_assoc, Nat.add_assoc]
    refine Sim.bind (sim_copy hb W2 (q := key + 36 + 36) hn (by omega) (by unfold Apart; omega)) fun b3 m3 _ W3 => ?_
    exact Sim.bind (sim_copy hb W3 (q := key + 36 + 4) hn (by omega) (by unfold Apart; omega)) fun b4 m4 _ W4 => W4.fin hb

/-! ### reading keys -/

theorem rd_area {m : Buf} {p n i : Nat} (h : p + n ≤ m.length) (hi : i < n) : rd (area m p n) i = rd m (p + i) := by
  unfold rd; rw [area_get, if_pos hi]

/-- What was apart from the changed area is the same. -/
theorem area_only {m m' : Buf} {k s q n : Nat} (h : OnlyChanges m m' [(k, s)]) (ha : Apart k s q n) :
    area m' q n = area m q n := by
  unfold Apart at ha
  apply List.ext_getElem?
  intro i
  rw [area_get, area_get]
  by_cases hi : i < n
  · rw [if_pos hi, if_pos hi, h.2]
    intro a ha'
    simp only [List.mem_singleton] at ha'
    subst ha'
    simp only; omega
  · rw [if_neg hi, if_neg hi]

/-- A public key object and the memory that holds it. -/
structure PkIn (m : Buf) (key : Nat) (v : PublicKey) (m' : Buf) : Prop where
  only : OnlyChanges m m' [(key, 68)]
  at_ : pkAt m' key = v

/-- A private key object and the memory that holds it. -/
structure SkIn (m : Buf) (key : Nat) (v : PrivateKey) (m' : Buf) : Prop where
  only : OnlyChanges m m' [(key, 104)]
  at_ : skAt m' key = v

theorem PkIn.put {m : Buf} {key : Nat} {v : PublicKey} {m' : Buf} (hk : key + 68 ≤ m.length) (K : PkIn m key v m') {p : Nat}
    {d : Buf} (h1 : key ≤ p) (h2 : p + d.length ≤ key + 68) {v' : PublicKey} (h : pkAt (put m' p d) key = v') :
    PkIn m key v' (put m' p d) := by
  have := K.only.1
  exact ⟨onlyChanges_put K.only (a := (key, 68)) (by simp) h1 h2 (by omega), h⟩

theorem SkIn.put {m : Buf} {key : Nat} {v : PrivateKey} {m' : Buf} (hk : key + 104 ≤ m.length) (K : SkIn m key v m') {p : Nat}
    {d : Buf} (h1 : key ≤ p) (h2 : p + d.length ≤ key + 104) {v' : PrivateKey} (h : skAt (put m' p d) key = v') :
    SkIn m key v' (put m' p d) := by
  have := K.only.1
  exact ⟨onlyChanges_put K.only (a := (key, 104)) (by simp) h1 h2 (by omega), h⟩

theorem isValid_lt {n : Nat} (h : ¬(!isValidParams n) = true) : n < 2 ^ 32 := by
  have : isValidParams n = true := by simpa using h
  unfold isValidParams pidMaxIndex at this
  simp at this
  omega

theorem sim_readPk {m : Buf} {key buf L : Nat} (hk : key + 68 ≤ m.length) (hb : buf + L ≤ m.length)
    (ha : Apart key 68 buf L) {buflen : Nat} (hbl : buflen ≤ L) :
    Sim (fun (r : Int × Option PublicKey) (r' : Int × Buf) => r.1 = r'.1 ∧ r.2 = some (pkAt r'.2 key) ∧
        OnlyChanges m r'.2 [(key, 68)])
      (picnicReadPublicKey (some (pkAt m key)) (some (area m buf L)) buflen)
      (readPublicKey m (some key) (some buf) buflen) := by
  unfold picnicReadPublicKey readPublicKey
  have fin : ∀ {m' : Buf} {v : PublicKey} {r : Int}, PkIn m key v m' →
      Sim (fun (r : Int × Option PublicKey) (r' : Int × Buf) => r.1 = r'.1 ∧ r.2 = some (pkAt r'.2 key) ∧
        OnlyChanges m r'.2 [(key, 68)]) (pure (r, some v)) (pure (r, m')) := by
    intro m' v r K
    exact Sim.pure ⟨rfl, by rw [K.at_], K.only⟩
  have K0 : PkIn m key (pkAt m key) m := ⟨onlyChanges_refl _ _, rfl⟩
  simp only
  refine Sim.ite (fun _ => fin K0) fun h1 => ?_
  rw [rd_area hb (by omega), Nat.add_zero]
  refine Sim.same fun b0 hb0 => ?_
  refine Sim.ite (fun _ => fin K0) fun hv => ?_
  have hv32 := isValid_lt hv
  refine Sim.same fun b1 hb1 => ?_
  obtain rfl : b0 = b1 := by rw [hb0] at hb1; exact Outcome.ok.inj hb1
  refine Sim.right (setParams_put hk) ?_
  have K1 := K0.put hk (d := intBytes 4 b0.toNat) (Nat.le_refl _) (by rw [intBytes_length]; omega)
    (pkAt_put_params (by omega) hv32)
  generalize put m key (intBytes 4 b0.toNat) = m1 at K1
  have l1 := K1.only.1
  refine Sim.right (getParams_pk (by omega)) ?_
  rw [K1.at_]
  simp only
  cases hP : getParamSet b0.toNat with
  | none => exact fin K1
  | some P =>
    have hn := stateBytes_le hP
    simp only
    refine Sim.ite (fun _ => fin K1) fun h2 => ?_
    unfold Apart at ha
    refine Sim.left fun ct hct => ?_
    obtain ⟨e1, e2, rfl⟩ := memcpy_put_inv hct
    have hc1 : area m1 (buf + 1) P.stateSizeBytes = area (area m buf L) 1 P.stateSizeBytes := by
      rw [area_only K1.only (by unfold Apart; omega), area_area (by omega)]
    have hl1 : (area m1 (buf + 1) P.stateSizeBytes).length = P.stateSizeBytes := area_length (by omega)
    refine Sim.right (b := put m1 (key + 36 + 0) (area m1 (buf + 1) P.stateSizeBytes)) (by
      rw [ciphertext, PICNIC_MAX_LOWMC_BLOCK_SIZE, copy_put (by omega) (by omega) (by unfold Apart; omega)]) ?_
    have K2 := K1.put hk (p := key + 36 + 0) (d := area m1 (buf + 1) P.stateSizeBytes) (by omega) (by omega)
      (pkAt_put_ciphertext (by omega) (by omega))
    rw [K1.at_, hc1] at K2
    rw [hc1]
    generalize put m1 (key + 36 + 0) (area (area m buf L) 1 P.stateSizeBytes) = m2 at K2
    have l2 := K2.only.1
    refine Sim.left fun pt hpt => ?_
    obtain ⟨e3, e4, rfl⟩ := memcpy_put_inv hpt
    have hc2 : area m2 (buf + 1 + P.stateSizeBytes) P.stateSizeBytes =
        area (area m buf L) (1 + P.stateSizeBytes) P.stateSizeBytes := by
      rw [area_only K2.only (by unfold Apart; omega), area_area (by omega), Nat.add_assoc]
    have hl2 : (area m2 (buf + 1 + P.stateSizeBytes) P.stateSizeBytes).length = P.stateSizeBytes := area_length (by omega)
    refine Sim.right (b := put m2 (key + 4 + 0) (area m2 (buf + 1 + P.stateSizeBytes) P.stateSizeBytes)) (by
      rw [plaintext, copy_put (by omega) (by omega) (by unfold Apart; omega)]) ?_
    have K3 := K2.put hk (p := key + 4 + 0) (d := area m2 (buf + 1 + P.stateSizeBytes) P.stateSizeBytes) (by omega) (by omega)
      (pkAt_put_plaintext (by omega) (by omega))
    rw [K2.at_, hc2] at K3
    rw [hc2]
    generalize put m2 (key + 4 + 0) (area (area m buf L) (1 + P.stateSizeBytes) P.stateSizeBytes) = m3 at K3
    have l3 := K3.only.1
    refine Sim.right (rdN_area (m := m3) (p := key + 36) (n := 32) (by omega)) ?_
    refine Sim.right (rdN_area (m := m3) (p := key + 4) (n := 32) (by omega)) ?_
    have q1 := congrArg PublicKey.ciphertext K3.at_
    have q2 := congrArg PublicKey.plaintext K3.at_
    have r1 : area m3 (key + 36) 32 = (pkAt m3 key).ciphertext := rfl
    have r2 : area m3 (key + 4) 32 = (pkAt m3 key).plaintext := rfl
    rw [r1, r2, q1, q2]
    refine Sim.same fun okC _ => ?_
    refine Sim.ite (fun _ => Sim.same fun okP _ => ?_) fun _ => Sim.same fun okP _ => ?_
    all_goals exact Sim.ite (fun _ => fin K3) fun _ => fin K3

theorem sim_readSk {m : Buf} {key buf L : Nat} (hk : key + 104 ≤ m.length) (hb : buf + L ≤ m.length)
    (ha : Apart key 104 buf L) {buflen : Nat} (hbl : buflen ≤ L) :
    Sim (fun (r : Int × Option PrivateKey) (r' : Int × Buf) => r.1 = r'.1 ∧ r.2 = some (skAt r'.2 key) ∧
        OnlyChanges m r'.2 [(key, 104)])
      (picnicReadPrivateKey (some (skAt m key)) (some (area m buf L)) buflen)
      (readPrivateKey m (some key) (some buf) buflen) := by
  unfold picnicReadPrivateKey readPrivateKey
  have fin : ∀ {m' : Buf} {v : PrivateKey} {r : Int}, SkIn m key v m' →
      Sim (fun (r : Int × Option PrivateKey) (r' : Int × Buf) => r.1 = r'.1 ∧ r.2 = some (skAt r'.2 key) ∧
        OnlyChanges m r'.2 [(key, 104)]) (pure (r, some v)) (pure (r, m')) := by
    intro m' v r K
    exact Sim.pure ⟨rfl, by rw [K.at_], K.only⟩
  have K0 : SkIn m key (skAt m key) m := ⟨onlyChanges_refl _ _, rfl⟩
  have z2 : (zeros sizeofSk).length = 104 := rfl
  simp only
  refine Sim.ite (fun _ => fin K0) fun h1 => ?_
  rw [rd_area hb (by omega), Nat.add_zero]
  refine Sim.same fun b0 hb0 => ?_
  refine Sim.ite (fun _ => fin K0) fun hv => ?_
  have hv32 := isValid_lt hv
  unfold Apart at ha
  refine Sim.right (wrN_put (by omega)) ?_
  have K1 := K0.put hk (d := zeros sizeofSk) (Nat.le_refl _) (by omega) (skAt_zero hk)
  generalize put m key (zeros sizeofSk) = m1 at K1
  have l1 := K1.only.1
  have rdb : ∀ {m' : Buf}, OnlyChanges m m' [(key, 104)] → rd m' buf = .ok b0 := by
    intro m' h
    rw [← hb0]
    unfold rd
    rw [h.2 buf (by intro a ha'; simp only [List.mem_singleton] at ha'; subst ha'; simp only; omega)]
  refine Sim.left fun b1 hb1 => ?_
  obtain rfl : b0 = b1 := by rw [hb0] at hb1; exact Outcome.ok.inj hb1
  refine Sim.right (rdb K1.only) ?_
  refine Sim.right (setParams_put (by omega)) ?_
  have K2 := K1.put hk (d := intBytes 4 b0.toNat) (Nat.le_refl _) (by rw [intBytes_length]; omega)
    (skAt_put_params (by omega) hv32)
  rw [K1.at_] at K2
  generalize put m1 key (intBytes 4 b0.toNat) = m2 at K2
  have l2 := K2.only.1
  refine Sim.right (rdb K2.only) ?_
  refine Sim.right (setParams_put (p := key + 36) (by omega)) ?_
  have K3 := K2.put hk (p := key + 36) (d := intBytes 4 b0.toNat) (by omega) (by rw [intBytes_length]; omega)
    (skAt_put_pk (by omega) (by rw [intBytes_length]; omega) (by omega))
  rw [pkAt_put_params (by omega) hv32] at K3
  have q0 : pkAt m2 (key + 36) = PublicKey.zero := congrArg PrivateKey.pk K2.at_
  rw [q0, K2.at_] at K3
  generalize put m2 (key + 36) (intBytes 4 b0.toNat) = m3 at K3
  have l3 := K3.only.1
  refine Sim.right (getParams_sk (by omega)) ?_
  rw [K3.at_]
  simp only
  cases hP : getParamSet b0.toNat with
  | none => exact fin K3
  | some P =>
    have hn := stateBytes_le hP
    simp only
    refine Sim.ite (fun _ => fin K3) fun h2 => ?_
    -- data
    refine Sim.left fun d hd => ?_
    obtain ⟨e1, e2, rfl⟩ := memcpy_put_inv hd
    have hc1 : area m3 (buf + 1) P.stateSizeBytes = area (area m buf L) 1 P.stateSizeBytes := by
      rw [area_only K3.only (by unfold Apart; omega), area_area (by omega)]
    have hl1 : (area m3 (buf + 1) P.stateSizeBytes).length = P.stateSizeBytes := area_length (by omega)
    refine Sim.right (b := put m3 (key + 4 + 0) (area m3 (buf + 1) P.stateSizeBytes)) (by
      rw [data, copy_put (by omega) (by omega) (by unfold Apart; omega)]) ?_
    have K4 := K3.put hk (p := key + 4 + 0) (d := area m3 (buf + 1) P.stateSizeBytes) (by omega) (by omega)
      (skAt_put_data (by omega) (by omega))
    rw [K3.at_, hc1] at K4
    rw [hc1]
    generalize put m3 (key + 4 + 0) (area (area m buf L) 1 P.stateSizeBytes) = m4 at K4
    have l4 := K4.only.1
    -- ciphertext
    refine Sim.left fun ct hct => ?_
    obtain ⟨e3, e4, rfl⟩ := memcpy_put_inv hct
    have hc2 : area m4 (buf + 1 + P.stateSizeBytes) P.stateSizeBytes =
        area (area m buf L) (1 + P.stateSizeBytes) P.stateSizeBytes := by
      rw [area_only K4.only (by unfold Apart; omega), area_area (by omega), Nat.add_assoc]
    have hl2 : (area m4 (buf + 1 + P.stateSizeBytes) P.stateSizeBytes).length = P.stateSizeBytes := area_length (by omega)
    refine Sim.right (b := put m4 (key + 36 + 36 + 0) (area m4 (buf + 1 + P.stateSizeBytes) P.stateSizeBytes)) (by
      rw [ciphertext, pkOf, PICNIC_MAX_LOWMC_BLOCK_SIZE, copy_put (by omega) (by omega) (by unfold Apart; omega)]) ?_
    have K5 := K4.put hk (p := key + 36 + 36 + 0) (d := area m4 (buf + 1 + P.stateSizeBytes) P.stateSizeBytes) (by omega)
      (by omega) (skAt_put_pk (by omega) (by omega) (by omega))
    rw [pkAt_put_ciphertext (by omega) (by omega)] at K5
    have q0 := congrArg PrivateKey.pk K4.at_
    have q1 : pkAt m4 (key + 36) = (skAt m4 key).pk := rfl
    rw [q1, q0, K4.at_, hc2] at K5
    rw [hc2]
    generalize put m4 (key + 36 + 36 + 0) (area (area m buf L) (1 + P.stateSizeBytes) P.stateSizeBytes) = m5 at K5
    have l5 := K5.only.1
    -- plaintext
    refine Sim.left fun pt hpt => ?_
    obtain ⟨e5, e6, rfl⟩ := memcpy_put_inv hpt
    have hc3 : area m5 (buf + 1 + 2 * P.stateSizeBytes) P.stateSizeBytes =
        area (area m buf L) (1 + 2 * P.stateSizeBytes) P.stateSizeBytes := by
      rw [area_only K5.only (by unfold Apart; omega), area_area (by omega), Nat.add_assoc]
    have hl3 : (area m5 (buf + 1 + 2 * P.stateSizeBytes) P.stateSizeBytes).length = P.stateSizeBytes :=
      area_length (by omega)
    refine Sim.right (b := put m5 (key + 36 + 4 + 0) (area m5 (buf + 1 + 2 * P.stateSizeBytes) P.stateSizeBytes)) (by
      rw [plaintext, pkOf, PICNIC_MAX_LOWMC_BLOCK_SIZE, copy_put (by omega) (by omega) (by unfold Apart; omega)]) ?_
    have K6 := K5.put hk (p := key + 36 + 4 + 0) (d := area m5 (buf + 1 + 2 * P.stateSizeBytes) P.stateSizeBytes) (by omega)
      (by omega) (skAt_put_pk (by omega) (by omega) (by omega))
    rw [pkAt_put_plaintext (by omega) (by omega)] at K6
    have q0 := congrArg PrivateKey.pk K5.at_
    have q1 : pkAt m5 (key + 36) = (skAt m5 key).pk := rfl
    rw [q1, q0, K5.at_, hc3] at K6
    rw [hc3]
    generalize put m5 (key + 36 + 4 + 0) (area (area m buf L) (1 + 2 * P.stateSizeBytes) P.stateSizeBytes) = m6 at K6
    have l6 := K6.only.1
    refine Sim.right (rdN_area (m := m6) (p := key + 4) (n := 32) (by omega)) ?_
    refine Sim.right (rdN_area (m := m6) (p := key + 36 + 36) (n := 32) (by omega)) ?_
    refine Sim.right (rdN_area (m := m6) (p := key + 36 + 4) (n := 32) (by omega)) ?_
    have q1 := congrArg PrivateKey.data K6.at_
    have q2 := congrArg (fun v => v.pk.ciphertext) K6.at_
    have q3 := congrArg (fun v => v.pk.plaintext) K6.at_
    have r1 : area m6 (key + 4) 32 = (skAt m6 key).data := rfl
    have r2 : area m6 (key + 36 + 36) 32 = (skAt m6 key).pk.ciphertext := rfl
    have r3 : area m6 (key + 36 + 4) 32 = (skAt m6 key).pk.plaintext := rfl
    rw [r1, r2, r3, q1, q2, q3]
    refine Sim.same fun okD _ => ?_
    refine Sim.ite (fun _ => Sim.same fun okC _ => ?_) fun _ => Sim.same fun okC _ => ?_
    all_goals
      refine Sim.ite (fun _ => Sim.same fun okP _ => ?_) fun _ => Sim.same fun okP _ => ?_
    all_goals exact Sim.ite (fun _ => fin K6) fun _ => fin K6

end Picnic.Mem
