import Verif.Props.KeyGen
import Verif.Props.Termination

/-
C54: the distribution of generated keys.
-/

namespace Picnic

open Spec Spec.Challenge

/-- A random source that delivers the two given strings. -/
def twoStrings (r : Buf × Buf) : Rng := fun k n => if k = 0 then (if n = r.1.length then some r.1 else none) else if n = r.2.length then some r.2 else none

/-- The `n` bits of a block. -/
abbrev Block (n : ℕ) := Fin n → ZMod 2

/-- The block is stored in the array, followed by zeros. -/
def Stored {n : ℕ} (b : Buf) (x : Block n) : Prop := ∀ i, bitsOf b i = if h : i < n then x ⟨i, h⟩ else 0

/-- With the random strings `D`, key generation succeeds with secret key `x`, plaintext `y` and ciphertext `z`. -/
def Generates (E : Env) (p : ℕ) {k n : ℕ} (D : Digest k × Digest k) (x y z : Block n) : Prop :=
  ∀ pk0 sk0, ∃ pk sk, picnicKeygen E (twoStrings (bytes D.1, bytes D.2)) p (some pk0) (some sk0) = Outcome.ok (0, some pk, some sk) ∧
    Stored sk.data x ∧ Stored pk.plaintext y ∧ Stored pk.ciphertext z

/-! ### helpers -/

theorem stored_unique {n : ℕ} {b : Buf} {x x' : Block n} (h : Stored b x) (h' : Stored b x') : x = x' := by
  funext i
  have := (h i).symm.trans (h' i)
  simpa using this

/-- The bits of a string of `k` bytes. -/
theorem bits_equiv (k : ℕ) : ∃ e : Digest k ≃ (Fin (8 * k) → ZMod 2), ∀ d i, e d i = bitsOf (bytes d) i := by
  let g : Digest k → (Fin (8 * k) → ZMod 2) := fun d i => bitsOf (bytes d) i
  have hg : Function.Injective g := by
    intro d d' h
    have := buf_ext (a := bytes d) (b := bytes d') (by rw [bytes_length, bytes_length]) fun i hi => by
      rw [bytes_length] at hi
      exact congrFun h ⟨i, hi⟩
    have h2 := List.ofFn_injective this
    funext i
    exact BitVec.ofFin.inj (congrFun h2 i)
  have hc : Fintype.card (Digest k) = Fintype.card (Fin (8 * k) → ZMod 2) := by
    simp only [Fintype.card_fun, Fintype.card_fin, ZMod.card]
    rw [← pow_mul]
  exact ⟨Equiv.ofBijective g ((Fintype.bijective_iff_injective_and_card g).2 ⟨hg, hc⟩), fun _ _ => rfl⟩

/-- The first bits of random strings are uniform. -/
theorem fair_bits {k n : ℕ} (h : n ≤ 8 * k) : Fair fun (D : Digest k × Digest k) (e : Block n × Block n) =>
    (∀ i : Fin n, bitsOf (bytes D.1) i = e.1 i) ∧ ∀ i : Fin n, bitsOf (bytes D.2) i = e.2 i := by
  classical
  refine ⟨fun D e e' h h' => Prod.ext (funext fun i => (h.1 i).symm.trans (h'.1 i)) (funext fun i => (h.2 i).symm.trans (h'.2 i)), ?_⟩
  obtain ⟨β, hβ⟩ := bits_equiv k
  -- changing the bits
  let pad : Block n → (Fin (8 * k) → ZMod 2) := fun x i => if h : i.1 < n then x ⟨i.1, h⟩ else 0
  let φ : Block n → Digest k → Digest k := fun x d => β.symm (β d + pad x)
  have hφ : ∀ x, Function.Injective (φ x) := fun x d d' h => β.injective (add_right_cancel (β.symm.injective h))
  have hb : ∀ x d (i : Fin n), bitsOf (bytes (φ x d)) i = bitsOf (bytes d) i + x i := fun x d i => by
    have h1 := hβ (φ x d) ⟨i.1, by omega⟩
    have h2 := hβ d ⟨i.1, by omega⟩
    simp only at h1 h2
    rw [← h1, ← h2]
    simp only [φ, Equiv.apply_symm_apply, Pi.add_apply, pad, dif_pos i.2]
  have key : ∀ e e' : Block n × Block n,
      (Finset.univ.filter fun D : Digest k × Digest k => (∀ i : Fin n, bitsOf (bytes D.1) i = e.1 i) ∧ ∀ i : Fin n, bitsOf (bytes D.2) i = e.2 i).card ≤
      (Finset.univ.filter fun D : Digest k × Digest k => (∀ i : Fin n, bitsOf (bytes D.1) i = e'.1 i) ∧ ∀ i : Fin n, bitsOf (bytes D.2) i = e'.2 i).card := by
    intro e e'
    refine Finset.card_le_card_of_injOn (fun D => (φ (e'.1 - e.1) D.1, φ (e'.2 - e.2) D.2)) (fun D hD => ?_) fun D _ D' _ h => ?_
    · have := (Finset.mem_filter.1 hD).2
      refine Finset.mem_filter.2 ⟨Finset.mem_univ _, fun i => ?_, fun i => ?_⟩
      · rw [hb, this.1, Pi.sub_apply]; ring
      · rw [hb, this.2, Pi.sub_apply]; ring
    · rw [Prod.mk.injEq] at h
      exact Prod.ext (hφ _ h.1) (hφ _ h.2)
  intro e e'
  convert le_antisymm (key e e') (key e' e)

theorem fair_comp {A B B' : Type} [Fintype A] {R : A → B → Prop} {R' : A → B' → Prop} (hR : Fair R) (g : B' → B) (hg : Function.Injective g)
    (h : ∀ a b, R' a b ↔ R a (g b)) : Fair R' := by
  refine ⟨fun a e e' h1 h2 => hg (hR.unique a _ _ ((h _ _).1 h1) ((h _ _).1 h2)), fun e e' => ?_⟩
  classical
  rw [Finset.filter_congr fun a _ => h a e, Finset.filter_congr fun a _ => h a e']
  convert hR.uniform (g e) (g e')

/-- The ciphertext block. -/
def encBlock {n : ℕ} (X : Spec.LowMC) (x y : Block n) : Block n := fun i => X.enc (fun j => if h : j < n then x ⟨j, h⟩ else 0) (fun j => if h : j < n then y ⟨j, h⟩ else 0) i

theorem generates_iff (E : Env) (hE : EnvWF E) {p : ℕ} {P : Params} (hP : getParamSet p = some P) (D : Digest (bytesFor P.stateSizeBits) × Digest (bytesFor P.stateSizeBits))
    (x y z : Block P.stateSizeBits) : Generates E p D x y z ↔
      ((∀ i : Fin P.stateSizeBits, bitsOf (bytes D.1) i = x i) ∧ ∀ i : Fin P.stateSizeBits, bitsOf (bytes D.2) i = y i) ∧
        z = encBlock (lowmcOf P (E.lowmc P)) x y := by
  have hWF := paramsWF_of hP
  have hgen := fun pk0 sk0 => C07_keygen E hE (twoStrings (bytes D.1, bytes D.2)) (fun k n r h => by
    unfold twoStrings at h
    split at h <;> split at h <;> simp only [Option.some.injEq, reduceCtorEq] at h <;> subst h <;> simp_all) p P.stateSizeBits (blockBits_of hP) pk0 sk0
    (bytes D.1) (bytes D.2) (by simp [twoStrings, bytes_length]) (by simp [twoStrings, bytes_length])
  constructor
  · intro h
    obtain ⟨pk, sk, h1, h2, h3, h4⟩ := h PublicKey.zero PrivateKey.zero
    obtain ⟨pk', sk', g1, -, -, -, -, -, g2, g3, ⟨P', hP', hn, g4⟩, -⟩ := hgen PublicKey.zero PrivateKey.zero
    rw [hP] at hP'
    obtain rfl := Option.some.inj hP'
    rw [h1] at g1
    simp only [Outcome.ok.injEq, Prod.mk.injEq, Option.some.injEq, true_and] at g1
    obtain ⟨rfl, rfl⟩ := g1
    have ex : ∀ i : Fin P.stateSizeBits, bitsOf (bytes D.1) i = x i := fun i => by
      have := (g2 i).symm.trans (h2 i)
      simpa using this
    have ey : ∀ i : Fin P.stateSizeBits, bitsOf (bytes D.2) i = y i := fun i => by
      have := (g3 i).symm.trans (h3 i)
      simpa using this
    refine ⟨⟨ex, ey⟩, funext fun i => ?_⟩
    have := (h4 i).symm.trans (g4 i)
    rw [dif_pos i.2, if_pos i.2] at this
    rw [this, encBlock]
    exact congrFun (enc_congr hWF (fun j hj => by rw [dif_pos hj]; exact ex ⟨j, hj⟩) fun j hj => by rw [dif_pos hj]; exact ey ⟨j, hj⟩) _
  · rintro ⟨⟨ex, ey⟩, rfl⟩ pk0 sk0
    obtain ⟨pk', sk', g1, -, -, -, -, -, g2, g3, ⟨P', hP', hn, g4⟩, -⟩ := hgen pk0 sk0
    rw [hP] at hP'
    obtain rfl := Option.some.inj hP'
    refine ⟨pk', sk', g1, fun i => ?_, fun i => ?_, fun i => ?_⟩
    · rw [g2]
      split_ifs with hi
      · exact ex ⟨i, hi⟩
      · rfl
    · rw [g3]
      split_ifs with hi
      · exact ey ⟨i, hi⟩
      · rfl
    · rw [g4]
      split_ifs with hi
      · exact congrFun (enc_congr hWF (fun j hj => by rw [dif_pos hj]; exact ex ⟨j, hj⟩) fun j hj => by rw [dif_pos hj]; exact ey ⟨j, hj⟩) _
      · rfl

/-! ### the property -/

/-- C54: if the random source delivers uniformly random bytes, secret key and plaintext are uniformly random and independent. -/
theorem C54_plaintext (E : Env) (hE : EnvWF E) (p n : ℕ) (hn : blockBits p = some n) :
    Fair fun (D : Digest (bytesFor n) × Digest (bytesFor n)) (e : Block n × Block n) => ∃ z : Block n, Generates E p D e.1 e.2 z := by
  obtain ⟨P, hP, rfl⟩ := getParamSet_of hn
  refine fair_comp (fair_bits (by rw [bytesFor]; omega)) id Function.injective_id fun D e => ?_
  simp only [generates_iff E hE hP, exists_eq_right, exists_and_left, exists_eq, and_true, id]

/-- C54: the same holds for secret key and ciphertext (if the linear layers are invertible, as LowMC demands): neither the
plaintext nor the ciphertext of a public key alone tells anything about the secret key. -/
theorem C54_ciphertext (E : Env) (hE : EnvWF E) (p : ℕ) (P : Params) (hP : getParamSet p = some P)
    (hL : ∀ r < P.numRounds, ∃ B, IsInv P.stateSizeBits B (matBits P.stateSizeWords ((E.lowmc P).L r))) :
    Fair fun (D : Digest (bytesFor P.stateSizeBits) × Digest (bytesFor P.stateSizeBits)) (e : Block P.stateSizeBits × Block P.stateSizeBits) =>
      ∃ y : Block P.stateSizeBits, Generates E p D e.1 y e.2 := by
  have hWF := paramsWF_of hP
  let X := lowmcOf P (E.lowmc P)
  let f : Block P.stateSizeBits × Block P.stateSizeBits → Block P.stateSizeBits × Block P.stateSizeBits := fun e => (e.1, encBlock X e.1 e.2)
  have hf : Function.Injective f := by
    rintro ⟨x, y⟩ ⟨x', y'⟩ h
    simp only [f, Prod.mk.injEq] at h
    obtain ⟨rfl, h⟩ := h
    have := enc_injective X hWF.sboxes hL _ _ _ fun i hi => congrFun h ⟨i, hi⟩
    refine Prod.ext rfl (funext fun i => ?_)
    have := this i i.2
    simpa using this
  have hs := Finite.surjective_of_injective hf
  choose g hg using hs
  refine fair_comp (fair_bits (k := bytesFor P.stateSizeBits) (n := P.stateSizeBits) (by rw [bytesFor]; omega)) g (fun a b h => by rw [← hg a, h, hg]) ?_
  intro D e
  simp only [generates_iff E hE hP]
  have h1 := hg e
  simp only [f, Prod.ext_iff] at h1
  constructor
  · rintro ⟨y, ⟨h2, h3⟩, h4⟩
    have : g e = (e.1, y) := hf (by rw [hg]; exact Prod.ext rfl h4)
    rw [this]
    exact ⟨h2, h3⟩
  · rintro ⟨h2, h3⟩
    refine ⟨(g e).2, ⟨?_, h3⟩, ?_⟩
    · rw [← h1.1]; exact h2
    · rw [← h1.1]; exact h1.2.symm

open Classical in
/-- The number of pairs of random strings for each pair of secret key and plaintext. -/
theorem C54_count (E : Env) (hE : EnvWF E) (p n : ℕ) (hn : blockBits p = some n) (e : Block n × Block n) :
    (2 ^ n) ^ 2 * (Finset.univ.filter fun D : Digest (bytesFor n) × Digest (bytesFor n) => ∃ z : Block n, Generates E p D e.1 e.2 z).card =
      ((2 ^ 8) ^ bytesFor n) ^ 2 := by
  have h := fair_total (C54_plaintext E hE p n hn) e
  obtain ⟨P, hP, rfl⟩ := getParamSet_of hn
  rw [Finset.filter_false_of_mem (p := fun D => ¬ ∃ e : Block P.stateSizeBits × Block P.stateSizeBits, ∃ z, Generates E p D e.1 e.2 z) fun D _ hD => hD
    ⟨(fun i => bitsOf (bytes D.1) i, fun i => bitsOf (bytes D.2) i), _, (generates_iff E hE hP D _ _ _).2 ⟨⟨fun _ => rfl, fun _ => rfl⟩, rfl⟩⟩] at h
  simp only [Finset.card_empty, add_zero, Fintype.card_prod, Fintype.card_fun, Fintype.card_fin, ZMod.card] at h
  rw [sq, sq]
  exact h

/-- The hypotheses of `C54_ciphertext` can be met for every parameter set. -/
theorem C54_example (p : ℕ) (P : Params) (hp : getParamSet p = some P) : EnvWF exEnv ∧
    ∀ r < P.numRounds, ∃ B, IsInv P.stateSizeBits B (matBits P.stateSizeWords ((exEnv.lowmc P).L r)) :=
  ⟨exEnv_wf, fun _ _ => ⟨_, idMatrix_inv (paramsWF_of hp)⟩⟩

end Picnic
