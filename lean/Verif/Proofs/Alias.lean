import Verif.Spec.Alias
import Mathlib.Tactic.IntervalCases
import Mathlib.Logic.Encodable.Basic
import Mathlib.Logic.Equiv.List

/-
The accesses to words and to pointers are in different places (C75).
-/

namespace Picnic

open Align

namespace AliasProof

/-- The bytes accessed as words, and those accessed as pointers. -/
def Reg (L : Layout) (P : Params) (x : ℕ) : Ty → Prop
  | .word => Declared L P false x .word ∨ KeyArray L x ∨
      (∃ s ∈ [Site.viewInput, .viewOutput, .tmp, .view3Slab, .proofInput], ∃ ix, (Obj.heap s ix).Has L P x) ∨
      ((Obj.heap .inputs []).Has L P x ∧ L.heap .inputs [] + P.numMPCRounds * 8 ≤ x)
  | .ptr => (∃ s ∈ [Site.commitments, .commitments2, .msgs, .seeds], ∃ ix, (Obj.heap s ix).Has L P x) ∨
      ((Obj.heap .inputs []).Has L P x ∧ x < L.heap .inputs [] + P.numMPCRounds * 8)
  | .byte => False

theorem keyArray_has {L : Layout} {P : Params} {x : ℕ} (h : KeyArray L x) : (Obj.pk).Has L P x ∨ (Obj.sk).Has L P x := by
  unfold KeyArray pkPlaintext pkCiphertext skData skPk at h
  simp only [Obj.Has, Obj.base, Obj.bytes', show PICNIC_MAX_LOWMC_BLOCK_SIZE = 32 from rfl] at *
  omega

theorem reg_disjoint {L : Layout} {P : Params} (hS : Separate L P) {x : ℕ} (h1 : Reg L P x .word) (h2 : Reg L P x .ptr) : False := by
  have key : ∀ {s : Site} {ix : List ℕ}, s ∈ [Site.commitments, .commitments2, .msgs, .seeds, .inputs] → (Obj.heap s ix).Has L P x →
      ¬ Declared L P false x .word ∧ ¬ KeyArray L x ∧ ¬ (∃ s ∈ [Site.viewInput, .viewOutput, .tmp, .view3Slab, .proofInput], ∃ ix, (Obj.heap s ix).Has L P x) := by
    intro s ix hs hx
    refine ⟨?_, fun hk => ?_, ?_⟩
    · rintro (⟨a, ha⟩ | ⟨r, ha | ha | ha | ha | ha⟩) <;> exact hS _ _ (by simp) x hx ha
    · rcases keyArray_has (P := P) hk with h | h <;> exact hS _ _ (by simp) x hx h
    · rintro ⟨s', hs', ix', hx'⟩
      refine hS _ _ (fun e => ?_) x hx hx'
      injection e with e
      subst e
      revert hs hs'
      cases s <;> decide
  rcases h2 with ⟨s, hs, ix, hx⟩ | ⟨hx, hlt⟩
  · have hs' : s ∈ [Site.commitments, .commitments2, .msgs, .seeds, .inputs] := by revert hs; cases s <;> decide
    obtain ⟨k1, k2, k3⟩ := key hs' hx
    rcases h1 with h | h | h | ⟨h, -⟩
    · exact k1 h
    · exact k2 h
    · exact k3 h
    · refine hS _ _ (fun e => ?_) x hx h
      injection e with e
      subst e
      revert hs
      decide
  · obtain ⟨k1, k2, k3⟩ := key (by decide) hx
    rcases h1 with h | h | h | ⟨-, h⟩
    · exact k1 h
    · exact k2 h
    · exact k3 h
    · omega

/-- All accesses are in the region of their type. -/
def Typed (L : Layout) (P : Params) (l : List Access) : Prop := ∀ a ∈ l, ∀ x, a.addr ≤ x → x < a.addr + a.size → Reg L P x a.ty

/-- An array of `n` words. -/
def Words (L : Layout) (P : Params) (p n : ℕ) : Prop := ∀ x, p ≤ x → x < p + 4 * n → Reg L P x .word

/-- What is needed of the parameters. -/
structure Dims (P : Params) : Prop where
  pos : 1 ≤ P.stateSizeWords
  max : P.stateSizeWords ≤ 8
  whole : P.stateSizeBits / 32 ≤ P.stateSizeWords
  sub : 4 * (P.stateSizeBits / 32) ≤ P.stateSizeBytes
  bytes : P.stateSizeBytes ≤ 32
  tmp : P.numMPCParties = 3 → 24 * P.stateSizeWords ≤ 9 * P.stateSizeBytes

theorem dims_of {p : ℕ} {P : Params} (h : getParamSet p = some P) : Dims P := by
  have hp : 1 ≤ p ∧ p ≤ 12 := by
    by_contra hc
    have : p = 0 ∨ 13 ≤ p := by omega
    rcases this with h0 | h0
    · subst h0; cases h
    · obtain ⟨k, rfl⟩ := Nat.exists_eq_add_of_le h0
      rw [Nat.add_comm] at h
      exact absurd h (by simp [getParamSet, paramTable])
  obtain ⟨h1, h2⟩ := hp
  interval_cases p <;> (cases h; constructor <;> decide)

variable {L : Layout} {P : Params}

theorem app {l m : List Access} (h : Typed L P l) (k : Typed L P m) : Typed L P (l ++ m) := by
  intro a ha
  rcases List.mem_append.1 ha with h1 | h1
  exacts [h a h1, k a h1]

theorem cons {a : Access} {m : List Access} (h : ∀ x, a.addr ≤ x → x < a.addr + a.size → Reg L P x a.ty) (k : Typed L P m) : Typed L P (a :: m) := by
  intro b hb
  rcases List.mem_cons.1 hb with h1 | h1
  · subst h1; exact h
  · exact k b h1

theorem nil : Typed L P [] := by intro a ha; cases ha

theorem fm {α} {l : List α} {f : α → List Access} (h : ∀ x ∈ l, Typed L P (f x)) : Typed L P (l.flatMap f) := by
  intro a ha
  obtain ⟨x, hx, h1⟩ := List.mem_flatMap.1 ha
  exact h x hx a h1

theorem mp {α} {l : List α} {f : α → Access} (h : ∀ y ∈ l, ∀ x, (f y).addr ≤ x → x < (f y).addr + (f y).size → Reg L P x (f y).ty) : Typed L P (l.map f) := by
  intro a ha
  obtain ⟨x, hx, h1⟩ := List.mem_map.1 ha
  subst h1
  exact h x hx

theorem word_ok {p n i : ℕ} (h : Words L P p n) (hi : i < n) : ∀ x, (word p i).addr ≤ x → x < (word p i).addr + (word p i).size → Reg L P x (word p i).ty := by
  intro x h1 h2
  simp only [word] at h1 h2
  exact h x (by omega) (by omega)

theorem ptr_ok {p i : ℕ} (h : ∀ x, p + 8 * i ≤ x → x < p + 8 * i + 8 → Reg L P x .ptr) :
    ∀ x, (ptr p i).addr ≤ x → x < (ptr p i).addr + (ptr p i).size → Reg L P x (ptr p i).ty := fun x h1 h2 => h x h1 h2

theorem Words.mono {p n m : ℕ} (h : Words L P p n) (hm : m ≤ n) : Words L P p m := fun x h1 h2 => h x h1 (by omega)

theorem Words.off {p n m k : ℕ} (h : Words L P p n) (hm : m + k ≤ n) : Words L P (p + 4 * m) k := fun x h1 h2 => h x (by omega) (by omega)

theorem xorArray_ok {o a b n : ℕ} (ho : Words L P o n) (ha : Words L P a n) (hb : Words L P b n) : Typed L P (xorArray o a b n) :=
  fm fun _ hi => have hi := List.mem_range.1 hi; cons (word_ok ha hi) (cons (word_ok hb hi) (cons (word_ok ho hi) nil))

theorem xorThree_ok {o a b c n : ℕ} (ho : Words L P o (n / 4)) (ha : Words L P a (n / 4)) (hb : Words L P b (n / 4)) (hc : Words L P c (n / 4)) :
    Typed L P (xorThree o a b c n) :=
  fm fun _ hi => have hi := List.mem_range.1 hi; cons (word_ok ha hi) (cons (word_ok hb hi) (cons (word_ok hc hi) (cons (word_ok ho hi) nil)))

theorem autoW (a : Auto) : Words L P (L.auto a) 16 := fun _ h1 h2 => Or.inl (Or.inl ⟨a, h1, by simpa [Obj.base, Obj.bytes'] using h2⟩)
theorem kMatW (r : ℕ) : Words L P (L.kMat r) (P.stateSizeBits * P.stateSizeWords) := fun x h1 h2 =>
  Or.inl (Or.inr ⟨r, Or.inl ⟨h1, by simp only [Obj.base, Obj.bytes']; omega⟩⟩)
theorem kMatInvW (r : ℕ) : Words L P (L.kMatInv r) (P.stateSizeBits * P.stateSizeWords) := fun x h1 h2 =>
  Or.inl (Or.inr ⟨r, Or.inr (Or.inl ⟨h1, by simp only [Obj.base, Obj.bytes']; omega⟩)⟩)
theorem lMatW (r : ℕ) : Words L P (L.lMat r) (P.stateSizeBits * P.stateSizeWords) := fun x h1 h2 =>
  Or.inl (Or.inr ⟨r, Or.inr (Or.inr (Or.inl ⟨h1, by simp only [Obj.base, Obj.bytes']; omega⟩))⟩)
theorem lMatInvW (r : ℕ) : Words L P (L.lMatInv r) (P.stateSizeBits * P.stateSizeWords) := fun x h1 h2 =>
  Or.inl (Or.inr ⟨r, Or.inr (Or.inr (Or.inr (Or.inl ⟨h1, by simp only [Obj.base, Obj.bytes']; omega⟩)))⟩)
theorem rConstW (r : ℕ) : Words L P (L.rConst r) P.stateSizeWords := fun x h1 h2 =>
  Or.inl (Or.inr ⟨r, Or.inr (Or.inr (Or.inr (Or.inr ⟨h1, by simp only [Obj.base, Obj.bytes']; omega⟩)))⟩)

theorem heapW {s : Site} (hs : s ∈ [Site.viewInput, .viewOutput, .tmp, .view3Slab, .proofInput]) (ix : List ℕ) {n : ℕ} (hn : 4 * n ≤ s.bytes P) :
    Words L P (L.heap s ix) n := fun x h1 h2 => Or.inr (Or.inr (Or.inl ⟨s, hs, ix, h1, by simp only [Obj.base, Obj.bytes']; omega⟩))

theorem ptW : Words L P (pkPlaintext L.pk) 8 := fun _ h1 h2 => Or.inr (Or.inl (Or.inl ⟨h1, h2⟩))
theorem ctW : Words L P (pkCiphertext L.pk) 8 := fun _ h1 h2 => Or.inr (Or.inl (Or.inr (Or.inl ⟨h1, h2⟩)))
theorem dataW : Words L P (skData L.sk) 8 := fun _ h1 h2 => Or.inr (Or.inl (Or.inr (Or.inr (Or.inl ⟨h1, h2⟩))))
theorem ptW' : Words L P (pkPlaintext (skPk L.sk)) 8 := fun _ h1 h2 => Or.inr (Or.inl (Or.inr (Or.inr (Or.inr (Or.inl ⟨h1, h2⟩)))))

theorem inputW {t : ℕ} (ht : t < P.numMPCRounds) : Words L P (inputAddr (L.heap .inputs []) t P) P.stateSizeWords := by
  intro x h1 h2
  unfold inputAddr at h1 h2
  have h3 : (t + 1) * (P.stateSizeWords * 4) ≤ P.numMPCRounds * (P.stateSizeWords * 4) := Nat.mul_le_mul_right _ ht
  rw [Nat.add_mul, Nat.one_mul] at h3
  refine Or.inr (Or.inr (Or.inr ⟨⟨?_, ?_⟩, ?_⟩))
  · simp only [Obj.base]; omega
  · simp only [Obj.base, Obj.bytes', Site.bytes, Nat.mul_add]; omega
  · omega

variable (D : Dims P)
include D

theorem matrixMul_ok {s m : ℕ} (hs : Words L P s (P.stateSizeBits / 32)) (hm : Words L P m (P.stateSizeBits * P.stateSizeWords)) :
    Typed L P (matrixMul L s m P) := by
  refine cons (word_ok (autoW _) (by have := D.max; omega)) (fm fun i hi => fm fun j hj => ?_)
  rw [List.mem_range] at hi hj
  refine cons (word_ok hs hj) (cons (word_ok hm ?_) nil)
  have h1 : (i + 1) * P.stateSizeWords ≤ P.stateSizeBits * P.stateSizeWords := Nat.mul_le_mul_right _ hi
  rw [Nat.add_mul, Nat.one_mul] at h1
  have := D.whole
  omega

theorem lowMCEnc_ok {o k : ℕ} (ho : Words L P o P.stateSizeWords) (hk : Words L P k P.stateSizeWords) : Typed L P (lowMCEnc L o k P) := by
  have ha : Words L P (L.auto .roundKey) P.stateSizeWords := (autoW _).mono (by have := D.max; omega)
  exact app (app (matrixMul_ok D (hk.mono D.whole) (kMatW _)) (xorArray_ok ho ho ha)) (fm fun _ _ =>
    app (app (app (matrixMul_ok D (hk.mono D.whole) (kMatW _)) (matrixMul_ok D (ho.mono D.whole) (lMatW _))) (xorArray_ok ho ho (rConstW _)))
      (xorArray_ok ho ho ha))

theorem mpcMatrixMul_ok {st : List ℕ} {m : ℕ} (hs : ∀ s ∈ st, Words L P s (P.stateSizeBits / 32)) (hm : Words L P m (P.stateSizeBits * P.stateSizeWords)) :
    Typed L P (mpcMatrixMul L st m P) := fm fun s h => matrixMul_ok D (hs s h) hm

omit D in
theorem mpcXor_ok {a b : List ℕ} {n : ℕ} (ha : ∀ s ∈ a, Words L P s n) (hb : ∀ s ∈ b, Words L P s n) : Typed L P (mpcXor a b n) :=
  fm fun _ h => xorArray_ok (ha _ (List.of_mem_zip h).1) (ha _ (List.of_mem_zip h).1) (hb _ (List.of_mem_zip h).2)

omit D in
/-- The parts of `tmp`. -/
theorem slabW {slab : ℕ} (hs : Words L P slab (6 * P.stateSizeWords)) :
    let w := 4 * P.stateSizeWords
    Words L P slab P.stateSizeWords ∧ Words L P (slab + w) P.stateSizeWords ∧ Words L P (slab + w + w) P.stateSizeWords ∧
    Words L P (slab + w + w + w) P.stateSizeWords ∧ Words L P (slab + w + w + w + w) P.stateSizeWords ∧ Words L P (slab + w + w + w + w + w) P.stateSizeWords := by
  intro w
  refine ⟨hs.mono (by omega), ?_, ?_, ?_, ?_, ?_⟩ <;> intro x h1 h2 <;> exact hs x (by omega) (by omega)

theorem mpcLowMC_ok {ins : List ℕ} (hi : ∀ s ∈ ins, Words L P s (P.stateSizeBits / 32)) {pt slab : ℕ} (hp : Words L P pt P.stateSizeWords)
    (hs : Words L P slab (6 * P.stateSizeWords)) : Typed L P (mpcLowMC L ins pt slab P) := by
  obtain ⟨h0, h1, h2, h3, h4, h5⟩ := slabW hs
  have hr : ∀ s ∈ [slab, slab + 4 * P.stateSizeWords, slab + 4 * P.stateSizeWords + 4 * P.stateSizeWords], Words L P s P.stateSizeWords := by
    intro s h; simp only [List.mem_cons, List.not_mem_nil, or_false] at h; rcases h with h | h | h <;> subst h <;> assumption
  have hst : ∀ s ∈ [slab + 4 * P.stateSizeWords + 4 * P.stateSizeWords + 4 * P.stateSizeWords,
      slab + 4 * P.stateSizeWords + 4 * P.stateSizeWords + 4 * P.stateSizeWords + 4 * P.stateSizeWords,
      slab + 4 * P.stateSizeWords + 4 * P.stateSizeWords + 4 * P.stateSizeWords + 4 * P.stateSizeWords + 4 * P.stateSizeWords], Words L P s P.stateSizeWords := by
    intro s h; simp only [List.mem_cons, List.not_mem_nil, or_false] at h; rcases h with h | h | h <;> subst h <;> assumption
  exact app (app (app (xorArray_ok h3 h3 hp) (mpcMatrixMul_ok D hi (kMatW _))) (mpcXor_ok hst hr)) (fm fun _ _ =>
    app (app (app (mpcMatrixMul_ok D hi (kMatW _)) (mpcMatrixMul_ok D (fun s h => (hst s h).mono D.whole) (lMatW _))) (xorArray_ok h3 h3 (rConstW _)))
      (mpcXor_ok hst hr))

omit D in
theorem mxcv_ok {a b i n : ℕ} (ha : Words L P a n) (hb : Words L P b n) (hi : Words L P i n) (c : ℕ) : Typed L P (mpcXorConstantVerify a b i n c) := by
  unfold mpcXorConstantVerify
  split_ifs
  exacts [xorArray_ok ha ha hi, xorArray_ok hb hb hi, nil]

theorem mpcLowMCVerify_ok {i1 i2 tmp pt : ℕ} (h1 : Words L P i1 (P.stateSizeBits / 32)) (h2 : Words L P i2 (P.stateSizeBits / 32))
    (ht : Words L P tmp (6 * P.stateSizeWords)) (hp : Words L P pt P.stateSizeWords) (c : ℕ) : Typed L P (mpcLowMCVerify L i1 i2 tmp pt c P) := by
  obtain ⟨k0, k1, k2, k3, -, -⟩ := slabW ht
  have hi : ∀ s ∈ [i1, i2], Words L P s (P.stateSizeBits / 32) := by
    intro s h; simp only [List.mem_cons, List.not_mem_nil, or_false] at h; rcases h with h | h <;> subst h <;> assumption
  have hr : ∀ s ∈ [tmp, tmp + 4 * P.stateSizeWords], Words L P s P.stateSizeWords := by
    intro s h; simp only [List.mem_cons, List.not_mem_nil, or_false] at h; rcases h with h | h <;> subst h <;> assumption
  have hs : ∀ s ∈ [tmp + 4 * P.stateSizeWords + 4 * P.stateSizeWords,
      tmp + 4 * P.stateSizeWords + 4 * P.stateSizeWords + 4 * P.stateSizeWords], Words L P s P.stateSizeWords := by
    intro s h; simp only [List.mem_cons, List.not_mem_nil, or_false] at h; rcases h with h | h <;> subst h <;> assumption
  exact app (app (app (mxcv_ok k2 k3 hp _) (mpcMatrixMul_ok D hi (kMatW _))) (mpcXor_ok hs hr)) (fm fun _ _ =>
    app (app (app (mpcMatrixMul_ok D hi (kMatW _)) (mpcMatrixMul_ok D (fun s h => (hs s h).mono D.whole) (lMatW _))) (mxcv_ok k2 k3 (rConstW _) _))
      (mpcXor_ok hs hr))

omit D in
theorem tables_ok {s : Site} (hs : s ∈ [Site.commitments, .commitments2, .msgs, .seeds]) {T n d : ℕ} (hb : s.bytes P = T * (n * d + n * 8)) (ix : List ℕ) :
    Typed L P ((List.range T).flatMap fun i => (List.range n).map fun j => ptr (L.heap s ix + i * (n * 8 + n * d)) j) := by
  refine fm fun i hi => mp fun j hj => ptr_ok fun x h1 h2 => Or.inl ⟨s, hs, ix, ?_, ?_⟩
  · simp only [Obj.base]
    omega
  · rw [List.mem_range] at hi hj
    simp only [Obj.base, Obj.bytes', hb]
    have h3 : (i + 1) * (n * 8 + n * d) ≤ T * (n * 8 + n * d) := Nat.mul_le_mul_right _ hi
    rw [Nat.add_mul, Nat.one_mul] at h3
    rw [Nat.add_comm (n * d)]
    omega

omit D in
theorem table2_ok (i : ℕ) : Typed L P (commitmentTable2 (L.heap .commitments2 [i]) P.numMPCRounds) := by
  refine mp fun j hj => ptr_ok fun x h1 h2 => Or.inl ⟨.commitments2, by decide, [i], ?_, ?_⟩
  · simp only [Obj.base]; omega
  · rw [List.mem_range] at hj
    simp only [Obj.base, Obj.bytes', Site.bytes]
    omega

omit D in
theorem seeds_ok : Typed L P (seedTables (L.heap .seeds []) P.numMPCRounds P.numMPCParties) := by
  refine fm fun i hi => mp fun j hj => ptr_ok fun x h1 h2 => Or.inl ⟨.seeds, by decide, [], ?_, ?_⟩
  · simp only [Obj.base]; omega
  · rw [List.mem_range] at hi hj
    simp only [Obj.base, Obj.bytes', Site.bytes]
    have h3 : (i + 1) * (P.numMPCParties * 8) ≤ P.numMPCRounds * (P.numMPCParties * 8) := Nat.mul_le_mul_right _ hi
    rw [Nat.add_mul, Nat.one_mul] at h3
    rw [Nat.mul_assoc P.numMPCRounds]
    omega

omit D in
theorem inputTable_ok : Typed L P (inputTable (L.heap .inputs []) P.numMPCRounds) := by
  refine mp fun j hj => ptr_ok fun x h1 h2 => Or.inr ⟨⟨?_, ?_⟩, ?_⟩
  · simp only [Obj.base]; omega
  · rw [List.mem_range] at hj
    simp only [Obj.base, Obj.bytes', Site.bytes, Nat.mul_add]
    omega
  · rw [List.mem_range] at hj; omega

theorem viewW {s : Site} (hs : s = .viewInput ∨ s = .viewOutput ∨ s = .proofInput) (ix : List ℕ) :
    Words L P (L.heap s ix) (P.stateSizeBits / 32) ∧ Words L P (L.heap s ix) (P.stateSizeBytes / 4) := by
  have := D.sub
  rcases hs with rfl | rfl | rfl <;> exact ⟨heapW (by decide) _ (by simp only [Site.bytes]; omega), heapW (by decide) _ (by simp only [Site.bytes]; omega)⟩

theorem tmpW (h3 : P.numMPCParties = 3) : Words L P (L.heap .tmp []) (6 * P.stateSizeWords) := by
  refine heapW (by decide) _ ?_
  simp only [Site.bytes, if_pos h3]
  have := D.tmp h3
  omega

theorem signPicnic1_ok (h3 : P.numMPCParties = 3) : Typed L P (signPicnic1 L (skData L.sk) (pkPlaintext (skPk L.sk)) P) := by
  have hb := D.bytes
  have hm := D.max
  refine app (app (tables_ok (by decide) rfl _) seeds_ok) (fm fun k _ => app (app
    (xorThree_ok (viewW D (Or.inl rfl) _).2 (dataW.mono (by omega)) (viewW D (Or.inl rfl) _).2 (viewW D (Or.inl rfl) _).2)
    (mpcLowMC_ok D ?_ (ptW'.mono hm) (tmpW D h3)))
    (xorThree_ok ((autoW _).mono (by omega)) (viewW D (Or.inr (Or.inl rfl)) _).2 (viewW D (Or.inr (Or.inl rfl)) _).2 (viewW D (Or.inr (Or.inl rfl)) _).2))
  intro s h
  simp only [List.mem_cons, List.not_mem_nil, or_false] at h
  rcases h with h | h | h <;> subst h <;> exact (viewW D (Or.inl rfl) _).1

theorem verify_ok (h3 : P.numMPCParties = 3) (c : ℕ → ℕ) : Typed L P (verify L (pkCiphertext L.pk) (pkPlaintext L.pk) c P) := by
  have hb := D.bytes
  refine app (app (tables_ok (by decide) rfl _) (fm fun i _ => mpcLowMCVerify_ok D (viewW D (Or.inl rfl) _).1 (viewW D (Or.inl rfl) _).1 (tmpW D h3)
    (ptW.mono D.max) _)) (fm fun i hi => xorThree_ok ?_ (viewW D (Or.inr (Or.inl rfl)) _).2 (viewW D (Or.inr (Or.inl rfl)) _).2 (ctW.mono (by omega)))
  rw [List.mem_range] at hi
  intro x h1 h2
  have h5 : (i + 1) * P.stateSizeBytes ≤ P.numMPCRounds * P.stateSizeBytes := Nat.mul_le_mul_right _ hi
  rw [Nat.add_mul, Nat.one_mul] at h5
  unfold view3Output at h1 h2
  refine Or.inr (Or.inr (Or.inl ⟨.view3Slab, by decide, [], ?_, ?_⟩))
  · simp only [Obj.base]; omega
  · simp only [Obj.base, Obj.bytes', Site.bytes]
    rw [Nat.mul_comm P.stateSizeBytes]
    omega

theorem computeAuxTape_ok : Typed L P (computeAuxTape L P) := by
  have ha : ∀ a : Auto, Words L P (L.auto a) P.stateSizeWords := fun a => (autoW a).mono (by have := D.max; omega)
  exact cons (word_ok (ha _) (by have := D.pos; omega)) (app (matrixMul_ok D ((ha _).mono D.whole) (kMatInvW _)) (fm fun _ _ =>
    app (app (matrixMul_ok D ((ha _).mono D.whole) (kMatW _)) (xorArray_ok (ha _) (ha _) (ha _))) (matrixMul_ok D ((ha _).mono D.whole) (lMatInvW _))))

theorem simulateOnline_ok {k pt : ℕ} (hk : Words L P k (P.stateSizeBits / 32)) (hp : Words L P pt P.stateSizeWords) : Typed L P (simulateOnline L k pt P) := by
  have ha : ∀ a : Auto, Words L P (L.auto a) P.stateSizeWords := fun a => (autoW a).mono (by have := D.max; omega)
  exact app (app (matrixMul_ok D hk (kMatW _)) (xorArray_ok (ha _) (ha _) hp)) (fm fun _ _ =>
    app (app (app (matrixMul_ok D ((ha _).mono D.whole) (lMatW _)) (xorArray_ok (ha _) (ha _) (rConstW _)))
      (matrixMul_ok D hk (kMatW _))) (xorArray_ok (ha _) (ha _) (ha _)))

theorem signPicnic3_ok : Typed L P (signPicnic3 L (skData L.sk) (pkPlaintext (skPk L.sk)) P) :=
  app (app (app (app (app inputTable_ok (tables_ok (by decide) rfl _)) (tables_ok (by decide) rfl _)) (table2_ok _)) (table2_ok _)) (fm fun t ht =>
    have hi := inputW (L := L) (List.mem_range.1 ht)
    app (app (computeAuxTape_ok D) (xorArray_ok hi hi (dataW.mono D.max))) (simulateOnline_ok D (hi.mono D.whole) (ptW'.mono D.max)))

theorem verifyPicnic3_ok (o : ℕ → Bool) : Typed L P (verifyPicnic3 L (pkPlaintext L.pk) o P) := by
  refine app (app (app (app (tables_ok (by decide) rfl _) (tables_ok (by decide) rfl _)) (table2_ok _)) (table2_ok _)) (fm fun t _ => ?_)
  by_cases h : o t
  · rw [if_pos h]; exact simulateOnline_ok D (viewW D (Or.inr (Or.inr rfl)) _).1 (ptW.mono D.max)
  · rw [if_neg h]; exact computeAuxTape_ok D

omit D in
theorem typeSafe (hS : Separate L P) {l : List Access} (h : Typed L P l) : TypeSafe (Declared L P false) l := by
  refine ⟨fun a ha x h1 h2 t ht => ?_, fun a ha b hb x h1 h2 h3 h4 _ => ?_⟩
  · have hr := h a ha x h1 h2
    have hty : a.ty = .word ∨ a.ty = .ptr := by unfold Access.ty; split_ifs <;> simp
    cases t with
    | ptr => exact ht.elim
    | word =>
      rcases hty with e | e
      · exact e.symm
      · rw [e] at hr
        exact (reg_disjoint hS (Or.inl ht) hr).elim
    | byte =>
      exfalso
      rcases ht with hb | ⟨hv, -⟩
      · rcases hty with e | e <;> rw [e] at hr
        · rcases hr with (⟨c, hc⟩ | ⟨r, hc | hc | hc | hc | hc⟩) | hk | ⟨s, -, ix, hc⟩ | ⟨hc, -⟩
          all_goals first
            | exact hS _ _ (by simp) x hb hc
            | rcases keyArray_has (P := P) hk with hc | hc <;> exact hS _ _ (by simp) x hb hc
        · rcases hr with ⟨s, -, ix, hc⟩ | ⟨hc, -⟩ <;> exact hS _ _ (by simp) x hb hc
      · cases hv
  · have ha := h a ha x h1 h2
    have hb := h b hb x h3 h4
    have hta : a.ty = .word ∨ a.ty = .ptr := by unfold Access.ty; split_ifs <;> simp
    have htb : b.ty = .word ∨ b.ty = .ptr := by unfold Access.ty; split_ifs <;> simp
    rcases hta with e | e <;> rcases htb with e' | e' <;> rw [e] at ha <;> rw [e'] at hb <;> rw [e, e']
    · exact (reg_disjoint hS ha hb).elim
    · exact (reg_disjoint hS hb ha).elim

end AliasProof

/-- A word access to an array of bytes. -/
theorem not_typeSafe {decl : ℕ → Ty → Prop} {l : List Access} {q : ℕ} (hm : word q 0 ∈ l) (hd : decl q .byte) : ¬ TypeSafe decl l := by
  intro h
  have := h.1 _ hm q (by simp [word]) (by simp [word]) _ hd
  simp [Access.ty, word] at this

open AliasProof

/-- Numbers the objects. -/
def Align.Obj.num : Obj → ℕ
  | .heap s ix => 20 * Encodable.encode ix + s.ctorIdx
  | .auto a => 20 * a.ctorIdx + 10
  | .kMat r => 20 * r + 11
  | .kMatInv r => 20 * r + 12
  | .lMat r => 20 * r + 13
  | .lMatInv r => 20 * r + 14
  | .rConst r => 20 * r + 15
  | .pk => 16
  | .sk => 17
  | .bytes => 18

/-- A placement of the objects: two megabytes for each. -/
def apartLayout : Layout where
  heap s ix := 2 ^ 21 * (Obj.heap s ix).num
  auto a := 2 ^ 21 * (Obj.auto a).num
  kMat r := 2 ^ 21 * (Obj.kMat r).num
  kMatInv r := 2 ^ 21 * (Obj.kMatInv r).num
  lMat r := 2 ^ 21 * (Obj.lMat r).num
  lMatInv r := 2 ^ 21 * (Obj.lMatInv r).num
  rConst r := 2 ^ 21 * (Obj.rConst r).num
  pk := 2 ^ 21 * (Obj.pk).num
  sk := 2 ^ 21 * (Obj.sk).num
  bytes := 2 ^ 21 * (Obj.bytes).num

theorem num_inj : Function.Injective Obj.num := by
  have hs : ∀ s : Site, s.ctorIdx < 10 := by intro s; cases s <;> decide
  have hsi : ∀ s s' : Site, s.ctorIdx = s'.ctorIdx → s = s' := by intro s s'; cases s <;> cases s' <;> decide
  have hai : ∀ s s' : Auto, s.ctorIdx = s'.ctorIdx → s = s' := by intro s s'; cases s <;> cases s' <;> decide
  intro a b h
  cases a <;> cases b <;> simp only [Obj.num] at h <;> first
    | rfl
    | (rename_i s ix s' ix'
       have h1 := hs s
       have h2 := hs s'
       obtain rfl := hsi s s' (by omega)
       obtain rfl : ix = ix' := Encodable.encode_injective (by omega)
       rfl)
    | (rename_i s s'
       obtain rfl := hai s s' (by omega)
       rfl)
    | (rename_i r r'
       obtain rfl : r = r' := by omega
       rfl)
    | (exfalso; rename_i s ix; have := hs s; omega)
    | (exfalso; rename_i s ix _; have := hs s; omega)
    | (exfalso; rename_i _ s ix; have := hs s; omega)
    | (exfalso; omega)

theorem apart_separate {p : ℕ} {P : Params} (h : getParamSet p = some P) : Separate apartLayout P := by
  have hb : ∀ o : Obj, o.bytes' P ≤ 2 ^ 21 := by
    have hp : 1 ≤ p ∧ p ≤ 12 := by
      by_contra hc
      have : p = 0 ∨ 13 ≤ p := by omega
      rcases this with h0 | h0
      · subst h0; cases h
      · obtain ⟨k, rfl⟩ := Nat.exists_eq_add_of_le h0
        rw [Nat.add_comm] at h
        exact absurd h (by simp [getParamSet, paramTable])
    obtain ⟨h1, h2⟩ := hp
    intro o
    cases o with
    | heap s ix => interval_cases p <;> (cases h; cases s <;> (simp only [Obj.bytes']; decide))
    | _ => interval_cases p <;> (cases h; simp only [Obj.bytes']; decide)
  have hbase : ∀ o : Obj, o.base apartLayout = 2 ^ 21 * o.num := by intro o; cases o <;> rfl
  intro o o' hne x h1 h2
  unfold Obj.Has at h1 h2
  rw [hbase] at h1 h2
  have k1 := hb o
  have k2 := hb o'
  refine hne (num_inj ?_)
  omega

end Picnic
