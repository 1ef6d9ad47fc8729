import Verif.Model.Align
import Mathlib.Tactic.IntervalCases
import Mathlib.Tactic.Ring

/-
Property C46: no multi-byte access through a pointer that is not aligned for its type.
-/

namespace Picnic

open Align

/-- What the C standard guarantees about the placement of objects (x86-64 sizes): allocated storage is aligned for every basic type, a declared
array of `uint32_t` and a structure that begins with an enum are aligned to 4.  Nothing is known about the array of `uint8_t`. -/
structure StdLayout (L : Layout) : Prop where
  heap : ∀ s ix, 8 ∣ L.heap s ix
  auto : ∀ a, 4 ∣ L.auto a
  kMat : ∀ r, 4 ∣ L.kMat r
  kMatInv : ∀ r, 4 ∣ L.kMatInv r
  lMat : ∀ r, 4 ∣ L.lMat r
  lMatInv : ∀ r, 4 ∣ L.lMatInv r
  rConst : ∀ r, 4 ∣ L.rConst r
  pk : 4 ∣ L.pk
  sk : 4 ∣ L.sk

/-- The access is at a multiple of its size. -/
def Aligned (l : List Access) : Prop := ∀ a ∈ l, a.size ∣ a.addr

namespace AlignProof

theorem app {l m : List Access} (h : Aligned l) (k : Aligned m) : Aligned (l ++ m) := by
  intro a ha
  rcases List.mem_append.1 ha with h1 | h1
  exacts [h a h1, k a h1]

theorem cons {a : Access} {m : List Access} (h : a.size ∣ a.addr) (k : Aligned m) : Aligned (a :: m) := by
  intro b hb
  rcases List.mem_cons.1 hb with h1 | h1
  · subst h1; exact h
  · exact k b h1

theorem nil : Aligned [] := by intro a ha; cases ha

theorem fm {α} {l : List α} {f : α → List Access} (h : ∀ x ∈ l, Aligned (f x)) : Aligned (l.flatMap f) := by
  intro a ha
  obtain ⟨x, hx, h1⟩ := List.mem_flatMap.1 ha
  exact h x hx a h1

theorem mp {α} {l : List α} {f : α → Access} (h : ∀ x ∈ l, (f x).size ∣ (f x).addr) : Aligned (l.map f) := by
  intro a ha
  obtain ⟨x, hx, h1⟩ := List.mem_map.1 ha
  subst h1
  exact h x hx

theorem word_ok {p : ℕ} (h : 4 ∣ p) (i : ℕ) : (word p i).size ∣ (word p i).addr := Nat.dvd_add h (Nat.dvd_mul_right 4 i)

theorem ptr_ok {p : ℕ} (h : 8 ∣ p) (i : ℕ) : (ptr p i).size ∣ (ptr p i).addr := Nat.dvd_add h (Nat.dvd_mul_right 8 i)

theorem xorArray_ok {o a b : ℕ} (ho : 4 ∣ o) (ha : 4 ∣ a) (hb : 4 ∣ b) (n : ℕ) : Aligned (xorArray o a b n) :=
  fm fun i _ => cons (word_ok ha i) (cons (word_ok hb i) (cons (word_ok ho i) nil))

theorem xorThree_ok {o a b c : ℕ} (ho : 4 ∣ o) (ha : 4 ∣ a) (hb : 4 ∣ b) (hc : 4 ∣ c) (n : ℕ) : Aligned (xorThree o a b c n) :=
  fm fun i _ => cons (word_ok ha i) (cons (word_ok hb i) (cons (word_ok hc i) (cons (word_ok ho i) nil)))

variable {L : Layout} (H : StdLayout L)
include H

theorem heap4 (s : Site) (ix : List ℕ) : 4 ∣ L.heap s ix := Nat.dvd_trans (by decide) (H.heap s ix)

theorem matrixMul_ok {s m : ℕ} (hs : 4 ∣ s) (hm : 4 ∣ m) (P : Params) : Aligned (matrixMul L s m P) :=
  cons (word_ok (H.auto _) _) (fm fun _ _ => fm fun j _ => cons (word_ok hs j) (cons (word_ok hm _) nil))

theorem lowMCEnc_ok {o k : ℕ} (ho : 4 ∣ o) (hk : 4 ∣ k) (P : Params) : Aligned (lowMCEnc L o k P) :=
  app (app (matrixMul_ok H hk (H.kMat _) P) (xorArray_ok ho ho (H.auto _) _)) (fm fun _ _ =>
    app (app (app (matrixMul_ok H hk (H.kMat _) P) (matrixMul_ok H ho (H.lMat _) P)) (xorArray_ok ho ho (H.rConst _) _))
      (xorArray_ok ho ho (H.auto _) _))

theorem mpcMatrixMul_ok {st : List ℕ} {m : ℕ} (hs : ∀ s ∈ st, 4 ∣ s) (hm : 4 ∣ m) (P : Params) : Aligned (mpcMatrixMul L st m P) :=
  fm fun s h => matrixMul_ok H (hs s h) hm P

omit H in
theorem mpcXor_ok {a b : List ℕ} (ha : ∀ s ∈ a, 4 ∣ s) (hb : ∀ s ∈ b, 4 ∣ s) (n : ℕ) : Aligned (mpcXor a b n) :=
  fm fun p h => xorArray_ok (ha _ (List.of_mem_zip h).1) (ha _ (List.of_mem_zip h).1) (hb _ (List.of_mem_zip h).2) n

omit H in
theorem add_w {a w : ℕ} (h : 4 ∣ a) : 4 ∣ a + 4 * w := Nat.dvd_add h (Nat.dvd_mul_right 4 w)

theorem mpcLowMC_ok {ins : List ℕ} (hi : ∀ s ∈ ins, 4 ∣ s) {pt slab : ℕ} (hp : 4 ∣ pt) (hs : 4 ∣ slab) (P : Params) :
    Aligned (mpcLowMC L ins pt slab P) := by
  have h1 := add_w (w := P.stateSizeWords) hs
  have h2 := add_w (w := P.stateSizeWords) h1
  have h3 := add_w (w := P.stateSizeWords) h2
  have h4 := add_w (w := P.stateSizeWords) h3
  have h5 := add_w (w := P.stateSizeWords) h4
  have hr : ∀ s ∈ [slab, slab + 4 * P.stateSizeWords, slab + 4 * P.stateSizeWords + 4 * P.stateSizeWords], 4 ∣ s := by
    intro s h; simp only [List.mem_cons, List.not_mem_nil, or_false] at h; rcases h with h | h | h <;> subst h <;> assumption
  have hst : ∀ s ∈ [slab + 4 * P.stateSizeWords + 4 * P.stateSizeWords + 4 * P.stateSizeWords,
      slab + 4 * P.stateSizeWords + 4 * P.stateSizeWords + 4 * P.stateSizeWords + 4 * P.stateSizeWords,
      slab + 4 * P.stateSizeWords + 4 * P.stateSizeWords + 4 * P.stateSizeWords + 4 * P.stateSizeWords + 4 * P.stateSizeWords], 4 ∣ s := by
    intro s h; simp only [List.mem_cons, List.not_mem_nil, or_false] at h; rcases h with h | h | h <;> subst h <;> assumption
  exact app (app (app (xorArray_ok h3 h3 hp _) (mpcMatrixMul_ok H hi (H.kMat _) P)) (mpcXor_ok hst hr _)) (fm fun _ _ =>
    app (app (app (mpcMatrixMul_ok H hi (H.kMat _) P) (mpcMatrixMul_ok H hst (H.lMat _) P)) (xorArray_ok h3 h3 (H.rConst _) _))
      (mpcXor_ok hst hr _))

omit H in
theorem mxcv_ok {a b i : ℕ} (ha : 4 ∣ a) (hb : 4 ∣ b) (hi : 4 ∣ i) (n c : ℕ) : Aligned (mpcXorConstantVerify a b i n c) := by
  unfold mpcXorConstantVerify
  split_ifs
  exacts [xorArray_ok ha ha hi n, xorArray_ok hb hb hi n, nil]

theorem mpcLowMCVerify_ok {i1 i2 tmp pt : ℕ} (h1 : 4 ∣ i1) (h2 : 4 ∣ i2) (ht : 4 ∣ tmp) (hp : 4 ∣ pt) (c : ℕ) (P : Params) :
    Aligned (mpcLowMCVerify L i1 i2 tmp pt c P) := by
  have k1 := add_w (w := P.stateSizeWords) ht
  have k2 := add_w (w := P.stateSizeWords) k1
  have k3 := add_w (w := P.stateSizeWords) k2
  have hi : ∀ s ∈ [i1, i2], 4 ∣ s := by
    intro s h; simp only [List.mem_cons, List.not_mem_nil, or_false] at h; rcases h with h | h <;> subst h <;> assumption
  have hr : ∀ s ∈ [tmp, tmp + 4 * P.stateSizeWords], 4 ∣ s := by
    intro s h; simp only [List.mem_cons, List.not_mem_nil, or_false] at h; rcases h with h | h <;> subst h <;> assumption
  have hs : ∀ s ∈ [tmp + 4 * P.stateSizeWords + 4 * P.stateSizeWords,
      tmp + 4 * P.stateSizeWords + 4 * P.stateSizeWords + 4 * P.stateSizeWords], 4 ∣ s := by
    intro s h; simp only [List.mem_cons, List.not_mem_nil, or_false] at h; rcases h with h | h <;> subst h <;> assumption
  exact app (app (app (mxcv_ok k2 k3 hp _ _) (mpcMatrixMul_ok H hi (H.kMat _) P)) (mpcXor_ok hs hr _)) (fm fun _ _ =>
    app (app (app (mpcMatrixMul_ok H hi (H.kMat _) P) (mpcMatrixMul_ok H hs (H.lMat _) P)) (mxcv_ok k2 k3 (H.rConst _) _ _))
      (mpcXor_ok hs hr _))

omit H in
theorem tables_ok {slab : ℕ} (h : 8 ∣ slab) (T n d : ℕ) (hd : 8 ∣ n * d) :
    Aligned ((List.range T).flatMap fun i => (List.range n).map fun j => ptr (slab + i * (n * 8 + n * d)) j) :=
  fm fun i _ => mp fun j _ => ptr_ok (Nat.dvd_add h (Dvd.dvd.mul_left (Nat.dvd_add (Nat.dvd_mul_left 8 n) hd) i)) j

theorem verifyRest_ok {pt : ℕ} (hp : 4 ∣ pt) (c : ℕ → ℕ) {P : Params} (hd : 8 ∣ P.numMPCParties * P.digestSizeBytes) :
    Aligned (verifyRest L pt c P) :=
  app (tables_ok (H.heap _ _) _ _ _ hd) (fm fun _ _ => mpcLowMCVerify_ok H (heap4 H _ _) (heap4 H _ _) (heap4 H _ _) hp _ P)

theorem view3_ok {k : ℕ} (hk : 4 ∣ k) {P : Params} (h4 : 4 ∣ P.stateSizeBytes) (i : ℕ) : Aligned (view3Step L i k P) :=
  xorThree_ok (Nat.dvd_add (heap4 H _ _) (Dvd.dvd.mul_left h4 i)) (heap4 H _ _) (heap4 H _ _) hk _

theorem signPicnic1_ok {sk pt : ℕ} (hs : 4 ∣ sk) (hp : 4 ∣ pt) {P : Params} (hd : 8 ∣ P.numMPCParties * P.digestSizeBytes) :
    Aligned (signPicnic1 L sk pt P) := by
  refine app (app (tables_ok (H.heap _ _) _ _ _ hd) ?_) (fm fun k _ => app (app
    (xorThree_ok (heap4 H _ _) hs (heap4 H _ _) (heap4 H _ _) _) (mpcLowMC_ok H ?_ hp (heap4 H _ _) P))
    (xorThree_ok (H.auto _) (heap4 H _ _) (heap4 H _ _) (heap4 H _ _) _))
  · exact fm fun i _ => mp fun j _ => ptr_ok (Nat.dvd_add (H.heap _ _) (Dvd.dvd.mul_left (Nat.dvd_mul_left 8 _) i)) j
  · intro s h
    simp only [List.mem_cons, List.not_mem_nil, or_false] at h
    rcases h with h | h | h <;> subst h <;> exact heap4 H _ _

theorem computeAuxTape_ok (P : Params) : Aligned (computeAuxTape L P) :=
  cons (word_ok (H.auto _) _) (app (matrixMul_ok H (H.auto _) (H.kMatInv _) P) (fm fun _ _ =>
    app (app (matrixMul_ok H (H.auto _) (H.kMat _) P) (xorArray_ok (H.auto _) (H.auto _) (H.auto _) _))
      (matrixMul_ok H (H.auto _) (H.lMatInv _) P)))

theorem simulateOnline_ok {k pt : ℕ} (hk : 4 ∣ k) (hp : 4 ∣ pt) (P : Params) : Aligned (simulateOnline L k pt P) :=
  app (app (matrixMul_ok H hk (H.kMat _) P) (xorArray_ok (H.auto _) (H.auto _) hp _)) (fm fun _ _ =>
    app (app (app (matrixMul_ok H (H.auto _) (H.lMat _) P) (xorArray_ok (H.auto _) (H.auto _) (H.rConst _) _))
      (matrixMul_ok H hk (H.kMat _) P)) (xorArray_ok (H.auto _) (H.auto _) (H.auto _) _))

theorem inputAddr_ok (t : ℕ) (P : Params) : 4 ∣ inputAddr (L.heap .inputs []) t P :=
  Nat.dvd_add (Nat.dvd_add (heap4 H _ _) (Dvd.dvd.mul_left (by decide) _)) (Dvd.dvd.mul_left (Nat.dvd_mul_left 4 _) t)

theorem signPicnic3_ok {sk pt : ℕ} (hs : 4 ∣ sk) (hp : 4 ∣ pt) {P : Params} (hd : 8 ∣ P.numMPCParties * P.digestSizeBytes)
    (ha : 8 ∣ P.numMPCParties * P.andSizeBytes) : Aligned (signPicnic3 L sk pt P) :=
  app (app (app (app (app (mp fun i _ => ptr_ok (H.heap _ _) i) (tables_ok (H.heap _ _) _ _ _ hd)) (tables_ok (H.heap _ _) _ _ _ ha))
    (mp fun j _ => ptr_ok (H.heap _ _) j)) (mp fun j _ => ptr_ok (H.heap _ _) j)) (fm fun t _ =>
      app (app (computeAuxTape_ok H P) (xorArray_ok (inputAddr_ok H t P) (inputAddr_ok H t P) hs _))
        (simulateOnline_ok H (inputAddr_ok H t P) hp P))

theorem verifyPicnic3_ok {pt : ℕ} (hp : 4 ∣ pt) (o : ℕ → Bool) {P : Params} (hd : 8 ∣ P.numMPCParties * P.digestSizeBytes)
    (ha : 8 ∣ P.numMPCParties * P.andSizeBytes) : Aligned (verifyPicnic3 L pt o P) := by
  refine app (app (app (app (tables_ok (H.heap _ _) _ _ _ hd) (tables_ok (H.heap _ _) _ _ _ ha))
    (mp fun j _ => ptr_ok (H.heap _ _) j)) (mp fun j _ => ptr_ok (H.heap _ _) j)) (fm fun t _ => ?_)
  by_cases h : o t
  · rw [if_pos h]; exact simulateOnline_ok H (heap4 H _ _) hp P
  · rw [if_neg h]; exact computeAuxTape_ok H P

end AlignProof

open AlignProof

/-- The digests of a row of the commitment table fill a multiple of 8 bytes in all parameter sets; the messages do in the Picnic3 ones. -/
theorem C46_sizes {p : ℕ} {P : Params} (h : getParamSet p = some P) :
    8 ∣ P.numMPCParties * P.digestSizeBytes ∧ (P.numMPCParties ≠ 3 → 8 ∣ P.numMPCParties * P.andSizeBytes) ∧
    (p ≠ pidL1full → P.numMPCParties = 3 → 4 ∣ P.stateSizeBytes) := by
  have hp : 1 ≤ p ∧ p ≤ 12 := by
    by_contra hc
    have : p = 0 ∨ 13 ≤ p := by omega
    rcases this with h0 | h0
    · subst h0; cases h
    · obtain ⟨k, rfl⟩ := Nat.exists_eq_add_of_le h0
      rw [Nat.add_comm] at h
      exact absurd h (by simp [getParamSet, paramTable])
  obtain ⟨h1, h2⟩ := hp
  interval_cases p <;> (cases h; decide)

/-- **C46** (key generation and signing, all parameter sets): every word access and every access to a table of pointers is aligned, wherever the
allocator and the compiler place the objects. -/
theorem C46_keygen_sign_partial {p : ℕ} {P : Params} (h : getParamSet p = some P) {L : Layout} (H : StdLayout L) :
    Aligned (keygen L P) ∧ Aligned (picnicSign L P) := by
  obtain ⟨hd, ha, _⟩ := C46_sizes h
  have hdat : 4 ∣ skData L.sk := Nat.dvd_add H.sk (by decide)
  have hpt : 4 ∣ pkPlaintext (skPk L.sk) := Nat.dvd_add (Nat.dvd_add (Nat.dvd_add H.sk (by decide)) (by decide)) (by decide)
  refine ⟨lowMCEnc_ok H (Nat.dvd_add (Nat.dvd_add H.pk (by decide)) (by decide)) hdat P, ?_⟩
  unfold picnicSign
  by_cases h3 : P.numMPCParties = 3
  · rw [if_pos h3]; exact signPicnic1_ok H hdat hpt hd
  · rw [if_neg h3]; exact signPicnic3_ok H hdat hpt hd (ha h3)

/-- **C46** (verification, all parameter sets except `Picnic_L1_full`). -/
theorem C46_verify_partial {p : ℕ} {P : Params} (h : getParamSet p = some P) (hp : p ≠ pidL1full) {L : Layout} (H : StdLayout L)
    (c : ℕ → ℕ) (opened : ℕ → Bool) : Aligned (picnicVerify L c opened P) := by
  obtain ⟨hd, ha, hs⟩ := C46_sizes h
  have hpt : 4 ∣ pkPlaintext L.pk := Nat.dvd_add H.pk (by decide)
  have hct : 4 ∣ pkCiphertext L.pk := Nat.dvd_add (Nat.dvd_add H.pk (by decide)) (by decide)
  unfold picnicVerify
  by_cases h3 : P.numMPCParties = 3
  · rw [if_pos h3]
    exact app (verifyRest_ok H hpt c hd) (fm fun i _ => view3_ok H hct (hs hp h3) i)
  · rw [if_neg h3]; exact verifyPicnic3_ok H hpt opened hd (ha h3)

/-- **C46 is violated** by `picnic_verify` with `Picnic_L1_full`: wherever the objects are, and whatever the signature, the word accesses of line
669 are misaligned in every repetition whose number is not a multiple of 4.  All other accesses of the verification are aligned. -/
theorem C46_verify_L1_full_violated {P : Params} (h : getParamSet pidL1full = some P) {L : Layout} (H : StdLayout L)
    (c : ℕ → ℕ) (opened : ℕ → Bool) :
    ¬ Aligned (picnicVerify L c opened P) ∧
    (∀ i < P.numMPCRounds, (Aligned (view3Step L i (pkCiphertext L.pk) P) ↔ 4 ∣ i)) ∧
    Aligned (verifyRest L (pkPlaintext L.pk) c P) := by
  obtain ⟨hd, -, -⟩ := C46_sizes h
  have hpt : 4 ∣ pkPlaintext L.pk := Nat.dvd_add H.pk (by decide)
  have hct : 4 ∣ pkCiphertext L.pk := Nat.dvd_add (Nat.dvd_add H.pk (by decide)) (by decide)
  have h17 : P.stateSizeBytes = 17 := by cases h; decide
  have hT : P.numMPCRounds = 219 := by cases h; decide
  have h3 : P.numMPCParties = 3 := by cases h; decide
  have key : ∀ i < P.numMPCRounds, (Aligned (view3Step L i (pkCiphertext L.pk) P) ↔ 4 ∣ i) := by
    intro i _
    constructor
    · intro ha
      have hm : word (view3Output L i P) 0 ∈ view3Step L i (pkCiphertext L.pk) P := by
        refine List.mem_flatMap.2 ⟨0, List.mem_range.2 (by rw [h17]; decide), ?_⟩
        simp
      have := ha _ hm
      simp only [word, view3Output, h17] at this
      have hh := heap4 H .view3Slab []
      omega
    · intro hi
      exact xorThree_ok (Nat.dvd_add (heap4 H _ _) (Dvd.dvd.mul_right hi _)) (heap4 H _ _) (heap4 H _ _) hct _
  refine ⟨fun ha => ?_, key, verifyRest_ok H hpt c hd⟩
  have h1 : ¬ (4 ∣ 1) := by decide
  apply h1
  refine (key 1 (by rw [hT]; decide)).1 fun a hm => ha a ?_
  unfold picnicVerify
  rw [if_pos h3]
  exact List.mem_append_right _ (List.mem_flatMap.2 ⟨1, List.mem_range.2 (by rw [hT]; decide), hm⟩)

/-- **C46 is not guaranteed** for `picnic_validate_keypair`: its accesses are aligned exactly when the compiler happens to place the array of bytes
`ciphertext` at a multiple of 4. -/
theorem C46_validate_iff {p : ℕ} {P : Params} (h : getParamSet p = some P) {L : Layout} (H : StdLayout L) :
    Aligned (validateKeypair L P) ↔ 4 ∣ L.bytes := by
  have hdat : 4 ∣ skData L.sk := Nat.dvd_add H.sk (by decide)
  constructor
  · intro ha
    have hw : 0 < P.stateSizeWords := by
      have hp : 1 ≤ p ∧ p ≤ 12 := by
        by_contra hc
        have : p = 0 ∨ 13 ≤ p := by omega
        rcases this with h0 | h0
        · subst h0; cases h
        · obtain ⟨k, rfl⟩ := Nat.exists_eq_add_of_le h0
          rw [Nat.add_comm] at h
          exact absurd h (by simp [getParamSet, paramTable])
      obtain ⟨h1, h2⟩ := hp
      interval_cases p <;> (cases h; decide)
    have hm : word L.bytes 0 ∈ validateKeypair L P :=
      List.mem_append_left _ (List.mem_append_right _ (List.mem_flatMap.2 ⟨0, List.mem_range.2 hw, by simp⟩))
    have := ha _ hm
    simpa [word] using this
  · intro hb
    exact lowMCEnc_ok H hb hdat P

/-- A placement of the objects that the standard allows: everything at address 1048576, the array of bytes at 1048577. -/
def exampleLayout : Layout where
  heap _ _ := 1048576
  auto _ := 1048576
  kMat _ := 1048576
  kMatInv _ := 1048576
  lMat _ := 1048576
  lMatInv _ := 1048576
  rConst _ := 1048576
  pk := 1048576
  sk := 1048576
  bytes := 1048577

theorem exampleLayout_std : StdLayout exampleLayout := by
  constructor <;> intros <;> simp only [exampleLayout] <;> decide

/-- Instances: the hypotheses hold, the lists of accesses are not empty, verification with `Picnic_L1_full` writes a word at the
odd address base + 17, and validation is misaligned for this placement. -/
theorem C46_example :
    (∃ P, getParamSet pidL1full = some P ∧ ⟨4, 1048576 + 17⟩ ∈ picnicVerify exampleLayout (fun _ => 0) (fun _ => false) P ∧
      ¬ Aligned (validateKeypair exampleLayout P) ∧ keygen exampleLayout P ≠ [] ∧ picnicSign exampleLayout P ≠ []) := by
  refine ⟨_, rfl, ?_, ?_, ?_, ?_⟩
  · refine List.mem_append_right _ (List.mem_flatMap.2 ⟨1, by decide, List.mem_flatMap.2 ⟨0, by decide, ?_⟩⟩)
    decide
  · rw [C46_validate_iff (p := pidL1full) rfl exampleLayout_std]
    decide
  · exact List.cons_ne_nil _ _
  · refine List.ne_nil_of_mem (a := ptr 1048576 0) (List.mem_append_left _ (List.mem_append_left _
      (List.mem_flatMap.2 ⟨0, List.mem_range.2 ?_, List.mem_map.2 ⟨0, List.mem_range.2 ?_, rfl⟩⟩))) <;> decide

end Picnic
