import Verif.Spec.Cross
import Verif.Props.Conform1

/-
Lemmas for C40: key shares in openings.
-/

namespace Picnic

open Spec Spec.Picnic1 Finset

theorem hash1_length (I : Inst) (m : Buf) (n : ℕ) : (I.hash m n).length = n := by simp [Inst.hash, shake]

theorem shake_prefix {f : Bytes → Bytes} {r : ℕ} {m : Bytes} {a b : ℕ} (h : a ≤ b) : shake f r m a = (shake f r m b).take a := by
  rw [shake, shake, ← List.map_take, List.take_range, Nat.min_eq_left h]

theorem openViews_fits {I : Inst} {sk pt salt s : Buf} {t e : ℕ} {v : ℕ → Picnic1.View} (he : e < 3) (hs : s.length = 3 * I.T * I.seed + 32) (ht : t < I.T)
    (h : I.Run sk pt salt s t v) : I.Fits e (I.openViews e v) := by
  have hseed : ∀ j < 3, (v j).seed.length = I.seed := fun j hj => by
    rw [h.seed j hj, Inst.seedOf, List.length_take, List.length_drop, hs]
    have : (3 * t + j + 1) * I.seed ≤ 3 * I.T * I.seed := Nat.mul_le_mul_right _ (by omega)
    have e1 : (3 * t + j + 1) * I.seed = (3 * t + j) * I.seed + I.seed := by ring
    omega
  refine ⟨hash1_length _ _ _, ?_, h.len _ (Nat.mod_lt _ (by decide)), hseed e he, hseed _ (Nat.mod_lt _ (by decide)), ?_⟩
  · rw [Inst.openViews]
    dsimp only
    split_ifs
    · exact hash1_length _ _ _
    · rfl
  · rw [Inst.openViews]
    dsimp only
    split_ifs
    · rfl
    · rw [h.key2, ofBits_eq, ofBits_length]

theorem shareOf_openViews {I : Inst} {sk pt salt s : Buf} {t e : ℕ} {v : ℕ → Picnic1.View} (he : e < 3) (h : I.Run sk pt salt s t v) {j : ℕ} (hj : j < 3)
    (ho : opens e j) : I.shareOf salt t e (I.openViews e v) j = (v j).key := by
  rw [Inst.shareOf, Inst.openViews]
  dsimp only
  rcases ho with rfl | rfl
  · interval_cases j
    · rw [if_neg (by decide), if_pos rfl, h.key0]
    · rw [if_neg (by decide), if_pos rfl, h.key1]
    · rw [if_pos rfl, if_neg (by decide)]
  · interval_cases e
    · rw [if_neg (by decide), if_neg (by decide), show (0 + 1) % 3 = 1 from rfl, h.key1]
    · rw [if_pos (by decide), if_neg (by decide)]
    · rw [if_neg (by decide), if_neg (by decide), show (2 + 1) % 3 = 0 from rfl, h.key0]

theorem run_sum {I : Inst} {sk pt salt s : Buf} {t : ℕ} {v : ℕ → Picnic1.View} (hk : sk.length = I.blk) (h : I.Run sk pt salt s t v) :
    Picnic1.ofBits I.blk (toBits (v 0).key + toBits (v 1).key + toBits (v 2).key) = sk := by
  rw [h.key2, ofBits_eq, ofBits_eq]
  refine buf_ext (by rw [ofBits_length, hk]) fun i hi => ?_
  rw [ofBits_length] at hi
  rw [bitsOf_ofBits _ hi, Pi.add_apply, Pi.add_apply, toBits_eq (ofBits _ _), bitsOf_ofBits _ hi, Pi.add_apply, Pi.add_apply, toBits_eq sk]
  have e : ∀ a b c : ZMod 2, a + b + (c + a + b) = c := by decide
  exact e _ _ _

/-- Key shares depend on the LowMC numbers, the digest length and the hash only. -/
theorem keyShare_congr {I J : Inst} (hn : I.X.n = J.X.n) (hm : I.X.m = J.X.m) (hr : I.X.r = J.X.r) (hd : I.digest = J.digest) (hrt : I.rate = J.rate)
    (hf : I.f = J.f) (seed salt : Buf) (t j : ℕ) : I.keyShare seed salt t j = J.keyShare seed salt t j := by
  have hh : ∀ m n, I.hash m n = J.hash m n := fun m n => by rw [Inst.hash, Inst.hash, hf, hrt]
  have hb : I.blk = J.blk := by rw [Inst.blk, Inst.blk, hn]
  have hg : I.gate = J.gate := by rw [Inst.gate, Inst.gate, hm, hr]
  rw [Inst.keyShare, Inst.keyShare, Inst.tape, Inst.tape, hh, hh, hb, hg, hn, hd]

theorem challenge_lt {I : Inst} {d : Buf} {e : List ℕ} (h : I.Challenge d e) {t : ℕ} : e.getD t 0 < 3 := by
  obtain ⟨n, -, h2⟩ := h
  by_cases ht : t < e.length
  · rw [List.getD_eq_getElem _ _ ht]
    have h3 : ∀ x ∈ e, x < 3 := fun x hx => by rw [h2] at hx; exact stream_lt (List.mem_of_mem_take hx)
    exact h3 _ (List.getElem_mem ht)
  · rw [List.getD_eq_default _ _ (by omega)]
    decide

end Picnic
