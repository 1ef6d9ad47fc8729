import Verif.Proofs.Base
import Verif.Model.KeccakP
import Verif.Spec.Keccak
import Mathlib.Tactic.Ring
import Mathlib.Logic.Function.Basic

/-
Refinement of /repo/sha3/KeccakP-1600-reference.c to the bit-level definition of FIPS 202.
-/

namespace Picnic

open Spec.Keccak

/-- An array of `n` lanes. -/
def arr (n : ℕ) (a : ℕ → Lane) : List Lane := (List.range n).map a

@[simp] theorem arr_length (n : ℕ) (a : ℕ → Lane) : (arr n a).length = n := by simp [arr]

theorem arr_rd {n i : ℕ} (a : ℕ → Lane) (h : i < n) : rd (arr n a) i = Outcome.ok (a i) := by
  rw [rd_ok (by simpa using h)]; simp [arr]

theorem arr_wr {n i : ℕ} (a : ℕ → Lane) (v : Lane) (h : i < n) :
    wr (arr n a) i v = Outcome.ok (arr n (Function.update a i v)) := by
  rw [wr_ok (by simpa using h)]
  congr 1
  apply List.ext_getElem (by simp)
  intro k h1 h2
  simp only [arr, List.getElem_set, List.getElem_map, List.getElem_range, Function.update_apply]
  by_cases hk : i = k
  · rw [if_pos hk, if_pos hk.symm]
  · rw [if_neg hk, if_neg (by omega)]

theorem arr_congr {n : ℕ} {a b : ℕ → Lane} (h : ∀ i < n, a i = b i) : arr n a = arr n b := by
  unfold arr; exact List.map_congr_left fun i hi => h i (by simpa using hi)

theorem replicate_arr (n : ℕ) : List.replicate n (0 : Lane) = arr n fun _ => 0 := by
  simp [arr]

/-- The 25 lanes. -/
abbrev lanes (a : ℕ → Lane) : List Lane := arr 25 a

/-- A loop that assigns `g x` to element `x`, for all `x`. -/
theorem loop_fill {n : ℕ} {f : ℕ → List Lane → M (List Lane)} (a g : ℕ → Lane)
    (hf : ∀ x < n, ∀ a', (∀ i, x ≤ i → a' i = a i) → f x (arr n a') = Outcome.ok (arr n (Function.update a' x (g x)))) :
    loop f n (arr n a) = Outcome.ok (arr n g) := by
  obtain ⟨s, h1, s', rfl, h2⟩ := loop_inv
    (fun k s => ∃ s', s = arr n s' ∧ ∀ i, s' i = if i < k then g i else a i)
    (f := f) (n := n) (s := arr n a) ⟨a, rfl, by simp⟩ (by
      rintro x hx _ ⟨s', rfl, hs'⟩
      refine ⟨_, hf x hx s' (fun i hi => by rw [hs', if_neg (by omega)]), _, rfl, fun i => ?_⟩
      rw [Function.update_apply, hs']
      by_cases h : i = x
      · subst h; rw [if_pos rfl, if_pos (by omega)]
      · rw [if_neg h]
        by_cases h' : i < x
        · rw [if_pos h', if_pos (by omega)]
        · rw [if_neg h', if_neg (by omega)])
  rw [h1, arr_congr (b := g) (fun i hi => by rw [h2, if_pos hi])]

/-- A double loop that updates element (x, y) from its own old value. -/
theorem loop55_lanes {f : ℕ → ℕ → List Lane → M (List Lane)} (a g : ℕ → Lane)
    (hf : ∀ x < 5, ∀ y < 5, ∀ a', a' (x + 5 * y) = a (x + 5 * y) →
      f x y (lanes a') = Outcome.ok (lanes (Function.update a' (x + 5 * y) (g (x + 5 * y))))) :
    loop55 f (lanes a) = Outcome.ok (lanes g) := by
  unfold loop55
  obtain ⟨s, h1, s', rfl, h2⟩ := loop_inv
    (fun k s => ∃ s', s = lanes s' ∧ ∀ i < 25, s' i = if i % 5 < k then g i else a i)
    (f := fun x s => loop (fun y s => f x y s) 5 s) (n := 5) (s := lanes a) ⟨a, rfl, by simp⟩ (by
      rintro x hx _ ⟨s', rfl, hs'⟩
      obtain ⟨t, h1, t', rfl, h2⟩ := loop_inv
        (fun k s => ∃ s', s = lanes s' ∧
          ∀ i < 25, s' i = if i % 5 < x ∨ (i % 5 = x ∧ i / 5 < k) then g i else a i)
        (f := fun y s => f x y s) (n := 5) (s := lanes s') ⟨s', rfl, fun i hi => by rw [hs' i hi]; simp⟩ (by
          rintro y hy _ ⟨s', rfl, hs'⟩
          refine ⟨_, hf x hx y hy s' (by rw [hs' _ (by omega), if_neg (by omega)]), _, rfl, fun i hi => ?_⟩
          rw [Function.update_apply, hs' i hi]
          by_cases h : i = x + 5 * y
          · rw [if_pos h, if_pos (by omega), h]
          · rw [if_neg h]
            by_cases h' : i % 5 < x ∨ (i % 5 = x ∧ i / 5 < y)
            · rw [if_pos h', if_pos (by omega)]
            · rw [if_neg h', if_neg (by omega)])
      refine ⟨_, h1, t', rfl, fun i hi => ?_⟩
      rw [h2 i hi]
      by_cases h' : i % 5 < x ∨ (i % 5 = x ∧ i / 5 < 5)
      · rw [if_pos h', if_pos (by omega)]
      · rw [if_neg h', if_neg (by omega)])
  rw [h1]; exact congrArg _ (arr_congr fun i hi => by rw [h2 i hi, if_pos (by omega)])

/-- A double loop that assigns elements in an order given by `t`. -/
theorem loop55_perm {f : ℕ → ℕ → List Lane → M (List Lane)} (t : ℕ → ℕ → ℕ) (a g : ℕ → Lane)
    (ht : ∀ i < 25, ∃ x < 5, ∃ y < 5, t x y = i)
    (hf : ∀ x < 5, ∀ y < 5, ∀ a', f x y (lanes a') = Outcome.ok (lanes (Function.update a' (t x y) (g (t x y))))) :
    loop55 f (lanes a) = Outcome.ok (lanes g) := by
  unfold loop55
  obtain ⟨s, h1, s', rfl, h2⟩ := loop_inv
    (fun k s => ∃ s', s = lanes s' ∧ ∀ x < k, ∀ y < 5, s' (t x y) = g (t x y))
    (f := fun x s => loop (fun y s => f x y s) 5 s) (n := 5) (s := lanes a) ⟨a, rfl, by simp⟩ (by
      rintro x hx _ ⟨s', rfl, hs'⟩
      obtain ⟨u, h1, u', rfl, h2⟩ := loop_inv
        (fun k s => ∃ s', s = lanes s' ∧ (∀ x' < x, ∀ y < 5, s' (t x' y) = g (t x' y)) ∧ ∀ y < k, s' (t x y) = g (t x y))
        (f := fun y s => f x y s) (n := 5) (s := lanes s') ⟨s', rfl, hs', by simp⟩ (by
          rintro y hy _ ⟨s', rfl, hs', hs''⟩
          refine ⟨_, hf x hx y hy s', _, rfl, fun x' hx' y' hy' => ?_, fun y' hy' => ?_⟩
          · rw [Function.update_apply]; split
            · rename_i h; rw [h]
            · exact hs' x' hx' y' hy'
          · rw [Function.update_apply]; split
            · rename_i h; rw [h]
            · rename_i h
              exact hs'' y' (by
                by_contra hc
                have : y' = y := by omega
                subst this; exact h rfl))
      refine ⟨_, h1, u', rfl, fun x' hx' y hy => ?_⟩
      by_cases h : x' = x
      · subst h; exact h2.2 y hy
      · exact h2.1 x' (by omega) y hy)
  rw [h1]
  refine congrArg _ (arr_congr fun i hi => ?_)
  obtain ⟨x, hx, y, hy, rfl⟩ := ht i hi
  exact h2 x hx y hy

def thC (a : ℕ → Lane) (x : ℕ) : Lane := 0 ^^^ a x ^^^ a (x + 5) ^^^ a (x + 10) ^^^ a (x + 15) ^^^ a (x + 20)
def thF (a : ℕ → Lane) (i : ℕ) : Lane := a i ^^^ (rol64 (thC a ((i % 5 + 1) % 5)) 1 ^^^ thC a ((i % 5 + 4) % 5))
def rhoF (a : ℕ → Lane) (i : ℕ) : Lane := rol64 (a i) (keccakRhoOffsets.getD i 0)
/-- source lane of pi: position (X, Y) comes from (X + 3Y, X) -/
def piF (a : ℕ → Lane) (i : ℕ) : Lane := a ((i % 5 + 3 * (i / 5)) % 5 + 5 * (i % 5))
def chiF (a : ℕ → Lane) (i : ℕ) : Lane :=
  a i ^^^ ((~~~ a ((i % 5 + 1) % 5 + 5 * (i / 5))) &&& a ((i % 5 + 2) % 5 + 5 * (i / 5)))
def iotaF (r : ℕ) (a : ℕ → Lane) (i : ℕ) : Lane := if i = 0 then a i ^^^ keccakRoundConstants.getD r 0 else a i

theorem kidx_eq {x y : ℕ} (hx : x < 5) (hy : y < 5) : kidx x y = x + 5 * y := by
  rw [kidx, Nat.mod_eq_of_lt hx, Nat.mod_eq_of_lt hy]

theorem kTheta_ok (a : ℕ → Lane) : kTheta (lanes a) = Outcome.ok (lanes (thF a)) := by
  unfold kTheta
  rw [replicate_arr, loop_fill _ (thC a) (fun x hx c hc => by
    rw [arr_wr _ _ hx, ok_bind]
    obtain ⟨s, h1, h2⟩ := loop_inv
      (fun k s => s = arr 5 (Function.update c x ((List.range k).foldl (fun acc y => acc ^^^ a (x + 5 * y)) 0)))
      (f := fun y C => do
        let c ← rd C x
        let a ← rd (lanes a) (kidx x y)
        wr C x (c ^^^ a)) (n := 5) (s := arr 5 (Function.update c x 0)) rfl (by
        rintro y hy _ rfl
        rw [arr_rd _ hx, ok_bind, kidx_eq hx hy, arr_rd _ (by omega), ok_bind, arr_wr _ _ hx]
        refine ⟨_, rfl, ?_⟩
        rw [Function.update_idem, List.range_succ, List.foldl_append]
        simp)
    rw [h1, h2]; rfl), ok_bind]
  rw [loop_fill _ (fun x => rol64 (thC a ((x + 1) % 5)) 1 ^^^ thC a ((x + 4) % 5)) (fun x hx c hc => by
    rw [arr_rd _ (by omega), ok_bind, arr_rd _ (by omega), ok_bind, arr_wr _ _ hx]), ok_bind]
  exact loop55_lanes a (thF a) (fun x hx y hy a' ha' => by
    rw [kidx_eq hx hy, arr_rd _ (by omega), ok_bind, arr_rd _ hx, ok_bind, arr_wr _ _ (by omega), ha', thF,
      show (x + 5 * y) % 5 = x by omega])

theorem kRho_ok (a : ℕ → Lane) : kRho (lanes a) = Outcome.ok (lanes (rhoF a)) := by
  exact loop55_lanes a (rhoF a) (fun x hx y hy a' ha' => by
    rw [kidx_eq hx hy, arr_rd _ (by omega), ok_bind, rd_ok (show x + 5 * y < keccakRhoOffsets.length by
      rw [show keccakRhoOffsets.length = 25 from rfl]; omega), ok_bind, arr_wr _ _ (by omega), ha', rhoF,
      List.getD_eq_getElem?_getD, List.getElem?_eq_getElem]
    rfl)

theorem kPi_ok (a : ℕ → Lane) : kPi (lanes a) = Outcome.ok (lanes (piF a)) := by
  unfold kPi
  rw [replicate_arr, loop55_lanes _ a (fun x hx y hy a' ha' => by
    rw [kidx_eq hx hy, arr_rd _ (by omega), ok_bind, arr_wr _ _ (by omega)]), ok_bind]
  exact loop55_perm (fun x y => y + 5 * ((2 * x + 3 * y) % 5)) a (piF a)
    (by decide)
    (fun x hx y hy a' => by
      rw [kidx_eq hx hy, arr_rd _ (by omega), ok_bind]
      have e : kidx (0 * x + 1 * y) (2 * x + 3 * y) = y + 5 * ((2 * x + 3 * y) % 5) := by
        rw [kidx]; omega
      rw [e, arr_wr _ _ (by omega), piF]
      have e1 : (y + 5 * ((2 * x + 3 * y) % 5)) % 5 = y := by omega
      have e2 : (y + 5 * ((2 * x + 3 * y) % 5)) / 5 = (2 * x + 3 * y) % 5 := by omega
      have e3 : (y + 3 * ((2 * x + 3 * y) % 5)) % 5 = x := by omega
      rw [e1, e2, e3])

theorem kChi_ok (a : ℕ → Lane) : kChi (lanes a) = Outcome.ok (lanes (chiF a)) := by
  unfold kChi
  obtain ⟨s, h1, s', rfl, h2⟩ := loop_inv
    (fun k s => ∃ s', s = lanes s' ∧ ∀ i < 25, s' i = if i / 5 < k then chiF a i else a i)
    (f := fun y A => do
      let C ← loop (fun x C => do
        let a0 ← rd A (kidx x y)
        let a1 ← rd A (kidx (x + 1) y)
        let a2 ← rd A (kidx (x + 2) y)
        wr C x (a0 ^^^ ((~~~ a1) &&& a2))) 5 (List.replicate 5 0)
      loop (fun x A => do
        let c ← rd C x
        wr A (kidx x y) c) 5 A) (n := 5) (s := lanes a) ⟨a, rfl, by simp⟩ (by
      rintro y hy _ ⟨s', rfl, hs'⟩
      have e : ∀ x, kidx x y = x % 5 + 5 * y := by intro x; rw [kidx]; omega
      rw [replicate_arr, loop_fill _ (fun x => chiF a (x + 5 * y)) (fun x hx c hc => by
        rw [e, arr_rd _ (by omega), ok_bind, e, arr_rd _ (by omega), ok_bind, e, arr_rd _ (by omega), ok_bind,
          arr_wr _ _ hx, hs' _ (by omega), if_neg (by omega), hs' _ (by omega), if_neg (by omega), hs' _ (by omega),
          if_neg (by omega), chiF, show (x + 5 * y) % 5 = x by omega, show (x + 5 * y) / 5 = y by omega,
          Nat.mod_eq_of_lt hx]), ok_bind]
      obtain ⟨t, h1, t', rfl, h2⟩ := loop_inv
        (fun k s => ∃ s', s = lanes s' ∧
          ∀ i < 25, s' i = if i / 5 < y ∨ (i / 5 = y ∧ i % 5 < k) then chiF a i else a i)
        (f := fun x A => do
          let c ← rd (arr 5 fun x => chiF a (x + 5 * y)) x
          wr A (kidx x y) c) (n := 5) (s := lanes s') ⟨s', rfl, fun i hi => by rw [hs' i hi]; simp⟩ (by
          rintro x hx _ ⟨s', rfl, hs'⟩
          rw [arr_rd _ hx, ok_bind, kidx_eq hx hy, arr_wr _ _ (by omega)]
          refine ⟨_, rfl, _, rfl, fun i hi => ?_⟩
          rw [Function.update_apply, hs' i hi]
          by_cases h : i = x + 5 * y
          · rw [if_pos h, if_pos (by omega), h]
          · rw [if_neg h]
            by_cases h' : i / 5 < y ∨ (i / 5 = y ∧ i % 5 < x)
            · rw [if_pos h', if_pos (by omega)]
            · rw [if_neg h', if_neg (by omega)])
      refine ⟨_, h1, t', rfl, fun i hi => ?_⟩
      rw [h2 i hi]
      by_cases h' : i / 5 < y ∨ (i / 5 = y ∧ i % 5 < 5)
      · rw [if_pos h', if_pos (by omega)]
      · rw [if_neg h', if_neg (by omega)])
  rw [h1]; exact congrArg _ (arr_congr fun i hi => by rw [h2 i hi, if_pos (by omega)])

theorem kIota_ok (a : ℕ → Lane) (r : ℕ) (hr : r < 24) :
    kIota (lanes a) r = Outcome.ok (lanes (iotaF r a)) := by
  unfold kIota
  rw [show kidx 0 0 = 0 from rfl, arr_rd _ (by omega), ok_bind, rd_ok (show r < keccakRoundConstants.length from hr),
    ok_bind, arr_wr _ _ (by omega)]
  congr 1
  apply arr_congr
  intro i hi
  rw [Function.update_apply, iotaF]
  by_cases h : i = 0
  · subst h; rw [if_pos rfl, if_pos rfl, List.getD_eq_getElem?_getD, List.getElem?_eq_getElem]; rfl
  · rw [if_neg h, if_neg h]

theorem keccakRound_ok (a : ℕ → Lane) (r : ℕ) (hr : r < 24) :
    keccakRound (lanes a) r = Outcome.ok (lanes (iotaF r (chiF (piF (rhoF (thF a)))))) := by
  simp only [keccakRound, kTheta_ok, kRho_ok, kPi_ok, kChi_ok, kIota_ok _ _ hr, ok_bind]

/-- The state array of 25 lanes. -/
def stOf (a : ℕ → Lane) : St := fun x y z => (a (x + 5 * y)).getLsbD z

/-- Agreement of state arrays on the index range. -/
def StEq (A B : St) : Prop := ∀ x y z, x < 5 → y < 5 → z < 64 → A x y z = B x y z

theorem rol64_bit (a : Lane) (o z : ℕ) (ho : o < 64) (hz : z < 64) :
    (rol64 a o).getLsbD z = a.getLsbD ((z + 64 - o) % 64) := by
  unfold rol64
  by_cases h : o = 0
  · subst h
    rw [if_neg (by simp), show (z + 64 - 0) % 64 = z by omega]
  · rw [if_pos h, BitVec.getLsbD_xor, BitVec.getLsbD_shiftLeft, BitVec.getLsbD_ushiftRight]
    by_cases hzo : z < o
    · have e : (z + 64 - o) % 64 = 64 - o + z := by omega
      rw [e]; simp [hzo]
    · have e : (z + 64 - o) % 64 = z - o := by omega
      rw [e, BitVec.getLsbD_of_ge a (64 - o + z) (by omega)]
      simp [hz, hzo]

theorem thC_bit (a : ℕ → Lane) (x z : ℕ) : (thC a x).getLsbD z = col (stOf a) x z := by
  simp [thC, col, stOf]

theorem theta_st (a : ℕ → Lane) : StEq (stOf (thF a)) (theta (stOf a)) := by
  intro x y z hx hy hz
  have e : (x + 5 * y) % 5 = x := by omega
  simp only [stOf, thF, theta, BitVec.getLsbD_xor, e, rol64_bit _ 1 z (by omega) hz, thC_bit]
  rw [show (z + 64 - 1) % 64 = (z + 63) % 64 by omega, Bool.xor_comm (col _ _ z)]

theorem rhoOff_eq : ∀ x < 5, ∀ y < 5, keccakRhoOffsets.getD (x + 5 * y) 0 = rhoOff x y % 64 := by decide

theorem rho_st (a : ℕ → Lane) : StEq (stOf (rhoF a)) (rho (stOf a)) := by
  intro x y z hx hy hz
  simp only [stOf, rhoF, rho, rhoOff_eq x hx y hy]
  rw [rol64_bit _ _ _ (Nat.mod_lt _ (by omega)) hz]

theorem pi_st (a : ℕ → Lane) : StEq (stOf (piF a)) (pi (stOf a)) := by
  intro x y z hx hy hz
  have e : (x + 5 * y) % 5 = x := by omega
  have e2 : (x + 5 * y) / 5 = y := by omega
  simp only [stOf, piF, pi, e, e2]

theorem chi_st (a : ℕ → Lane) : StEq (stOf (chiF a)) (chi (stOf a)) := by
  intro x y z hx hy hz
  have e : (x + 5 * y) % 5 = x := by omega
  have e2 : (x + 5 * y) / 5 = y := by omega
  simp [stOf, chiF, chi, e, e2, hz]

theorem RC_eq : ∀ r < 24, ∀ z < 64, (keccakRoundConstants.getD r 0).getLsbD z = RC r z := by
  decide +kernel

theorem iota_st (a : ℕ → Lane) (r : ℕ) (hr : r < 24) : StEq (stOf (iotaF r a)) (iota r (stOf a)) := by
  intro x y z hx hy hz
  simp only [stOf, iotaF, iota]
  by_cases h : x = 0 ∧ y = 0
  · rw [if_pos (by omega), if_pos h, BitVec.getLsbD_xor, RC_eq r hr z hz]
  · rw [if_neg (by omega), if_neg h]

theorem StEq.trans {A B C : St} (h : StEq A B) (h' : StEq B C) : StEq A C :=
  fun x y z hx hy hz => (h x y z hx hy hz).trans (h' x y z hx hy hz)

theorem round_congr {A B : St} (h : StEq A B) (r : ℕ) : StEq (round r A) (round r B) := by
  have hcol : ∀ x z, x < 5 → z < 64 → col A x z = col B x z := by
    intro x z hx hz; simp only [col]
    rw [h x 0 z hx (by omega) hz, h x 1 z hx (by omega) hz, h x 2 z hx (by omega) hz, h x 3 z hx (by omega) hz,
      h x 4 z hx (by omega) hz]
  have h1 : StEq (theta A) (theta B) := by
    intro x y z hx hy hz
    simp only [theta]
    rw [h x y z hx hy hz, hcol _ _ (Nat.mod_lt _ (by omega)) hz, hcol _ _ (Nat.mod_lt _ (by omega))
      (Nat.mod_lt _ (by omega))]
  have h2 : StEq (rho (theta A)) (rho (theta B)) := fun x y z hx hy hz => h1 _ _ _ hx hy (Nat.mod_lt _ (by omega))
  have h3 : StEq (pi (rho (theta A))) (pi (rho (theta B))) :=
    fun x y z hx hy hz => h2 _ _ _ (Nat.mod_lt _ (by omega)) hx hz
  have h4 : StEq (chi (pi (rho (theta A)))) (chi (pi (rho (theta B)))) := by
    intro x y z hx hy hz
    simp only [chi]
    rw [h3 x y z hx hy hz, h3 _ y z (Nat.mod_lt _ (by omega)) hy hz, h3 _ y z (Nat.mod_lt _ (by omega)) hy hz]
  intro x y z hx hy hz
  simp only [round, iota]
  rw [h4 x y z hx hy hz]

theorem chi_congr {A B : St} (h : StEq A B) : StEq (chi A) (chi B) := by
  intro x y z hx hy hz
  simp only [chi]
  rw [h x y z hx hy hz, h _ y z (Nat.mod_lt _ (by omega)) hy hz, h _ y z (Nat.mod_lt _ (by omega)) hy hz]

theorem round_st (a : ℕ → Lane) (r : ℕ) (hr : r < 24) :
    StEq (stOf (iotaF r (chiF (piF (rhoF (thF a)))))) (round r (stOf a)) := by
  have h1 := theta_st a
  have h2 : StEq (stOf (rhoF (thF a))) (rho (theta (stOf a))) :=
    (rho_st _).trans fun x y z hx hy hz => h1 _ _ _ hx hy (Nat.mod_lt _ (by omega))
  have h3 : StEq (stOf (piF (rhoF (thF a)))) (pi (rho (theta (stOf a)))) :=
    (pi_st _).trans fun x y z hx hy hz => h2 _ _ _ (Nat.mod_lt _ (by omega)) hx hz
  have h4 := (chi_st (piF (rhoF (thF a)))).trans (chi_congr h3)
  refine (iota_st _ r hr).trans fun x y z hx hy hz => ?_
  simp only [round, iota]
  rw [h4 x y z hx hy hz]

theorem keccakOnWords_ok (a : ℕ → Lane) :
    ∃ b, keccakOnWords (lanes a) 24 = Outcome.ok (lanes b) ∧ StEq (stOf b) (rounds 24 (stOf a)) := by
  unfold keccakOnWords
  obtain ⟨s, h1, b, rfl, h2⟩ := loopFrom_inv
    (fun i s => ∃ b, s = lanes b ∧ StEq (stOf b) (rounds i (stOf a)))
    (f := fun i A => keccakRound A i) (lo := 24 - 24) (hi := 24) (s := lanes a) (by omega)
    ⟨a, rfl, fun x y z _ _ _ => rfl⟩ (by
      rintro i - hi s ⟨b, rfl, hb⟩
      exact ⟨_, keccakRound_ok b i hi, _, rfl, (round_st b i hi).trans (round_congr hb i)⟩)
  exact ⟨b, h1, h2⟩

/-- Lane `i` of a byte string. -/
def laneAt (b : Buf) (i : ℕ) : Lane :=
  b.getD (8 * i + 7) 0 ++ b.getD (8 * i + 6) 0 ++ b.getD (8 * i + 5) 0 ++ b.getD (8 * i + 4) 0 ++
  b.getD (8 * i + 3) 0 ++ b.getD (8 * i + 2) 0 ++ b.getD (8 * i + 1) 0 ++ b.getD (8 * i) 0

theorem laneAt_bit (b : Buf) (i z : ℕ) (hz : z < 64) : (laneAt b i).getLsbD z = bitOf b (64 * i + z) := by
  have h1 : (64 * i + z) / 8 = 8 * i + z / 8 := by omega
  have h2 : (64 * i + z) % 8 = z % 8 := by omega
  unfold bitOf laneAt
  rw [h1, h2]
  simp only [BitVec.getLsbD_append]
  split <;> rename_i g0
  · rw [show z / 8 = 0 by omega, show z % 8 = z by omega]; rfl
  split <;> rename_i g1
  · rw [show z / 8 = 1 by omega, show z % 8 = z - 8 by omega]
  split <;> rename_i g2
  · rw [show z / 8 = 2 by omega, show z % 8 = z - 8 - 8 by omega]
  split <;> rename_i g3
  · rw [show z / 8 = 3 by omega, show z % 8 = z - 8 - 8 - 8 by omega]
  split <;> rename_i g4
  · rw [show z / 8 = 4 by omega, show z % 8 = z - 8 - 8 - 8 - 8 by omega]
  split <;> rename_i g5
  · rw [show z / 8 = 5 by omega, show z % 8 = z - 8 - 8 - 8 - 8 - 8 by omega]
  split <;> rename_i g6
  · rw [show z / 8 = 6 by omega, show z % 8 = z - 8 - 8 - 8 - 8 - 8 - 8 by omega]
  · rw [show z / 8 = 7 by omega, show z % 8 = z - 8 - 8 - 8 - 8 - 8 - 8 - 8 by omega]

theorem rd_getD {b : Buf} {i : ℕ} (h : i < b.length) : rd b i = Outcome.ok (b.getD i 0) := by
  rw [rd_ok h, List.getD_eq_getElem?_getD, List.getElem?_eq_getElem h]; rfl

theorem ldLane_ok {b : Buf} {i : ℕ} (h : 8 * i + 8 ≤ b.length) : ldLane b i = Outcome.ok (laneAt b i) := by
  unfold ldLane
  rw [rd_getD (by omega), ok_bind, rd_getD (by omega), ok_bind, rd_getD (by omega), ok_bind, rd_getD (by omega),
    ok_bind, rd_getD (by omega), ok_bind, rd_getD (by omega), ok_bind, rd_getD (by omega), ok_bind,
    rd_getD (by omega), ok_bind]
  rfl

theorem laneBytes_length (w : Lane) : (laneBytes w).length = 8 := by simp [laneBytes]

theorem flatMap_laneBytes_length (l : List Lane) : (l.flatMap laneBytes).length = 8 * l.length := by
  induction l with
  | nil => rfl
  | cons a l ih => rw [List.flatMap_cons, List.length_append, ih, laneBytes_length, List.length_cons]; ring

theorem flatMap_laneBytes_bit (l : List Lane) (i : ℕ) :
    bitOf (l.flatMap laneBytes) i = (l.getD (i / 64) 0).getLsbD (i % 64) := by
  induction l generalizing i with
  | nil => simp [bitOf]
  | cons a l ih =>
    rw [List.flatMap_cons]
    by_cases hi : i < 64
    · rw [show i / 64 = 0 by omega, show i % 64 = i by omega]
      unfold bitOf
      rw [List.getD_eq_getElem?_getD, List.getElem?_append_left (by rw [laneBytes_length]; omega)]
      simp only [laneBytes, List.getElem?_map]
      rw [List.getElem?_range (by omega)]
      simp only [Option.map_some, Option.getD_some, BitVec.getLsbD_extractLsb']
      rw [show 8 * (i / 8) + i % 8 = i by omega]
      simp [Nat.mod_lt]
    · obtain ⟨j, rfl⟩ : ∃ j, i = j + 64 := ⟨i - 64, by omega⟩
      have := ih j
      unfold bitOf at this ⊢
      rw [show (j + 64) / 64 = j / 64 + 1 by omega, show (j + 64) % 64 = j % 64 by omega,
        List.getD_eq_getElem?_getD, List.getElem?_append_right (by rw [laneBytes_length]; omega), laneBytes_length,
        show (j + 64) / 8 - 8 = j / 8 by omega, show (j + 64) % 8 = j % 8 by omega, ← List.getD_eq_getElem?_getD,
        this, List.getD_cons_succ]

theorem rounds_congr {A B : St} (h : StEq A B) (n : ℕ) : StEq (rounds n A) (rounds n B) := by
  induction n with
  | zero => exact h
  | succ n ih => exact round_congr ih n

theorem keccakPermute24_ok {state : Buf} (hs : state.length = 200) :
    ∃ r, keccakPermute24 state = Outcome.ok r ∧ r.length = 200 ∧
      ∀ i < 1600, bitOf r i = keccakP24 (bitOf state) i := by
  have hc : collect (fun i => ldLane state i) 25 = Outcome.ok (lanes (laneAt state)) :=
    collect_ok (g := laneAt state) (fun i hi => ldLane_ok (by omega))
  have hinit : StEq (stOf (laneAt state)) (ofString (bitOf state)) := by
    intro x y z hx hy hz
    rw [stOf, laneAt_bit _ _ _ hz, ofString, Nat.add_comm x (5 * y)]
  obtain ⟨b, h1, h2⟩ := keccakOnWords_ok (laneAt state)
  have h3 := h2.trans (rounds_congr hinit 24)
  refine ⟨(lanes b).flatMap laneBytes, ?_, ?_, ?_⟩
  · unfold keccakPermute24
    rw [hc, ok_bind, h1, ok_bind]; rfl
  · rw [flatMap_laneBytes_length, arr_length]
  · intro i hi
    rw [flatMap_laneBytes_bit]
    have hl : (lanes b).getD (i / 64) 0 = b (i / 64 % 5 + 5 * (i / 320)) := by
      have e : i / 64 % 5 + 5 * (i / 320) = i / 64 := by omega
      rw [e, List.getD_eq_getElem?_getD, List.getElem?_eq_getElem (by rw [arr_length]; omega)]
      simp only [arr, List.getElem_map, List.getElem_range, Option.getD_some]
    rw [hl]
    exact h3 (i / 64 % 5) (i / 320) (i % 64) (by omega) (by omega) (by omega)

/-- The value of an outcome. -/
private def okOr {α : Type} (d : α) : M α → α
  | .ok b => b
  | _ => d

private theorem keccakPerm_def (state : Buf) : keccakPerm state = okOr state (keccakPermute24 state) := by
  unfold keccakPerm okOr
  generalize keccakPermute24 state = o
  cases o <;> rfl

theorem keccakPerm_spec {state : Buf} (hs : state.length = 200) :
    keccakPermute24 state = Outcome.ok (keccakPerm state) ∧ (keccakPerm state).length = 200 ∧
      ∀ i < 1600, bitOf (keccakPerm state) i = keccakP24 (bitOf state) i := by
  have h := keccakPermute24_ok hs
  rw [keccakPerm_def]
  generalize keccakPermute24 state = o at h
  obtain ⟨r, rfl, h2, h3⟩ := h
  exact ⟨rfl, h2, h3⟩

end Picnic
