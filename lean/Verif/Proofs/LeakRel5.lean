import Verif.Proofs.LeakRel1
import Verif.Model.LeakKeccakP

/-
The Keccak permutation in two runs.
-/

namespace Picnic.Leak

variable {σ : Type}

theorem rel_loop55 [Low σ] {f g : Nat → Nat → σ → M σ} {s t : σ} (hs : le s t)
    (h : ∀ x y s t, le s t → Rel le (f x y s) (g x y t)) : Rel le (loop55 f s) (loop55 g t) := by
  unfold loop55
  exact rel_loop rfl (fun _ _ _ _ hs => rel_loop rfl (fun _ _ _ _ hs => h _ _ _ _ hs) hs) hs

theorem rel_rolB {a b : Lane} {o : Nat} : Rel le (rolB a o) (rolB b o) := by
  unfold rolB; rel

theorem rel_kTheta {A B : List Lane} (h : le A B) : Rel le (kTheta A) (kTheta B) := by
  unfold kTheta; prep; rel

theorem rel_kRho {A B : List Lane} (h : le A B) : Rel le (kRho A) (kRho B) := by
  unfold kRho; prep; rel

theorem rel_kPi {A B : List Lane} (h : le A B) : Rel le (kPi A) (kPi B) := by
  unfold kPi; prep; rel

theorem rel_kChi {A B : List Lane} (h : le A B) : Rel le (kChi A) (kChi B) := by
  unfold kChi; prep; rel

theorem rel_kIota {A B : List Lane} {i : Nat} (h : le A B) : Rel le (kIota A i) (kIota B i) := by
  unfold kIota; prep; rel

theorem rel_keccakRound {A B : List Lane} {i : Nat} (h : le A B) : Rel le (keccakRound A i) (keccakRound B i) := by
  unfold keccakRound; prep; rel

theorem rel_keccakOnWords {A B : List Lane} {n : Nat} (h : le A B) : Rel le (keccakOnWords A n) (keccakOnWords B n) := by
  unfold keccakOnWords; prep; rel

theorem rel_ldLane {a b : Buf} {i : Nat} (h : le a b) : Rel le (ldLane a i) (ldLane b i) := by
  unfold ldLane; prep; rel

theorem le_lanes {A B : List Lane} (h : A.length = B.length) : le (A.flatMap laneBytes) (B.flatMap laneBytes) := by
  have e : ∀ A : List Lane, (A.flatMap laneBytes).length = 8 * A.length := by
    intro A
    induction A with
    | nil => rfl
    | cons x A ih => rw [List.flatMap_cons, List.length_append, ih, List.length_cons]; simp [laneBytes]; omega
  simp only [lw, e, h]

theorem rel_keccakPermute24 {a b : Buf} (h : le a b) : Rel le (keccakPermute24 a) (keccakPermute24 b) := by
  unfold keccakPermute24
  prep
  rel
  rename_i A B hA
  exact le_lanes hA

end Picnic.Leak
