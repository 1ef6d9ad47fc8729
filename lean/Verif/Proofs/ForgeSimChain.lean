import Verif.Proofs.ForgeBase

/-
C63: the challenge is determined by the first T + 1 strings of the chain of digests.
-/

namespace Picnic.Rom

open Spec Spec.Zkb Spec.Rom Spec.Picnic1 Spec.Challenge

variable {N M : ℕ} {I : Inst} {O O' : Oracle N M} {d : Bytes}

variable (I) in
/-- The digests of the chain that begins with `d`. -/
def chainAt (O : Oracle N M) (d : Bytes) (j : ℕ) : Bytes := (fun d => hashUse I O (.next d) I.digest)^[j] d

variable (I) in
/-- The strings that are hashed for the chain. -/
def chainStrs (O : Oracle N M) (d : Bytes) (n : ℕ) : List Bytes := (List.range n).map fun j => Use.text (T := I.T) I (.next (chainAt I O d j))

theorem chainAt_zero : chainAt I O d 0 = d := Function.iterate_zero_apply _ _

theorem chainAt_succ (j : ℕ) : chainAt I O d (j + 1) = hashUse I O (.next (chainAt I O d j)) I.digest := Function.iterate_succ_apply' _ _ _

theorem chainAt_len (hd : d.length = I.digest) (j : ℕ) : (chainAt I O d j).length = I.digest := by
  cases j with
  | zero => rw [chainAt_zero]; exact hd
  | succ j => rw [chainAt_succ]; exact hash_len' _ _ _

theorem hashUse_ask {u : Use I.T} (h : ask O' (Use.text I u) = ask O (Use.text I u)) (n : ℕ) : hashUse I O' u n = hashUse I O u n := by
  unfold hashUse Rom.hash
  rw [h]

theorem chainAt_congr {n : ℕ} (h : ∀ x ∈ chainStrs I O d n, ask O' x = ask O x) {j : ℕ} (hj : j ≤ n) : chainAt I O' d j = chainAt I O d j := by
  induction j with
  | zero => rw [chainAt_zero, chainAt_zero]
  | succ j ih =>
    rw [chainAt_succ, chainAt_succ, ih (by omega)]
    exact hashUse_ask (h _ (List.mem_map.2 ⟨j, List.mem_range.2 (by omega), rfl⟩)) _

theorem isChallenge_iff {T n : ℕ} {next : Bytes → Bytes} {d : Bytes} (h : T ≤ (stream next d n).length) (l : List ℕ) : IsChallenge T next d l ↔ l = (stream next d n).take T := by
  constructor
  · rintro ⟨m, hm, rfl⟩
    obtain ⟨r1, e1⟩ := stream_prefix next d m n
    obtain ⟨r2, e2⟩ := stream_prefix next d n m
    rw [Nat.add_comm n m, e1] at e2
    have := congrArg (List.take T) e2
    rwa [List.take_append_of_le_length hm, List.take_append_of_le_length h] at this
  · rintro rfl
    exact ⟨n, h, rfl⟩

theorem stream_chainAt (n : ℕ) : stream (fun d => hashUse I O (.next d) I.digest) d n = ((List.range n).map (chainAt I O d)).flatMap trits := by
  rw [stream_chain]
  rfl

/-- The first strings of the chain decide. -/
theorem challenge_chain (hd : d.length = I.digest) (h : ∀ x ∈ chainStrs I O d (I.T + 1), ask O' x = ask O x) : challenge I O' d = challenge I O d := by
  have h0 : ∀ j ≤ I.T + 1, chainAt I O' d j = chainAt I O d j := fun j hj => chainAt_congr h hj
  have key : (fun e => IsChallenge I.T (fun d => hashUse I O' (.next d) I.digest) d e) = fun e => IsChallenge I.T (fun d => hashUse I O (.next d) I.digest) d e := by
    by_cases hn : ((List.range (I.T + 1)).map (chainAt I O d)).Nodup
    · have h1 := trits_nodup (n := I.digest) (fun d' hd' => by
        obtain ⟨j, -, rfl⟩ := List.mem_map.1 hd'
        exact chainAt_len hd j) hn
      have e1 : (List.range (I.T + 1)).map (chainAt I O' d) = (List.range (I.T + 1)).map (chainAt I O d) := List.map_congr_left fun j hj => h0 j (List.mem_range.1 hj).le
      rw [List.length_map, List.length_range, ← stream_chainAt] at h1
      have h2 : stream (fun d => hashUse I O' (.next d) I.digest) d (I.T + 1) = stream (fun d => hashUse I O (.next d) I.digest) d (I.T + 1) := by
        rw [stream_chainAt, stream_chainAt, e1]
      funext e
      rw [isChallenge_iff (n := I.T + 1) (by rw [h2]; omega), isChallenge_iff (n := I.T + 1) (by omega), h2]
    · have hr : ∃ i ≤ I.T, ∃ l < i, chainAt I O d i = chainAt I O d l := by
        by_contra hc
        push Not at hc
        refine hn (List.Nodup.map_on ?_ List.nodup_range)
        intro x hx y hy e
        rw [List.mem_range] at hx hy
        rcases Nat.lt_trichotomy x y with hlt | rfl | hlt
        · exact absurd e.symm (hc y (by omega) x hlt)
        · rfl
        · exact absurd e (hc x (by omega) y hlt)
      obtain ⟨i, hi, l, hl, he⟩ := hr
      have hall : ∀ j, chainAt I O' d j = chainAt I O d j ∧ ∃ m < i, chainAt I O d j = chainAt I O d m := by
        intro j
        induction j with
        | zero => exact ⟨by rw [chainAt_zero, chainAt_zero], 0, by omega, rfl⟩
        | succ j ih =>
          obtain ⟨e1, m, hm, e2⟩ := ih
          have e3 : chainAt I O d (j + 1) = chainAt I O d (m + 1) := by rw [chainAt_succ, chainAt_succ, e2]
          refine ⟨?_, ?_⟩
          · rw [chainAt_succ, chainAt_succ, e1, e2]
            exact hashUse_ask (h _ (List.mem_map.2 ⟨m, List.mem_range.2 (by omega), rfl⟩)) _
          · rcases Nat.lt_or_ge (m + 1) i with h5 | h5
            · exact ⟨m + 1, h5, e3⟩
            · have : m + 1 = i := by omega
              exact ⟨l, hl, by rw [e3, this, he]⟩
      have hs : ∀ n, stream (fun d => hashUse I O' (.next d) I.digest) d n = stream (fun d => hashUse I O (.next d) I.digest) d n := fun n => by
        rw [stream_chainAt, stream_chainAt]
        exact congrArg (List.flatMap trits) (List.map_congr_left fun j _ => (hall j).1)
      funext e
      unfold IsChallenge
      simp only [hs]
  unfold challenge
  exact pick_congr key

/-! ### Questions -/

/-- One list of questions after the other. -/
def Proc.seq (P P' : Proc N M) : Proc N M where
  asked O := P.asked O ++ P'.asked O
  pre O O' i h := by
    by_cases hi : i < (P.asked O).length
    · refine take_append_of_take hi (P.pre O O' i fun x hx => h x ?_)
      rw [List.take_append_of_le_length hi.le]
      exact hx
    · have h' : ∀ x ∈ P.asked O, O' x = O x := fun x hx => h x (by
        rw [List.take_append, List.take_of_length_le (by omega)]
        exact List.mem_append_left _ hx)
      rw [P.all h', List.take_append, List.take_append, show i + 1 - (P.asked O).length = i - (P.asked O).length + 1 by omega]
      refine congrArg _ (P'.pre O O' _ fun x hx => h x ?_)
      rw [List.take_append]
      exact List.mem_append_right _ hx

/-- Given questions. -/
def Proc.const (l : List (Arg N)) : Proc N M := ⟨fun _ => l, fun _ _ _ _ => rfl⟩

/-- A string of the chain. -/
def chainArg (hN : I.digest + 1 ≤ N) (hd : d.length = I.digest) (O : Oracle N M) (j : ℕ) : Arg N :=
  ⟨Use.text (T := I.T) I (.next (chainAt I O d j)), by rw [next_len, chainAt_len hd]; exact hN⟩

variable (M) in
/-- The questions for the chain. -/
def chainProc (hN : I.digest + 1 ≤ N) (hd : d.length = I.digest) (n : ℕ) : Proc N M where
  asked O := (List.range n).map (chainArg hN hd O)
  pre O O' i h := by
    have key : ∀ j, j ≤ i → j < n → chainArg hN hd O' j = chainArg hN hd O j := fun j hj hn => by
      refine Subtype.ext ?_
      unfold chainArg
      dsimp only
      rw [chainAt_congr (O := O) (O' := O') (n := j) (fun x hx => ?_) le_rfl]
      obtain ⟨l, hl, rfl⟩ := List.mem_map.1 hx
      rw [List.mem_range] at hl
      have hm : chainArg hN hd O l ∈ ((List.range n).map (chainArg hN hd O)).take i := by
        rw [← List.map_take, List.take_range]
        exact List.mem_map.2 ⟨l, List.mem_range.2 (by omega), rfl⟩
      have := h _ hm
      have hlen := (chainArg hN hd O l).2
      unfold ask
      unfold chainArg at this hlen
      dsimp only at this hlen
      rw [dif_pos hlen, dif_pos hlen]
      exact this
    rw [← List.map_take, ← List.map_take, List.take_range]
    refine List.map_congr_left fun j hj => key j ?_ ?_ <;> (rw [List.mem_range] at hj; omega)

theorem chainProc_mem (hN : I.digest + 1 ≤ N) (hd : d.length = I.digest) (n : ℕ) {x : Bytes} (hx : x ∈ chainStrs I O d n) : ∃ y ∈ (chainProc M hN hd n).asked O, y.1 = x := by
  obtain ⟨j, hj, rfl⟩ := List.mem_map.1 hx
  exact ⟨chainArg hN hd O j, List.mem_map.2 ⟨j, hj, rfl⟩, rfl⟩

end Picnic.Rom
