import Verif.Proofs.LeakErase
import Verif.Proofs.LeakQuiet
import Verif.Proofs.ZkbApi
import Verif.Proofs.P3Api

/-
The values that a successful run of signing publishes.
-/

namespace Picnic.Leak

open Spec Spec.Challenge

variable {α β σ : Type}

/-- If the run returns, its result and the published values are related by `Q`. -/
def Pubs (Q : α → List Pub → Prop) (m : LM α) : Prop := ∀ a, m.out = .ok a → Q a m.pub

theorem Pubs.mono {Q R : α → List Pub → Prop} {m : LM α} (h : Pubs R m) (hQ : ∀ a l, m.out = .ok a → R a l → Q a l) :
    Pubs Q m := fun a ha => hQ a _ ha (h a ha)

theorem pubs_quiet {m : LM α} (h : Quiet m) : Pubs (fun a l => m.out = .ok a ∧ l = []) m := fun _ ha => ⟨ha, h⟩

theorem pubs_bind {Q : β → List Pub → Prop} {m : LM α} {f : α → LM β} {R : α → List Pub → Prop} (h : Pubs R m)
    (hf : ∀ a l, m.out = .ok a → R a l → Pubs (fun b l' => Q b (l ++ l')) (f a)) : Pubs Q (m >>= f) := by
  intro b hb
  rw [out_bind] at hb
  cases ha : m.out with
  | ok a =>
    rw [ha, ok_bind'] at hb
    have e : (m >>= f).pub = m.pub ++ (f a).pub := by
      show (LM.bind m f).pub = _
      rw [LM.bind, ha]
    rw [e]
    exact hf a _ ha (h a ha) b hb
  | ub k => rw [ha] at hb; cases hb
  | abort => rw [ha] at hb; cases hb
  | diverge => rw [ha] at hb; cases hb

theorem pubs_bindq {Q : β → List Pub → Prop} {m : LM α} {f : α → LM β} (h : Quiet m)
    (hf : ∀ a, m.out = .ok a → Pubs Q (f a)) : Pubs Q (m >>= f) :=
  pubs_bind (R := fun _ l => l = []) (fun _ _ => h) fun a l ha hl => by subst hl; exact hf a ha

/-- a quiet step whose result is known -/
theorem pubs_step {Q : β → List Pub → Prop} {m : LM α} {f : α → LM β} {a : α} (h : Quiet m) (ha : m.out = .ok a)
    (hf : Pubs Q (f a)) : Pubs Q (m >>= f) :=
  pubs_bindq h fun b hb => by rw [ha] at hb; cases hb; exact hf

theorem pubs_pure {Q : α → List Pub → Prop} {a : α} (h : Q a []) : Pubs Q (pure a : LM α) := by
  intro b hb; cases hb; exact h

theorem pubs_publish {Q : β → List Pub → Prop} {p : Pub} {f : Unit → LM β} (h : Pubs (fun b l => Q b (p :: l)) (f ())) :
    Pubs Q (LM.publish p >>= f) :=
  pubs_bind (R := fun _ l => l = [p]) (fun _ _ => rfl) fun _ l _ hl => by subst hl; exact h

theorem pubs_ite {Q : α → List Pub → Prop} {c : Prop} [Decidable c] {a b : LM α} (ha : c → Pubs Q a) (hb : ¬c → Pubs Q b) :
    Pubs Q (LM.ite c a b) := by
  have e : (LM.ite c a b).pub = if c then a.pub else b.pub := by
    by_cases h : c <;> simp [LM.ite, LM.bind, LM.tell, h]
  intro x hx
  rw [out_ite] at hx
  rw [e]
  by_cases h : c
  · rw [if_pos h] at hx ⊢; exact ha h x hx
  · rw [if_neg h] at hx ⊢; exact hb h x hx

theorem pubs_err {Q : α → List Pub → Prop} {m : LM α} (h : ∀ a, m.out ≠ .ok a) : Pubs Q m := fun a ha => absurd ha (h a)

/-- A loop that publishes the same `p i` in step `i`, whatever the state. -/
theorem pubs_iterate {f : Nat → σ → M σ} {p : Nat → List Pub} {n : Nat} {s : σ} (h : ∀ i < n, ∀ s, Pubs (fun _ l => l = p i) (f i s)) :
    Pubs (fun _ l => l = (List.range n).flatMap p) (iterate f n s) := by
  induction n with
  | zero => exact fun _ _ => rfl
  | succ n ih =>
    refine pubs_bind (ih fun i hi => h i (by omega)) fun a l _ hl => ?_
    subst hl
    refine (h n (by omega) a).mono fun b l _ hl => ?_
    simp [List.range_succ, hl]

theorem pubs_loop {f : Nat → σ → M σ} {p : Nat → List Pub} {n : Nat} {s : σ} (h : ∀ i < n, ∀ s, Pubs (fun _ l => l = p i) (f i s)) :
    Pubs (fun _ l => l = (List.range n).flatMap p) (loop f n s) :=
  pubs_bindq q_tell fun _ _ => pubs_iterate h

theorem pubs_collect {f : Nat → M α} {p : Nat → List Pub} {n : Nat} (h : ∀ i < n, Pubs (fun _ l => l = p i) (f i)) :
    Pubs (fun _ l => l = (List.range n).flatMap p) (collect f n) := by
  refine pubs_bindq q_tell fun _ h' => ?_
  clear h'
  induction n with
  | zero => exact fun _ _ => rfl
  | succ n ih =>
    refine pubs_bind (ih fun i hi => h i (by omega)) fun a l _ hl => ?_
    subst hl
    refine pubs_bind (h n (by omega)) fun b l _ hl => pubs_pure ?_
    simp [List.range_succ, hl]

/-- A loop that stops at the first failure publishes, if it does not stop early, `p` in each step. -/
theorem pubs_collectOpt {f : Nat → M (Option α)} {p : Pub} {n : Nat} (h : ∀ i < n, Pubs (fun r l => r.isSome → l = [p]) (f i)) :
    Pubs (fun r l => r.isSome → l = List.replicate n p) (collectOpt f n) := by
  induction n with
  | zero => exact fun _ _ _ => rfl
  | succ n ih =>
    unfold collectOpt
    refine pubs_bind (ih fun i hi => h i (by omega)) fun a l _ hl => ?_
    cases a with
    | none => exact pubs_pure fun h => by cases h
    | some a =>
      refine pubs_bind (h n (by omega)) fun b l' _ hl' => ?_
      cases b with
      | none => exact pubs_pure fun h => by cases h
      | some b =>
        refine pubs_pure fun _ => ?_
        rw [hl rfl, hl' rfl, List.replicate_succ']
        simp

/-! ### ZKB++ -/

theorem pubs_signRound {E : Env} {P : Params} {sk ct pt salt slab : Buf} {k : Nat} :
    Pubs (fun r l => r.isSome → l = [.flag true]) (signRound E P sk ct pt salt slab k) := by
  unfold signRound
  refine pubs_bindq q_seedsOf fun seeds _ => ?_
  refine pubs_bindq q_rd fun s0 _ => ?_
  refine pubs_bindq q_signTape fun r0 _ => ?_
  cases r0 with
  | none => exact pubs_pure fun h => by cases h
  | some r0 =>
  refine pubs_bindq q_rd fun s1 _ => ?_
  refine pubs_bindq q_signTape fun r1 _ => ?_
  cases r1 with
  | none => exact pubs_pure fun h => by cases h
  | some r1 =>
  refine pubs_bindq q_rd fun s2 _ => ?_
  refine pubs_bindq q_createTapeInto fun st _ => ?_
  refine pubs_ite (fun _ => pubs_pure fun h => by cases h) fun _ => ?_
  refine pubs_bindq q_xorThree fun inp _ => ?_
  refine pubs_bindq q_mpcLowMC fun vs _ => ?_
  refine pubs_bindq q_rd fun _ _ => pubs_bindq q_rd fun _ _ => pubs_bindq q_rd fun _ _ => ?_
  refine pubs_bindq q_xorThree fun _ _ => pubs_bindq q_memeq fun eq _ => pubs_publish ?_
  refine pubs_ite (fun _ => pubs_pure fun h => by cases h) fun h => ?_
  have h : eq = true := by simpa using h
  subst h
  have hq : ∀ {α : Type} {m : LM α} {R : α → Prop}, Quiet m → Pubs (fun a l => R a → Pub.flag true :: l = [.flag true]) m :=
    fun hm a _ _ => by rw [hm]
  exact hq (by quiet)

/-- The digests of a chain. -/
def chain (next : Buf → Buf) (d : Buf) (n : Nat) : List Pub := (List.range n).map fun i => .bytes (next^[i] d)

theorem chain_succ (next : Buf → Buf) (d : Buf) (n : Nat) : chain next d (n + 1) = .bytes d :: chain next (next d) n := by
  simp [chain, List.range_succ_eq_map, Function.comp_def]

/-- `n` is the number of digests of the chain that are needed for `T` values, if `a` values are there already. -/
def Need (T a : Nat) (next : Buf → Buf) (d : Buf) (n : Nat) : Prop :=
  T ≤ a + (stream next d n).length ∧ ∀ m < n, a + (stream next d m).length < T

theorem Need.unique {T a : Nat} {next : Buf → Buf} {d : Buf} {n m : Nat} (h : Need T a next d n) (h' : Need T a next d m) :
    n = m := by
  rcases Nat.lt_trichotomy n m with hl | hl | hl
  · exact absurd (h'.2 n hl) (by have := h.1; omega)
  · exact hl
  · exact absurd (h.2 m hl) (by have := h'.1; omega)

theorem pubs_h3Loop {E : Env} {P : Params} (hE : PermWF E) (hdig : P.digestSizeBytes ≤ 64) (n : ℕ) :
    ∀ (hash : Buf) (acc : List ℕ) (st : H3State), hash.length = P.digestSizeBytes → H3OK P acc st →
      acc.length < P.numMPCRounds →
      Pubs (fun _ l => ∃ k, l = chain (nextDigest E P) hash k ∧ Need P.numMPCRounds acc.length (nextDigest E P) hash k)
        (h3Loop E P n hash st) := by
  induction n with
  | zero => exact fun _ _ _ _ _ _ => pubs_err fun _ h => by cases h
  | succ n ih =>
    intro hash acc st hl h hlt
    unfold h3Loop
    obtain ⟨s1, e1, h1⟩ := h3Scan_ok h hl
    refine pubs_publish (pubs_step q_h3Scan ((out_h3Scan _ _ _).trans e1) ?_)
    have hd1 := h1.done
    by_cases hd : P.numMPCRounds ≤ (acc ++ trits hash).length
    · have hlen : ((acc ++ trits hash).take P.numMPCRounds).length = P.numMPCRounds := by
        rw [List.length_take]; omega
      refine pubs_ite (fun _ => pubs_pure ⟨1, rfl, ?_, ?_⟩) fun h => absurd (hd1.trans (decide_eq_true hlen)) h
      · simpa [stream] using hd
      · intro m hm
        obtain rfl : m = 0 := by omega
        simpa [stream] using hlt
    · have e2 : (acc ++ trits hash).take P.numMPCRounds = acc ++ trits hash := List.take_of_length_le (by omega)
      rw [e2] at h1 hd1
      refine pubs_ite (fun h => absurd h (by rw [hd1, decide_eq_false (by omega)]; simp)) fun _ => ?_
      refine pubs_step q_hashAll ((out_hashAll _ _ _ _ _).trans (hashAll_ok hE (by simp; omega) (by omega))) ?_
      simp only [List.flatMap_cons, List.flatMap_nil, List.append_nil]
      rw [List.take_of_length_le hl.le]
      refine (ih (nextDigest E P hash) (acc ++ trits hash) s1 (H_length _ _ _ _ _) h1 (by omega)).mono fun _ l _ hk => ?_
      obtain ⟨k, rfl, hk1, hk2⟩ := hk
      rw [List.length_append] at hk1 hk2
      refine ⟨k + 1, (chain_succ _ _ _).symm, ?_, ?_⟩
      · rw [stream, List.length_append]; omega
      · intro m hm
        cases m with
        | zero => simpa [stream] using hlt
        | succ m =>
          rw [stream, List.length_append]
          have := hk2 m (by omega)
          omega

theorem pubs_H3 {E : Env} {P : Params} {ct pt ch salt msg : Buf} {outs coms gs : ℕ → ℕ → Buf} {rowsO rowsC : List (List Buf)}
    {rowsG : Option (List (List Buf))} {mlen : ℕ} (hE : PermWF E) (hZ : ZkbWF P)
    (hct : P.stateSizeBytes ≤ ct.length) (hpt : P.stateSizeBytes ≤ pt.length)
    (hch : ch.length = numBytes (2 * P.numMPCRounds)) (hsalt : salt.length = P.saltSizeBytes)
    (hmsg : mlen ≤ msg.length) (hm32 : mlen + 200 ≤ 2 ^ 32)
    (hO : rowsO = arrN P.numMPCRounds fun i => arrN 3 (outs i))
    (hCm : rowsC = arrN P.numMPCRounds fun i => arrN 3 (coms i))
    (hG : P.transform = .UR → rowsG = some (arrN P.numMPCRounds fun i => arrN 3 (gs i)))
    (hOl : ∀ i < P.numMPCRounds, ∀ j < 3, P.stateSizeBytes ≤ (outs i j).length)
    (hCl : ∀ i < P.numMPCRounds, ∀ j < 3, P.digestSizeBytes ≤ (coms i j).length)
    (hGl : P.transform = .UR → ∀ i < P.numMPCRounds, ∀ j < 3, gHashLen P j ≤ (gs i j).length) :
    Pubs (fun _ l => ∃ k, l = chain (nextDigest E P) (h3Digest E P (h3Input P ct pt outs coms gs salt (msg.take mlen))) k ∧
        Need P.numMPCRounds 0 (nextDigest E P) (h3Digest E P (h3Input P ct pt outs coms gs salt (msg.take mlen))) k)
      (H3 E P ct pt rowsO rowsC ch salt msg mlen rowsG) := by
  have hn := numBytes_eq (2 * P.numMPCRounds)
  have hT := hZ.Tpos
  have hst := hZ.state
  have hdg := hZ.dig
  have hsl := hZ.salt
  have hsd := hZ.seed
  have han := hZ.and
  have hr := rateOf_ok P
  unfold H3
  rw [Nat.mul_comm P.numMPCRounds 2]
  refine pubs_step q_wr ((out_wr _ _ _).trans (wr_ok (by omega) _)) ?_
  obtain ⟨i0, e0, a0⟩ := hashInit_ok hE P HASH_PREFIX_1
  refine pubs_step q_hashInit ((out_hashInit _ _ _).trans e0) ?_
  obtain ⟨i1, e1, a1⟩ := hashUpdateTriples_ok (len := fun _ => P.stateSizeBytes) hE hr a0 hO
    (fun i hi j hj => ⟨hOl i hi j hj, by omega⟩)
  refine pubs_step q_hashUpdateTriples ((out_hashUpdateTriples _ _ _ _ _).trans e1) ?_
  obtain ⟨i2, e2, a2⟩ := hashUpdateTriples_ok (len := fun _ => P.digestSizeBytes) hE hr a1 hCm
    (fun i hi j hj => ⟨hCl i hi j hj, by omega⟩)
  refine pubs_step q_hashUpdateTriples ((out_hashUpdateTriples _ _ _ _ _).trans e2) ?_
  obtain ⟨i3, e3, a3⟩ : ∃ i3, (if P.transform = .UR then Picnic.deref rowsG >>= fun gs =>
      Picnic.hashUpdateTriples E i2 gs P.numMPCRounds
        (fun j => if j = 2 then P.unruhGWithInputBytes else P.unruhGWithoutInputBytes)
    else pure i2) = Outcome.ok i3 ∧ Absorbed E (rateOf P) (prefixBytes HASH_PREFIX_1 ++
      tripleBytes P.numMPCRounds outs (fun _ => P.stateSizeBytes) ++
      tripleBytes P.numMPCRounds coms (fun _ => P.digestSizeBytes) ++
      (if P.transform = .UR then tripleBytes P.numMPCRounds gs (gHashLen P) else [])) i3 := by
    by_cases hU : P.transform = .UR
    · simp only [hU, if_true, hG hU, Picnic.deref, ok_bind]
      exact hashUpdateTriples_ok (len := gHashLen P) hE hr a2 rfl fun i hi j hj => ⟨hGl hU i hi j hj, by
        have := hZ.gIn hU
        have := hZ.gNo hU
        unfold gHashLen
        split_ifs <;> omega⟩
    · simp only [if_neg hU, List.append_nil]
      exact ⟨i2, rfl, a2⟩
  refine pubs_step (by quiet) (Eq.trans (by simp only [er]) e3) ?_
  obtain ⟨i4, e4, a4⟩ := hashUpdate_ok (len := P.stateSizeBytes) hE hr a3 hct (by omega)
  refine pubs_step q_hashUpdate ((out_hashUpdate _ _ _ _).trans e4) ?_
  obtain ⟨i5, e5, a5⟩ := hashUpdate_ok (len := P.stateSizeBytes) hE hr a4 hpt (by omega)
  refine pubs_step q_hashUpdate ((out_hashUpdate _ _ _ _).trans e5) ?_
  obtain ⟨i6, e6, a6⟩ := hashUpdate_ok (len := P.saltSizeBytes) hE hr a5 hsalt.ge (by omega)
  refine pubs_step q_hashUpdate ((out_hashUpdate _ _ _ _).trans e6) ?_
  obtain ⟨i7, e7, a7⟩ := hashUpdate_ok (len := mlen) hE hr a6 hmsg hm32
  refine pubs_step q_hashUpdate ((out_hashUpdate _ _ _ _).trans e7) ?_
  obtain ⟨i8, i9, e8, e9⟩ := hashFinish_ok (n := P.digestSizeBytes) hE a7 (by omega)
  refine pubs_step q_hashFinal ((out_hashFinal _ _).trans e8) ?_
  refine pubs_step q_hashSqueeze ((out_hashSqueeze _ _ _).trans e9) ?_
  have hdig : shake E.perm (rateOf P) (prefixBytes HASH_PREFIX_1 ++ tripleBytes P.numMPCRounds outs (fun _ => P.stateSizeBytes) ++
      tripleBytes P.numMPCRounds coms (fun _ => P.digestSizeBytes) ++
      (if P.transform = .UR then tripleBytes P.numMPCRounds gs (gHashLen P) else []) ++ ct.take P.stateSizeBytes ++
      pt.take P.stateSizeBytes ++ salt.take P.saltSizeBytes ++ msg.take mlen) P.digestSizeBytes =
      h3Digest E P (h3Input P ct pt outs coms gs salt (msg.take mlen)) := by
    rw [List.take_of_length_le hsalt.le]
    simp only [h3Digest, H, h3Input, List.append_assoc]
  dsimp only
  rw [hdig]
  refine pubs_h3Loop hE hdg _ _ [] _ (by simp [h3Digest]) ?_ (by simpa using hT)
  refine ⟨by simp, rfl, by simp; omega, by simp [hch], by simp, ?_⟩
  intro p hp
  simp only []
  by_cases h : p < 8 * ch.length
  · have hp8 : p / 8 = numBytes (2 * P.numMPCRounds) - 1 := by omega
    have hl : (numBytes (2 * P.numMPCRounds) - 1) < ch.length := by omega
    simp only [bitsOf, hp8, List.getD_eq_getElem?_getD, List.getElem?_set_self hl, Option.getD_some]
    simp [byteBit]
  · exact bitsOf_ge (by simp; omega)

/-- The challenges in the order of the repetitions. -/
def chalPubs (T : Nat) (ch : Buf) : List Pub := (List.range T).map fun i => .byte (BitVec.ofNat 8 (chal ch i))

theorem flatMap_chalPubs (T : Nat) (ch : Buf) :
    ((List.range T).flatMap fun i => [Pub.byte (BitVec.ofNat 8 (chal ch i))]) = chalPubs T ch := by
  unfold chalPubs
  induction List.range T with
  | nil => rfl
  | cons x l ih => simp [ih]

theorem pubs_signPicnic1 {E : Env} {P : Params} {sk ct pt msg : Buf} {mlen : ℕ} {sig0 : Signature} (hE : PermWF E)
    (hP : ParamsWF P) (hC : ConstsWF P (E.lowmc P)) (hZ : ZkbWF P) (hsig : SigWF P sig0)
    (hsk : P.stateSizeBytes ≤ sk.length) (hct : P.stateSizeBytes ≤ ct.length) (hpt : 4 * P.stateSizeWords ≤ pt.length)
    (hm : mlen ≤ msg.length) (hm32 : mlen + 200 ≤ 2 ^ 32) {slab : Buf}
    (hslab : slab = seedSlab E P sk ct pt (msg.take mlen)) :
    ∃ views : ℕ → ℕ → View,
      (∀ k < P.numMPCRounds, HonestViews E P sk pt (slabSalt P slab) (slabSeed P slab k) k (views k)) ∧
      ∀ d, d = h3Digest E P (signInput E P ct pt (slabSalt P slab) (msg.take mlen) (slabSeed P slab) views) →
      Pubs (fun r l => ∀ sig, r = some sig → expandTrits E P d = Outcome.ok sig.challengeBits ∧ ∃ k,
          l = List.replicate P.numMPCRounds (.flag true) ++ (chain (nextDigest E P) d k ++ chalPubs P.numMPCRounds sig.challengeBits) ∧
          Need P.numMPCRounds 0 (nextDigest E P) d k)
        (signPicnic1 E P sk ct pt msg mlen sig0) := by
  have hb := hP.bytes
  have hw := hP.words
  obtain ⟨hz1, hz2⟩ := seedSlab_size hZ
  have hsl : slab.length = P.numMPCRounds * P.numMPCParties * P.seedSizeBytes + P.saltSizeBytes := by
    rw [hslab]; simp [seedSlab]; omega
  have hsaltl : (slabSalt P slab).length = P.saltSizeBytes := by simp [slabSalt]; omega
  have hrounds : ∀ k : ℕ, ∃ (views : ℕ → View) (junk : ℕ → Buf), k < P.numMPCRounds →
      HonestViews E P sk pt (slabSalt P slab) (slabSeed P slab k) k views ∧
      Picnic.signRound E P sk ct pt (slabSalt P slab) slab k = Outcome.ok
        (if ofBits (bitsOf (views 0).outputShare + bitsOf (views 1).outputShare + bitsOf (views 2).outputShare)
            P.stateSizeBytes = ct.take P.stateSizeBytes then
          some (honestRound E P (slabSeed P slab k) views junk)
        else none) := by
    intro k
    by_cases hk : k < P.numMPCRounds
    · obtain ⟨views, junk, h⟩ := signRound_ok (E := E) (P := P) (sk := sk) (pubKey := ct) (pt := pt) (salt := slabSalt P slab)
        (slab := slab) (k := k) (sd := slabSeed P slab k) hE hP hC hZ hk (by omega) hsk hct hpt hsaltl (fun j => rfl)
      exact ⟨views, junk, fun _ => h⟩
    · exact ⟨fun _ => allocateView P, fun _ => [], fun h => absurd h hk⟩
  choose views junk hr using hrounds
  refine ⟨views, fun k hk => (hr k hk).1, ?_⟩
  intro d hd
  unfold signPicnic1
  refine pubs_step q_computeSeeds ((out_computeSeeds _ _ _ _ _ _ _).trans (computeSeeds_ok hE hZ hsk hct (by omega) hm hm32)) ?_
  rw [← hslab]
  have hcopy : Picnic.memcpy sig0.salt 0 slab (P.numMPCRounds * P.numMPCParties * P.seedSizeBytes) P.saltSizeBytes =
      Outcome.ok (slabSalt P slab) := by
    rw [memcpy_ok (by omega) (by rw [hsig.salt]; omega)]
    rw [List.take_of_length_le (l := slab.drop _) (by simp; omega), List.drop_eq_nil_of_le (as := sig0.salt) (by have := hsig.salt; omega)]
    simp [slabSalt]
  refine pubs_step q_memcpy ((out_memcpy _ _ _ _ _).trans hcopy) ?_
  refine pubs_bind (pubs_collectOpt (p := .flag true) fun i _ => pubs_signRound) fun rounds l hout hl => ?_
  have hout' : Picnic.collectOpt (Picnic.signRound E P sk ct pt (slabSalt P slab) slab) P.numMPCRounds = Outcome.ok rounds := by
    rw [← hout, out_collectOpt]
    congr 1
    funext k
    exact (out_signRound _ _ _ _ _ _ _ _).symm
  by_cases hrel : ofBits ((lowmcOf P (E.lowmc P)).enc (bitsOf sk) (bitsOf pt)) P.stateSizeBytes = ct.take P.stateSizeBytes
  swap
  · rw [collectOpt_none hZ.Tpos (fun k hk => by rw [(hr k hk).2, honest_sum hP (hr k hk).1, if_neg hrel])] at hout'
    cases hout'
    exact pubs_pure fun _ h => by cases h
  rw [Picnic.collectOpt_some (g := fun k => honestRound E P (slabSeed P slab k) (views k) (junk k))
    (fun k hk => by rw [(hr k hk).2, honest_sum hP (hr k hk).1, if_pos hrel])] at hout'
  cases hout'
  rw [hl rfl]
  clear hl hout l
  dsimp only
  simp only [arrN_map, honestRound]
  have hin : h3Input P ct pt (fun k j => (views k j).outputShare) (fun k j => commitOf E P (slabSeed P slab k j) (views k j))
      (fun k j => gOf E P j (slabSeed P slab k j) (views k j) ++ junk k j) (slabSalt P slab) (msg.take mlen) =
      signInput E P ct pt (slabSalt P slab) (msg.take mlen) (slabSeed P slab) views :=
    h3Input_congr (fun _ _ _ _ => rfl) (fun _ _ _ _ => rfl) fun hU i hi j hj => by
      rw [gHashLen_eq hZ hU, List.take_append_of_le_length (by simp)]
  refine pubs_bind (pubs_H3 (outs := fun k j => (views k j).outputShare)
    (coms := fun k j => commitOf E P (slabSeed P slab k j) (views k j))
    (gs := fun k j => gOf E P j (slabSeed P slab k j) (views k j) ++ junk k j) hE hZ hct (by omega) hsig.ch hsaltl hm hm32
    rfl rfl (fun hU => by simp [gsArray, hU, arrN_map]) (fun i hi j hj => ((hr i hi).1.wf j hj).out.ge)
    (fun i hi j hj => by simp [commitOf]) (fun hU i hi j hj => by simp [gHashLen_eq hZ hU])) fun ch l hout hl => ?_
  rw [out_H3, H3_ok (outs := fun k j => (views k j).outputShare)
    (coms := fun k j => commitOf E P (slabSeed P slab k j) (views k j))
    (gs := fun k j => gOf E P j (slabSeed P slab k j) (views k j) ++ junk k j) hE hZ hct (by omega) hsig.ch hsaltl hm hm32
    rfl rfl (fun hU => by simp [gsArray, hU, arrN_map]) (fun i hi j hj => ((hr i hi).1.wf j hj).out.ge)
    (fun i hi j hj => by simp [commitOf]) (fun hU i hi j hj => by simp [gHashLen_eq hZ hU]), hin, ← hd] at hout
  rw [hin, ← hd] at hl
  obtain ⟨k, rfl, hk⟩ := hl
  have hch : ch.length = numBytes (2 * P.numMPCRounds) := by
    rcases expandTrits_cases E P d with h | ⟨ch', h, h4, -⟩
    · rw [h] at hout; cases hout
    · rw [h] at hout; cases hout; exact h4
  have hn := numBytes_eq (2 * P.numMPCRounds)
  refine pubs_bind (pubs_collect (p := fun i => [.byte (BitVec.ofNat 8 (chal ch i))]) fun i hi => ?_) fun pfs l _ hl => ?_
  · refine pubs_bindq q_rd fun _ _ => ?_
    refine pubs_step q_getChallenge ((out_getChallenge _ _).trans (getChallenge_eq (by omega))) (pubs_publish ?_)
    refine pubs_bindq q_rd fun _ _ => ?_
    intro a _
    rw [q_prove]
  · subst hl
    refine pubs_pure fun sg h => ?_
    cases h
    exact ⟨hout, k, by rw [flatMap_chalPubs]; simp, hk⟩

theorem pubs_serializeSignature {P : Params} {sig : Signature} {buf : Buf} {n : Nat}
    (hch : sig.challengeBits.length = numBytes (2 * P.numMPCRounds)) :
    Pubs (fun r l => r.isSome → l = chalPubs P.numMPCRounds sig.challengeBits) (serializeSignature P sig buf n) := by
  have hn := numBytes_eq (2 * P.numMPCRounds)
  unfold serializeSignature
  dsimp only
  refine pubs_bindq q_note fun _ _ => ?_
  refine pubs_ite (fun _ => pubs_pure fun h => by cases h) fun _ => ?_
  refine pubs_bindq q_emit fun _ _ => pubs_bindq q_emit fun _ _ => ?_
  refine pubs_bind (pubs_loop (p := fun i => [.byte (BitVec.ofNat 8 (chal sig.challengeBits i))]) fun i hi s => ?_) fun pfs l _ hl => ?_
  · refine pubs_step q_getChallenge ((out_getChallenge _ _).trans (getChallenge_eq (by omega))) (pubs_publish ?_)
    have hq : ∀ {α : Type} {m : LM α} {p : Pub}, Quiet m → Pubs (fun _ l => p :: l = [p]) m := fun hm a _ => by rw [hm]
    exact hq (by quiet)
  · subst hl
    refine pubs_pure fun _ => ?_
    rw [flatMap_chalPubs]; simp

/-- Signing with a ZKB++ parameter set. -/
theorem pubs_picnicSign_zkb {E : Env} {P : Params} {sk : PrivateKey} {msg buf slab : Buf} {mlen slen : ℕ} (hE : EnvWF E)
    (hP : getParamSet sk.params = some P) (h3 : isPicnic3 sk.params = false) (hsk : sk.Arrays) (hm : mlen ≤ msg.length)
    (hm32 : mlen + 200 ≤ 2 ^ 32)
    (hslab : slab = seedSlab E P sk.data sk.pk.ciphertext sk.pk.plaintext (msg.take mlen)) :
    ∃ views : ℕ → ℕ → View,
      (∀ k < P.numMPCRounds, HonestViews E P sk.data sk.pk.plaintext (slabSalt P slab) (slabSeed P slab k) k (views k)) ∧
      ∀ d, d = h3Digest E P (signInput E P sk.pk.ciphertext sk.pk.plaintext (slabSalt P slab) (msg.take mlen) (slabSeed P slab) views) →
      Pubs (fun r l => r.1 = 0 → ∃ ch k, expandTrits E P d = Outcome.ok ch ∧
          l = List.replicate P.numMPCRounds (.flag true) ++ (chain (nextDigest E P) d k ++
            (chalPubs P.numMPCRounds ch ++ chalPubs P.numMPCRounds ch)) ∧ Need P.numMPCRounds 0 (nextDigest E P) d k)
        (picnicSign E (some sk) msg mlen buf slen) := by
  have hWF := paramsWF_of hP
  have hZ := zkbWF_of hP h3
  have hb := hWF.bytes
  have hw := hWF.words
  have hn := hWF.nMax
  have h1 := hsk.data
  have h2 := hsk.pk.pt
  have h4 := hsk.pk.ct
  obtain ⟨views, hv, hp⟩ := pubs_signPicnic1 (E := E) (P := P) (sk := sk.data) (ct := sk.pk.ciphertext) (pt := sk.pk.plaintext)
    (msg := msg) (mlen := mlen) (sig0 := allocateSignature E P) hE.perm hWF (hE.lowmc _ _ hP) hZ (allocateSignature_wf hZ)
    (by omega) (by omega) (by omega) hm hm32 hslab
  refine ⟨views, hv, fun d hd => ?_⟩
  unfold picnicSign
  refine pubs_step (a := sk) (by quiet) rfl ?_
  refine pubs_bindq q_note fun _ _ => ?_
  simp only [hP]
  refine pubs_ite (fun _ => ?_) fun h => absurd (by rw [h3]; rfl) h
  refine pubs_bind (hp d hd) fun r l _ hl => ?_
  refine pubs_bindq q_note fun _ _ => ?_
  cases r with
  | none => exact pubs_pure fun h => by cases h
  | some sig =>
    obtain ⟨hx, k, rfl, hk⟩ := hl sig rfl
    have hch : sig.challengeBits.length = numBytes (2 * P.numMPCRounds) := by
      rcases expandTrits_cases E P d with h | ⟨ch', h, h4, -⟩
      · rw [h] at hx; cases hx
      · rw [h] at hx; cases hx; exact h4
    refine pubs_bind (pubs_serializeSignature hch) fun r l _ hl => ?_
    refine pubs_bindq q_note fun _ _ => ?_
    cases r with
    | none => exact pubs_pure fun h => by cases h
    | some r =>
      refine pubs_pure fun _ => ⟨_, k, hx, ?_, hk⟩
      rw [hl rfl]
      simp

/-! ### Picnic3 -/

theorem chain_add (next : Buf → Buf) (d : Buf) (n k : Nat) : chain next d (n + k) = chain next d n ++ chain next (next^[n] d) k := by
  induction n generalizing d with
  | zero => simp [chain]
  | succ n ih =>
    rw [show n + 1 + k = (n + k) + 1 by omega, chain_succ, ih, chain_succ]
    rfl

theorem pubs_fillC {E : Env} {P : Params} {rest : Buf} {bits cap : ℕ} (hE : PermWF E) (h3 : P3WF P) :
    ∀ (n : ℕ) (d : Buf) (acc : List ℕ), d.length = P.digestSizeBytes →
      Pubs (fun r l => ∃ k, l = chain (nextDigest E P) d k ∧ r.1 = (nextDigest E P)^[k] d ++ rest)
        (fillC E P bits cap n (d ++ rest) acc) := by
  intro n
  induction n with
  | zero =>
    intro d acc hd
    unfold fillC
    exact pubs_ite (fun _ => pubs_err fun _ h => by cases h) fun _ => pubs_pure ⟨0, rfl, rfl⟩
  | succ n ih =>
    intro d acc hd
    unfold fillC
    refine pubs_ite (fun _ => ?_) fun _ => pubs_pure ⟨0, rfl, rfl⟩
    refine pubs_publish ?_
    refine pubs_bindq q_bitsToChunks fun _ _ => pubs_bindq q_scanC fun acc' _ => ?_
    refine pubs_step q_rehash ((out_rehash _ _ _).trans (rehash_ok hE h3 hd)) ?_
    refine (ih (nextDigest E P d) acc' (H_length _ _ _ _ _)).mono fun r l _ h => ?_
    obtain ⟨k, rfl, hk⟩ := h
    refine ⟨k + 1, ?_, hk⟩
    rw [chain_succ, List.take_append_of_le_length hd.ge, List.take_of_length_le hd.le]

theorem pubs_fillP {E : Env} {P : Params} {rest : Buf} {bits cap : ℕ} (hE : PermWF E) (h3 : P3WF P) :
    ∀ (n : ℕ) (d : Buf) (acc : List ℕ), d.length = P.digestSizeBytes →
      Pubs (fun r l => ∃ k, l = chain (nextDigest E P) d k ∧ r.1 = (nextDigest E P)^[k] d ++ rest)
        (fillP E P bits cap n (d ++ rest) acc) := by
  intro n
  induction n with
  | zero =>
    intro d acc hd
    unfold fillP
    exact pubs_ite (fun _ => pubs_err fun _ h => by cases h) fun _ => pubs_pure ⟨0, rfl, rfl⟩
  | succ n ih =>
    intro d acc hd
    unfold fillP
    refine pubs_ite (fun _ => ?_) fun _ => pubs_pure ⟨0, rfl, rfl⟩
    refine pubs_publish ?_
    refine pubs_bindq q_bitsToChunks fun _ _ => pubs_bindq q_scanP fun acc' _ => ?_
    refine pubs_step q_rehash ((out_rehash _ _ _).trans (rehash_ok hE h3 hd)) ?_
    refine (ih (nextDigest E P d) acc' (H_length _ _ _ _ _)).mono fun r l _ h => ?_
    obtain ⟨k, rfl, hk⟩ := h
    refine ⟨k + 1, ?_, hk⟩
    rw [chain_succ, List.take_append_of_le_length hd.ge, List.take_of_length_le hd.le]

theorem iter_length (E : Env) (P : Params) (d : Buf) (h : d.length = P.digestSizeBytes) (k : Nat) :
    ((nextDigest E P)^[k] d).length = P.digestSizeBytes := by
  induction k generalizing d with
  | zero => exact h
  | succ k ih => exact ih _ (H_length _ _ _ _ _)

theorem pubs_expandChallengeHash {E : Env} {P : Params} {d : Buf} (hE : PermWF E) (h3 : P3WF P) (hd : d.length = P.digestSizeBytes) :
    Pubs (fun _ l => ∃ k, l = chain (nextDigest E P) d k) (expandChallengeHash E P d) := by
  have h5 := h3.dig
  unfold expandChallengeHash
  have hl : (E.junkBuf siteHash 0 MAX_DIGEST_SIZE).length = 64 := by simp [MAX_DIGEST_SIZE]
  refine pubs_step q_memcpy ((out_memcpy _ _ _ _ _).trans (memcpy_ok (by omega) (by omega))) ?_
  simp only [List.take_zero, List.nil_append, List.drop_zero, Nat.zero_add]
  rw [List.take_of_length_le hd.le]
  refine pubs_bind (pubs_fillC hE h3 _ d [] hd) fun r l _ hr => ?_
  obtain ⟨k, rfl, hk⟩ := hr
  obtain ⟨h, c⟩ := r
  dsimp only at hk ⊢
  subst hk
  refine pubs_bind (pubs_fillP hE h3 _ _ [] (iter_length E P d hd k)) fun r l _ hr => ?_
  obtain ⟨k', rfl, -⟩ := hr
  exact pubs_pure ⟨k + k', by rw [chain_add]; simp⟩

theorem pubs_signOnline {E : Env} {P : Params} {p : Prep} {sk ct pt : Buf} {t : Nat} :
    Pubs (fun r l => r.isSome → l = [.flag true]) (signOnline E P p sk ct pt t) := by
  unfold signOnline
  refine pubs_bindq q_xorArray fun mk _ => ?_
  refine pubs_bind (R := fun r l => l = [.flag r.1]) ?_ fun r l _ hl => ?_
  · unfold simulateOnline
    dsimp only
    refine pubs_bindq q_matrixMul fun _ _ => pubs_bindq q_xorArray fun _ _ => ?_
    refine pubs_bindq (by quiet) fun r _ => ?_
    refine pubs_bindq q_memeq fun eq _ => pubs_publish (pubs_pure rfl)
  · obtain ⟨ok, x, y⟩ := r
    subst hl
    dsimp only
    refine pubs_ite (fun h => pubs_pure fun _ => ?_) fun _ => pubs_pure fun h => by cases h
    simpa using h

theorem pubs_signPicnic3 {E : Env} {P : Params} {sk ct pt msg : Buf} {mlen : ℕ} {sig0 : Signature2} (hE : PermWF E) (h3 : P3WF P)
    (hlen : ∀ sig, Picnic.signPicnic3 E P sk ct pt msg mlen sig0 = .ok (some sig) → sig.challengeHash.length = P.digestSizeBytes) :
    Pubs (fun r l => ∀ sig, r = some sig → ∃ k,
        l = List.replicate P.numMPCRounds (.flag true) ++ chain (nextDigest E P) sig.challengeHash k)
      (signPicnic3 E P sk ct pt msg mlen sig0) := by
  have key : Pubs (fun r l => ∀ sig, r = some sig → sig.challengeHash.length = P.digestSizeBytes → ∃ k,
        l = List.replicate P.numMPCRounds (.flag true) ++ chain (nextDigest E P) sig.challengeHash k)
      (signPicnic3 E P sk ct pt msg mlen sig0) := by
    unfold signPicnic3
    refine pubs_bindq q_computeSaltAndRootSeed fun _ _ => pubs_bindq q_memcpy fun _ _ => pubs_bindq q_rdN fun _ _ => ?_
    refine pubs_bindq q_generateSeeds fun _ _ => pubs_bindq (by quiet) fun preps _ => ?_
    refine pubs_bind (pubs_collectOpt (p := .flag true) fun i _ => pubs_bindq q_rd fun _ _ => pubs_signOnline) fun on l _ hl => ?_
    cases on with
    | none => exact pubs_pure fun _ h => by cases h
    | some on =>
    rw [hl rfl]
    clear hl
    dsimp only
    refine pubs_bindq (by quiet) fun _ _ => pubs_bindq (by quiet) fun _ _ => pubs_bindq (by quiet) fun _ _ => ?_
    refine pubs_bindq (by quiet) fun _ _ => pubs_bindq (by quiet) fun _ _ => pubs_bindq (by quiet) fun ch _ => ?_
    by_cases hd : ch.length = P.digestSizeBytes
    · refine pubs_bind (pubs_expandChallengeHash hE h3 hd) fun r l _ hl => ?_
      obtain ⟨k, rfl⟩ := hl
      refine pubs_bindq (by quiet) fun _ _ => pubs_bindq (by quiet) fun _ _ => pubs_bindq (by quiet) fun _ _ => ?_
      refine pubs_bindq (by quiet) fun _ _ => pubs_pure fun sig h _ => ⟨k, ?_⟩
      cases h
      simp
    · refine pubs_bind (R := fun _ _ => True) (fun _ _ => trivial) fun r l _ _ => ?_
      refine pubs_bindq (by quiet) fun _ _ => pubs_bindq (by quiet) fun _ _ => pubs_bindq (by quiet) fun _ _ => ?_
      refine pubs_bindq (by quiet) fun _ _ => pubs_pure fun sig h hh => ?_
      cases h
      exact absurd hh hd
  refine key.mono fun r l ho h sig hr => ?_
  subst hr
  exact h sig rfl (hlen sig ((out_signPicnic3 _ _ _ _ _ _ _ _).symm.trans ho))

end Picnic.Leak
