import Verif.Spec.Picnic1
import Verif.Spec.Picnic3

/-
Instances of the specification with the same numbers, hash function and LowMC maps have the same signatures.
-/

namespace Spec

open Finset

/-- The same LowMC instance, as far as blocks are concerned. -/
structure LowMC.Same (X Y : LowMC) : Prop where
  n : Y.n = X.n
  m : Y.m = X.m
  r : Y.r = X.r
  K : ∀ t ≤ X.r, mulVec X.n (Y.K t) = mulVec X.n (X.K t)
  L : ∀ t < X.r, mulVec X.n (Y.L t) = mulVec X.n (X.L t)
  RC : ∀ t < X.r, Y.RC t = X.RC t

theorem LowMC.Same.state {X Y : LowMC} (h : X.Same Y) (key pt : Bits) : ∀ t ≤ X.r, Y.state key pt t = X.state key pt t := by
  intro t
  induction t with
  | zero => intro _; rw [LowMC.state, LowMC.state, h.n, h.K 0 (Nat.zero_le _)]
  | succ t ih => intro ht; rw [LowMC.state, LowMC.state, ih (by omega), h.n, h.m, h.K (t + 1) ht, h.L t (by omega), h.RC t (by omega)]

theorem LowMC.Same.enc {X Y : LowMC} (h : X.Same Y) (key pt : Bits) : Y.enc key pt = X.enc key pt := by
  rw [LowMC.enc, LowMC.enc, h.r, h.state key pt _ le_rfl]

theorem LowMC.Same.share {X Y : LowMC} (h : X.Same Y) (first : Bool) (key w pt : Bits) :
    ∀ t ≤ X.r, Zkb.share Y first key w pt t = Zkb.share X first key w pt t := by
  intro t
  induction t with
  | zero => intro _; rw [Zkb.share, Zkb.share, h.n, h.K 0 (Nat.zero_le _)]
  | succ t ih => intro ht; rw [Zkb.share, Zkb.share, ih (by omega), h.n, h.m, h.K (t + 1) ht, h.L t (by omega), h.RC t (by omega)]

theorem LowMC.Same.output {X Y : LowMC} (h : X.Same Y) (pt : Bits) (i : ℕ) (v : Zkb.View) : Zkb.output Y pt i v = Zkb.output X pt i v := by
  rw [Zkb.output, Zkb.output, h.r, h.share _ _ _ _ _ le_rfl]

theorem LowMC.Same.consistent {X Y : LowMC} (h : X.Same Y) {pt : Bits} {i : ℕ} {v v' : Zkb.View} (hc : Zkb.Consistent X pt i v v') :
    Zkb.Consistent Y pt i v v' := by
  intro t ht k hk j hj
  rw [h.r] at ht
  rw [h.m] at hk
  have := hc t ht k hk j hj
  simp only [h.share _ _ _ _ t (by omega), h.m]
  exact this

namespace Picnic1

/-- The same instance, as far as signatures are concerned. -/
structure Inst.Same (I J : Inst) : Prop where
  X : I.X.Same J.X
  T : J.T = I.T
  seed : J.seed = I.seed
  digest : J.digest = I.digest
  unruh : J.unruh = I.unruh
  hash : ∀ m n, J.hash m n = I.hash m n

variable {I J : Inst} (h : I.Same J)
include h

theorem Inst.Same.blk : J.blk = I.blk := by rw [Inst.blk, Inst.blk, h.X.n]
theorem Inst.Same.gate : J.gate = I.gate := by rw [Inst.gate, Inst.gate, h.X.m, h.X.r]
theorem Inst.Same.secrets (a b c d : Bytes) : J.secrets a b c d = I.secrets a b c d := by
  simp only [Inst.secrets, h.hash, h.X.n, h.T, h.seed]
theorem Inst.Same.seedOf (s : Bytes) (t j : ℕ) : J.seedOf s t j = I.seedOf s t j := by simp only [Inst.seedOf, h.seed]
theorem Inst.Same.saltOf (s : Bytes) : J.saltOf s = I.saltOf s := by simp only [Inst.saltOf, h.seed, h.T]
theorem Inst.Same.tape (a b : Bytes) (t j l : ℕ) : J.tape a b t j l = I.tape a b t j l := by simp only [Inst.tape, h.hash, h.digest]
theorem Inst.Same.keyShare (a b : Bytes) (t j : ℕ) : J.keyShare a b t j = I.keyShare a b t j := by
  simp only [Inst.keyShare, h.blk, h.gate, h.X.n, h.tape]
theorem Inst.Same.gateTape (a b : Bytes) (t j : ℕ) : J.gateTape a b t j = I.gateTape a b t j := by
  simp only [Inst.gateTape, h.blk, h.gate, h.tape]
theorem Inst.Same.bitView (a : Bytes) (t j : ℕ) (v : View) : J.bitView a t j v = I.bitView a t j v := by simp only [Inst.bitView, h.gateTape]
theorem Inst.Same.commit (v : View) : J.commit v = I.commit v := by simp only [Inst.commit, h.hash, h.digest]
theorem Inst.Same.gLen (j : ℕ) : J.gLen j = I.gLen j := by simp only [Inst.gLen, h.seed, h.gate, h.blk]
theorem Inst.Same.G (j : ℕ) (v : View) : J.G j v = I.G j v := by simp only [Inst.G, h.hash, h.digest, h.gLen]
theorem Inst.Same.challengeDigest (o c g : ℕ → ℕ → Bytes) (a b d e : Bytes) : J.challengeDigest o c g a b d e = I.challengeDigest o c g a b d e := by
  simp only [Inst.challengeDigest, Inst.all, h.hash, h.digest, h.unruh, h.T]
theorem Inst.Same.challenge (d : Bytes) (e : List ℕ) : J.Challenge d e ↔ I.Challenge d e := by
  simp only [Inst.Challenge, h.hash, h.digest, h.T]
theorem Inst.Same.encode (e : List ℕ) (s : Bytes) (o : ℕ → Opening) : J.encode e s o = I.encode e s o := by
  simp only [Inst.encode, Inst.encodeChallenge, h.T]
theorem Inst.Same.openViews (e : ℕ) (v : ℕ → View) : J.openViews e v = I.openViews e v := by
  simp only [Inst.openViews, h.commit, h.unruh, h.G]

theorem Inst.Same.run {sk pt salt s : Bytes} {t : ℕ} {v : ℕ → View} (hr : I.Run sk pt salt s t v) : J.Run sk pt salt s t v where
  seed j hj := by rw [h.seedOf]; exact hr.seed j hj
  key0 := by rw [h.keyShare]; exact hr.key0
  key1 := by rw [h.keyShare]; exact hr.key1
  key2 := by rw [h.blk]; exact hr.key2
  len j hj := by rw [h.gate]; exact hr.len j hj
  pad j hj := by rw [h.X.m, h.X.r]; exact hr.pad j hj
  gates j hj := by rw [h.bitView, h.bitView]; exact h.X.consistent (hr.gates j hj)
  out j hj := by rw [h.bitView, h.X.output, h.blk]; exact hr.out j hj

theorem Inst.Same.isSignature {sk ct pt msg sig : Bytes} (hs : I.IsSignature sk ct pt msg sig) : J.IsSignature sk ct pt msg sig := by
  obtain ⟨v, e, h1, h2, h3⟩ := hs
  refine ⟨v, e, ?_⟩
  simp only [h.secrets, h.saltOf, h.T, h.commit, h.G, h.challengeDigest, h.challenge, h.encode, h.openViews]
  exact ⟨fun t ht => h.run (h1 t ht), h2, h3⟩

theorem Inst.Same.isValid {ct pt msg sig : Bytes} (hs : I.IsValid ct pt msg sig) : J.IsValid ct pt msg sig := by
  obtain ⟨e, salt, o, a, b, h1, h2, h3, h4⟩ := hs
  refine ⟨e, salt, o, a, b, ?_⟩
  simp only [h.blk, h.T, h.commit, h.G, h.challengeDigest, h.challenge, h.encode]
  refine ⟨h1, h2, fun t ht => ?_, h4⟩
  obtain ⟨f, z, p⟩ := h3 t ht
  refine ⟨⟨by rw [h.digest]; exact f.com, by rw [h.unruh, h.gLen]; exact f.g, by rw [h.gate]; exact f.gates, by rw [h.seed]; exact f.seed0,
    by rw [h.seed]; exact f.seed1, by rw [h.blk]; exact f.key⟩, by rw [h.X.n]; exact z, ?_⟩
  exact ⟨p.seed0, p.seed1, by rw [h.keyShare]; exact p.key0, by rw [h.keyShare]; exact p.key1, by rw [h.gate]; exact p.gates0,
    by rw [h.X.m, h.X.r]; exact p.pad0, p.gates1, by rw [h.bitView, h.bitView]; exact h.X.consistent p.consistent,
    by rw [h.bitView, h.X.output, h.blk]; exact p.out0, by rw [h.bitView, h.X.output, h.blk]; exact p.out1⟩

end Picnic1

namespace Picnic3

/-- The same instance, as far as signatures are concerned. -/
structure Inst.Same (I J : Inst) : Prop where
  X : I.X.Same J.X
  T : J.T = I.T
  u : J.u = I.u
  seed : J.seed = I.seed
  digest : J.digest = I.digest
  hash : ∀ m n, J.hash m n = I.hash m n

variable {I J : Inst} (h : I.Same J)
include h

theorem Inst.Same.blk : J.blk = I.blk := by rw [Inst.blk, Inst.blk, h.X.n]
theorem Inst.Same.gate : J.gate = I.gate := by rw [Inst.gate, Inst.gate, h.X.m, h.X.r]
theorem Inst.Same.depth : J.depth = I.depth := by rw [Inst.depth, Inst.depth, h.T]
theorem Inst.Same.secrets (a b c d : Bytes) : J.secrets a b c d = I.secrets a b c d := by
  simp only [Inst.secrets, h.hash, h.X.n, h.seed]
theorem Inst.Same.child (a : Bytes) (r : ℕ) (s : ℕ → Bytes) (x : ℕ) : J.Child a r s x ↔ I.Child a r s x := by
  simp only [Inst.Child, h.hash, h.seed]
theorem Inst.Same.seedTree (a : Bytes) (r D n : ℕ) (root : Bytes) (s : ℕ → Bytes) : J.SeedTree a r D n root s ↔ I.SeedTree a r D n root s := by
  simp only [Inst.SeedTree, h.child]
theorem Inst.Same.partialTree (a : Bytes) (r D n : ℕ) (l : List ℕ) (s : ℕ → Bytes) : J.PartialTree a r D n l s ↔ I.PartialTree a r D n l s := by
  simp only [Inst.PartialTree, h.child, h.seed]
theorem Inst.Same.share (a : Bytes) (t : ℕ) (v : Round) : J.share a t v = I.share a t v := by
  funext j p
  simp only [Inst.share, Inst.tape, h.hash, h.gate, h.X.n]
theorem Inst.Same.commit (a : Bytes) (t : ℕ) (v : Round) (j : ℕ) : J.commit a t v j = I.commit a t v j := by
  simp only [Inst.commit, h.hash, h.digest]
theorem Inst.Same.mask (sh : ℕ → Bits) (r : ℕ) : J.mask sh r = I.mask sh r := by
  funext i
  simp only [Inst.mask, h.X.r, h.X.n]

theorem Inst.Same.prepared {a : Bytes} {t : ℕ} {v : Round} {κ : Bits} (hp : I.Prepared a t v κ) : J.Prepared a t v κ := by
  obtain ⟨h1, h2, w, h3⟩ := hp
  refine ⟨by rw [h.gate]; exact h1, by rw [h.X.m, h.X.r]; exact h2, w, ?_⟩
  rw [h.share]
  refine ⟨?_, ?_, ?_⟩
  · rw [h.X.n, h.mask, h.X.K 0 (Nat.zero_le _)]; exact h3.key
  · intro r hr i hi
    rw [h.X.r] at hr
    rw [h.X.n] at hi
    rw [h.X.n, h.mask, h.mask, h.X.K (r + 1) hr, h.X.L r hr]
    exact h3.round r hr i hi
  · intro r hr i hi
    rw [h.X.r] at hr
    rw [h.X.n] at hi
    rw [h.X.n, h.mask]
    exact h3.gate r hr i hi

theorem Inst.Same.public (pt key : Bits) (msg : ℕ → Bits) : ∀ r ≤ I.X.r, J.public pt key msg r = I.public pt key msg r := by
  intro r
  induction r with
  | zero => intro _; rw [Inst.public, Inst.public, h.X.n, h.X.K 0 (Nat.zero_le _)]
  | succ r ih =>
    intro hr
    rw [Inst.public, Inst.public, ih (by omega), h.X.n, h.X.K (r + 1) hr, h.X.L r hr, h.X.RC r hr]

theorem Inst.Same.sends {pt : Bytes} {sh : ℕ → Bits} {v : Round} {j : ℕ} (hs : I.Sends pt sh v j) : J.Sends pt sh v j := by
  obtain ⟨h1, h2, h3⟩ := hs
  refine ⟨by rw [h.gate]; exact h1, by rw [h.X.m, h.X.r]; exact h2, fun r hr i hi => ?_⟩
  rw [h.X.r] at hr
  rw [h.X.n] at hi
  rw [h.public _ _ _ r hr.le, h.X.n]
  exact h3 r hr i hi

theorem Inst.Same.result (pt : Bytes) (v : Round) : J.result pt v = I.result pt v := by
  rw [Inst.result, Inst.result, h.blk, h.X.r, h.public _ _ _ _ le_rfl]
theorem Inst.Same.merkleNode (a : Bytes) (s : ℕ → Bytes) (x : ℕ) : J.MerkleNode a s x ↔ I.MerkleNode a s x := by
  simp only [Inst.MerkleNode, h.hash, h.depth, h.T, h.digest]
theorem Inst.Same.msgDigest (v : Round) : J.msgDigest v = I.msgDigest v := by simp only [Inst.msgDigest, h.hash, h.digest]
theorem Inst.Same.merkle {a : Bytes} {v : ℕ → Round} {S : ℕ → Prop} {s : ℕ → Bytes} (hm : I.Merkle a v S s) : J.Merkle a v S s := by
  refine ⟨?_, ?_, ?_⟩
  · rw [h.T, h.depth]; simp only [h.msgDigest]; exact hm.leaf
  · rw [h.T, h.depth]; simp only [h.merkleNode]; exact hm.inner
  · rw [h.T, h.depth, h.digest]; exact hm.absent
theorem Inst.Same.challengeDigest (v : ℕ → Round) (s : ℕ → Bytes) (a b d e : Bytes) : J.challengeDigest v s a b d e = I.challengeDigest v s a b d e := by
  simp only [Inst.challengeDigest, Inst.comDigest, h.hash, h.digest, h.T]
theorem Inst.Same.challenge (d : Bytes) (C Q : List ℕ) : J.Challenge d C Q ↔ I.Challenge d C Q := by
  simp only [Inst.Challenge, h.hash, h.digest, h.T, h.u]
theorem Inst.Same.encode (d a : Bytes) (C Q : List ℕ) (s t : ℕ → Bytes) (v : ℕ → Round) : J.encode d a C Q s t v = I.encode d a C Q s t v := by
  simp only [Inst.encode, h.depth, h.T]

theorem Inst.Same.isSignature {sk ct pt msg sig : Bytes} (hs : I.IsSignature sk ct pt msg sig) : J.IsSignature sk ct pt msg sig := by
  obtain ⟨s, m, v, κ, C, Q, h1, h2, h3, h4, h5⟩ := hs
  refine ⟨s, m, v, κ, C, Q, ?_⟩
  simp only [h.secrets, h.depth, h.T, h.seedTree, h.challengeDigest, h.challenge, h.encode, h.blk, h.X.n, h.share, h.commit]
  refine ⟨h1, fun t ht => ?_, h.merkle h3, h4, h5⟩
  obtain ⟨k1, k2, k3, k4⟩ := h2 t ht
  exact ⟨k1, h.prepared k2, k3, fun j hj => ⟨h.sends (k4 j hj).1, (k4 j hj).2⟩⟩

theorem Inst.Same.isValid {ct pt msg sig : Bytes} (hs : I.IsValid ct pt msg sig) : J.IsValid ct pt msg sig := by
  obtain ⟨salt, s, m, v, C, Q, h1, ⟨c1, c2, c3, c4, c5⟩, h3, h4⟩ := hs
  refine ⟨salt, s, m, v, C, Q, h1, ?_⟩
  simp only [Inst.Checks, h.depth, h.T, h.seedTree, h.partialTree, h.challengeDigest, h.challenge, h.encode, h.share, h.commit, h.result, h.digest]
  refine ⟨⟨c1, fun t ht hc => ?_, fun t ht => ?_, h.merkle c4, c5⟩, h3, h4⟩
  · obtain ⟨k1, ⟨κ, k2⟩, k3⟩ := c2 t ht hc
    exact ⟨k1, ⟨κ, h.prepared k2⟩, k3⟩
  · obtain ⟨k1, k2, k3, k4⟩ := c3 t ht
    refine ⟨k1, ⟨by rw [h.gate, h.X.m, h.X.r]; exact k2.aux, by rw [h.blk]; exact k2.key, by rw [h.gate, h.X.m, h.X.r]; exact k2.msgs, by rw [h.digest]; exact k2.com⟩, ?_, k4⟩
    exact fun j hj hne => ⟨h.sends (k3 j hj hne).1, (k3 j hj hne).2⟩

end Picnic3

end Spec
