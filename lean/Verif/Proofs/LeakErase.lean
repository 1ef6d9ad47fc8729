import Verif.Model.LeakApi
import Verif.Model.LeakKeccakP
import Verif.Proofs.LeakAttr
import Verif.Proofs.Base
import Mathlib.Tactic.CasesM

/-
Forgetting the observations of the leakage model gives the functional model back.
-/

namespace Picnic.Leak

variable {α β σ : Type}

@[er] theorem out_ok (a : α) : (LM.ok a).out = .ok a := rfl
@[er] theorem out_pure (a : α) : (pure a : LM α).out = pure a := rfl
@[er] theorem out_ub (k : UB) : (LM.ub k : LM α).out = .ub k := rfl
@[er] theorem out_abort : (LM.abort : LM α).out = .abort := rfl
@[er] theorem out_diverge : (LM.diverge : LM α).out = .diverge := rfl

@[er] theorem out_bind' (x : LM α) (f : α → LM β) : (LM.bind x f).out = x.out >>= fun a => (f a).out := by
  cases h : x.out <;> simp [LM.bind, h] <;> rfl

@[er] theorem out_bind (x : LM α) (f : α → LM β) : (x >>= f).out = x.out >>= fun a => (f a).out := out_bind' x f

@[er] theorem out_tell (e : Ev) : (LM.tell e).out = .ok () := rfl
@[er] theorem out_publish (e : Pub) : (LM.publish e).out = .ok () := rfl
@[er] theorem out_note (e : Bool) : (note e).out = .ok () := rfl
@[er] theorem ok_bind' (a : α) (f : α → Outcome β) : ((Outcome.ok a : Outcome α) >>= f) = f a := rfl
@[er] theorem pure_bind' (a : α) (f : α → Outcome β) : ((pure a : Outcome α) >>= f) = f a := rfl

@[er] theorem out_ite (c : Prop) [Decidable c] (a b : LM α) : (LM.ite c a b).out = if c then a.out else b.out := by
  rw [LM.ite, out_bind', out_tell, ok_bind']; split <;> rfl

theorem out_if (c : Prop) [Decidable c] (a b : LM α) : (if c then a else b).out = if c then a.out else b.out := by
  split <;> rfl

theorem bind_ext {x y : Outcome α} {f g : α → Outcome β} (h : x = y) (h' : ∀ a, f a = g a) :
    (x >>= f) = (y >>= g) := by rw [h, funext h']

@[er] theorem out_assertM (b : Bool) : (assertM b).out = Picnic.assertM b := by
  rw [assertM, out_ite]; cases b <;> rfl

@[er] theorem out_rd (b : List α) (i : Nat) : (rd b i).out = Picnic.rd b i := by
  rw [rd, out_bind', out_tell, ok_bind', Picnic.rd]; cases b[i]? <;> rfl

@[er] theorem out_wr (b : List α) (i : Nat) (v : α) : (wr b i v).out = Picnic.wr b i v := by
  rw [wr, out_bind', out_tell, ok_bind', Picnic.wr]; split <;> rfl

@[er] theorem out_rdN (b : Buf) (i n : Nat) : (rdN b i n).out = Picnic.rdN b i n := by
  rw [rdN, out_bind', out_tell, ok_bind', Picnic.rdN]; split <;> rfl

@[er] theorem out_wrN (b : Buf) (i : Nat) (d : Buf) : (wrN b i d).out = Picnic.wrN b i d := by
  rw [wrN, out_bind', out_tell, ok_bind', Picnic.wrN]; split <;> rfl

@[er] theorem out_memcpy (d : Buf) (i : Nat) (s : Buf) (j n : Nat) : (memcpy d i s j n).out = Picnic.memcpy d i s j n := by
  simp only [memcpy, Picnic.memcpy, er]

@[er] theorem out_memeq (a b : Buf) (n : Nat) : (memeq a b n).out = Picnic.memeq a b n := by
  simp only [memeq, Picnic.memeq, er]

theorem out_iterate (f : Nat → σ → M σ) (n : Nat) (s : σ) :
    (iterate f n s).out = Picnic.loop (fun i s => (f i s).out) n s := by
  induction n with
  | zero => rfl
  | succ n ih => simp only [iterate, Picnic.loop, er, ih]

@[er] theorem out_loop (f : Nat → σ → M σ) (n : Nat) (s : σ) :
    (loop f n s).out = Picnic.loop (fun i s => (f i s).out) n s := by
  simp only [loop, er, out_iterate]

@[er] theorem out_loopFrom (lo hi : Nat) (f : Nat → σ → M σ) (s : σ) :
    (loopFrom lo hi f s).out = Picnic.loopFrom lo hi (fun i s => (f i s).out) s := by
  simp only [loopFrom, Picnic.loopFrom, er, out_iterate]

@[er] theorem out_loopDown (f : Nat → σ → M σ) (n : Nat) (s : σ) :
    (loopDown f n s).out = Picnic.loopDown (fun i s => (f i s).out) n s := by
  simp only [loopDown, er]
  induction n generalizing s with
  | zero => rfl
  | succ n ih => simp only [iterateDown, Picnic.loopDown, er, ih]

@[er] theorem out_collect (f : Nat → M α) (n : Nat) :
    (collect f n).out = Picnic.collect (fun i => (f i).out) n := by
  simp only [collect, er]
  induction n with
  | zero => rfl
  | succ n ih => simp only [gather, Picnic.collect, er, ih]

@[er] theorem out_foldL (l : List α) (f : σ → α → M σ) (s : σ) :
    (foldL l f s).out = l.foldlM (fun s x => (f s x).out) s := by
  induction l generalizing s with
  | nil => rfl
  | cons x l ih => simp only [foldL, List.foldlM, er, ih]

@[er] theorem out_ldw (b : Buf) (i : Nat) : (ldw b i).out = Picnic.ldw b i := by
  simp only [ldw, Picnic.ldw, er]

@[er] theorem out_stw (b : Buf) (i : Nat) (w : U32) : (stw b i w).out = Picnic.stw b i w := by
  simp only [stw, Picnic.stw, er]

@[er] theorem out_u16ofBytes (b : Buf) : (u16ofBytes b).out = Picnic.u16ofBytes b := by
  simp only [u16ofBytes, Picnic.u16ofBytes, er]

theorem loop_ext {f g : Nat → σ → Outcome σ} (n : Nat) (s : σ) (h : ∀ i s, f i s = g i s) :
    Picnic.loop f n s = Picnic.loop g n s := by
  rw [show f = g from funext fun i => funext fun s => h i s]

theorem loopFrom_ext {f g : Nat → σ → Outcome σ} (lo hi : Nat) (s : σ) (h : ∀ i s, f i s = g i s) :
    Picnic.loopFrom lo hi f s = Picnic.loopFrom lo hi g s := by
  rw [show f = g from funext fun i => funext fun s => h i s]

theorem loopDown_ext {f g : Nat → σ → Outcome σ} (n : Nat) (s : σ) (h : ∀ i s, f i s = g i s) :
    Picnic.loopDown f n s = Picnic.loopDown g n s := by
  rw [show f = g from funext fun i => funext fun s => h i s]

theorem collect_ext {f g : Nat → Outcome α} (n : Nat) (h : ∀ i, f i = g i) :
    Picnic.collect f n = Picnic.collect g n := by
  rw [show f = g from funext h]

theorem foldlM_ext {f g : σ → α → Outcome σ} (l : List α) (s : σ) (h : ∀ s a, f s a = g s a) :
    l.foldlM f s = l.foldlM g s := by
  rw [show f = g from funext fun i => funext fun s => h i s]

theorem ite_bindO (c : Prop) [Decidable c] (a b : Outcome α) (k : α → Outcome β) :
    ((if c then a else b) >>= k) = if c then a >>= k else b >>= k := by
  split <;> rfl

theorem pure_iteO (c : Prop) [Decidable c] (a b : α) :
    (pure (if c then a else b) : Outcome α) = if c then pure a else pure b := by
  split <;> rfl

/-- one step of the comparison of a run without its observations with the functional model -/
macro "er1" : tactic => `(tactic| first
  | with_reducible rfl
  | simp only [er]
  | (refine bind_ext ?_ ?_ <;> (try intro _) <;> (try casesm* _ × _))
  | (refine loop_ext _ _ ?_; intro _ _; (try casesm* _ × _))
  | (refine loopFrom_ext _ _ _ ?_; intro _ _; (try casesm* _ × _))
  | (refine loopDown_ext _ _ ?_; intro _ _; (try casesm* _ × _))
  | (refine collect_ext _ ?_; intro _)
  | (refine foldlM_ext _ _ ?_; intro _ _; (try casesm* _ × _))
  | refine if_congr Iff.rfl ?_ ?_
  | casesm* Option _)

macro "ers" : tactic => `(tactic| repeat' er1)

/-- the same with conditionals pushed outwards and split where the two sides place them differently -/
macro "ersp" : tactic => `(tactic| ((try simp only [bind_assoc, ite_bindO, pure_iteO, er]); (repeat' (first | er1 | simp only [bind_assoc, ite_bindO, pure_iteO, er] | split))))

macro "erd" : tactic => `(tactic| first | (ers; done) | (ersp; done) | (casesm* Option _ <;> ersp; done))

@[er] theorem out_getBit (a : Buf) (i : Nat) : (getBit a i).out = Picnic.getBit a i := by
  simp only [getBit, Picnic.getBit, er]

@[er] theorem out_setBit (a : Buf) (i : Nat) (v : Byte) : (setBit a i v).out = Picnic.setBit a i v := by
  simp only [setBit, Picnic.setBit, er]

@[er] theorem out_zeroTrailingBits (a : Buf) (n : Nat) : (zeroTrailingBits a n).out = Picnic.zeroTrailingBits a n := by
  simp only [zeroTrailingBits, Picnic.zeroTrailingBits, er]

@[er] theorem out_arePaddingBitsZero (a : Buf) (n : Nat) :
    (arePaddingBitsZero a n).out = Picnic.arePaddingBitsZero a n := by
  simp only [arePaddingBitsZero, Picnic.arePaddingBitsZero, er]

@[er] theorem out_xorArray (o a b : Buf) (n : Nat) : (xorArray o a b n).out = Picnic.xorArray o a b n := by
  simp only [xorArray, Picnic.xorArray, er]

@[er] theorem out_xorThree (o a b c : Buf) (n : Nat) : (xorThree o a b c n).out = Picnic.xorThree o a b c n := by
  simp only [xorThree, Picnic.xorThree, er]

@[er] theorem out_matrixRow (s m : Buf) (P : Params) (i : Nat) : (matrixRow s m P i).out = Picnic.matrixRow s m P i := by
  simp only [matrixRow, Picnic.matrixRow, er]

@[er] theorem out_matrixMul (t o s m : Buf) (P : Params) : (matrixMul t o s m P).out = Picnic.matrixMul t o s m P := by
  simp only [matrixMul, Picnic.matrixMul, er]

@[er] theorem out_substitution (s : Buf) (P : Params) : (substitution s P).out = Picnic.substitution s P := by
  simp only [substitution, Picnic.substitution, er]

@[er] theorem out_lowMCEnc (E : Env) (P : Params) (p o k : Buf) : (lowMCEnc E P p o k).out = Picnic.lowMCEnc E P p o k := by
  unfold lowMCEnc Picnic.lowMCEnc
  ers

@[er] theorem out_loop55 (f : Nat → Nat → σ → M σ) (s : σ) :
    (loop55 f s).out = Picnic.loop55 (fun x y s => (f x y s).out) s := by
  simp only [loop55, Picnic.loop55, er]

theorem loop55_ext {f g : Nat → Nat → σ → Outcome σ} (s : σ) (h : ∀ x y s, f x y s = g x y s) :
    Picnic.loop55 f s = Picnic.loop55 g s := by
  rw [show f = g from funext fun x => funext fun y => funext fun s => h x y s]

@[er] theorem out_rolB (a : Lane) (o : Nat) : (rolB a o).out = pure (rol64 a o) := rfl

@[er] theorem out_kTheta (A : List Lane) :
    (kTheta A).out = Picnic.kTheta A := by
  unfold kTheta Picnic.kTheta
  erd

@[er] theorem out_kRho (A : List Lane) :
    (kRho A).out = Picnic.kRho A := by
  unfold kRho Picnic.kRho
  erd

@[er] theorem out_kPi (A : List Lane) :
    (kPi A).out = Picnic.kPi A := by
  unfold kPi Picnic.kPi
  erd

@[er] theorem out_kChi (A : List Lane) :
    (kChi A).out = Picnic.kChi A := by
  unfold kChi Picnic.kChi
  erd

@[er] theorem out_kIota (A : List Lane) (indexRound : Nat) :
    (kIota A indexRound).out = Picnic.kIota A indexRound := by
  unfold kIota Picnic.kIota
  erd

@[er] theorem out_keccakRound (A : List Lane) (indexRound : Nat) :
    (keccakRound A indexRound).out = Picnic.keccakRound A indexRound := by
  unfold keccakRound Picnic.keccakRound
  erd

@[er] theorem out_keccakOnWords (A : List Lane) (nrRounds : Nat) :
    (keccakOnWords A nrRounds).out = Picnic.keccakOnWords A nrRounds := by
  unfold keccakOnWords Picnic.keccakOnWords
  erd

@[er] theorem out_ldLane (b : Buf) (i : Nat) :
    (ldLane b i).out = Picnic.ldLane b i := by
  unfold ldLane Picnic.ldLane
  erd

@[er] theorem out_keccakPermute24 (state : Buf) :
    (keccakPermute24 state).out = Picnic.keccakPermute24 state := by
  unfold keccakPermute24 Picnic.keccakPermute24
  erd

@[er] theorem out_permute (E : Env) (s : Buf) : (permute E s).out = pure (E.perm s) := rfl

@[er] theorem out_addByte (state : Buf) (byte : Byte) (offset : Nat) :
    (addByte state byte offset).out = Picnic.addByte state byte offset := by
  unfold addByte Picnic.addByte
  erd

@[er] theorem out_addBytes (state data : Buf) (doff offset length : Nat) :
    (addBytes state data doff offset length).out = Picnic.addBytes state data doff offset length := by
  unfold addBytes Picnic.addBytes
  erd

@[er] theorem out_extractBytes (state : Buf) (offset length : Nat) :
    (extractBytes state offset length).out = Picnic.extractBytes state offset length := by
  unfold extractBytes Picnic.extractBytes
  erd

@[er] theorem out_absorbBlocks (E : Env) (data : Buf) (rateInBytes dataByteLen : Nat) (x0 : Nat) (x1 : Nat)
    (x2 : Buf) :
    (absorbBlocks E data rateInBytes dataByteLen x0 x1 x2).out = Picnic.absorbBlocks E data rateInBytes dataByteLen x0 x1 x2 := by
  induction x0 generalizing x1 x2 with
  | zero => rfl
  | succ n ih => unfold absorbBlocks Picnic.absorbBlocks; simp only [ih, er]; erd

@[er] theorem out_absorbLoop (E : Env) (data : Buf) (rateInBytes dataByteLen : Nat) (x0 : Nat) (x1 : Nat)
    (x2 : HashInstance) :
    (absorbLoop E data rateInBytes dataByteLen x0 x1 x2).out = Picnic.absorbLoop E data rateInBytes dataByteLen x0 x1 x2 := by
  induction x0 generalizing x1 x2 with
  | zero => rfl
  | succ n ih => unfold absorbLoop Picnic.absorbLoop; simp only [ih, er]; erd

@[er] theorem out_spongeAbsorb (E : Env) (inst : HashInstance) (data : Buf) (dataByteLen : Nat) :
    (spongeAbsorb E inst data dataByteLen).out = Picnic.spongeAbsorb E inst data dataByteLen := by
  unfold spongeAbsorb Picnic.spongeAbsorb
  erd

@[er] theorem out_spongeAbsorbLastFewBits (E : Env) (inst : HashInstance) (delimitedData : Byte) :
    (spongeAbsorbLastFewBits E inst delimitedData).out = Picnic.spongeAbsorbLastFewBits E inst delimitedData := by
  unfold spongeAbsorbLastFewBits Picnic.spongeAbsorbLastFewBits
  erd

@[er] theorem out_squeezeBlocks (E : Env) (rateInBytes dataByteLen : Nat) (x0 : Nat) (x1 : Nat) (x2 : Buf)
    (x3 : Buf) :
    (squeezeBlocks E rateInBytes dataByteLen x0 x1 x2 x3).out = Picnic.squeezeBlocks E rateInBytes dataByteLen x0 x1 x2 x3 := by
  induction x0 generalizing x1 x2 x3 with
  | zero => rfl
  | succ n ih => unfold squeezeBlocks Picnic.squeezeBlocks; simp only [ih, er]; erd

@[er] theorem out_squeezeLoop (E : Env) (rateInBytes dataByteLen : Nat) (x0 : Nat) (x1 : Nat) (x2 : HashInstance)
    (x3 : Buf) :
    (squeezeLoop E rateInBytes dataByteLen x0 x1 x2 x3).out = Picnic.squeezeLoop E rateInBytes dataByteLen x0 x1 x2 x3 := by
  induction x0 generalizing x1 x2 x3 with
  | zero => rfl
  | succ n ih => unfold squeezeLoop Picnic.squeezeLoop; simp only [ih, er]; erd

@[er] theorem out_spongeSqueeze (E : Env) (inst : HashInstance) (dataByteLen : Nat) :
    (spongeSqueeze E inst dataByteLen).out = Picnic.spongeSqueeze E inst dataByteLen := by
  unfold spongeSqueeze Picnic.spongeSqueeze
  erd

@[er] theorem out_hashUpdate (E : Env) (ctx : HashInstance) (data : Buf) (byteLen : Nat) :
    (hashUpdate E ctx data byteLen).out = Picnic.hashUpdate E ctx data byteLen := by
  unfold hashUpdate Picnic.hashUpdate
  erd

@[er] theorem out_hashInit (E : Env) (P : Params) (hashPrefix : Byte) :
    (hashInit E P hashPrefix).out = Picnic.hashInit E P hashPrefix := by
  unfold hashInit Picnic.hashInit
  erd

@[er] theorem out_hashFinal (E : Env) (ctx : HashInstance) :
    (hashFinal E ctx).out = Picnic.hashFinal E ctx := by
  unfold hashFinal Picnic.hashFinal
  erd

@[er] theorem out_hashSqueeze (E : Env) (ctx : HashInstance) (byteLen : Nat) :
    (hashSqueeze E ctx byteLen).out = Picnic.hashSqueeze E ctx byteLen := by
  unfold hashSqueeze Picnic.hashSqueeze
  erd

@[er] theorem out_hashUpdateIntLE (E : Env) (ctx : HashInstance) (x : Nat) :
    (hashUpdateIntLE E ctx x).out = Picnic.hashUpdateIntLE E ctx x := by
  unfold hashUpdateIntLE Picnic.hashUpdateIntLE
  erd

@[er] theorem out_deref (p : Option α) : (deref p).out = Picnic.deref p := by
  cases p <;> rfl

@[er] theorem out_hashAll (E : Env) (P : Params) (hashPrefix : Byte) (parts : List (Buf × Nat)) (outLen : Nat) :
    (hashAll E P hashPrefix parts outLen).out = Picnic.hashAll E P hashPrefix parts outLen := by
  unfold hashAll Picnic.hashAll
  erd

@[er] theorem out_createRandomTape (E : Env) (P : Params) (seed salt : Buf) (roundNumber playerNumber : Nat)
    (tape : Buf) (tapeLengthBytes : Nat) :
    (createRandomTape E P seed salt roundNumber playerNumber tape tapeLengthBytes).out = Picnic.createRandomTape E P seed salt roundNumber playerNumber tape tapeLengthBytes := by
  unfold createRandomTape Picnic.createRandomTape
  erd

@[er] theorem out_mpcXor (state inp : List Buf) (len players : Nat) :
    (mpcXor state inp len players).out = Picnic.mpcXor state inp len players := by
  unfold mpcXor Picnic.mpcXor
  erd

@[er] theorem out_mpcXorConstant (state : List Buf) (inp : Buf) (len : Nat) :
    (mpcXorConstant state inp len).out = Picnic.mpcXorConstant state inp len := by
  unfold mpcXorConstant Picnic.mpcXorConstant
  erd

@[er] theorem out_mpcMatrixMul (E : Env) (P : Params) (tag : Nat) (output state : List Buf) (matrix : Buf)
    (players : Nat) :
    (mpcMatrixMul E P tag output state matrix players).out = Picnic.mpcMatrixMul E P tag output state matrix players := by
  unfold mpcMatrixMul Picnic.mpcMatrixMul
  erd

@[er] theorem out_mpcMatrixMulInPlace (E : Env) (P : Params) (tag : Nat) (state : List Buf) (matrix : Buf)
    (players : Nat) :
    (mpcMatrixMulInPlace E P tag state matrix players).out = Picnic.mpcMatrixMulInPlace E P tag state matrix players := by
  unfold mpcMatrixMulInPlace Picnic.mpcMatrixMulInPlace
  erd

@[er] theorem out_commitView (E : Env) (P : Params) (seed : Buf) (view : View) (hash : Buf) :
    (commitView E P seed view hash).out = Picnic.commitView E P seed view hash := by
  unfold commitView Picnic.commitView
  erd

@[er] theorem out_unruhG (E : Env) (P : Params) (viewNumber : Nat) (seed : Buf) (view : View) (output : Buf) :
    (unruhG E P viewNumber seed view output).out = Picnic.unruhG E P viewNumber seed view output := by
  unfold unruhG Picnic.unruhG
  erd

@[er] theorem out_setChallenge (challenge : Buf) (round : Nat) (trit : Byte) :
    (setChallenge challenge round trit).out = Picnic.setChallenge challenge round trit := by
  unfold setChallenge Picnic.setChallenge
  erd

@[er] theorem out_getChallenge (challenge : Buf) (round : Nat) :
    (getChallenge challenge round).out = Picnic.getChallenge challenge round := by
  unfold getChallenge Picnic.getChallenge
  erd

@[er] theorem out_h3Scan (P : Params) (hash : Buf) (st : H3State) :
    (h3Scan P hash st).out = Picnic.h3Scan P hash st := by
  unfold h3Scan Picnic.h3Scan
  erd

@[er] theorem out_h3Loop (E : Env) (P : Params) (x0 : Nat) (x1 : Buf) (x2 : H3State) :
    (h3Loop E P x0 x1 x2).out = Picnic.h3Loop E P x0 x1 x2 := by
  induction x0 generalizing x1 x2 with
  | zero => rfl
  | succ n ih => unfold h3Loop Picnic.h3Loop; simp only [ih, er]; erd

@[er] theorem out_hashUpdateTriples (E : Env) (ctx : HashInstance) (xs : List (List Buf)) (T : Nat)
    (len : Nat → Nat) :
    (hashUpdateTriples E ctx xs T len).out = Picnic.hashUpdateTriples E ctx xs T len := by
  unfold hashUpdateTriples Picnic.hashUpdateTriples
  erd

@[er] theorem out_H3 (E : Env) (P : Params) (circuitOutput plaintext : Buf) (viewOutputs as : List (List Buf))
    (challengeBits salt message : Buf) (messageByteLength : Nat) (gs : Option (List (List Buf))) :
    (H3 E P circuitOutput plaintext viewOutputs as challengeBits salt message messageByteLength gs).out = Picnic.H3 E P circuitOutput plaintext viewOutputs as challengeBits salt message messageByteLength gs := by
  unfold H3 Picnic.H3
  erd

@[er] theorem out_prove (P : Params) (proof : Proof) (challenge : Byte) (seeds : List Buf) (views : List View)
    (commitments : List Buf) (gs : Option (List Buf)) :
    (prove P proof challenge seeds views commitments gs).out = Picnic.prove P proof challenge seeds views commitments gs := by
  unfold prove Picnic.prove
  erd

@[er] theorem out_readSboxBits (state : List Buf) (i players : Nat) :
    (readSboxBits state i players).out = Picnic.readSboxBits state i players := by
  unfold readSboxBits Picnic.readSboxBits
  erd

@[er] theorem out_writeSboxBits (state : List Buf) (i players : Nat) (a b c ab bc ca : List Byte) :
    (writeSboxBits state i players a b c ab bc ca).out = Picnic.writeSboxBits state i players a b c ab bc ca := by
  unfold writeSboxBits Picnic.writeSboxBits
  erd

@[er] theorem out_setTape (tape : RandomTape) (j : Nat) (src : Buf) (soff n : Nat) :
    (setTape tape j src soff n).out = Picnic.setTape tape j src soff n := by
  unfold setTape Picnic.setTape
  erd

@[er] theorem out_createTapeInto (E : Env) (P : Params) (seed salt : Buf) (roundNumber playerNumber : Nat)
    (tape : RandomTape) (j len : Nat) :
    (createTapeInto E P seed salt roundNumber playerNumber tape j len).out = Picnic.createTapeInto E P seed salt roundNumber playerNumber tape j len := by
  unfold createTapeInto Picnic.createTapeInto
  erd

@[er] theorem out_mpcAND (in1 in2 : List Byte) (rand : RandomTape) (views : List View) :
    (mpcAND in1 in2 rand views).out = Picnic.mpcAND in1 in2 rand views := by
  unfold mpcAND Picnic.mpcAND
  erd

@[er] theorem out_mpcSubstitution (P : Params) (state : List Buf) (rand : RandomTape) (views : List View) :
    (mpcSubstitution P state rand views).out = Picnic.mpcSubstitution P state rand views := by
  unfold mpcSubstitution Picnic.mpcSubstitution
  erd

@[er] theorem out_mpcLowMC (E : Env) (P : Params) (tag : Nat) (tapes : RandomTape) (views : List View)
    (plaintext slab : Buf) :
    (mpcLowMC E P tag tapes views plaintext slab).out = Picnic.mpcLowMC E P tag tapes views plaintext slab := by
  unfold mpcLowMC Picnic.mpcLowMC
  erd

@[er] theorem out_computeSeeds (E : Env) (P : Params) (privateKey publicKey plaintext message : Buf)
    (messageByteLength : Nat) :
    (computeSeeds E P privateKey publicKey plaintext message messageByteLength).out = Picnic.computeSeeds E P privateKey publicKey plaintext message messageByteLength := by
  unfold computeSeeds Picnic.computeSeeds
  erd

@[er] theorem out_seedsOf (P : Params) (slab : Buf) (k : Nat) :
    (seedsOf P slab k).out = Picnic.seedsOf P slab k := by
  unfold seedsOf Picnic.seedsOf
  erd

@[er] theorem out_signTape (E : Env) (P : Params) (seed salt : Buf) (k j : Nat) (view : View) (tmp : Buf)
    (tape : RandomTape) :
    (signTape E P seed salt k j view tmp tape).out = Picnic.signTape E P seed salt k j view tmp tape := by
  unfold signTape Picnic.signTape
  erd

@[er] theorem out_signRound (E : Env) (P : Params) (privateKey pubKey plaintext salt slab : Buf) (k : Nat) :
    (signRound E P privateKey pubKey plaintext salt slab k).out = Picnic.signRound E P privateKey pubKey plaintext salt slab k := by
  unfold signRound Picnic.signRound
  erd

@[er] theorem out_collectOpt (f : Nat → M (Option α)) (n : Nat) :
    (collectOpt f n).out = Picnic.collectOpt (fun i => (f i).out) n := by
  induction n with
  | zero => rfl
  | succ n ih =>
    unfold collectOpt Picnic.collectOpt
    simp only [er, ih]
    ers

@[er] theorem out_signPicnic1 (E : Env) (P : Params) (privateKey pubKey plaintext message : Buf)
    (messageByteLength : Nat) (sig : Signature) :
    (signPicnic1 E P privateKey pubKey plaintext message messageByteLength sig).out = Picnic.signPicnic1 E P privateKey pubKey plaintext message messageByteLength sig := by
  unfold signPicnic1 Picnic.signPicnic1
  erd

@[er] theorem out_emit (out : Buf × Nat) (src : Buf) (n : Nat) :
    (emit out src n).out = Picnic.emit out src n := by
  unfold emit Picnic.emit
  erd

@[er] theorem out_serializeSignature (P : Params) (sig : Signature) (sigBytes : Buf) (sigBytesLen : Nat) :
    (serializeSignature P sig sigBytes sigBytesLen).out = Picnic.serializeSignature P sig sigBytes sigBytesLen := by
  unfold serializeSignature Picnic.serializeSignature
  erd

@[er] theorem out_containsNode (l : List Nat) (v : Nat) :
    (containsNode l v).out = pure (Picnic.containsNode l v) := by
  induction l with
  | nil => rfl
  | cons x l ih =>
    simp only [containsNode, er, ih, Picnic.containsNode, List.any_cons]
    by_cases h : x = v
    · simp [h]
    · rw [if_neg h, show (x == v) = false from by simpa using h, Bool.false_or]

@[er] theorem out_treeExists (tree : Tree) (i : Nat) :
    (treeExists tree i).out = Picnic.treeExists tree i := by
  unfold treeExists Picnic.treeExists
  erd

@[er] theorem out_createTree (numLeaves dataSize : Nat) :
    (createTree numLeaves dataSize).out = Picnic.createTree numLeaves dataSize := by
  unfold createTree Picnic.createTree
  erd

@[er] theorem out_isLeftChild (node : Nat) :
    (isLeftChild node).out = Picnic.isLeftChild node := by
  unfold isLeftChild Picnic.isLeftChild
  erd

@[er] theorem out_hasRightChild (tree : Tree) (node : Nat) :
    (hasRightChild tree node).out = Picnic.hasRightChild tree node := by
  unfold hasRightChild Picnic.hasRightChild
  erd

@[er] theorem out_getParent (node : Nat) :
    (getParent node).out = Picnic.getParent node := by
  unfold getParent Picnic.getParent
  erd

@[er] theorem out_getLeaf (tree : Tree) (leafIndex : Nat) :
    (getLeaf tree leafIndex).out = Picnic.getLeaf tree leafIndex := by
  unfold getLeaf Picnic.getLeaf
  erd

@[er] theorem out_hashSeed (E : Env) (P : Params) (inputSeed salt : Buf) (hashPrefix : Byte)
    (repIndex nodeIndex : Nat) :
    (hashSeed E P inputSeed salt hashPrefix repIndex nodeIndex).out = Picnic.hashSeed E P inputSeed salt hashPrefix repIndex nodeIndex := by
  unfold hashSeed Picnic.hashSeed
  erd

@[er] theorem out_setNode (tree : Tree) (i : Nat) (data : Buf) (off n : Nat) :
    (setNode tree i data off n).out = Picnic.setNode tree i data off n := by
  unfold setNode Picnic.setNode
  erd

@[er] theorem out_expandSeedsStep (E : Env) (P : Params) (salt : Buf) (repIndex : Nat) (i : Nat) (tree : Tree) :
    (expandSeedsStep E P salt repIndex i tree).out = Picnic.expandSeedsStep E P salt repIndex i tree := by
  unfold expandSeedsStep Picnic.expandSeedsStep
  erd

@[er] theorem out_expandSeeds (E : Env) (P : Params) (tree : Tree) (salt : Buf) (repIndex : Nat) :
    (expandSeeds E P tree salt repIndex).out = Picnic.expandSeeds E P tree salt repIndex := by
  unfold expandSeeds Picnic.expandSeeds
  erd

@[er] theorem out_generateSeeds (E : Env) (P : Params) (nSeeds : Nat) (rootSeed salt : Buf) (repIndex : Nat) :
    (generateSeeds E P nSeeds rootSeed salt repIndex).out = Picnic.generateSeeds E P nSeeds rootSeed salt repIndex := by
  unfold generateSeeds Picnic.generateSeeds
  erd

@[er] theorem out_hasSibling (tree : Tree) (node : Nat) :
    (hasSibling tree node).out = Picnic.hasSibling tree node := by
  unfold hasSibling Picnic.hasSibling
  erd

@[er] theorem out_getSibling (tree : Tree) (node : Nat) :
    (getSibling tree node).out = Picnic.getSibling tree node := by
  unfold getSibling Picnic.getSibling
  erd

@[er] theorem out_setPath (ps : PathSets) (pos i node : Nat) :
    (setPath ps pos i node).out = Picnic.setPath ps pos i node := by
  unfold setPath Picnic.setPath
  erd

@[er] theorem out_getPath (ps : PathSets) (d i : Nat) :
    (getPath ps d i).out = Picnic.getPath ps d i := by
  unfold getPath Picnic.getPath
  erd

@[er] theorem out_pathLoop (x0 : Nat) (x1 : Nat) (x2 : Nat) (x3 : Nat) (x4 : PathSets) :
    (pathLoop x0 x1 x2 x3 x4).out = Picnic.pathLoop x0 x1 x2 x3 x4 := by
  induction x0 generalizing x1 x2 x3 x4 with
  | zero => rfl
  | succ n ih => unfold pathLoop Picnic.pathLoop; simp only [ih, er]; erd

@[er] theorem out_pathContains (ps : PathSets) (d len value : Nat) :
    (pathContains ps d len value).out = Picnic.pathContains ps d len value := by
  unfold pathContains Picnic.pathContains
  erd

@[er] theorem out_descendLoop (tree : Tree) (x0 : Nat) (x1 : Nat) :
    (descendLoop tree x0 x1).out = Picnic.descendLoop tree x0 x1 := by
  induction x0 generalizing x1 with
  | zero => rfl
  | succ n ih => unfold descendLoop Picnic.descendLoop; simp only [ih, er]; erd

@[er] theorem out_addRevealed (tree : Tree) (revealed : List Nat) (node : Nat) :
    (addRevealed tree revealed node).out = Picnic.addRevealed tree revealed node := by
  unfold addRevealed Picnic.addRevealed
  erd

@[er] theorem out_getPathSets (tree : Tree) (hideList : List Nat) (hideListSize : Nat) :
    (getPathSets tree hideList hideListSize).out = Picnic.getPathSets tree hideList hideListSize := by
  unfold getPathSets Picnic.getPathSets
  erd

@[er] theorem out_revealStep (tree : Tree) (ps : PathSets) (hideListSize d i : Nat) (revealed : List Nat) :
    (revealStep tree ps hideListSize d i revealed).out = Picnic.revealStep tree ps hideListSize d i revealed := by
  unfold revealStep Picnic.revealStep
  erd

@[er] theorem out_getRevealedNodes (tree : Tree) (hideList : List Nat) (hideListSize : Nat) :
    (getRevealedNodes tree hideList hideListSize).out = Picnic.getRevealedNodes tree hideList hideListSize := by
  unfold getRevealedNodes Picnic.getRevealedNodes
  erd

@[er] theorem out_revealSeeds (P : Params) (tree : Tree) (hideList : List Nat) (hideListSize : Nat) (output : Buf)
    (outputSize : Nat) :
    (revealSeeds P tree hideList hideListSize output outputSize).out = Picnic.revealSeeds P tree hideList hideListSize output outputSize := by
  unfold revealSeeds Picnic.revealSeeds
  erd

@[er] theorem out_computeParentHash (E : Env) (P : Params) (tree : Tree) (child : Nat) (salt : Buf) :
    (computeParentHash E P tree child salt).out = Picnic.computeParentHash E P tree child salt := by
  unfold computeParentHash Picnic.computeParentHash
  erd

@[er] theorem out_setLeaves (tree : Tree) (leafData : List (Option Buf)) (check : Bool) :
    (setLeaves tree leafData check).out = Picnic.setLeaves tree leafData check := by
  unfold setLeaves Picnic.setLeaves
  erd

@[er] theorem out_hashUp (E : Env) (P : Params) (tree : Tree) (salt : Buf) :
    (hashUp E P tree salt).out = Picnic.hashUp E P tree salt := by
  unfold hashUp Picnic.hashUp
  erd

@[er] theorem out_buildMerkleTree (E : Env) (P : Params) (tree : Tree) (leafData : List (Option Buf)) (salt : Buf) :
    (buildMerkleTree E P tree leafData salt).out = Picnic.buildMerkleTree E P tree leafData salt := by
  unfold buildMerkleTree Picnic.buildMerkleTree
  erd

@[er] theorem out_missingNodesOf (tree : Tree) (missingLeaves : List Nat) (missingLeavesSize : Nat) :
    (missingNodesOf tree missingLeaves missingLeavesSize).out = Picnic.missingNodesOf tree missingLeaves missingLeavesSize := by
  unfold missingNodesOf Picnic.missingNodesOf
  erd

@[er] theorem out_climbLoop (missing : List Bool) (x0 : Nat) (x1 : Nat) :
    (climbLoop missing x0 x1).out = Picnic.climbLoop missing x0 x1 := by
  induction x0 generalizing x1 with
  | zero => rfl
  | succ n ih => unfold climbLoop Picnic.climbLoop; simp only [ih, er]; erd

@[er] theorem out_getRevealedMerkleNodes (tree : Tree) (missingLeaves : List Nat) (missingLeavesSize : Nat) :
    (getRevealedMerkleNodes tree missingLeaves missingLeavesSize).out = Picnic.getRevealedMerkleNodes tree missingLeaves missingLeavesSize := by
  unfold getRevealedMerkleNodes Picnic.getRevealedMerkleNodes
  erd

@[er] theorem out_openMerkleTree (E : Env) (tree : Tree) (missingLeaves : List Nat) (missingLeavesSize : Nat) :
    (openMerkleTree E tree missingLeaves missingLeavesSize).out = Picnic.openMerkleTree E tree missingLeaves missingLeavesSize := by
  unfold openMerkleTree Picnic.openMerkleTree
  erd

@[er] theorem out_createRandomTapes (E : Env) (P : Params) (seeds : List Buf) (salt : Buf) (t : Nat) :
    (createRandomTapes E P seeds salt t).out = Picnic.createRandomTapes E P seeds salt t := by
  unfold createRandomTapes Picnic.createRandomTapes
  erd

@[er] theorem out_tapesToWord (E : Env) (tapes : RandomTape) :
    (tapesToWord E tapes).out = Picnic.tapesToWord E tapes := by
  unfold tapesToWord Picnic.tapesToWord
  erd

@[er] theorem out_tapesToWords (E : Env) (numWords : Nat) (tapes : RandomTape) :
    (tapesToWords E numWords tapes).out = Picnic.tapesToWords E numWords tapes := by
  unfold tapesToWords Picnic.tapesToWords
  erd

@[er] theorem out_tapesToParityBits (E : Env) (output : Buf) (outputBitLen : Nat) (tapes : RandomTape) :
    (tapesToParityBits E output outputBitLen tapes).out = Picnic.tapesToParityBits E output outputBitLen tapes := by
  unfold tapesToParityBits Picnic.tapesToParityBits
  erd

@[er] theorem out_setTapeBit (tapes : RandomTape) (j bitNumber : Nat) (val : Byte) :
    (setTapeBit tapes j bitNumber val).out = Picnic.setTapeBit tapes j bitNumber val := by
  unfold setTapeBit Picnic.setTapeBit
  erd

@[er] theorem out_auxMpcAND (E : Env) (P : Params) (mask_a mask_b fresh_output_mask : Byte) (tapes : RandomTape) :
    (auxMpcAND E P mask_a mask_b fresh_output_mask tapes).out = Picnic.auxMpcAND E P mask_a mask_b fresh_output_mask tapes := by
  unfold auxMpcAND Picnic.auxMpcAND
  erd

@[er] theorem out_auxMpcSbox (E : Env) (P : Params) (inp out : Buf) (tapes : RandomTape) :
    (auxMpcSbox E P inp out tapes).out = Picnic.auxMpcSbox E P inp out tapes := by
  unfold auxMpcSbox Picnic.auxMpcSbox
  erd

@[er] theorem out_computeAuxTape (E : Env) (P : Params) (tag : Nat) (tapes : RandomTape) (inputs : Option Buf) :
    (computeAuxTape E P tag tapes inputs).out = Picnic.computeAuxTape E P tag tapes inputs := by
  unfold computeAuxTape Picnic.computeAuxTape
  erd

@[er] theorem out_commit (E : Env) (P : Params) (digest seed : Buf) (aux : Option Buf) (salt : Buf) (t j : Nat) :
    (commit E P digest seed aux salt t j).out = Picnic.commit E P digest seed aux salt t j := by
  unfold commit Picnic.commit
  erd

@[er] theorem out_commitH (E : Env) (P : Params) (digest : Buf) (C : List Buf) :
    (commitH E P digest C).out = Picnic.commitH E P digest C := by
  unfold commitH Picnic.commitH
  erd

@[er] theorem out_commitV (E : Env) (P : Params) (digest input : Buf) (msgs : Msgs) :
    (commitV E P digest input msgs).out = Picnic.commitV E P digest input msgs := by
  unfold commitV Picnic.commitV
  erd

@[er] theorem out_wordToMsgs (P : Params) (w : U16) (msgs : Msgs) :
    (wordToMsgs P w msgs).out = Picnic.wordToMsgs P w msgs := by
  unfold wordToMsgs Picnic.wordToMsgs
  erd

@[er] theorem out_mpcAND16 (E : Env) (P : Params) (a b : Byte) (mask_a mask_b : U16) (tapes : RandomTape)
    (msgs : Msgs) :
    (mpcAND16 E P a b mask_a mask_b tapes msgs).out = Picnic.mpcAND16 E P a b mask_a mask_b tapes msgs := by
  unfold mpcAND16 Picnic.mpcAND16
  cases h : msgs.unopened <;> simp only [er] <;> ers

@[er] theorem out_mpcSbox16 (E : Env) (P : Params) (state : Buf) (state_masks : List U16) (tapes : RandomTape)
    (msgs : Msgs) :
    (mpcSbox16 E P state state_masks tapes msgs).out = Picnic.mpcSbox16 E P state state_masks tapes msgs := by
  unfold mpcSbox16 Picnic.mpcSbox16
  erd

@[er] theorem out_containsU16 (list : List Nat) (len value : Nat) :
    (containsU16 list len value).out = Picnic.containsU16 list len value := by
  unfold containsU16 Picnic.containsU16
  erd

@[er] theorem out_indexOfU16 (list : List Nat) (len value : Nat) :
    (indexOfU16 list len value).out = Picnic.indexOfU16 list len value := by
  unfold indexOfU16 Picnic.indexOfU16
  erd

@[er] theorem out_getAuxBits (P : Params) (output : Buf) (tapes : RandomTape) :
    (getAuxBits P output tapes).out = Picnic.getAuxBits P output tapes := by
  unfold getAuxBits Picnic.getAuxBits
  erd

@[er] theorem out_simulateOnline (E : Env) (P : Params) (tag : Nat) (maskedKey : Buf) (tapes : RandomTape)
    (msgs : Msgs) (plaintext pubKey : Buf) :
    (simulateOnline E P tag maskedKey tapes msgs plaintext pubKey).out = Picnic.simulateOnline E P tag maskedKey tapes msgs plaintext pubKey := by
  unfold simulateOnline Picnic.simulateOnline
  erd

@[er] theorem out_bitsToChunks (chunkLenBits : Nat) (input : Buf) (inputLen cap : Nat) :
    (bitsToChunks chunkLenBits input inputLen cap).out = Picnic.bitsToChunks chunkLenBits input inputLen cap := by
  unfold bitsToChunks Picnic.bitsToChunks
  erd

@[er] theorem out_appendUnique (cap : Nat) (list : List Nat) (value : Nat) :
    (appendUnique cap list value).out = Picnic.appendUnique cap list value := by
  unfold appendUnique Picnic.appendUnique
  erd

@[er] theorem out_rehash (E : Env) (P : Params) (h : Buf) :
    (rehash E P h).out = Picnic.rehash E P h := by
  unfold rehash Picnic.rehash
  erd

@[er] theorem out_scanC (P : Params) (chunks : List Nat) (challengeC : List Nat) :
    (scanC P chunks challengeC).out = Picnic.scanC P chunks challengeC := by
  unfold scanC Picnic.scanC
  erd

@[er] theorem out_fillC (E : Env) (P : Params) (bits cap : Nat) (x0 : Nat) (x1 : Buf) (x2 : List Nat) :
    (fillC E P bits cap x0 x1 x2).out = Picnic.fillC E P bits cap x0 x1 x2 := by
  induction x0 generalizing x1 x2 with
  | zero => simp only [fillC, Picnic.fillC, er]
  | succ n ih => unfold fillC Picnic.fillC; simp only [ih, er]; erd

@[er] theorem out_scanP (P : Params) (chunks : List Nat) (challengeP : List Nat) :
    (scanP P chunks challengeP).out = Picnic.scanP P chunks challengeP := by
  unfold scanP Picnic.scanP
  erd

@[er] theorem out_fillP (E : Env) (P : Params) (bits cap : Nat) (x0 : Nat) (x1 : Buf) (x2 : List Nat) :
    (fillP E P bits cap x0 x1 x2).out = Picnic.fillP E P bits cap x0 x1 x2 := by
  induction x0 generalizing x1 x2 with
  | zero => simp only [fillP, Picnic.fillP, er]
  | succ n ih => unfold fillP Picnic.fillP; simp only [ih, er]; erd

@[er] theorem out_expandChallengeHash (E : Env) (P : Params) (challengeHash : Buf) :
    (expandChallengeHash E P challengeHash).out = Picnic.expandChallengeHash E P challengeHash := by
  unfold expandChallengeHash Picnic.expandChallengeHash
  erd

@[er] theorem out_HCPhash (E : Env) (P : Params) (challengeHash : Buf) (Ch : List Buf)
    (hCv salt pubKey plaintext message : Buf) (messageByteLength : Nat) :
    (HCPhash E P challengeHash Ch hCv salt pubKey plaintext message messageByteLength).out = Picnic.HCPhash E P challengeHash Ch hCv salt pubKey plaintext message messageByteLength := by
  unfold HCPhash Picnic.HCPhash
  erd

@[er] theorem out_getMissingLeavesList (P : Params) (challengeC : List Nat) :
    (getMissingLeavesList P challengeC).out = Picnic.getMissingLeavesList P challengeC := by
  unfold getMissingLeavesList Picnic.getMissingLeavesList
  erd

@[er] theorem out_commitInto (E : Env) (P : Params) (C : List Buf) (seeds : Tree) (aux : Option Buf) (salt : Buf)
    (t j : Nat) :
    (commitInto E P C seeds aux salt t j).out = Picnic.commitInto E P C seeds aux salt t j := by
  unfold commitInto Picnic.commitInto
  erd

@[er] theorem out_computeSaltAndRootSeed (E : Env) (P : Params) (saltAndRoot : Buf) (saltAndRootLength : Nat)
    (privateKey pubKey plaintext message : Buf) (messageByteLength : Nat) :
    (computeSaltAndRootSeed E P saltAndRoot saltAndRootLength privateKey pubKey plaintext message messageByteLength).out = Picnic.computeSaltAndRootSeed E P saltAndRoot saltAndRootLength privateKey pubKey plaintext message messageByteLength := by
  unfold computeSaltAndRootSeed Picnic.computeSaltAndRootSeed
  erd

@[er] theorem out_signPrep (E : Env) (P : Params) (iSeedsTree : Tree) (salt : Buf) (t : Nat) :
    (signPrep E P iSeedsTree salt t).out = Picnic.signPrep E P iSeedsTree salt t := by
  unfold signPrep Picnic.signPrep
  erd

@[er] theorem out_signOnline (E : Env) (P : Params) (p : Prep) (privateKey pubKey plaintext : Buf) (t : Nat) :
    (signOnline E P p privateKey pubKey plaintext t).out = Picnic.signOnline E P p privateKey pubKey plaintext t := by
  unfold signOnline Picnic.signOnline
  erd

@[er] theorem out_signProof (E : Env) (P : Params) (challengeC challengeP : List Nat) (p : Prep) (maskedKey : Buf)
    (msgs : Msgs) (t : Nat) :
    (signProof E P challengeC challengeP p maskedKey msgs t).out = Picnic.signProof E P challengeC challengeP p maskedKey msgs t := by
  unfold signProof Picnic.signProof
  erd

@[er] theorem out_signPicnic3 (E : Env) (P : Params) (privateKey pubKey plaintext message : Buf)
    (messageByteLength : Nat) (sig : Signature2) :
    (signPicnic3 E P privateKey pubKey plaintext message messageByteLength sig).out = Picnic.signPicnic3 E P privateKey pubKey plaintext message messageByteLength sig := by
  unfold signPicnic3 Picnic.signPicnic3
  erd

@[er] theorem out_proofsSize (P : Params) (challengeC challengeP : List Nat) (seedInfoLen : Nat → M Nat) (start : Nat) :
    (proofsSize P challengeC challengeP seedInfoLen start).out =
      Picnic.proofsSize P challengeC challengeP (fun t => (seedInfoLen t).out) start := by
  unfold proofsSize Picnic.proofsSize
  ers

@[er] theorem out_serializeSignature2 (P : Params) (sig : Signature2) (sigBytes : Buf) (sigBytesLen : Nat) :
    (serializeSignature2 P sig sigBytes sigBytesLen).out = Picnic.serializeSignature2 P sig sigBytes sigBytesLen := by
  unfold serializeSignature2 Picnic.serializeSignature2
  erd

@[er] theorem out_picnicKeygen (E : Env) (rng : Rng) (parameters : Nat) (pk : Option PublicKey)
    (sk : Option PrivateKey) :
    (picnicKeygen E rng parameters pk sk).out = Picnic.picnicKeygen E rng parameters pk sk := by
  unfold picnicKeygen Picnic.picnicKeygen
  rw [out_ite]
  refine if_congr Iff.rfl rfl ?_
  rw [out_bind, out_note, ok_bind']
  cases pk with
  | none => rfl
  | some pk =>
    cases sk with
    | none => rfl
    | some sk =>
      cases getParamSet parameters with
      | none => rfl
      | some P =>
        simp only [er]
        cases rng 0 P.stateSizeBytes with
        | none => rfl
        | some r =>
          simp only [er]
          refine bind_ext rfl fun d => bind_ext rfl fun d => ?_
          cases rng 1 P.stateSizeBytes with
          | none => rfl
          | some r => simp only [er]

@[er] theorem out_picnicSign (E : Env) (sk : Option PrivateKey) (message : Buf) (message_len : Nat)
    (signature : Buf) (signature_len : Nat) :
    (picnicSign E sk message message_len signature signature_len).out = Picnic.picnicSign E sk message message_len signature signature_len := by
  unfold picnicSign Picnic.picnicSign
  rw [out_bind, out_deref]
  refine bind_ext rfl fun sk => ?_
  rw [out_bind, out_note, ok_bind']
  cases getParamSet sk.params with
  | none => rfl
  | some P =>
    simp only [er]
    refine if_congr Iff.rfl (bind_ext rfl fun s => ?_) (bind_ext rfl fun s => ?_)
    · cases s with
      | none => rfl
      | some s =>
        simp only [er]
        refine bind_ext rfl fun r => ?_
        cases r <;> rfl
    · cases s with
      | none => rfl
      | some s =>
        simp only [er]
        refine bind_ext rfl fun r => ?_
        cases r <;> rfl

@[er] theorem out_picnicWritePrivateKey (key : Option PrivateKey) (buf : Option Buf) (buflen : Nat) :
    (picnicWritePrivateKey key buf buflen).out = Picnic.picnicWritePrivateKey key buf buflen := by
  unfold picnicWritePrivateKey Picnic.picnicWritePrivateKey
  simp only [er]
  cases key with
  | none => rfl
  | some key =>
    cases buf with
    | none => rfl
    | some buf =>
      simp only [er]
      cases getParamSet key.params with
      | none => rfl
      | some P => simp only [er]

@[er] theorem out_picnicReadPrivateKey (key : Option PrivateKey) (buf : Option Buf) (buflen : Nat) :
    (picnicReadPrivateKey key buf buflen).out = Picnic.picnicReadPrivateKey key buf buflen := by
  unfold picnicReadPrivateKey Picnic.picnicReadPrivateKey
  simp only [er]
  cases key with
  | none => rfl
  | some key =>
    cases buf with
    | none => rfl
    | some buf =>
      simp only [er]
      refine if_congr Iff.rfl rfl (bind_ext rfl fun b => if_congr Iff.rfl rfl (bind_ext rfl fun b => ?_))
      cases getParamSet b.toNat with
      | none => rfl
      | some P =>
        simp only [er]
        ersp

@[er] theorem out_picnicValidateKeypair (E : Env) (privatekey : Option PrivateKey) (publickey : Option PublicKey) :
    (picnicValidateKeypair E privatekey publickey).out = Picnic.picnicValidateKeypair E privatekey publickey := by
  unfold picnicValidateKeypair Picnic.picnicValidateKeypair
  rw [out_bind, out_deref]
  refine bind_ext rfl fun pk => ?_
  rw [out_bind, out_note, ok_bind']
  cases getParamSet pk.params with
  | none => rfl
  | some P =>
    simp only [er]
    cases privatekey with
    | none => rfl
    | some sk => ersp

end Picnic.Leak
