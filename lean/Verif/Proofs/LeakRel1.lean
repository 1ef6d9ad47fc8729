import Verif.Proofs.LeakRel

/-
The functions of LowMC and of the hash in two runs.
-/

namespace Picnic.Leak

/-- Two environments: permutation and uninitialised memory may be different, the public tables and the number of
iterations granted to the rejection sampling agree. -/
structure EnvRel (E E' : Env) : Prop where
  perm : PermWF E
  perm' : PermWF E'
  lowmc : E.lowmc = E'.lowmc
  fuel : E.fuel = E'.fuel

@[lw] theorem junk_len (E : Env) (s i n : Nat) : (E.junkBuf s i n).length = n := by simp [Env.junkBuf]

macro "prep" : tactic => `(tactic| (
  try subst_vars
  try casesm* _ × _, Option _, HashInstance, Tree
  all_goals
    try simp only [lw, Option.some.injEq] at *
    try casesm* _ ∧ _
    try subst_vars
    try dsimp only))

theorem rel_getBit {array array' : Buf} {bitNumber bitNumber' : Nat} (h_array : le array array')
    (h_bitNumber : bitNumber = bitNumber') :
    Rel le (getBit array bitNumber) (getBit array' bitNumber') := by
  unfold getBit
  prep <;> rel

theorem rel_setBit {bytes bytes' : Buf} {bitNumber bitNumber' : Nat} {val val' : Byte} (h_bytes : le bytes bytes')
    (h_bitNumber : bitNumber = bitNumber') :
    Rel le (setBit bytes bitNumber val) (setBit bytes' bitNumber' val') := by
  unfold setBit
  prep <;> rel

theorem rel_zeroTrailingBits {data data' : Buf} {bitLength bitLength' : Nat} (h_data : le data data')
    (h_bitLength : bitLength = bitLength') :
    Rel le (zeroTrailingBits data bitLength) (zeroTrailingBits data' bitLength') := by
  unfold zeroTrailingBits
  prep <;> rel

theorem rel_arePaddingBitsZero {data data' : Buf} {bitLength bitLength' : Nat} (h_data : le data data')
    (h_bitLength : bitLength = bitLength') :
    Rel le (arePaddingBitsZero data bitLength) (arePaddingBitsZero data' bitLength') := by
  unfold arePaddingBitsZero
  prep <;> rel

theorem rel_xorArray {out out' : Buf} {in1 in1' : Buf} {in2 in2' : Buf} {length length' : Nat}
    (h_out : le out out') (h_in1 : le in1 in1') (h_in2 : le in2 in2') (h_length : length = length') :
    Rel le (xorArray out in1 in2 length) (xorArray out' in1' in2' length') := by
  unfold xorArray
  prep <;> rel

theorem rel_xorThree {output output' : Buf} {in1 in1' : Buf} {in2 in2' : Buf} {in3 in3' : Buf}
    {lenBytes lenBytes' : Nat} (h_output : le output output') (h_in1 : le in1 in1') (h_in2 : le in2 in2')
    (h_in3 : le in3 in3') (h_lenBytes : lenBytes = lenBytes') :
    Rel le (xorThree output in1 in2 in3 lenBytes) (xorThree output' in1' in2' in3' lenBytes') := by
  unfold xorThree
  prep <;> rel

theorem rel_parityWords {data data' : Buf} {len len' : Nat} (h_data : le data data') (h_len : len = len') :
    Rel le (parityWords data len) (parityWords data' len') := by
  unfold parityWords
  prep <;> rel

theorem rel_matrixRow {state state' : Buf} {matrix matrix' : Buf} {P : Params} {i i' : Nat}
    (h_state : le state state') (h_matrix : le matrix matrix') (h_i : i = i') :
    Rel le (matrixRow state matrix P i) (matrixRow state' matrix' P i') := by
  unfold matrixRow
  prep <;> rel

theorem rel_matrixMul {temp temp' : Buf} {output output' : Buf} {state state' : Buf} {matrix matrix' : Buf}
    {P : Params} (h_temp : le temp temp') (h_output : le output output') (h_state : le state state')
    (h_matrix : le matrix matrix') :
    Rel le (matrixMul temp output state matrix P) (matrixMul temp' output' state' matrix' P) := by
  unfold matrixMul
  prep <;> rel

theorem rel_substitution {state state' : Buf} {P : Params} (h_state : le state state') :
    Rel le (substitution state P) (substitution state' P) := by
  unfold substitution
  prep <;> rel

theorem rel_lowMCEnc {E E' : Env} {P : Params} {plaintext plaintext' : Buf} {output output' : Buf}
    {key key' : Buf} (hE : EnvRel E E') (h_plaintext : le plaintext plaintext') (h_output : le output output')
    (h_key : le key key') :
    Rel le (lowMCEnc E P plaintext output key) (lowMCEnc E' P plaintext' output' key') := by
  unfold lowMCEnc
  rw [hE.lowmc]
  prep
  rel

/-! ### the sponge -/

/-- two states of the permutation -/
def St (a b : Buf) : Prop := a.length = 200 ∧ b.length = 200

@[lw] theorem st_iff (a b : Buf) : St a b ↔ a.length = 200 ∧ b.length = 200 := Iff.rfl

theorem St.le {a b : Buf} (h : St a b) : le a b := by rw [le_buf, h.1, h.2]

theorem rel_permute {E E' : Env} {state state' : Buf} (hE : EnvRel E E') (h : St state state') :
    Rel St (permute E state) (permute E' state') :=
  rel_bind rel_tell fun _ _ _ => rel_pure ⟨hE.perm _ h.1, hE.perm' _ h.2⟩

theorem rel_wrSt {a b : Buf} {i j : Nat} {x y : Byte} (h : St a b) (hi : i = j) : Rel St (wr a i x) (wr b j y) := by
  subst hi
  refine rel_bind' rel_tell fun _ _ _ => ?_
  rw [h.1, h.2]
  split
  · exact rel_ok ⟨by simpa using h.1, by simpa using h.2⟩
  · exact rel_ub

theorem rel_addByte {state state' : Buf} {byte byte' : Byte} {offset offset' : Nat} (h : St state state')
    (ho : offset = offset') : Rel St (addByte state byte offset) (addByte state' byte' offset') := by
  subst ho
  exact rel_bind (rel_assertM rfl) fun _ _ _ => rel_bind (rel_rd h.le rfl) fun _ _ _ => rel_wrSt h rfl

theorem rel_addBytes {state state' data data' : Buf} {doff doff' offset offset' length length' : Nat} (h : St state state')
    (hd : le data data') (h1 : doff = doff') (h2 : offset = offset') (h3 : length = length') :
    Rel St (addBytes state data doff offset length) (addBytes state' data' doff' offset' length') := by
  subst h1 h2 h3
  refine rel_bind (rel_assertM rfl) fun _ _ _ => rel_bind (rel_assertM rfl) fun _ _ _ => rel_loopR St rfl ?_ h
  intro i _ s t hst
  exact rel_bind (rel_rd hst.le rfl) fun _ _ _ => rel_bind (rel_rd hd rfl) fun _ _ _ => rel_wrSt hst rfl

theorem rel_absorbBlocks {E E' : Env} {data data' : Buf} {rate rate' len len' : Nat} {n i i' : Nat} {state state' : Buf}
    (hE : EnvRel E E') (hd : le data data') (hr : rate = rate') (hl : len = len') (hi : i = i') (h : St state state') :
    Rel (fun a b => St a.1 b.1 ∧ a.2 = b.2) (absorbBlocks E data rate len n i state) (absorbBlocks E' data' rate' len' n i' state') := by
  subst hr hl
  induction n generalizing i i' state state' with
  | zero => exact rel_diverge
  | succ n ih =>
    subst hi
    refine rel_ite Iff.rfl (fun _ _ => ?_) fun _ _ => rel_pure ⟨h, rfl⟩
    refine rel_bind (rel_addBytes h hd rfl rfl rfl) fun _ _ h => rel_bind (rel_permute hE h) fun _ _ h => ih rfl h

theorem rel_squeezeBlocks {E E' : Env} {rate rate' len len' : Nat} {n i i' : Nat} {state state' out out' : Buf}
    (hE : EnvRel E E') (hr : rate = rate') (hl : len = len') (hi : i = i') (h : St state state') (ho : le out out') :
    Rel (fun a b => St a.1 b.1 ∧ le a.2.1 b.2.1 ∧ a.2.2 = b.2.2) (squeezeBlocks E rate len n i state out)
      (squeezeBlocks E' rate' len' n i' state' out') := by
  subst hr hl
  induction n generalizing i i' state state' out out' with
  | zero => exact rel_diverge
  | succ n ih =>
    subst hi
    refine rel_ite Iff.rfl (fun _ _ => ?_) fun _ _ => rel_pure ⟨h, ho, rfl⟩
    refine rel_bind (rel_permute hE h) fun _ _ h => ?_
    refine rel_bind (R := le) ?_ fun _ _ hb => ih rfl h (le_append ho hb)
    exact rel_bind (rel_assertM rfl) fun _ _ _ => rel_bind (rel_assertM rfl) fun _ _ _ => rel_rdN h.le rfl rfl

@[lw] theorem le_init (r h r' h' : Nat) (d : Byte) :
    le (keccakHashInitialize r h d) (keccakHashInitialize r' h' d) ↔ r = r' ∧ h = h' := by
  simp only [lw, keccakHashInitialize, zeros, List.length_replicate, and_self, true_and, and_true]

theorem le_init2 (c : Prop) [Decidable c] :
    le (if c then keccakHashInitialize 1344 0 0x1F else keccakHashInitialize 1088 0 0x1F)
      (if c then keccakHashInitialize 1344 0 0x1F else keccakHashInitialize 1088 0 0x1F) := by
  split <;> rw [le_init] <;> exact ⟨rfl, rfl⟩

theorem rel_extractBytes {state state' : Buf} {offset offset' : Nat} {length length' : Nat}
    (h_state : le state state') (h_offset : offset = offset') (h_length : length = length') :
    Rel le (extractBytes state offset length) (extractBytes state' offset' length') := by
  unfold extractBytes
  prep <;> rel

theorem rel_absorbLoop {E E' : Env} {data data' : Buf} {rateInBytes rateInBytes' : Nat}
    {dataByteLen dataByteLen' : Nat} {x0 : Nat} {x1 x1' : Nat} {x2 x2' : HashInstance} (hE : EnvRel E E')
    (h_data : le data data') (h_rateInBytes : rateInBytes = rateInBytes')
    (h_dataByteLen : dataByteLen = dataByteLen') (h_x1 : x1 = x1') (h_x2 : le x2 x2') :
    Rel le (absorbLoop E data rateInBytes dataByteLen x0 x1 x2) (absorbLoop E' data' rateInBytes' dataByteLen' x0 x1' x2') := by
  induction x0 generalizing x1 x1' x2 x2' with
  | zero =>
    unfold absorbLoop
    prep <;> rel
  | succ n ih =>
    unfold absorbLoop
    prep <;> rel

theorem rel_spongeAbsorb {E E' : Env} {inst inst' : HashInstance} {data data' : Buf}
    {dataByteLen dataByteLen' : Nat} (hE : EnvRel E E') (h_inst : le inst inst') (h_data : le data data')
    (h_dataByteLen : dataByteLen = dataByteLen') :
    Rel le (spongeAbsorb E inst data dataByteLen) (spongeAbsorb E' inst' data' dataByteLen') := by
  unfold spongeAbsorb
  prep <;> rel

theorem rel_spongeAbsorbLastFewBits {E E' : Env} {inst inst' : HashInstance} {delimitedData delimitedData' : Byte}
    (hE : EnvRel E E') (h_inst : le inst inst') (h_delimitedData : delimitedData = delimitedData') :
    Rel le (spongeAbsorbLastFewBits E inst delimitedData) (spongeAbsorbLastFewBits E' inst' delimitedData') := by
  unfold spongeAbsorbLastFewBits
  prep
  refine rel_ite Iff.rfl (fun _ _ => by rel) fun _ _ => rel_ite Iff.rfl (fun _ _ => by rel) fun _ _ => ?_
  refine rel_bind (rel_addByte ⟨by assumption, by assumption⟩ rfl) fun _ _ h => rel_bind (rel_note rfl) fun _ _ _ => ?_
  refine rel_bind (R := St) (rel_ite Iff.rfl (fun _ _ => rel_permute hE h) fun _ _ => rel_pure h) fun _ _ h => ?_
  prep
  rel

theorem rel_squeezeLoop {E E' : Env} {rateInBytes rateInBytes' : Nat} {dataByteLen dataByteLen' : Nat} {x0 : Nat}
    {x1 x1' : Nat} {x2 x2' : HashInstance} {x3 x3' : Buf} (hE : EnvRel E E')
    (h_rateInBytes : rateInBytes = rateInBytes') (h_dataByteLen : dataByteLen = dataByteLen') (h_x1 : x1 = x1')
    (h_x2 : le x2 x2') (h_x3 : le x3 x3') :
    Rel le (squeezeLoop E rateInBytes dataByteLen x0 x1 x2 x3) (squeezeLoop E' rateInBytes' dataByteLen' x0 x1' x2' x3') := by
  induction x0 generalizing x1 x1' x2 x2' x3 x3' with
  | zero =>
    unfold squeezeLoop
    prep <;> rel
  | succ n ih =>
    unfold squeezeLoop
    prep <;> rel

theorem rel_spongeSqueeze {E E' : Env} {inst inst' : HashInstance} {dataByteLen dataByteLen' : Nat}
    (hE : EnvRel E E') (h_inst : le inst inst') (h_dataByteLen : dataByteLen = dataByteLen') :
    Rel le (spongeSqueeze E inst dataByteLen) (spongeSqueeze E' inst' dataByteLen') := by
  unfold spongeSqueeze
  prep <;> rel

theorem rel_hashUpdate {E E' : Env} {ctx ctx' : HashInstance} {data data' : Buf} {byteLen byteLen' : Nat}
    (hE : EnvRel E E') (h_ctx : le ctx ctx') (h_data : le data data') (h_byteLen : byteLen = byteLen') :
    Rel le (hashUpdate E ctx data byteLen) (hashUpdate E' ctx' data' byteLen') := by
  unfold hashUpdate
  prep <;> rel

theorem rel_hashInit {E E' : Env} {P : Params} {hashPrefix hashPrefix' : Byte} (hE : EnvRel E E')
    (h_hashPrefix : hashPrefix = hashPrefix') :
    Rel le (hashInit E P hashPrefix) (hashInit E' P hashPrefix') := by
  unfold hashInit
  have hc := le_init2 (P.stateSizeBits = 128 ∨ P.stateSizeBits = 129)
  generalize (if P.stateSizeBits = 128 ∨ P.stateSizeBits = 129 then keccakHashInitialize 1344 0 0x1F
      else keccakHashInitialize 1088 0 0x1F) = ctx at hc ⊢
  prep
  rel

theorem rel_hashFinal {E E' : Env} {ctx ctx' : HashInstance} (hE : EnvRel E E') (h_ctx : le ctx ctx') :
    Rel le (hashFinal E ctx) (hashFinal E' ctx') := by
  unfold hashFinal
  prep <;> rel

theorem rel_hashSqueeze {E E' : Env} {ctx ctx' : HashInstance} {byteLen byteLen' : Nat} (hE : EnvRel E E')
    (h_ctx : le ctx ctx') (h_byteLen : byteLen = byteLen') :
    Rel le (hashSqueeze E ctx byteLen) (hashSqueeze E' ctx' byteLen') := by
  unfold hashSqueeze
  prep <;> rel

theorem rel_hashUpdateIntLE {E E' : Env} {ctx ctx' : HashInstance} {x x' : Nat} (hE : EnvRel E E')
    (h_ctx : le ctx ctx') (h_x : x = x') :
    Rel le (hashUpdateIntLE E ctx x) (hashUpdateIntLE E' ctx' x') := by
  unfold hashUpdateIntLE
  prep <;> rel

end Picnic.Leak
