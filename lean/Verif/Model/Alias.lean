import Verif.Model.Align

/-
The objects that the accesses of Model/Align touch: their sizes and declared types (/repo/picnic_types.c, /repo/picnic_impl.c, /repo/picnic3_impl.c,
/repo/picnic.h).

Simplifications: every object has a place of its own (memory that is freed is not given out again); `memcpy` does not carry the type of its source to its
destination; the tables of constants are `uint32_t` arrays as /repo/lowmc_constants.h:27-37 says.
-/

namespace Picnic.Align

/-- The types of the accesses and declarations: `uint8_t`, `uint32_t`, pointers. -/
inductive Ty where
  | byte | word | ptr
  deriving DecidableEq, Repr

/-- The type of an access of Model/Align: it lists `uint32_t` (4 bytes) and pointers (8 bytes). -/
def Access.ty (a : Access) : Ty := if a.size = 4 then .word else .ptr

/-- The objects: allocated storage, automatic arrays, tables of constants, the caller's key structures, and the array `ciphertext` of
`picnic_validate_keypair`. -/
inductive Obj where
  | heap (s : Site) (ix : List Nat)
  | auto (a : Auto)
  | kMat (r : Nat)
  | kMatInv (r : Nat)
  | lMat (r : Nat)
  | lMatInv (r : Nat)
  | rConst (r : Nat)
  | pk
  | sk
  | bytes
  deriving DecidableEq, Repr

/-- Where an object begins. -/
def Obj.base (L : Layout) : Obj → Nat
  | heap s ix => L.heap s ix
  | auto a => L.auto a
  | kMat r => L.kMat r
  | kMatInv r => L.kMatInv r
  | lMat r => L.lMat r
  | lMatInv r => L.lMatInv r
  | rConst r => L.rConst r
  | pk => L.pk
  | sk => L.sk
  | bytes => L.bytes

/-- The sizes requested from the allocator. -/
def Site.bytes (P : Params) : Site → Nat
  /- /repo/picnic_types.c:36, :38 -/
  | .viewInput => P.stateSizeBytes
  | .viewOutput => P.stateSizeBytes
  /- /repo/picnic_impl.c:632 (verification; signing allocates 9 * stateSizeBytes, :888) -/
  | .tmp => if P.numMPCParties = 3 then max (9 * P.stateSizeBytes) (P.stateSizeBytes + P.andSizeBytes) else 0
  /- /repo/picnic_impl.c:642 -/
  | .view3Slab => P.stateSizeBytes * P.numMPCRounds
  /- /repo/picnic_types.c:81 -/
  | .proofInput => P.stateSizeBytes
  /- /repo/picnic_types.c:271 -/
  | .inputs => P.numMPCRounds * (P.stateSizeWords * 4 + 8)
  /- /repo/picnic_types.c:220-221 -/
  | .commitments => P.numMPCRounds * (P.numMPCParties * P.digestSizeBytes + P.numMPCParties * 8)
  /- /repo/picnic_types.c:248 -/
  | .commitments2 => P.numMPCRounds * P.digestSizeBytes + P.numMPCRounds * 8
  /- /repo/picnic_types.c:294-295 -/
  | .msgs => P.numMPCRounds * (P.numMPCParties * P.andSizeBytes + P.numMPCParties * 8)
  /- /repo/picnic_types.c:176 -/
  | .seeds => P.numMPCRounds * P.numMPCParties * 8 + 8 + P.numMPCRounds * 8

/-- Sizes of the objects: `LOWMC_MAX_WORDS` (/repo/lowmc_constants.h:21) words for the automatic arrays, one row of words for each bit of the state in a matrix,
/repo/picnic.h:60-71 for the keys, `uint8_t ciphertext[PICNIC_MAX_LOWMC_BLOCK_SIZE]` (/repo/picnic.c:614). -/
def Obj.bytes' (P : Params) : Obj → Nat
  | heap s _ => s.bytes P
  | auto _ => 64
  | kMat _ => P.stateSizeBits * P.stateSizeWords * 4
  | kMatInv _ => P.stateSizeBits * P.stateSizeWords * 4
  | lMat _ => P.stateSizeBits * P.stateSizeWords * 4
  | lMatInv _ => P.stateSizeBits * P.stateSizeWords * 4
  | rConst _ => P.stateSizeWords * 4
  | pk => 4 + PICNIC_MAX_LOWMC_BLOCK_SIZE + PICNIC_MAX_LOWMC_BLOCK_SIZE
  | sk => 4 + PICNIC_MAX_LOWMC_BLOCK_SIZE + (4 + PICNIC_MAX_LOWMC_BLOCK_SIZE + PICNIC_MAX_LOWMC_BLOCK_SIZE)
  | bytes => PICNIC_MAX_LOWMC_BLOCK_SIZE

/-- Byte `x` belongs to the object. -/
def Obj.Has (L : Layout) (P : Params) (o : Obj) (x : Nat) : Prop := o.base L ≤ x ∧ x < o.base L + o.bytes' P

/-- Byte `x` belongs to one of the arrays `plaintext`, `ciphertext`, `data` of the key structures (/repo/picnic.h:60-71). -/
def KeyArray (L : Layout) (x : Nat) : Prop :=
  (pkPlaintext L.pk ≤ x ∧ x < pkPlaintext L.pk + PICNIC_MAX_LOWMC_BLOCK_SIZE) ∨
  (pkCiphertext L.pk ≤ x ∧ x < pkCiphertext L.pk + PICNIC_MAX_LOWMC_BLOCK_SIZE) ∨
  (skData L.sk ≤ x ∧ x < skData L.sk + PICNIC_MAX_LOWMC_BLOCK_SIZE) ∨
  (pkPlaintext (skPk L.sk) ≤ x ∧ x < pkPlaintext (skPk L.sk) + PICNIC_MAX_LOWMC_BLOCK_SIZE) ∨
  (pkCiphertext (skPk L.sk) ≤ x ∧ x < pkCiphertext (skPk L.sk) + PICNIC_MAX_LOWMC_BLOCK_SIZE)

/-- The declared type of byte `x`: `uint32_t` for the automatic arrays and the constants, `uint8_t` for `ciphertext` of `picnic_validate_keypair` and, if the caller's
keys are variables (`vars`) and not allocated storage, for their arrays. -/
def Declared (L : Layout) (P : Params) (vars : Bool) (x : Nat) : Ty → Prop
  | .word => (∃ a, (Obj.auto a).Has L P x) ∨ (∃ r, (Obj.kMat r).Has L P x ∨ (Obj.kMatInv r).Has L P x ∨ (Obj.lMat r).Has L P x ∨
      (Obj.lMatInv r).Has L P x ∨ (Obj.rConst r).Has L P x)
  | .byte => (Obj.bytes).Has L P x ∨ (vars = true ∧ KeyArray L x)
  | .ptr => False

end Picnic.Align
