import Verif.Proofs.LowMCTables
import Verif.Props.ZkbSign
import Verif.Props.P3Sign
import Verif.Props.LowMC

/-
C78: the LowMC constants of the Picnic specification have the properties that the other theorems assume, and they belong to the keys of the project's
known-answer tests.
-/

namespace Picnic

open Spec Tables

/-- The tables for the block sizes of the parameter sets with full S-box layer. -/
def fullTables (n : ℕ) : NatTables := if n = 129 then t129 else if n = 192 then t192 else t255

/-- The environment with the constants of the specification in the parameter sets with four rounds (Picnic3 and full S-box layer, 7 to 12). -/
def withTables (E : Env) : Env :=
  { E with lowmc := fun P => if P.numRounds = 4 then toConsts P.stateSizeWords (fullTables P.stateSizeBits) else E.lowmc P }

theorem fullTables_n {p : ℕ} {P : Params} (hP : getParamSet p = some P) (hr : P.numRounds = 4) :
    (fullTables P.stateSizeBits).n = P.stateSizeBits := by
  obtain ⟨h1, h2⟩ := getParamSet_bounds hP
  interval_cases p <;> (injection hP with hP; subst hP; first | rfl | (exfalso; revert hr; decide))

theorem fullTables_ok (n : ℕ) : (fullTables n).ok = true := by
  unfold fullTables
  split_ifs
  exacts [t129_ok, t192_ok, t255_ok]

theorem fullTables_left (n : ℕ) : (fullTables n).left = true := by
  unfold fullTables
  split_ifs
  exacts [t129_left, t192_left, t255_left]

theorem rounds_p3 {p : ℕ} {P : Params} (hp : p ∈ picnic3Params) (hP : getParamSet p = some P) : P.numRounds = 4 := by
  simp only [picnic3Params, List.mem_cons, List.not_mem_nil, or_false] at hp
  rcases hp with rfl | rfl | rfl <;> (injection hP with hP; subst hP; rfl)

/-- **C78.** With the constants of the specification the assumptions of all other theorems about LowMC hold: the tables have the sizes that the code reads, the
round constants end with zero bits, and the tables of inverse matrices that Picnic3 uses contain the inverse matrices.  For the other parameter sets the
constants are those of `E`. -/
theorem C78_tables (E : Env) (hE : EnvWF E) : EnvWF (withTables E) ∧ InvWF (withTables E) := by
  refine ⟨⟨hE.perm, fun p P hP => ?_⟩, fun p hp P hP => ?_, fun p hp P hP => ?_⟩
  · show ConstsWF P (if P.numRounds = 4 then toConsts P.stateSizeWords (fullTables P.stateSizeBits) else E.lowmc P)
    split_ifs with hr
    · exact toConsts_wf (paramsWF_of hP) (fullTables_n hP hr)
    · exact hE.lowmc p P hP
  · have hr := rounds_p3 hp hP
    show InvLen P (if P.numRounds = 4 then toConsts P.stateSizeWords (fullTables P.stateSizeBits) else E.lowmc P)
    rw [if_pos hr]
    exact toConsts_invLen (fullTables_n hP hr)
  · have hr := rounds_p3 hp hP
    show InvOK P (if P.numRounds = 4 then toConsts P.stateSizeWords (fullTables P.stateSizeBits) else E.lowmc P)
    rw [if_pos hr]
    exact toConsts_inv (paramsWF_of hP) hr (fullTables_n hP hr) (fullTables_ok _)

/-- Signing and verifying with Picnic3, without any assumption about the LowMC constants: those of the specification. -/
theorem C78_sign_verify (E : Env) (hE : EnvWF E) (sk : PrivateKey) (hsk : sk.Arrays) (hp : sk.params ∈ picnic3Params) (hpp : sk.pk.params = sk.params)
    (msg : Buf) (hm : msg.length + 200 ≤ 2 ^ 32) (buf sig : Buf) (len : ℕ)
    (hs : picnicSign (withTables E) (some sk) msg msg.length buf buf.length = Outcome.ok (0, sig, len)) (hlen : len ≤ sig.length) :
    picnicVerify (withTables E) (some sk.pk) msg msg.length sig len = Outcome.ok 0 := by
  obtain ⟨P, hP, _⟩ := getParamSet_p3 hp
  exact C02_sign_verify (withTables E) (C78_tables E hE).1 (C78_tables E hE).2 E.junk E.fuel le_rfl sk hsk hp P.stateSizeBits (blockBits_of hP) msg
    msg.length le_rfl hm buf buf.length le_rfl sig len hs sk.pk hsk.pk hpp rfl rfl sig rfl hlen

/-- The key pairs of the known-answer tests (the same blocks in the files of Picnic3 and of the ZKB++ parameter sets with full S-box layer) satisfy the
relation with the constants of the specification. -/
theorem C78_kats (E : Env) (p : ℕ) (P : Params) (hP : getParamSet p = some P) (hp : 7 ≤ p) :
    Relation P ((withTables E).lowmc P) (katKey P.stateSizeBits) (katPt P.stateSizeBits) (katCt P.stateSizeBits) := by
  have hr : P.numRounds = 4 := by
    obtain ⟨h1, h2⟩ := getParamSet_bounds hP
    interval_cases p <;> (injection hP with hP; subst hP; rfl)
  show Relation P (if P.numRounds = 4 then toConsts P.stateSizeWords (fullTables P.stateSizeBits) else E.lowmc P) _ _ _
  rw [if_pos hr]
  refine relation_of_check (paramsWF_of hP) hr (fullTables_n hP hr) ?_
  have hc : (P.stateSizeBits = 129 ∧ P.numSboxes = 43) ∨ (P.stateSizeBits = 192 ∧ P.numSboxes = 64) ∨ (P.stateSizeBits = 255 ∧ P.numSboxes = 85) := by
    obtain ⟨h1, h2⟩ := getParamSet_bounds hP
    interval_cases p <;> (injection hP with hP; subst hP; decide)
  have a1 : katCheck (fullTables 129) 43 (katKey 129) (katPt 129) (katCt 129) = true := by decide +kernel
  have a2 : katCheck (fullTables 192) 64 (katKey 192) (katPt 192) (katCt 192) = true := by decide +kernel
  have a3 : katCheck (fullTables 255) 85 (katKey 255) (katPt 255) (katCt 255) = true := by decide +kernel
  rcases hc with ⟨e1, e2⟩ | ⟨e1, e2⟩ | ⟨e1, e2⟩ <;> rw [e1, e2]
  exacts [a1, a2, a3]

/-- With the constants of the specification LowMC is a permutation for each key, in the parameter sets with full S-box layer. -/
theorem C78_permutation (E : Env) (hE : EnvWF E) (p : ℕ) (P : Params) (hP : getParamSet p = some P) (hr : P.numRounds = 4) (key pt pt' : Bits)
    (heq : ∀ i < P.stateSizeBits, (lowmcOf P ((withTables E).lowmc P)).enc key pt i = (lowmcOf P ((withTables E).lowmc P)).enc key pt' i) :
    ∀ i < P.stateSizeBits, pt i = pt' i := by
  refine enc_injective (lowmcOf P ((withTables E).lowmc P)) (paramsWF_of hP).sboxes (fun r hlt => ?_) key pt pt' heq
  have hlt : r < P.numRounds := hlt
  show ∃ B, IsInv P.stateSizeBits B (matBits P.stateSizeWords ((if P.numRounds = 4 then toConsts P.stateSizeWords (fullTables P.stateSizeBits)
    else E.lowmc P).L r))
  rw [if_pos hr]
  exact ⟨_, toConsts_left (paramsWF_of hP) hr (fullTables_n hP hr) (fullTables_left _) r hlt⟩

/-- An environment without assumptions: Keccak of the library, the constants of the specification for the sets with full S-box layer. -/
theorem C78_example : EnvWF (withTables exEnv) ∧ InvWF (withTables exEnv) := C78_tables exEnv exEnv_wf

end Picnic
