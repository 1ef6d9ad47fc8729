import Verif.Spec.RomAdapt

/-
C65: procedures that make a new signature, on a message that has been signed for them or on another one.  It does not refer to the model.
-/

namespace Spec.Rom

open Spec.Picnic1

variable {N M : ℕ} {α : Type} (I : Inst)

/-- The messages that have been signed, with the signatures that the procedure was given. -/
noncomputable def Player.signed (O : Oracle N M) (sk ct pt : Bytes) : Player N M α → List (Bytes × Bytes)
  | done _ => []
  | ask x next => (next (O x)).signed O sk ct pt
  | sign m next =>
    match Rom.real I O sk ct pt m with
    | none => []
    | some p => (m, p.sig) :: (next p.sig).signed O sk ct pt

/-- The procedure makes a message and a valid signature on it, and it was not given this signature on this message. -/
def ForgesStrong (O : Oracle N M) (sk ct pt : Bytes) (P : Player N M (Bytes × Bytes)) : Prop :=
  ∃ ms r, P.real I O sk ct pt = some (ms, r) ∧ r ∉ P.signed I O sk ct pt ∧ Valid I O ct pt r.1 r.2

end Spec.Rom
