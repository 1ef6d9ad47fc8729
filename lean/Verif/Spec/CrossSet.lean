import Verif.Spec.Binding

/-
Vocabulary for the statement that a signature belongs to one parameter set: coincidences between the hash values of two
verifications with different parameter sets.  It does not refer to the model.
-/

namespace Spec.Picnic1

/-- A coincidence between the strings hashed in two verifications with the parameter sets `I` and `I'`. -/
inductive CrossClash (I I' : Inst) (ct pt msg : Bytes) (x : Transcript) (ct' pt' msg' : Bytes) (y : Transcript) : Prop
  /-- Different strings are hashed for the challenges, but the challenges are the same as far as both have values. -/
  | challenge : I.challengeString ct pt msg x ≠ I'.challengeString ct' pt' msg' y →
      I.Challenge (I.hash (I.challengeString ct pt msg x) I.digest) x.e →
      I'.Challenge (I'.hash (I'.challengeString ct' pt' msg' y) I'.digest) y.e →
      (∀ t, t < I.T → t < I'.T → x.e.getD t 0 = y.e.getD t 0) → CrossClash I I' ct pt msg x ct' pt' msg' y
  /-- Both sets use the same hash function, and two different strings that are hashed for commitments collide. -/
  | view : I.rate = I'.rate → I.digest = I'.digest → I.viewString (x.a 0) ≠ I'.viewString (y.a 0) →
      I.hash (I.viewString (x.a 0)) I.digest = I.hash (I'.viewString (y.a 0)) I.digest → CrossClash I I' ct pt msg x ct' pt' msg' y

end Spec.Picnic1
