import Verif.SpecSecrecy
import Verif.Props.Plaintext

/-! # Specification of decryption with another key -/

namespace Verif.Spec
open Props

/-- Secret words modulo `q`: 0, 1 or the representative `q - 1` of -1. Binary keys are a special case. -/
def SmallKey (q n : Nat) (sk : List Nat) : Prop := sk.length = n ∧ ∀ s ∈ sk, s = 0 ∨ s = 1 ∨ s = q - 1

open Classical in
/-- A uniform value below `T`, returned as a message of type `msg`; a value which the type cannot hold is a panic. -/
noncomputable def guess (T : Nat) [NeZero T] (msg : Plain.Msg) : PMF (Option Nat) :=
  (uniformBelow T).map fun v => if Fits msg v then some v else none

/-- A message is encrypted with the key `sk` and decrypted with the key `sk'`. -/
noncomputable def decryptWrong (P : LWEParams) (n : Nat) [NeZero P.q] (χ : PMF ℤ) (msg : Plain.Msg)
    (sk sk' : List Nat) (m : Nat) : PMF (Option Nat) :=
  (encryptLaw P n χ sk m).map fun c => c.bind (P.decrypt msg sk')

/-- The probability that two independent draws of a word agree. -/
noncomputable def agree (p : PMF Nat) : ENNReal := (pair p p).toOuterMeasure {x | x.1 = x.2}

end Verif.Spec
