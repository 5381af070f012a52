import Verif.SpecSecrecy
import Verif.Props.Plaintext

/-! # Specification of repeated masks -/

namespace Verif.Spec

/-- The masks of a history of ciphertexts. -/
def masks (l : List (Option LWE)) : List (Option (List Nat)) := l.map fun c => c.map LWE.a

/-- A mask occurs twice in the history. -/
def Repeats (l : List (Option LWE)) : Prop := ∃ i j : Nat, ∃ a, i < j ∧ (masks l)[i]? = some a ∧ (masks l)[j]? = some a

end Verif.Spec
