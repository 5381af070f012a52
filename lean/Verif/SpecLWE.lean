import Verif.Spec
import Verif.SpecPoly

/-!
# Specifications for LWE ciphertexts

Independent of the model.
-/

namespace Verif.Spec

/-- The phase `b - <a, s>` of a ciphertext `(a, b)` under the key `s`, modulo `q`. -/
def lwePhase (q : Nat) (s a : List Nat) (b : Nat) : ZMod q := (b : ZMod q) - (dot a s : Nat)

/-- The noise range tolerated by decoding with plaintext modulus `t` and ciphertext modulus `q`:
`-q/(2t) ≤ z < q/(2t)`. -/
def NoiseInRange (t q : Nat) (z : Int) : Prop := -((q : Int)) ≤ 2 * t * z ∧ 2 * t * z < q

end Verif.Spec
