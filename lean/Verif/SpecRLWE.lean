import Verif.SpecRing
import Verif.SpecLWE

/-!
# Specifications for ring ciphertexts

Independent of the model.
-/

namespace Verif.Spec

/-- The phase `b - a * s` of a ring ciphertext `(a, b)` under the key `s`. -/
def rlwePhase {q n : Nat} (s a b : Rq (ZMod q) n) : Rq (ZMod q) n := b - a * s

/-- The digit polynomial `j` of a list of words, base `2^bits`. -/
def digitPoly (q n bits : Nat) (l : List Nat) (j : Nat) : Rq (ZMod q) n :=
  ⟨fun i => ((l.getD i.val 0 / 2 ^ (bits * j) % 2 ^ bits : Nat) : ZMod q)⟩

end Verif.Spec
