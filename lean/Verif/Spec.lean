/-!
# Specifications

Small definitions, independent of the model, in which properties are stated.
-/

namespace Verif.Spec

/-- Value of a little-endian list of base-`2^w` words. -/
def wordsValue (w : Nat) : List Nat → Nat
  | [] => 0
  | x :: xs => x + 2 ^ w * wordsValue w xs

/-- The integer dot product of two lists. -/
def dot : List Nat → List Nat → Nat
  | a :: as, b :: bs => a * b + dot as bs
  | _, _ => 0

/-- `a` is a strong liar for (or `n` is a strong probable prime to) base `a`:
`n - 1 = 2^r q` with `q` odd, and `a^q = 1` or `a^(2^j q) = -1` modulo `n` for some `j < r`. -/
def StrongLiar (n a : Nat) : Prop :=
  ∃ r q, q % 2 = 1 ∧ n - 1 = 2 ^ r * q ∧
    (a ^ q % n = 1 ∨ ∃ j, j < r ∧ a ^ (2 ^ j * q) % n = n - 1)

end Verif.Spec
