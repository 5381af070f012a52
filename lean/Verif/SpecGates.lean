import Verif.SpecBlind

/-!
# Specifications for the Boolean gates

A bit is encoded as `0` or as a quarter of the modulus. Phases modulo `2n` turn once around the circle,
so a quarter is `n / 2`.
-/

namespace Verif.Spec

/-- The entry of the table at position `φ` of the circle of circumference `2n`: the second half of
the circle is the negated first half. -/
def tableAt (Q n : Nat) (lut : List Nat) (φ : ℤ) : ZMod Q :=
  let r := (φ % (2 * n : ℕ)).toNat
  if r < n then coeff Q lut r else -coeff Q lut (r - n)

/-- `⌊Q/8⌋` for true, `-⌊Q/8⌋` for false. -/
def signedEighth (Q : Nat) (b : Bool) : ZMod Q :=
  if b then ((Q / 8 : Nat) : ZMod Q) else -((Q / 8 : Nat) : ZMod Q)

/-- On the circle of circumference `2n`, `φ` is `c` plus a noise `e` with `-n/d ≤ e < n/d`. -/
def NearBy (n d : Nat) (c φ : ℤ) : Prop :=
  ∃ e : ℤ, φ ≡ c + e [ZMOD (2 * n : ℕ)] ∧ -(n : ℤ) ≤ d * e ∧ d * e < n

/-- Whether at least two of three bits are true. -/
def maj (a b c : Bool) : Bool := (a && b) || (b && c) || (a && c)

end Verif.Spec
