import Verif.Model.Word

/-! # Shoup multiplication by a precomputed factor -/

namespace Verif

/-- algebra/src/modulus/shoup/mod.rs 9-15: `ShoupFactor`. -/
structure Shoup where
  value : Nat
  quotient : Nat
deriving DecidableEq

namespace Shoup

/-- algebra/src/modulus/shoup/internal_macros.rs 8-14: `new`. `none` is the `debug_assert!`
on `value < modulus` (which also excludes the zero modulus). -/
def new (w value modulus : Nat) : Option Shoup :=
  if value < modulus then
    some { value := value, quotient := trunc w (value * 2 ^ w / modulus) }
  else none

/-- algebra/src/modulus/shoup/internal_macros.rs 18-22: `set_modulus`. -/
def setModulus (w : Nat) (s : Shoup) (modulus : Nat) : Option Shoup :=
  if s.value < modulus then
    some { s with quotient := trunc w (s.value * 2 ^ w / modulus) }
  else none

/-- algebra/src/modulus/shoup/internal_macros.rs 28-31: `set`. -/
def set (w : Nat) (s : Shoup) (value modulus : Nat) : Option Shoup :=
  setModulus w { s with value := value } modulus

/-- algebra/src/modulus/shoup/internal_macros.rs 49-54: `mul_reduce_lazy`. -/
def mulReduceLazy (w : Nat) (s : Shoup) (rhs modulus : Nat) : Option Nat := do
  let hw ← wideningMulHwC w s.quotient rhs
  return wrappingSub w (wrappingMul w s.value rhs) (wrappingMul w hw modulus)

/-- algebra/src/modulus/shoup/internal_macros.rs 72-80, 90-98 and 110-113: the three `mul_reduce` forms, which
have the same body. -/
def mulReduce (w : Nat) (s : Shoup) (rhs modulus : Nat) : Option Nat := do
  let tmp ← mulReduceLazy w s rhs modulus
  if modulus ≤ tmp then subC tmp modulus else return tmp

end Shoup
end Verif
