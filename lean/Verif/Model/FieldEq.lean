import Verif.Model.Field
import Verif.Model.KeySwitch

/-!
# Comparisons and tests of derived field elements, and digits from the low end

algebra_derive/src/basic.rs and lattice/src/utils/decompose_basis.rs.
-/

namespace Verif.Fp

/-- algebra_derive/src/basic.rs 59-64: `==` compares the stored words. -/
def eq (a b : Nat) : Bool := a == b

/-- algebra_derive/src/basic.rs 45-57: `cmp` and `partial_cmp` compare the stored words. -/
def cmp (a b : Nat) : Ordering := compare a b

/-- algebra_derive/src/basic.rs 96-99: `is_zero`. -/
def isZero (a : Nat) : Bool := a == 0

/-- algebra_derive/src/basic.rs 126-130: `is_one`. -/
def isOne (a : Nat) : Bool := a == 1

/-- algebra_derive/src/basic.rs 152-156: `is_neg_one`. -/
def isNegOne (M : Barrett) (a : Nat) : Option Bool := do
  let m ← subC M.value 1
  return a == m

/-- algebra_derive/src/basic.rs 9-13: `max`. -/
def max (M : Barrett) : Option Nat := subC M.value 1

/-- algebra_derive/src/basic.rs 38-43: `default`. -/
def default : Nat := 0

end Verif.Fp

namespace Verif.Lsb

/-- lattice/src/utils/decompose_basis.rs 84-87: one element: its lowest digit and what remains. The shift
panics for the word width. -/
def digit (w : Nat) (B : Basis) (p : Nat) : Option (Nat × Nat) := do
  let r ← shrC w p B.bits
  return (p &&& B.mask, r)

/-- lattice/src/utils/decompose_basis.rs 75-88: `decompose_lsb_bits_inplace`: the digits written to the
destination and the new data. `dst` is the destination before the call. `none` is the `debug_assert_eq!` on
the lengths or the shift. -/
def decompose (w : Nat) (B : Basis) (data dst : List Nat) : Option (List Nat × List Nat) :=
  if dst.length = data.length then do
    let r ← data.mapM (digit w B)
    return r.unzip
  else none

/-- The use of lattice/src/utils/decompose_basis.rs 75-88 that the digit count of the basis is meant for: one
call after another on the same data, with the destination of each call kept. -/
def decomposeAll (w : Nat) (B : Basis) : Nat → List Nat → List Nat → Option (List (List Nat))
  | 0, _, _ => some []
  | cnt + 1, data, dst => do
    let (d, rest) ← decompose w B data dst
    let ds ← decomposeAll w B cnt rest d
    return d :: ds

end Verif.Lsb
