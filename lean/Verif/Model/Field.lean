import Verif.Model.Exp
import Verif.Model.Gcd

/-!
# Derived field elements

algebra_derive generates, for a one-word struct with `#[modulus = q]`, the operations below.
A field type is the word width `w` and the Barrett modulus constant `M`; an element is its
stored word.
-/

namespace Verif.Fp

/-- algebra_derive/src/attr.rs 33-50 (`check_leading_zeros`) and algebra_derive/src/ops.rs 14-21
(`const MODULUS = BarrettModulus::new(q)`): the modulus constant of a derived field, `none` when
the macro or the constant evaluation fails. -/
def config (w q : Nat) : Option Barrett :=
  if leadingZeros w q < 2 then none else Barrett.new w q

/-- algebra_derive/src/field.rs 104-112: `Field::new`. -/
def new (w : Nat) (M : Barrett) (value : Nat) : Option Nat :=
  if value < M.value then some value else Barrett.reduce1 w M value

/-- algebra_derive/src/fhe_field.rs 19-21: `lazy_new`. -/
def lazyNew (value : Nat) : Nat := value

/-- algebra_derive/src/basic.rs 92-96: `zero`. -/
def zero : Nat := 0

/-- algebra_derive/src/basic.rs 117-121: `one`. -/
def one : Nat := 1

/-- algebra_derive/src/basic.rs 142-145: `neg_one`. -/
def negOne (M : Barrett) : Option Nat := subC M.value 1

/-- algebra_derive/src/ops.rs 25-63: `Add`, `AddAssign`. -/
def add (w : Nat) (M : Barrett) (a b : Nat) : Option Nat := addReduce w M.value a b

/-- algebra_derive/src/ops.rs 67-85: `Sub`. -/
def sub (w : Nat) (M : Barrett) (a b : Nat) : Option Nat := subReduce w M.value a b

/-- algebra_derive/src/ops.rs 87-101: `SubAssign`. -/
def subAssign (w : Nat) (M : Barrett) (a b : Nat) : Option Nat := subReduceAssign w M.value a b

/-- algebra_derive/src/ops.rs 105-143: `Mul`, `MulAssign`. -/
def mul (w : Nat) (M : Barrett) (a b : Nat) : Option Nat := Barrett.mulReduce w M a b

/-- algebra_derive/src/ops.rs 146-159: `Neg`. -/
def neg (M : Barrett) (a : Nat) : Option Nat := negReduce M.value a

/-- algebra_derive/src/ops.rs 159-171: `Pow`; the exponent type is the value type. -/
def pow (w : Nat) (M : Barrett) (a e : Nat) : Option Nat := Barrett.expReduce w w M a e

/-- algebra_derive/src/ops.rs 173-211 with algebra/src/modulus/barrett/ops.rs 177-197: `Div`. -/
def div (w : Nat) (M : Barrett) (a b : Nat) : Option Nat := do
  let i ← Gcd.invReduce w b M.value
  Barrett.mulReduce w M a i

/-- algebra_derive/src/ops.rs 213-227: `Inv`, as `self.pow(MODULUS_VALUE - 2)`. -/
def inv (w : Nat) (M : Barrett) (a : Nat) : Option Nat := do
  let e ← subC M.value 2
  pow w M a e

/-- algebra_derive/src/fhe_field.rs 23-27: `add_mul`. -/
def addMul (w : Nat) (M : Barrett) (c a b : Nat) : Option Nat := do
  let (lo, hi) ← carryingMulC w a b c
  Barrett.reduce2 w M lo hi

/-- algebra_derive/src/fhe_field.rs 29-33: `mul_fast`, result in `[0, 2q)`. -/
def mulFast (w : Nat) (M : Barrett) (a b : Nat) : Option Nat := Barrett.lazyMulReduce w M a b

/-- algebra_derive/src/fhe_field.rs 35-40: `add_mul_fast`, result in `[0, 2q)`. -/
def addMulFast (w : Nat) (M : Barrett) (c a b : Nat) : Option Nat := do
  let (lo, hi) ← carryingMulC w a b c
  Barrett.lazyReduce2 w M lo hi

/-- algebra_derive/src/basic.rs 165-184: `Serialize` hands the stored word to `serialize_uN`.
The serialiser is the identity on words here. -/
def serialize (a : Nat) : Nat := a

/-- algebra_derive/src/basic.rs 186-206: `Deserialize` reads a word of the value type and calls
`Field::new`. -/
def deserialize (w : Nat) (M : Barrett) (word : Nat) : Option Nat := new w M word

end Verif.Fp
