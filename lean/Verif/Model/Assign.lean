import Verif.Model.EvalForm
import Verif.Model.BabyBear
import Verif.Model.Goldilocks
import Verif.Model.PowOf2
import Verif.Model.Native
import Verif.Model.Shoup
import Verif.Model.Block

/-!
# The assigning forms and operators

Each operation exists in several spellings: by value, `*_assign`, with borrowed operands. Where the body of a
spelling is a separate piece of code it is a definition of its own here. The result is the value stored.
-/

namespace Verif.Assign

/-- algebra/src/reduce/macros.rs 19-26: `add_reduce_assign` with a word as modulus. -/
def add (w m a b : Nat) : Option Nat := do
  let r ← addC w a b
  if m ≤ r then subC r m else return r

/-- algebra/src/reduce/macros.rs 68-72: `neg_reduce_assign` with a word as modulus. -/
def neg (m a : Nat) : Option Nat := if a ≠ 0 then subC m a else some a

namespace Barrett

/-- algebra/src/modulus/barrett/internal_macros.rs 460-463: `lazy_reduce_assign`. -/
def lazyReduce (w : Nat) (M : Barrett) (a : Nat) : Option Nat := Verif.Barrett.lazyReduce1 w M a

/-- algebra/src/modulus/barrett/internal_macros.rs 492-495: `reduce_assign`. -/
def reduce (w : Nat) (M : Barrett) (a : Nat) : Option Nat := Verif.Barrett.reduce1 w M a

/-- algebra/src/modulus/barrett/ops.rs 25-33: `add_reduce_assign`. -/
def add (w : Nat) (M : Barrett) (a b : Nat) : Option Nat := Assign.add w M.value a b

/-- algebra/src/modulus/barrett/ops.rs 47-55: `sub_reduce_assign`. -/
def sub (w : Nat) (M : Barrett) (a b : Nat) : Option Nat := subReduceAssign w M.value a b

/-- algebra/src/modulus/barrett/ops.rs 69-77: `neg_reduce_assign`. -/
def neg (M : Barrett) (a : Nat) : Option Nat := Assign.neg M.value a

/-- algebra/src/modulus/barrett/ops.rs 92-101: `mul_reduce_assign`. -/
def mul (w : Nat) (M : Barrett) (a b : Nat) : Option Nat := do
  let (lo, hi) ← wideningMulC w a b
  Verif.Barrett.reduce2 w M lo hi

/-- algebra/src/modulus/barrett/ops.rs 167-175: `inv_reduce_assign`. -/
def inv (w : Nat) (M : Barrett) (a : Nat) : Option Nat := Gcd.invReduce w a M.value

/-- algebra/src/modulus/barrett/ops.rs 189-197: `div_reduce_assign`. -/
def div (w : Nat) (M : Barrett) (a b : Nat) : Option Nat := do
  let i ← Gcd.invReduce w b M.value
  mul w M a i

/-- algebra/src/modulus/barrett/ops.rs 212-221: `lazy_mul_reduce_assign`. -/
def lazyMul (w : Nat) (M : Barrett) (a b : Nat) : Option Nat := do
  let (lo, hi) ← wideningMulC w a b
  Verif.Barrett.lazyReduce2 w M lo hi

end Barrett

/-- algebra/src/modulus/shoup/internal_macros.rs 110-113: `mul_reduce_assign` of a word by a factor. -/
def shoupMul (w a : Nat) (s : Shoup) (m : Nat) : Option Nat := do
  let tmp ← Shoup.mulReduceLazy w s a m
  if m ≤ tmp then subC tmp m else return tmp

namespace PowOf2

/-- algebra/src/modulus/powof2/internal_macros.rs 25-27: `reduce_assign`. -/
def reduce (M : PowOf2) (a : Nat) : Nat := a &&& M.mask

/-- algebra/src/modulus/powof2/internal_macros.rs 41-43: `add_reduce_assign`. -/
def add (w : Nat) (M : PowOf2) (a b : Nat) : Nat := wrappingAdd w a b &&& M.mask

/-- algebra/src/modulus/powof2/internal_macros.rs 57-59: `sub_reduce_assign`. -/
def sub (w : Nat) (M : PowOf2) (a b : Nat) : Nat := wrappingSub w a b &&& M.mask

/-- algebra/src/modulus/powof2/internal_macros.rs 73-75: `neg_reduce_assign`. -/
def neg (w : Nat) (M : PowOf2) (a : Nat) : Nat := wrappingNeg w a &&& M.mask

/-- algebra/src/modulus/powof2/internal_macros.rs 89-91: `mul_reduce_assign`. -/
def mul (w : Nat) (M : PowOf2) (a b : Nat) : Nat := wrappingMul w a b &&& M.mask

end PowOf2

namespace Native

/-- algebra/src/reduce/macros.rs 129-132: `reduce_assign` with the modulus `()`. -/
def reduce (a : Nat) : Nat := a

/-- algebra/src/reduce/macros.rs 143-148: `add_reduce_assign` with the modulus `()`. -/
def add (w a b : Nat) : Nat := wrappingAdd w a b

/-- algebra/src/reduce/macros.rs 159-164: `sub_reduce_assign` with the modulus `()`. -/
def sub (w a b : Nat) : Nat := wrappingSub w a b

/-- algebra/src/reduce/macros.rs 175-180: `neg_reduce_assign` with the modulus `()`. -/
def neg (w a : Nat) : Nat := wrappingNeg w a

/-- algebra/src/reduce/macros.rs 191-196: `mul_reduce_assign` with the modulus `()`. -/
def mul (w a b : Nat) : Nat := wrappingMul w a b

/-- algebra/src/reduce/macros.rs 207-212: `div_reduce_assign` with the modulus `()`. -/
def div (a b : Nat) : Option Nat := if b = 0 then none else some (a / b)

end Native

namespace BabyBear

/-- algebra/src/modulus/baby_bear/ops.rs 25-30: `add_reduce_assign`. -/
def add (a b : Nat) : Option Nat := Verif.BabyBear.addReduce a b

/-- algebra/src/modulus/baby_bear/ops.rs 44-49: `sub_reduce_assign`. -/
def sub (a b : Nat) : Nat := Verif.BabyBear.subReduce a b

/-- algebra/src/modulus/baby_bear/ops.rs 60-65: `neg_reduce_assign`. -/
def neg (a : Nat) : Nat := Verif.BabyBear.negReduce a

/-- algebra/src/modulus/baby_bear/ops.rs 77-82: `mul_reduce_assign`. -/
def mul (a b : Nat) : Option Nat := Verif.BabyBear.mulReduce a b

/-- algebra/src/modulus/baby_bear/ops.rs 141-146: `inv_reduce_assign`; `none` is the `unwrap` panic. -/
def inv (a : Nat) : Option Nat := do
  let r ← Verif.BabyBear.tryInverse a
  r

/-- algebra/src/modulus/baby_bear/ops.rs 167-172: `div_reduce_assign`. -/
def div (a b : Nat) : Option Nat := do
  let i ← Verif.BabyBear.invReduce b
  Verif.BabyBear.mulReduce a i

end BabyBear

namespace Goldilocks

/-- algebra/src/modulus/goldilocks/ops.rs 24-31: `reduce_assign`. -/
def reduce (a : Nat) : Option Nat := if Verif.Goldilocks.P < a then subC a Verif.Goldilocks.P else some a

/-- algebra/src/modulus/goldilocks/ops.rs 47-52: `add_reduce_assign`. -/
def add (a b : Nat) : Option Nat := Verif.Goldilocks.addReduce a b

/-- algebra/src/modulus/goldilocks/ops.rs 68-73: `sub_reduce_assign`. -/
def sub (a b : Nat) : Option Nat := Verif.Goldilocks.subReduce a b

/-- algebra/src/modulus/goldilocks/ops.rs 88-93: `neg_reduce_assign`. -/
def neg (a : Nat) : Option Nat := Verif.Goldilocks.negReduce a

/-- algebra/src/modulus/goldilocks/ops.rs 104-109: `mul_reduce_assign`. -/
def mul (a b : Nat) : Option Nat := Verif.Goldilocks.mulReduce a b

/-- algebra/src/modulus/goldilocks/ops.rs 178-183: `inv_reduce_assign`; `none` is the `unwrap` panic. -/
def inv (a : Nat) : Option Nat := do
  let r ← Verif.Goldilocks.tryInverse a
  r

/-- algebra/src/modulus/goldilocks/ops.rs 194-199: `div_reduce_assign`. -/
def div (a b : Nat) : Option Nat := do
  let i ← Verif.Goldilocks.invReduce b
  Verif.Goldilocks.mulReduce a i

end Goldilocks

namespace Fp

/-- algebra_derive/src/ops.rs 47-61: `AddAssign` of a derived field. -/
def add (w : Nat) (M : Barrett) (a b : Nat) : Option Nat := Assign.add w M.value a b

/-- algebra_derive/src/ops.rs 127-141: `MulAssign` of a derived field. -/
def mul (w : Nat) (M : Barrett) (a b : Nat) : Option Nat := Barrett.mul w M a b

/-- algebra_derive/src/ops.rs 195-209: `DivAssign` of a derived field. -/
def div (w : Nat) (M : Barrett) (a b : Nat) : Option Nat := Barrett.div w M a b

/-- algebra/src/field/mod.rs 148-151: `add_mul_assign`. -/
def addMul (w : Nat) (M : Barrett) (c a b : Nat) : Option Nat := Verif.Fp.addMul w M c a b

/-- algebra/src/field/mod.rs 167-170: `mul_assign_fast`. -/
def mulFast (w : Nat) (M : Barrett) (a b : Nat) : Option Nat := Verif.Fp.mulFast w M a b

/-- algebra/src/field/mod.rs 185-188: `add_mul_assign_fast`. -/
def addMulFast (w : Nat) (M : Barrett) (c a b : Nat) : Option Nat := Verif.Fp.addMulFast w M c a b

/-- algebra/src/field/mod.rs 142-145 and 176-179: `add_mul` and `add_mul_fast` of a field that does not override
them. -/
def addMulDefault (w : Nat) (M : Barrett) (c a b : Nat) : Option Nat := do
  let p ← Verif.Fp.mul w M a b
  Verif.Fp.add w M c p

/-- algebra/src/field/mod.rs 158-161: `mul_fast` of a field that does not override it. -/
def mulFastDefault (w : Nat) (M : Barrett) (a b : Nat) : Option Nat := Verif.Fp.mul w M a b

end Fp

namespace Poly

/-- algebra/src/polynomial/native_polynomial.rs 405-419: `AddAssign`, entries with `AddAssign` of the field. -/
def add (w : Nat) (M : Barrett) (a b : List Nat) : Option (List Nat) :=
  if a.length = b.length then Poly.zipAssign (Fp.add w M) a b else none

/-- algebra/src/polynomial/native_polynomial.rs 441-449: `&a + b`; `b` is overwritten. -/
def addOwned (w : Nat) (M : Barrett) (a b : List Nat) : Option (List Nat) := add w M b a

/-- algebra/src/polynomial/native_polynomial.rs 451-460: `&a + &b`. -/
def addRef (w : Nat) (M : Barrett) (a b : List Nat) : Option (List Nat) :=
  if a.length = b.length then EvalForm.zipCollect (Verif.Fp.add w M) a b else none

/-- algebra/src/polynomial/native_polynomial.rs 508-517: `&a - &b`. -/
def subRef (w : Nat) (M : Barrett) (a b : List Nat) : Option (List Nat) :=
  if a.length = b.length then EvalForm.zipCollect (Verif.Fp.sub w M) a b else none

/-- algebra/src/polynomial/native_polynomial.rs 563-571: `&a * b`; `b` is overwritten. -/
def mulOwned (w : Nat) (M : Barrett) (tbl : Nat → Option Table) (a b : List Nat) : Option (List Nat) :=
  Poly.mul w M tbl b a

/-- algebra/src/polynomial/native_polynomial.rs 168-171, algebra/src/polynomial/ntt_polynomial.rs 162-165:
`mul_scalar_assign`, entries with `MulAssign` of the field. -/
def mulScalar (w : Nat) (M : Barrett) (a : List Nat) (s : Nat) : Option (List Nat) := a.mapM (Fp.mul w M · s)

end Poly

/-- algebra/src/utils/block.rs 180-185: `^=` of blocks. -/
def blockXor (a b : Block) : Block := Block.xor a b

/-- algebra/src/utils/block.rs 203-208: `|=` of blocks. -/
def blockOr (a b : Block) : Block := Block.or a b

/-- algebra/src/utils/block.rs 226-231: `&=` of blocks. -/
def blockAnd (a b : Block) : Block := Block.and a b

end Verif.Assign
