import Verif.Model.Exp

/-! # Power-of-two modulus -/

namespace Verif

/-- algebra/src/modulus/powof2/mod.rs 11-16: `PowOf2Modulus`, holding the mask. -/
structure PowOf2 where
  mask : Nat
deriving DecidableEq

namespace PowOf2

/-- algebra/src/modulus/powof2/internal_macros.rs 8-11: `new`; `none` is the `assert!`. -/
def new (value : Nat) : Option PowOf2 :=
  if 1 < value ∧ isPow2 value = true then some { mask := value - 1 } else none

/-- algebra/src/modulus/powof2/mod.rs 30-32: `value`. -/
def value (w : Nat) (M : PowOf2) : Option Nat := addC w M.mask 1

/-- algebra/src/modulus/powof2/internal_macros.rs 18-20 and 25-27: `reduce`, `reduce_assign`. -/
def reduce (M : PowOf2) (a : Nat) : Nat := a &&& M.mask

/-- algebra/src/modulus/powof2/internal_macros.rs 34-36 and 41-43: `add_reduce`. -/
def addReduce (w : Nat) (M : PowOf2) (a b : Nat) : Nat := wrappingAdd w a b &&& M.mask

/-- algebra/src/modulus/powof2/internal_macros.rs 50-52 and 57-59: `sub_reduce`. -/
def subReduce (w : Nat) (M : PowOf2) (a b : Nat) : Nat := wrappingSub w a b &&& M.mask

/-- algebra/src/modulus/powof2/internal_macros.rs 66-68 and 73-75: `neg_reduce`. -/
def negReduce (w : Nat) (M : PowOf2) (a : Nat) : Nat := wrappingNeg w a &&& M.mask

/-- algebra/src/modulus/powof2/internal_macros.rs 82-84 and 89-91: `mul_reduce`. -/
def mulReduce (w : Nat) (M : PowOf2) (a b : Nat) : Nat := wrappingMul w a b &&& M.mask

/-- algebra/src/modulus/powof2/internal_macros.rs 98-129: `exp_reduce`. -/
def expReduce (w E : Nat) (M : PowOf2) (a exp : Nat) : Option Nat :=
  expReduceWith E (fun x y => some (mulReduce w M x y)) 1 (fun x => decide (x ≤ M.mask)) a exp

/-- algebra/src/modulus/powof2/internal_macros.rs 134-143: `exp_power_of_2_reduce`. -/
def expPowOf2Reduce (w : Nat) (M : PowOf2) (a expLog : Nat) : Option Nat :=
  sqTimes (fun x y => some (mulReduce w M x y)) expLog a

/-- algebra/src/modulus/powof2/internal_macros.rs 150-165: `dot_product_reduce`; `none` is the `debug_assert_eq!`
on the lengths. -/
def dotProduct (w : Nat) (M : PowOf2) (a b : List Nat) : Option Nat :=
  if a.length = b.length then
    some (reduce M ((a.zip b).foldl
      (fun acc xy => wrappingAdd w (wrappingMul w xy.1 xy.2) acc) 0))
  else none

end PowOf2
end Verif
