import Verif.Model.LWE

/-!
# The modulus `()`: arithmetic modulo the word size

algebra/src/reduce/macros.rs 118-222, `impl_non_reduce_ops_for_primitive`. The methods call the wrapping methods
of the standard library.
-/

namespace Verif.Native

/-- algebra/src/reduce/macros.rs 120-132: `reduce` and `reduce_assign`. -/
def reduce (a : Nat) : Nat := a

/-- algebra/src/reduce/macros.rs 134-148: `add_reduce`. -/
def add (w a b : Nat) : Nat := wrappingAdd w a b

/-- algebra/src/reduce/macros.rs 150-164: `sub_reduce`. -/
def sub (w a b : Nat) : Nat := wrappingSub w a b

/-- algebra/src/reduce/macros.rs 166-180: `neg_reduce`. -/
def neg (w a : Nat) : Nat := wrappingNeg w a

/-- algebra/src/reduce/macros.rs 182-196: `mul_reduce`. -/
def mul (w a b : Nat) : Nat := wrappingMul w a b

/-- algebra/src/reduce/macros.rs 198-212: `div_reduce`, `wrapping_div` of the standard library: the quotient
of the integers, which panics for the divisor 0. -/
def div (a b : Nat) : Option Nat := if b = 0 then none else some (a / b)

/-- The loop of the standard library's `wrapping_pow` for an exponent that is not 0: multiply if the exponent is odd,
return if it is 1, else halve it and square the base. -/
def powLoop (w acc base e : Nat) : Nat :=
  let acc' := if e % 2 = 1 then wrappingMul w acc base else acc
  if h : e ≤ 1 then acc' else
    powLoop w acc' (wrappingMul w base base) (e / 2)
termination_by e
decreasing_by exact Nat.div_lt_self (by omega) (by decide)

/-- algebra/src/reduce/macros.rs 214-219: `exp_reduce` with `wrapping_pow` of the standard library. -/
def exp (w a e : Nat) : Nat := if e = 0 then 1 else powLoop w 1 a e

/-- The traits that the generic LWE code uses, for the modulus `()`; there is no `dot_product_reduce` for it.
algebra/src/reduce/macros.rs 118-223. -/
def ops (w : Nat) : ModOps where
  add a b := some (add w a b)
  sub a b := some (sub w a b)
  mul a b := some (mul w a b)
  neg a := some (neg w a)
  dot _ _ := none

end Verif.Native
