import Verif.Model.PowOf2
import Verif.Model.Goldilocks
import Verif.Model.BabyBear

/-!
# Exponentiation with a signed exponent type

The exponent type of `exp_reduce` is any `E: PrimInt + ShrAssign<u32> + Bits`. `Bits` is implemented for the
signed types too (algebra/src/primitive/bits.rs 17), so the same text runs with `i8` ... `i128` and `isize`.
A value of such a type with `E` bits is an integer from `-2^(E-1)` to `2^(E-1) - 1`.
-/

namespace Verif

/-- Standard library: the bits of a signed word, as an unsigned word of the same width; `trailing_zeros` and
`leading_zeros` look at these. Called by algebra/src/modulus/barrett/ops.rs 117 and 130. -/
def bitPattern (E : Nat) (e : Int) : Nat := (e % 2 ^ E).toNat

/-- Standard library: `>>` of a signed word repeats the sign bit, that is, it divides rounding down. A shift by
the width or more is `none`. Called by algebra/src/modulus/barrett/ops.rs 122 and 131. -/
def sarC (E : Nat) (e : Int) (s : Nat) : Option Int := if s < E then some (e / 2 ^ s) else none

/-- algebra/src/modulus/barrett/ops.rs 130-136: the square-and-multiply loop on a signed exponent, `n`
iterations left. -/
def expLoopS {α : Type} (E : Nat) (mul : α → α → Option α) : Nat → Int → α → α → Option α
  | 0, _, _, inter => some inter
  | n + 1, exp, power, inter => do
    let exp ← sarC E exp 1
    let power ← mul power power
    let inter ← if bitPattern E exp % 2 = 1 then mul inter power else some inter
    expLoopS E mul n exp power inter

/-- algebra/src/modulus/barrett/ops.rs 108-138: `exp_reduce` with a signed exponent type of `E` bits. `ok` is
the `debug_assert!` on the base. -/
def expReduceSWith {α : Type} (E : Nat) (mul : α → α → Option α) (one : α) (ok : α → Bool)
    (a : α) (exp : Int) : Option α :=
  if exp = 0 then some one
  else if ok a then do
    let tz := trailingZeros E (bitPattern E exp)
    let power ← sqTimes mul tz a
    let exp ← sarC E exp tz
    if exp = 1 then return power
    else expLoopS E mul (E - leadingZeros E (bitPattern E exp) - 1) exp power power
  else none

/-- algebra/src/modulus/barrett/ops.rs 108-138, signed exponent. -/
def Barrett.expReduceS (w E : Nat) (M : Barrett) (a : Nat) (exp : Int) : Option Nat :=
  expReduceSWith E (Barrett.mulReduce w M) 1 (fun x => decide (x < M.value)) a exp

/-- algebra/src/modulus/powof2/internal_macros.rs 98-129, signed exponent. -/
def PowOf2.expReduceS (w E : Nat) (M : PowOf2) (a : Nat) (exp : Int) : Option Nat :=
  expReduceSWith E (fun x y => some (mulReduce w M x y)) 1 (fun x => decide (x ≤ M.mask)) a exp

/-- algebra/src/modulus/goldilocks/ops.rs 115-145, signed exponent. -/
def Goldilocks.expReduceS (E a : Nat) (exp : Int) : Option Nat :=
  expReduceSWith E mulReduce 1 (fun x => decide (x < P)) a exp

/-- algebra/src/modulus/baby_bear/ops.rs 88-118, signed exponent. -/
def BabyBear.expReduceS (E a : Nat) (exp : Int) : Option Nat :=
  expReduceSWith E mulReduce 1 (fun x => decide (x < P)) a exp

end Verif
