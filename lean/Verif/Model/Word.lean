/-!
# Machine words

An unsigned word of width `w` is a `Nat` below `2^w`. The macros in /repo
instantiate the same text for u8, u16, u32 and u64, so the width is a parameter.

Functions that Rust evaluates with plain `+`, `-`, `*` are the checked
operations below: `none` is the debug-build overflow panic. `wrapping_*` and
`overflowing_*` are the total modular operations of the Rust standard library.
-/

namespace Verif

/-- Plain `a + b` on a `w`-bit word; `none` is the overflow panic. For example algebra/src/reduce/macros.rs 8. -/
def addC (w a b : Nat) : Option Nat := if a + b < 2 ^ w then some (a + b) else none

/-- Plain `a - b` on an unsigned word; `none` is the underflow panic. For example algebra/src/reduce/macros.rs 10. -/
def subC (a b : Nat) : Option Nat := if b ≤ a then some (a - b) else none

/-- Plain `a * b` on a `w`-bit word; `none` is the overflow panic.
For example algebra/src/primitive/widening/widening_mul.rs 27. -/
def mulC (w a b : Nat) : Option Nat := if a * b < 2 ^ w then some (a * b) else none

/-- Plain `a << s` on a `w`-bit word: panics when `s ≥ w`, otherwise drops high bits.
For example algebra/src/transformation/ntt_table.rs 379. -/
def shlC (w a s : Nat) : Option Nat := if s < w then some (a * 2 ^ s % 2 ^ w) else none

/-- Plain `a >> s` on a `w`-bit word: panics when `s ≥ w`. For example algebra/src/utils/gcd.rs 41. -/
def shrC (w a s : Nat) : Option Nat := if s < w then some (a / 2 ^ s) else none

/-- `as` cast to a `w`-bit unsigned type (truncation). For example algebra/src/primitive/widening/widening_mul.rs 28. -/
def trunc (w a : Nat) : Nat := a % 2 ^ w

/-- algebra/src/primitive/wrapping.rs 22-60: `wrapping_add`. -/
def wrappingAdd (w a b : Nat) : Nat := (a + b) % 2 ^ w

/-- algebra/src/primitive/wrapping.rs 63-81: `wrapping_sub`. -/
def wrappingSub (w a b : Nat) : Nat := (a + 2 ^ w - b) % 2 ^ w

/-- algebra/src/primitive/wrapping.rs 84-102: `wrapping_mul`. -/
def wrappingMul (w a b : Nat) : Nat := (a * b) % 2 ^ w

/-- algebra/src/primitive/wrapping.rs 116-148: `wrapping_neg`. -/
def wrappingNeg (w a : Nat) : Nat := (2 ^ w - a) % 2 ^ w

/-- Standard library `overflowing_add`. Called by algebra/src/primitive/widening/carrying_add.rs 38-39. -/
def overflowingAdd (w a b : Nat) : Nat × Bool := ((a + b) % 2 ^ w, decide (2 ^ w ≤ a + b))

/-- Standard library `overflowing_sub`. Called by algebra/src/primitive/widening/borrowing_sub.rs 30-31. -/
def overflowingSub (w a b : Nat) : Nat × Bool := ((a + 2 ^ w - b) % 2 ^ w, decide (a < b))

/-- algebra/src/primitive/widening/widening_mul.rs 19-30: `widening_mul`
(stable branch). The product is taken in the double-width type with a plain `*`,
hence the check. -/
def wideningMulC (w a b : Nat) : Option (Nat × Nat) := do
  let wide ← mulC (2 * w) a b
  return (trunc w wide, trunc w (wide / 2 ^ w))

/-- algebra/src/primitive/widening/widening_mul.rs 33-44: `widening_mul_hw`. -/
def wideningMulHwC (w a b : Nat) : Option Nat := do
  let wide ← mulC (2 * w) a b
  return trunc w (wide / 2 ^ w)

/-- algebra/src/primitive/widening/carrying_mul.rs 29-40: `carrying_mul`. -/
def carryingMulC (w a b c : Nat) : Option (Nat × Nat) := do
  let p ← mulC (2 * w) a b
  let wide ← addC (2 * w) p c
  return (trunc w wide, trunc w (wide / 2 ^ w))

/-- algebra/src/primitive/widening/carrying_mul.rs 43-54: `carrying_mul_hw`. -/
def carryingMulHwC (w a b c : Nat) : Option Nat := do
  let p ← mulC (2 * w) a b
  let wide ← addC (2 * w) p c
  return trunc w (wide / 2 ^ w)

/-- algebra/src/primitive/widening/carrying_add.rs 30-42 (u8, u16) and 66-72,
107-113 (u32, u64 portable branch): `carrying_add`. The x86 branch is
`X86.carryingAdd`. -/
def carryingAdd (w a b : Nat) (carry : Bool) : Nat × Bool :=
  let (x, o1) := overflowingAdd w a b
  let (y, o2) := overflowingAdd w x carry.toNat
  (y, o1 || o2)

/-- algebra/src/primitive/widening/borrowing_sub.rs 22-34 (u8, u16) and 58-64,
99-105 (u32, u64 portable branch): `borrowing_sub`. The x86 branch is `X86.borrowingSub`. -/
def borrowingSub (w a b : Nat) (borrow : Bool) : Nat × Bool :=
  let (x, o1) := overflowingSub w a b
  let (y, o2) := overflowingSub w x borrow.toNat
  (y, o1 || o2)

/-- `BITS - leading_zeros`: the bit length of a word.
algebra/src/modulus/barrett/internal_macros.rs 59 and algebra/src/decompose_basis.rs 33. -/
def bitLen (x : Nat) : Nat := if x = 0 then 0 else Nat.log2 x + 1

/-- Standard library `leading_zeros`. Called by algebra/src/modulus/barrett/ops.rs 130. -/
def leadingZeros (w x : Nat) : Nat := w - bitLen x

/-- Standard library `trailing_zeros` of a `w`-bit word (`w` for zero). Called by algebra/src/utils/gcd.rs 38-50. -/
def trailingZeros : Nat → Nat → Nat
  | 0, _ => 0
  | w + 1, x => if x % 2 = 1 then 0 else 1 + trailingZeros w (x / 2)

/-- Standard library `is_power_of_two`. Called by algebra/src/polynomial/native_polynomial.rs 47. -/
def isPow2 (x : Nat) : Bool := x != 0 && 2 ^ Nat.log2 x == x

end Verif
