import Verif.Model.Barrett

/-!
# Square-and-multiply exponentiation

The same loop text appears for every modulus kind:
algebra/src/modulus/barrett/ops.rs 103-155,
algebra/src/modulus/powof2/internal_macros.rs 98-129, algebra/src/modulus/goldilocks/ops.rs 115-170,
algebra/src/modulus/baby_bear/ops.rs 88-118. It is modelled once, parameterised by the
modular multiplication, and instantiated per modulus.
-/

namespace Verif

/-- algebra/src/modulus/barrett/ops.rs 119-121 and 149-151: repeated squaring. -/
def sqTimes {α : Type} (mul : α → α → Option α) : Nat → α → Option α
  | 0, p => some p
  | k + 1, p => do
    let p ← mul p p
    sqTimes mul k p

/-- algebra/src/modulus/barrett/ops.rs 130-136: the square-and-multiply loop, `n` iterations left. -/
def expLoop {α : Type} (mul : α → α → Option α) : Nat → Nat → α → α → Option α
  | 0, _, _, inter => some inter
  | n + 1, exp, power, inter => do
    let exp := exp / 2
    let power ← mul power power
    let inter ← if exp % 2 = 1 then mul inter power else some inter
    expLoop mul n exp power inter

/-- algebra/src/modulus/barrett/ops.rs 108-138: `exp_reduce` with an exponent type of `E` bits.
`ok` is the `debug_assert!` on the base. -/
def expReduceWith {α : Type} (E : Nat) (mul : α → α → Option α) (one : α) (ok : α → Bool)
    (a : α) (exp : Nat) : Option α :=
  if exp = 0 then some one
  else if ok a then do
    let tz := trailingZeros E exp
    let power ← sqTimes mul tz a
    let exp ← shrC E exp tz
    if exp = 1 then return power
    else expLoop mul (bitLen exp - 1) exp power power
  else none

/-- algebra/src/modulus/barrett/ops.rs 108-138: `exp_reduce` modulo a Barrett modulus. -/
def Barrett.expReduce (w E : Nat) (M : Barrett) (a exp : Nat) : Option Nat :=
  expReduceWith E (Barrett.mulReduce w M) 1 (fun x => decide (x < M.value)) a exp

/-- algebra/src/modulus/barrett/ops.rs 146-154: `exp_power_of_2_reduce`. -/
def Barrett.expPowOf2Reduce (w : Nat) (M : Barrett) (a expLog : Nat) : Option Nat :=
  sqTimes (Barrett.mulReduce w M) expLog a

end Verif
