import Verif.Model.Exp

/-!
# Miller-Rabin primality test

The random generator is a parameter: `draw i` is the value sampled in round `i`.
The macro is instantiated for `u64`, `u32`, `u16` and `u8` (algebra/src/utils/prime.rs 109-115); the width is a
parameter here.
-/

namespace Verif.Prime

/-- algebra/src/utils/prime.rs 21-38: `PRIME_BIT_MASK`. -/
def PRIME_BIT_MASK : Nat :=
  2 ^ 2 ||| 2 ^ 3 ||| 2 ^ 5 ||| 2 ^ 7 ||| 2 ^ 11 ||| 2 ^ 13 ||| 2 ^ 17 ||| 2 ^ 19 ||| 2 ^ 23 |||
  2 ^ 29 ||| 2 ^ 31 ||| 2 ^ 37 ||| 2 ^ 41 ||| 2 ^ 43 ||| 2 ^ 47 ||| 2 ^ 53 ||| 2 ^ 59 ||| 2 ^ 61

/-- algebra/src/utils/prime.rs 55-69: the trial divisors. -/
def trialDivisors : List Nat := [3, 5, 7, 11, 13, 17, 19, 23, 29, 31, 37, 41, 43, 47, 53]

/-- How one round ends: go to the next round (algebra/src/utils/prime.rs 89), leave the round loop (95), or
report a composite (98, 101). -/
inductive RoundEnd where
  | next
  | leave
  | composite
deriving DecidableEq

/-- algebra/src/utils/prime.rs 92-101: the squaring loop, `k` iterations left. -/
def squareLoop (w : Nat) (M : Barrett) (valueSubOne : Nat) : Nat → Nat → Option RoundEnd
  | 0, _ => some .composite
  | k + 1, x => do
    let (lo, hi) ← wideningMulC w x x
    let x ← Barrett.reduce2 w M lo hi
    if x = valueSubOne then return .leave
    else if x = 1 then return .composite
    else squareLoop w M valueSubOne k x

/-- algebra/src/utils/prime.rs 82-101: one round with witness `a`. -/
def round (w : Nat) (M : Barrett) (valueSubOne r q a : Nat) : Option RoundEnd := do
  let x ← Barrett.expReduce w w M a q
  if x = 1 ∨ x = valueSubOne then return .next
  else squareLoop w M valueSubOne (r - 1) x

/-- algebra/src/utils/prime.rs 81-103: the round loop from round `i`, `k` rounds left. -/
def roundLoop (w : Nat) (M : Barrett) (valueSubOne r q : Nat) (draw : Nat → Nat) :
    Nat → Nat → Option Bool
  | 0, _ => some true
  | k + 1, i => do
    let a := if i ≠ 0 then draw i else 2
    let e ← round w M valueSubOne r q a
    match e with
    | .next => roundLoop w M valueSubOne r q draw k (i + 1)
    | .leave => return true
    | .composite => return false

/-- algebra/src/utils/prime.rs 19-104: `probably_prime`. -/
def probablyPrime (w : Nat) (M : Barrett) (rounds : Nat) (draw : Nat → Nat) : Option Bool :=
  let value := M.value
  if value = 0 then some false
  else if value < 64 then some (decide (PRIME_BIT_MASK &&& 2 ^ value ≠ 0))
  else if value % 2 = 0 then some false
  else if trialDivisors.any (fun d => value % d == 0) then some false
  else do
    let valueSubOne ← subC value 1
    let r := trailingZeros w valueSubOne
    let q ← shrC w valueSubOne r
    roundLoop w M valueSubOne r q draw rounds 0

/-- algebra_derive/src/prime.rs 20-22: `is_prime_field` of a derived field with modulus `M`. -/
def isPrimeField (w : Nat) (M : Barrett) (draw : Nat → Nat) : Option Bool := probablyPrime w M 20 draw

end Verif.Prime
