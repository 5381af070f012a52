import Verif.Model.Exp

/-!
# The Baby Bear modulus (Montgomery form, u32)

Field elements are `u32` words holding `x * 2^32 mod P`.
-/

namespace Verif.BabyBear

/-- algebra/src/modulus/baby_bear/mod.rs 11: `P`. -/
abbrev P : Nat := 0x78000001

/-- algebra/src/modulus/baby_bear/mod.rs 15: `MONTY_MU`. -/
abbrev MU : Nat := 0x88000001

/-- algebra/src/modulus/baby_bear/mod.rs 19: `MONTY_MASK`. -/
abbrev MASK : Nat := 2 ^ 32 - 1

/-- algebra/src/modulus/baby_bear/mod.rs 70-72: `to_monty`. The `u64` shift of a `u32` loses no bit. -/
def toMonty (x : Nat) : Nat := trunc 32 (x * 2 ^ 32 % 2 ^ 64 % P)

/-- algebra/src/modulus/baby_bear/mod.rs 95-97: `to_monty_64`. -/
def toMonty64 (x : Nat) : Nat := trunc 32 (x * 2 ^ 32 % 2 ^ 128 % P)

/-- algebra/src/modulus/baby_bear/mod.rs 26-32: `MONTY_ZERO`, `MONTY_ONE`, `MONTY_TWO`, `MONTY_NEG_ONE`. -/
def MONTY_ZERO : Nat := toMonty 0
/-- algebra/src/modulus/baby_bear/mod.rs 26-32. -/
def MONTY_ONE : Nat := toMonty 1
/-- algebra/src/modulus/baby_bear/mod.rs 26-32. -/
def MONTY_TWO : Nat := toMonty 2
/-- algebra/src/modulus/baby_bear/mod.rs 26-32. -/
def MONTY_NEG_ONE : Nat := toMonty (P - 1)

/-- algebra/src/modulus/baby_bear/mod.rs 109-117: `monty_reduce`; `t * P` is a plain `u64` product. -/
def montyReduce (x : Nat) : Option Nat := do
  let t := wrappingMul 64 x MU &&& MASK
  let u ← mulC 64 t P
  let s := overflowingSub 64 x u
  let hi := trunc 32 (s.1 / 2 ^ 32)
  let corr := if s.2 then P else 0
  return wrappingAdd 32 hi corr

/-- algebra/src/modulus/baby_bear/mod.rs 102-104: `from_monty`. -/
def fromMonty (x : Nat) : Option Nat := montyReduce x

/-- algebra/src/modulus/baby_bear/ops.rs 15-22: `add_reduce`. -/
def addReduce (a b : Nat) : Option Nat := do
  let sum ← addC 32 a b
  let s := overflowingSub 32 sum P
  return if s.2 then sum else s.1

/-- algebra/src/modulus/baby_bear/ops.rs 36-41: `sub_reduce`. -/
def subReduce (a b : Nat) : Nat :=
  let s := overflowingSub 32 a b
  wrappingAdd 32 s.1 (if s.2 then P else 0)

/-- algebra/src/modulus/baby_bear/ops.rs 55-57: `neg_reduce`. -/
def negReduce (a : Nat) : Nat := subReduce 0 a

/-- algebra/src/modulus/baby_bear/ops.rs 71-74: `mul_reduce`. -/
def mulReduce (a b : Nat) : Option Nat := do
  let p ← mulC 64 a b
  montyReduce p

/-- algebra/src/modulus/baby_bear/ops.rs 88-118: `exp_reduce`. The value returned for exponent zero is the raw
word `1`, as in the code. -/
def expReduce (E a exp : Nat) : Option Nat :=
  expReduceWith E mulReduce 1 (fun x => decide (x < P)) a exp

/-- algebra/src/modulus/baby_bear/ops.rs 123-131: `exp_power_of_2_reduce`. -/
def expPowOf2Reduce (a expLog : Nat) : Option Nat := sqTimes mulReduce expLog a

/-- algebra/src/modulus/baby_bear/mod.rs 34-65: `try_inverse`. The outer option is the panic of the arithmetic,
the inner one the returned `Option`. -/
def tryInverse (value : Nat) : Option (Option Nat) :=
  if value = 0 then some none
  else do
    let p1 := value
    let p100000000 ← sqTimes mulReduce 8 p1
    let p100000001 ← mulReduce p100000000 p1
    let p10000000000000000 ← sqTimes mulReduce 8 p100000000
    let p10000000100000001 ← mulReduce p10000000000000000 p100000001
    let p10000000100000001000 ← sqTimes mulReduce 3 p10000000100000001
    let p1000000010000000100000000 ← sqTimes mulReduce 5 p10000000100000001000
    let p1000000010000000100000001 ← mulReduce p1000000010000000100000000 p1
    let p1000010010000100100001001 ← mulReduce p1000000010000000100000001 p10000000100000001000
    let p10000000100000001000000010 ← mulReduce p1000000010000000100000001 p1000000010000000100000001
    let p11000010110000101100001011 ←
      mulReduce p10000000100000001000000010 p1000010010000100100001001
    let p100000001000000010000000100 ←
      mulReduce p10000000100000001000000010 p10000000100000001000000010
    let p111000011110000111100001111 ←
      mulReduce p100000001000000010000000100 p11000010110000101100001011
    let p1110000111100001111000011110000 ← sqTimes mulReduce 4 p111000011110000111100001111
    let r ← mulReduce p1110000111100001111000011110000 p111000011110000111100001111
    return some r

/-- algebra/src/modulus/baby_bear/ops.rs 136-138 and 143-145: `inv_reduce`; `none` is the `unwrap` panic. -/
def invReduce (value : Nat) : Option Nat := do
  let r ← tryInverse value
  r

/-- algebra/src/modulus/baby_bear/ops.rs 162-164 and 169-171: `div_reduce`. -/
def divReduce (a b : Nat) : Option Nat := do
  let i ← invReduce b
  mulReduce a i

/-- algebra/src/modulus/baby_bear/ops.rs 177-189: `dot_product_reduce`. -/
def dotProduct (a b : List Nat) : Option Nat :=
  if a.length = b.length then
    (a.zip b).foldlM (fun acc xy => do
      let p ← mulReduce xy.1 xy.2
      addReduce p acc) 0
  else none

end Verif.BabyBear
