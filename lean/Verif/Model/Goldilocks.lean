import Verif.Model.Exp

/-! # The Goldilocks modulus `2^64 - 2^32 + 1` (u64, results not always canonical) -/

namespace Verif.Goldilocks

/-- algebra/src/modulus/goldilocks/mod.rs 9: `EPSILON`. -/
abbrev EPSILON : Nat := 2 ^ 32 - 1

/-- algebra/src/modulus/goldilocks/mod.rs 11: `P`. -/
abbrev P : Nat := 0xFFFFFFFF00000001

/-- algebra/src/modulus/goldilocks/mod.rs 26-33: `to_canonical_u64`. -/
def toCanonical (value : Nat) : Option Nat :=
  if P ≤ value then subC value P else some value

/-- algebra/src/modulus/goldilocks/mod.rs 119-123: `add_no_canonicalize_trashing_input`. The x86 assembly
(91-115) is `X86.addNoCanonicalize`. -/
def addNoCanonicalize (x y : Nat) : Option Nat := do
  let s := overflowingAdd 64 x y
  let e ← mulC 64 EPSILON s.2.toNat
  addC 64 s.1 e

/-- algebra/src/modulus/goldilocks/mod.rs 129-132: `reduce96`. -/
def reduce96 (lo hi : Nat) : Option Nat := do
  let t1 ← mulC 64 hi EPSILON
  addNoCanonicalize lo t1

/-- algebra/src/modulus/goldilocks/mod.rs 137-148 with `split` 151-153: `reduce128`. -/
def reduce128 (x : Nat) : Option Nat := do
  let lo := trunc 64 x
  let hi := trunc 64 (x / 2 ^ 64)
  let hihi := hi / 2 ^ 32
  let hilo := hi &&& EPSILON
  let s := overflowingSub 64 lo hihi
  let t0 ← if s.2 then subC s.1 EPSILON else some s.1
  let t1 ← mulC 64 hilo EPSILON
  addNoCanonicalize t0 t1

/-- algebra/src/modulus/goldilocks/ops.rs 15-21 and 26-30: `reduce`. The comparison is
strict, as in the code. -/
def reduce (a : Nat) : Option Nat := if P < a then subC a P else some a

/-- algebra/src/modulus/goldilocks/ops.rs 37-44: `add_reduce`. -/
def addReduce (a b : Nat) : Option Nat := do
  let s := overflowingAdd 64 a b
  let e ← mulC 64 s.2.toNat EPSILON
  let s := overflowingAdd 64 s.1 e
  if s.2 then addC 64 s.1 EPSILON else some s.1

/-- algebra/src/modulus/goldilocks/ops.rs 58-65: `sub_reduce`. -/
def subReduce (a b : Nat) : Option Nat := do
  let s := overflowingSub 64 a b
  let e ← mulC 64 s.2.toNat EPSILON
  let s := overflowingSub 64 s.1 e
  if s.2 then subC s.1 EPSILON else some s.1

/-- algebra/src/modulus/goldilocks/ops.rs 79-85: `neg_reduce`. -/
def negReduce (a : Nat) : Option Nat := if a = 0 then some 0 else subC P a

/-- algebra/src/modulus/goldilocks/ops.rs 99-101: `mul_reduce`. -/
def mulReduce (a b : Nat) : Option Nat := do
  let p ← mulC 128 a b
  reduce128 p

/-- algebra/src/modulus/goldilocks/ops.rs 115-145: `exp_reduce`. -/
def expReduce (E a exp : Nat) : Option Nat :=
  expReduceWith E mulReduce 1 (fun x => decide (x < P)) a exp

/-- algebra/src/modulus/goldilocks/ops.rs 150-158: `exp_power_of_2_reduce`. -/
def expPowOf2Reduce (a expLog : Nat) : Option Nat := sqTimes mulReduce expLog a

/-- algebra/src/modulus/goldilocks/mod.rs 157-160: `exp_acc`. -/
def expAcc (n base tail : Nat) : Option Nat := do
  let b ← expPowOf2Reduce base n
  mulReduce b tail

/-- algebra/src/modulus/goldilocks/mod.rs 45-84: `try_inverse`; the inner option is the returned `Option`. -/
def tryInverse (value : Nat) : Option (Option Nat) :=
  if value = 0 then some none
  else do
    let s ← mulReduce value value
    let t2 ← mulReduce s value
    let s ← mulReduce t2 t2
    let t3 ← mulReduce s value
    let t6 ← expAcc 3 t3 t3
    let t12 ← expAcc 6 t6 t6
    let t24 ← expAcc 12 t12 t12
    let t30 ← expAcc 6 t24 t6
    let s ← mulReduce t30 t30
    let t31 ← mulReduce s value
    let t63 ← expAcc 32 t31 t31
    let s ← mulReduce t63 t63
    let r ← mulReduce s value
    return some r

/-- algebra/src/modulus/goldilocks/ops.rs 173-175 and 180-182: `inv_reduce`; `none` is the `unwrap` panic. -/
def invReduce (value : Nat) : Option Nat := do
  let r ← tryInverse value
  r

/-- algebra/src/modulus/goldilocks/ops.rs 189-191 and 196-198: `div_reduce`. -/
def divReduce (a b : Nat) : Option Nat := do
  let i ← invReduce b
  mulReduce a i

/-- algebra/src/modulus/goldilocks/ops.rs 204-216: `dot_product_reduce`. -/
def dotProduct (a b : List Nat) : Option Nat :=
  if a.length = b.length then
    (a.zip b).foldlM (fun acc xy => do
      let p ← mulReduce xy.1 xy.2
      addReduce p acc) 0
  else none

end Verif.Goldilocks
