import Verif.Model.Field
import Verif.Model.Shoup

/-!
# Primitive roots of unity in a derived field

A `Result` that can also panic is `Option (Option α)`: the outer `none` is a panic and the inner
`none` is the error value.
-/

namespace Verif.Fp

/-- algebra_derive/src/ntt.rs 252-257: `to_root`. -/
def toRoot (w : Nat) (M : Barrett) (a : Nat) : Option Shoup := Shoup.new w a M.value

/-- algebra_derive/src/ntt.rs 220-226: `from_root`. -/
def fromRoot (r : Shoup) : Nat := r.value

/-- algebra_derive/src/ntt.rs 283-290 and 316-323: `mul_root` and `mul_root_assign`. -/
def mulRoot (w : Nat) (M : Barrett) (a : Nat) (r : Shoup) : Option Nat :=
  Shoup.mulReduce w r a M.value

/-- algebra_derive/src/ntt.rs 55-65: `From<usize>`. -/
def fromUsize (M : Barrett) (value : Nat) : Nat :=
  if value < M.value then value else value % M.value

/-- algebra_derive/src/ntt.rs 83-95: `is_primitive_root`. -/
def isPrimitiveRoot (w : Nat) (M : Barrett) (root degree : Nat) : Option Bool :=
  if root < M.value then
    if 1 < degree ∧ isPow2 degree = true then
      if root = 0 then some false
      else do
        let e ← shrC w degree 1
        let p ← pow w M root e
        let t ← subC M.value 1
        return p == t
    else none
  else none

/-- algebra_derive/src/ntt.rs 115-121: the `(0..100).any(..)` search over the random draws. -/
def searchRoot (w : Nat) (M : Barrett) (quotient degree : Nat) : List Nat → Option (Option Nat)
  | [] => some none
  | x :: xs => do
    let c ← pow w M x quotient
    let good ← isPrimitiveRoot w M c degree
    if good then return some c else searchRoot w M quotient degree xs

/-- algebra_derive/src/ntt.rs 97-128: `try_primitive_root`. `draws` are the values the random
generator returns, each from 2 to `q - 1`; at most 100 of them are used. The range is asserted to be non-empty. -/
def tryPrimitiveRoot (w : Nat) (M : Barrett) (degree : Nat) (draws : List Nat) :
    Option (Option Nat) :=
  if degree = 0 then none
  else do
    let m1 ← subC M.value 1
    let quotient := m1 / degree
    let prod ← mulC w quotient degree
    if m1 ≠ prod then return none
    else if m1 < 2 then none
    else searchRoot w M quotient degree (draws.take 100)

/-- algebra_derive/src/ntt.rs 136-142: the loop of `try_minimal_primitive_root`, with the number of
iterations left, the best root so far and the current generator. -/
def minimalLoop (w : Nat) (M : Barrett) (sq : Shoup) : Nat → Nat → Nat → Option Nat
  | 0, root, _ => some root
  | k + 1, root, cur => do
    let next ← mulRoot w M cur sq
    minimalLoop w M sq k (if cur < root then cur else root) next

/-- algebra_derive/src/ntt.rs 130-145: `try_minimal_primitive_root`. -/
def tryMinimalPrimitiveRoot (w : Nat) (M : Barrett) (degree : Nat) (draws : List Nat) :
    Option (Option Nat) := do
  match ← tryPrimitiveRoot w M degree draws with
  | none => return none
  | some root =>
    let sq ← mul w M root root
    let sqr ← toRoot w M sq
    let r ← minimalLoop w M sqr degree root root
    return some r

end Verif.Fp
