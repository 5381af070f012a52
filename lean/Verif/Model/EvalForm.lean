import Verif.Model.Poly

/-!
# Operators of polynomials in transform form

`algebra/src/polynomial/ntt_polynomial.rs`, `native_polynomial.rs` and
`algebra/src/transformation/mod.rs`. The forms that move or borrow their operands share a
definition when their bodies are the same.
-/

namespace Verif.EvalForm

/-- `self.iter().zip(rhs).map(f).collect()`: the result has the shorter length.
algebra/src/polynomial/ntt_polynomial.rs 364, 421 and 478. -/
def zipCollect (f : Nat → Nat → Option Nat) : List Nat → List Nat → Option (List Nat)
  | x :: a, y :: b => do
    let r ← f x y
    let rest ← zipCollect f a b
    return r :: rest
  | _, _ => some []

/-- algebra/src/polynomial/ntt_polynomial.rs 312-346: `AddAssign` and `Add` with an owned left operand. -/
def addAssign (w : Nat) (M : Barrett) (a b : List Nat) : Option (List Nat) :=
  if a.length = b.length then Poly.zipAssign (Fp.add w M) a b else none

/-- algebra/src/polynomial/ntt_polynomial.rs 348-356: `Add` of a borrowed and an owned operand; the owned one
is updated. -/
def addOwned (w : Nat) (M : Barrett) (a b : List Nat) : Option (List Nat) := addAssign w M b a

/-- algebra/src/polynomial/ntt_polynomial.rs 358-367: `Add` of two borrowed operands. -/
def addRef (w : Nat) (M : Barrett) (a b : List Nat) : Option (List Nat) :=
  if a.length = b.length then zipCollect (Fp.add w M) a b else none

/-- algebra/src/polynomial/ntt_polynomial.rs 369-402: `SubAssign` and `Sub` with an owned left operand. -/
def subAssign (w : Nat) (M : Barrett) (a b : List Nat) : Option (List Nat) :=
  if a.length = b.length then Poly.zipAssign (Fp.subAssign w M) a b else none

/-- algebra/src/polynomial/ntt_polynomial.rs 404-413: `Sub` of a borrowed and an owned operand; the owned one
becomes `l - r`. -/
def subOwned (w : Nat) (M : Barrett) (a b : List Nat) : Option (List Nat) :=
  if a.length = b.length then Poly.zipAssign (fun r l => Fp.sub w M l r) b a else none

/-- algebra/src/polynomial/ntt_polynomial.rs 415-424: `Sub` of two borrowed operands. -/
def subRef (w : Nat) (M : Barrett) (a b : List Nat) : Option (List Nat) :=
  if a.length = b.length then zipCollect (Fp.sub w M) a b else none

/-- algebra/src/polynomial/ntt_polynomial.rs 462-470: `Mul` of a borrowed and an owned operand; the owned one
is updated. -/
def mulOwned (w : Nat) (M : Barrett) (a b : List Nat) : Option (List Nat) := Poly.nttMul w M b a

/-- algebra/src/polynomial/ntt_polynomial.rs 472-481: `Mul` of two borrowed operands. -/
def mulRef (w : Nat) (M : Barrett) (a b : List Nat) : Option (List Nat) :=
  if a.length = b.length then zipCollect (Fp.mul w M) a b else none

/-- algebra/src/polynomial/ntt_polynomial.rs 483-515: `MulAssign<Polynomial>` and `Mul<Polynomial>` with an
owned left operand. -/
def mulNative (w : Nat) (M : Barrett) (tbl : Nat → Option Table) (a b : List Nat) : Option (List Nat) :=
  if a.length = b.length then do
    let v ← Poly.toNtt w M tbl b
    Poly.nttMul w M a v
  else none

/-- algebra/src/polynomial/ntt_polynomial.rs 517-534: `Mul<Polynomial>` with a borrowed left operand. -/
def mulNativeRef (w : Nat) (M : Barrett) (tbl : Nat → Option Table) (a b : List Nat) : Option (List Nat) :=
  if a.length = b.length then do
    let v ← Poly.toNtt w M tbl b
    Poly.nttMul w M v a
  else none

/-- algebra/src/polynomial/ntt_polynomial.rs 204-207, 536-556: `neg_assign` and `Neg`. -/
def neg (M : Barrett) (a : List Nat) : Option (List Nat) := a.mapM (Fp.neg M)

/-- algebra/src/polynomial/ntt_polynomial.rs 155-165: `mul_scalar` and `mul_scalar_assign`. -/
def mulScalar (w : Nat) (M : Barrett) (a : List Nat) (s : Nat) : Option (List Nat) :=
  a.mapM fun v => Fp.mul w M v s

/-- algebra/src/polynomial/native_polynomial.rs 497-506: `Sub` of a borrowed and an owned polynomial; the
owned one becomes `l - r`. -/
def subOwnedNative (w : Nat) (M : Barrett) (a b : List Nat) : Option (List Nat) :=
  if a.length = b.length then Poly.zipAssign (fun r l => Fp.sub w M l r) b a else none

/-- algebra/src/transformation/mod.rs 31-47: `transform` and `transform_inplace`. -/
def transform (w : Nat) (M : Barrett) (t : Table) (a : List Nat) : Option (List Nat) := Table.transform w M t a

/-- algebra/src/transformation/mod.rs 56-72: `inverse_transform` and `inverse_transform_inplace`. -/
def inverseTransform (w : Nat) (M : Barrett) (t : Table) (a : List Nat) : Option (List Nat) :=
  Table.inverse w M t a

end Verif.EvalForm
