import Verif.Model.Transform
import Verif.Model.Basis

/-!
# Polynomials in coefficient and in transform form

`algebra/src/polynomial/native_polynomial.rs` and `ntt_polynomial.rs`. A polynomial is
its list of stored words. The `debug_assert!`s are kept: a failed one is `none`, like any panic.
`tbl k` stands for `F::get_ntt_table(k).unwrap()`, modelled in `Verif.Model.Cache`.
-/

namespace Verif.Poly

/-- `l.iter_mut().zip(r)`: the elements of `l` beyond the shorter length stay.
algebra/src/polynomial/native_polynomial.rs 409 and 466, algebra/src/polynomial/ntt_polynomial.rs 316, 373 and
430. -/
def zipAssign (f : Nat → Nat → Option Nat) : List Nat → List Nat → Option (List Nat)
  | a :: as, b :: bs => do
    let c ← f a b
    let cs ← zipAssign f as bs
    return c :: cs
  | as, _ => some as

/-- `x.iter().zip(y).zip(dest)` storing into `dest`; elements of `dest` beyond stay.
algebra/src/polynomial/native_polynomial.rs 176-195, algebra/src/polynomial/ntt_polynomial.rs 170-201. -/
def zip3Assign (f : Nat → Nat → Option Nat) : List Nat → List Nat → List Nat → Option (List Nat)
  | a :: as, b :: bs, _ :: ds => do
    let c ← f a b
    let cs ← zip3Assign f as bs ds
    return c :: cs
  | _, _, ds => some ds

/-- `x.iter_mut().zip(y).zip(z)` updating `x`. algebra/src/polynomial/ntt_polynomial.rs 588-591 and 625-628.
-/
def fmaAssign (f : Nat → Nat → Nat → Option Nat) :
    List Nat → List Nat → List Nat → Option (List Nat)
  | a :: as, b :: bs, c :: cs => do
    let d ← f a b c
    let ds ← fmaAssign f as bs cs
    return d :: ds
  | as, _, _ => some as

/-- algebra/src/polynomial/native_polynomial.rs 88-92, algebra/src/polynomial/ntt_polynomial.rs 82-86: `zero`.
-/
def zero (n : Nat) : List Nat := List.replicate n Fp.zero

/-- algebra/src/polynomial/native_polynomial.rs 96-98, algebra/src/polynomial/ntt_polynomial.rs 90-92:
`is_zero`. -/
def isZero (a : List Nat) : Bool := a.isEmpty || a.all (· == Fp.zero)

/-- algebra/src/polynomial/native_polynomial.rs 102-104: `set_zero`. -/
def setZero (a : List Nat) : List Nat := a.map fun _ => Fp.zero

/-- algebra/src/polynomial/native_polynomial.rs 405-419 (and the `Add` forms 421-458),
algebra/src/polynomial/ntt_polynomial.rs the same: `AddAssign`. -/
def add (w : Nat) (M : Barrett) (a b : List Nat) : Option (List Nat) :=
  if a.length = b.length then zipAssign (Fp.add w M) a b else none

/-- algebra/src/polynomial/native_polynomial.rs 462-475 and 477-495: `SubAssign` and the `Sub` forms using it.
-/
def subAssign (w : Nat) (M : Barrett) (a b : List Nat) : Option (List Nat) :=
  if a.length = b.length then zipAssign (Fp.subAssign w M) a b else none

/-- algebra/src/polynomial/native_polynomial.rs 497-517: `Sub` with a borrowed left operand. -/
def sub (w : Nat) (M : Barrett) (a b : List Nat) : Option (List Nat) :=
  if a.length = b.length then zipAssign (Fp.sub w M) a b else none

/-- algebra/src/polynomial/native_polynomial.rs 176-183, algebra/src/polynomial/ntt_polynomial.rs 170-177:
`add_inplace`. -/
def addInplace (w : Nat) (M : Barrett) (a b dest : List Nat) : Option (List Nat) :=
  zip3Assign (Fp.add w M) a b dest

/-- algebra/src/polynomial/native_polynomial.rs 188-195, algebra/src/polynomial/ntt_polynomial.rs 182-189:
`sub_inplace`. -/
def subInplace (w : Nat) (M : Barrett) (a b dest : List Nat) : Option (List Nat) :=
  zip3Assign (Fp.sub w M) a b dest

/-- algebra/src/polynomial/native_polynomial.rs 199-201 and 655-673: `neg_assign`, `Neg`. -/
def neg (M : Barrett) (a : List Nat) : Option (List Nat) := a.mapM (Fp.neg M)

/-- algebra/src/polynomial/native_polynomial.rs 163-171: `mul_scalar`, `mul_scalar_assign`. -/
def mulScalar (w : Nat) (M : Barrett) (a : List Nat) (s : Nat) : Option (List Nat) :=
  a.mapM fun v => Fp.mul w M v s

/-- algebra/src/polynomial/native_polynomial.rs 205-210: `evaluate`, a fold from the highest coefficient. -/
def evaluate (w : Nat) (M : Barrett) (x : Nat) : List Nat → Option Nat
  | [] => some Fp.zero
  | a :: as => do
    let acc ← evaluate w M x as
    let p ← Fp.mul w M acc x
    Fp.add w M a p

/-- algebra/src/polynomial/native_polynomial.rs 525-529, algebra/src/polynomial/ntt_polynomial.rs 41-43: the
length checks and the table look-up before a transform. -/
def tableFor (tbl : Nat → Option Table) (len : Nat) : Option Table :=
  if isPow2 len then tbl (trailingZeros 64 len) else none

/-- algebra/src/polynomial/native_polynomial.rs 702-706: `ntt_mul_assign_fast`, results in `[0, 2q)`. -/
def mulFastAssign (w : Nat) (M : Barrett) (a b : List Nat) : Option (List Nat) :=
  zipAssign (Fp.mulFast w M) a b

/-- algebra/src/polynomial/native_polynomial.rs 519-534 (and the `Mul` forms 536-581): `MulAssign<Self>`. -/
def mul (w : Nat) (M : Barrett) (tbl : Nat → Option Table) (a b : List Nat) :
    Option (List Nat) :=
  if a.length = b.length then do
    let t ← tableFor tbl a.length
    let r ← Table.transform w M t b
    let l ← Table.transform w M t a
    let p ← mulFastAssign w M l r
    Table.inverse w M t p
  else none

/-- algebra/src/polynomial/native_polynomial.rs 620-652: `MulAssign<NTTPolynomial>`. -/
def mulNtt (w : Nat) (M : Barrett) (tbl : Nat → Option Table) (a r : List Nat) :
    Option (List Nat) :=
  if a.length = r.length then do
    let t ← tableFor tbl a.length
    let l ← Table.transform w M t a
    let p ← mulFastAssign w M l r
    Table.inverse w M t p
  else none

/-- algebra/src/polynomial/ntt_polynomial.rs 38-47: `NTTPolynomial::from(Polynomial)`. -/
def toNtt (w : Nat) (M : Barrett) (tbl : Nat → Option Table) (a : List Nat) :
    Option (List Nat) := do
  let t ← tableFor tbl a.length
  Table.transform w M t a

/-- algebra/src/polynomial/native_polynomial.rs 44-53: `Polynomial::from(NTTPolynomial)`. -/
def ofNtt (w : Nat) (M : Barrett) (tbl : Nat → Option Table) (a : List Nat) :
    Option (List Nat) := do
  let t ← tableFor tbl a.length
  Table.inverse w M t a

/-- algebra/src/polynomial/ntt_polynomial.rs 426-440: `MulAssign` on transform form. -/
def nttMul (w : Nat) (M : Barrett) (a b : List Nat) : Option (List Nat) :=
  if a.length = b.length then zipAssign (Fp.mul w M) a b else none

/-- algebra/src/polynomial/ntt_polynomial.rs 583-592: `ntt_add_mul_assign`. -/
def nttAddMul (w : Nat) (M : Barrett) (a b c : List Nat) : Option (List Nat) :=
  fmaAssign (Fp.addMul w M) a b c

/-- algebra/src/polynomial/ntt_polynomial.rs 620-629: `ntt_add_mul_assign_fast`. -/
def nttAddMulFast (w : Nat) (M : Barrett) (a b c : List Nat) : Option (List Nat) :=
  fmaAssign (Fp.addMulFast w M) a b c

/-- algebra/src/polynomial/ntt_polynomial.rs 558-576: `Inv` on transform form. -/
def nttInv (w : Nat) (M : Barrett) (a : List Nat) : Option (List Nat) := a.mapM (Fp.inv w M)

/-- algebra/src/polynomial/native_polynomial.rs 676-695: `Inv`. -/
def inv (w : Nat) (M : Barrett) (tbl : Nat → Option Table) (a : List Nat) :
    Option (List Nat) := do
  let v ← toNtt w M tbl a
  let i ← nttInv w M v
  ofNtt w M tbl i

/-- algebra/src/polynomial/native_polynomial.rs 340-348: one step of the streamed decomposition: the digits
and the rest of `self`. -/
def decomposeLsb (w : Nat) (B : Basis) : List Nat → Option (List Nat × List Nat)
  | [] => some ([], [])
  | x :: xs => do
    let (d, x') ← Basis.decomposeLsb w B.mask B.bits x
    let (ds, xs') ← decomposeLsb w B xs
    return (d :: ds, x' :: xs')

/-- algebra/src/polynomial/native_polynomial.rs 298-311: the loop of `decompose`, `k` levels left. -/
def decomposeLoop (w : Nat) (B : Basis) : Nat → List Nat → Option (List (List Nat) × List Nat)
  | 0, a => some ([], a)
  | k + 1, a => do
    let (d, a') ← decomposeLsb w B a
    let (ds, rest) ← decomposeLoop w B k a'
    return (d :: ds, rest)

/-- algebra/src/polynomial/native_polynomial.rs 298-311 and 318-333: `decompose` and `decompose_inplace`, the
digit polynomials and what is left in `self`. -/
def decompose (w : Nat) (B : Basis) (a : List Nat) : Option (List (List Nat) × List Nat) :=
  decomposeLoop w B B.decomposeLen a

end Verif.Poly
