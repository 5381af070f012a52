import Verif.Model.Poly
import Verif.Model.Field
import Verif.Model.LWE

/-!
# RLWE samples, `lattice/src/rlwe.rs`

A field type `F` with its transform tables is bundled in `Ctx`. Pre-allocated work spaces
(`DecompositionSpace`, `PolynomialSpace`) are overwritten in full before they are read, and their
lengths are those of the polynomials; they are left out here. `Verif.Model.Scratch` models the same
functions with all spaces, and C80 proves that this makes no difference. A destination whose old content could
matter is kept as an argument.
-/

namespace Verif

/-- The field type: word width, Barrett constant of the modulus, transform tables by `log n`.
algebra_derive/src/lib.rs and algebra_derive/src/ntt.rs 50-196. -/
structure Ctx where
  w : Nat
  M : Barrett
  tbl : Nat → Option Table

/-- lattice/src/rlwe.rs 27-34: `RLWE`. -/
structure RLWE where
  a : List Nat
  b : List Nat
  deriving DecidableEq, Repr

/-- lattice/src/rlwe.rs 611-616: `NTTRLWE`, both polynomials in transform form. -/
structure NTTRLWE where
  a : List Nat
  b : List Nat
  deriving DecidableEq, Repr

namespace RLWE

/-- lattice/src/rlwe.rs 212-217, 226-231, 264-267: element-wise addition (the three forms are the same on
values). -/
def add (R : Ctx) (x y : RLWE) : Option RLWE := do
  let a ← Poly.add R.w R.M x.a y.a
  let b ← Poly.add R.w R.M x.b y.b
  return ⟨a, b⟩

/-- lattice/src/rlwe.rs 240-245: `sub_element_wise_ref`. -/
def sub (R : Ctx) (x y : RLWE) : Option RLWE := do
  let a ← Poly.sub R.w R.M x.a y.a
  let b ← Poly.sub R.w R.M x.b y.b
  return ⟨a, b⟩

/-- lattice/src/rlwe.rs 254-259, 272-275: `sub_element_wise`, `sub_assign_element_wise`. -/
def subAssign (R : Ctx) (x y : RLWE) : Option RLWE := do
  let a ← Poly.subAssign R.w R.M x.a y.a
  let b ← Poly.subAssign R.w R.M x.b y.b
  return ⟨a, b⟩

/-- lattice/src/rlwe.rs 296-317: `mul_ntt_polynomial_inplace` into a destination of the length of the
polynomial (`copy_from` panics on other lengths). -/
def mulNtt (R : Ctx) (x : RLWE) (p : List Nat) : Option NTTRLWE :=
  if x.a.length = p.length ∧ x.b.length = p.length then do
    let a ← Poly.toNtt R.w R.M R.tbl x.a
    let b ← Poly.toNtt R.w R.M R.tbl x.b
    let a ← Poly.nttMul R.w R.M a p
    let b ← Poly.nttMul R.w R.M b p
    return ⟨a, b⟩
  else none

/-- `v[1..].reverse()`, a panic on the empty vector. lattice/src/rlwe.rs 333, 346 and 374. -/
def reverseTail : List Nat → Option (List Nat)
  | [] => none
  | x :: l => some (x :: l.reverse)

/-- lattice/src/rlwe.rs 331-339: `extract_lwe`. -/
def extract (R : Ctx) (x : RLWE) : Option LWE := do
  let a ← x.a.mapM (Fp.neg R.M)
  let a ← reverseTail a
  let a0 ← Fp.neg R.M (a.getD 0 0)
  let b ← x.b[0]?
  return ⟨a0 :: a.drop 1, b⟩

/-- lattice/src/rlwe.rs 343-350: `extract_lwe_locally`. -/
def extractLocally (R : Ctx) (x : RLWE) : Option LWE := do
  let a ← reverseTail x.a
  let t ← (a.drop 1).mapM (Fp.neg R.M)
  let b ← x.b[0]?
  return ⟨a.take 1 ++ t, b⟩

/-- lattice/src/rlwe.rs 354-357: `extract_lwe_reverse_locally`. -/
def extractReverse (x : RLWE) : Option LWE := do
  let b ← x.b[0]?
  return ⟨x.a, b⟩

/-- lattice/src/rlwe.rs 361-366: `extract_partial_lwe_reverse_locally`. -/
def extractPartialReverse (x : RLWE) (dim : Nat) : Option LWE := do
  let b ← x.b[0]?
  return ⟨x.a.take dim, b⟩

/-- lattice/src/rlwe.rs 370-379: `extract_partial_lwe_locally`. -/
def extractPartial (R : Ctx) (x : RLWE) (dim : Nat) : Option LWE := do
  let a ← reverseTail x.a
  let t ← (a.drop 1).mapM (Fp.neg R.M)
  let b ← x.b[0]?
  return ⟨(a.take 1 ++ t).take dim, b⟩

/-- The two loops shared by the inner functions of lattice/src/rlwe.rs 382-484: `f` on `x[0..r]` against
`y[n_sub_r..]`, `g` on `x[r..]` against `y[0..n_sub_r]`. The slices panic out of bounds. -/
def rotate (f g : Nat → Nat → Option Nat) (x y : List Nat) (r s : Nat) : Option (List Nat) :=
  if r ≤ x.length ∧ s ≤ y.length then do
    let lo ← Poly.zipAssign f (x.take r) (y.drop s)
    let hi ← Poly.zipAssign g (x.drop r) (y.take s)
    return lo ++ hi
  else none

/-- lattice/src/rlwe.rs 390-405: `rotate_sub` for `r ≤ N`. -/
def rotateSub (R : Ctx) (x y : List Nat) (r s : Nat) : Option (List Nat) := do
  let x ← rotate (fun _ v => Fp.neg R.M v) (fun _ v => some v) x y r s
  Poly.subAssign R.w R.M x y

/-- lattice/src/rlwe.rs 411-426: `rotate_sub` for `r > N`. -/
def rotateSub' (R : Ctx) (x y : List Nat) (r s : Nat) : Option (List Nat) := do
  let x ← rotate (fun _ v => some v) (fun _ v => Fp.neg R.M v) x y r s
  Poly.subAssign R.w R.M x y

/-- lattice/src/rlwe.rs 382-432: `mul_monic_monomial_sub_one_inplace`, `dest = self * (X^r - 1)`. -/
def mulMonomialSubOne (R : Ctx) (x : RLWE) (n r : Nat) (dest : RLWE) : Option RLWE :=
  if r ≤ n then do
    let a ← rotateSub R dest.a x.a r (n - r)
    let b ← rotateSub R dest.b x.b r (n - r)
    return ⟨a, b⟩
  else do
    let s ← subC n (r - n)
    let a ← rotateSub' R dest.a x.a (r - n) s
    let b ← rotateSub' R dest.b x.b (r - n) s
    return ⟨a, b⟩

/-- lattice/src/rlwe.rs 444-458: `rotate_add`, the first version. -/
def rotateAdd (R : Ctx) (x y : List Nat) (r s : Nat) : Option (List Nat) :=
  rotate (Fp.subAssign R.w R.M) (Fp.add R.w R.M) x y r s

/-- lattice/src/rlwe.rs 464-478: `rotate_add`, the second version. -/
def rotateAdd' (R : Ctx) (x y : List Nat) (r s : Nat) : Option (List Nat) :=
  rotate (Fp.add R.w R.M) (Fp.subAssign R.w R.M) x y r s

/-- lattice/src/rlwe.rs 435-484: `add_assign_rhs_mul_monic_monomial`, `self += rhs * X^r`. -/
def addMulMonomial (R : Ctx) (x y : RLWE) (n r : Nat) : Option RLWE :=
  if r ≤ n then do
    let a ← rotateAdd R x.a y.a r (n - r)
    let b ← rotateAdd R x.b y.b r (n - r)
    return ⟨a, b⟩
  else do
    let s ← subC n (r - n)
    let a ← rotateAdd' R x.a y.a (r - n) s
    let b ← rotateAdd' R x.b y.b (r - n) s
    return ⟨a, b⟩

/-- lattice/src/rlwe.rs 577-595: `generate_random_zero_sample` from the transform form `s` of the secret, the
uniform draws `a` and the sampled error words `e`. -/
def zeroSample (R : Ctx) (s a e : List Nat) : Option RLWE :=
  if a.length = s.length ∧ e.length = s.length then do
    let v ← Poly.toNtt R.w R.M R.tbl a
    let v ← Poly.nttMul R.w R.M v s
    let p ← Poly.ofNtt R.w R.M R.tbl v
    let b ← Poly.add R.w R.M e p
    return ⟨a, b⟩
  else none

/-- lattice/src/rlwe.rs 618-626: `From<RLWE> for NTTRLWE`. -/
def toNtt (R : Ctx) (x : RLWE) : Option NTTRLWE := do
  let a ← Poly.toNtt R.w R.M R.tbl x.a
  let b ← Poly.toNtt R.w R.M R.tbl x.b
  return ⟨a, b⟩

end RLWE

namespace NTTRLWE

/-- lattice/src/rlwe.rs 659-664: `zero`. -/
def zero (n : Nat) : NTTRLWE := ⟨Poly.zero n, Poly.zero n⟩

/-- lattice/src/rlwe.rs 668-671: `set_zero`. -/
def setZero (x : NTTRLWE) : NTTRLWE := ⟨Poly.setZero x.a, Poly.setZero x.b⟩

/-- lattice/src/rlwe.rs 674-686: `inverse_transform_inplace` (and `From<NTTRLWE> for RLWE`,
lattice/src/rlwe.rs 75-83). -/
def toCoeff (R : Ctx) (x : NTTRLWE) : Option RLWE := do
  let a ← Poly.ofNtt R.w R.M R.tbl x.a
  let b ← Poly.ofNtt R.w R.M R.tbl x.b
  return ⟨a, b⟩

/-- lattice/src/rlwe.rs 761-775, 803-806: element-wise addition. -/
def add (R : Ctx) (x y : NTTRLWE) : Option NTTRLWE := do
  let a ← Poly.add R.w R.M x.a y.a
  let b ← Poly.add R.w R.M x.b y.b
  return ⟨a, b⟩

/-- lattice/src/rlwe.rs 793-798, 811-814: element-wise subtraction. -/
def subAssign (R : Ctx) (x y : NTTRLWE) : Option NTTRLWE := do
  let a ← Poly.subAssign R.w R.M x.a y.a
  let b ← Poly.subAssign R.w R.M x.b y.b
  return ⟨a, b⟩

/-- lattice/src/rlwe.rs 834-837: `mul_ntt_polynomial_assign`. -/
def mulNtt (R : Ctx) (x : NTTRLWE) (p : List Nat) : Option NTTRLWE := do
  let a ← Poly.nttMul R.w R.M x.a p
  let b ← Poly.nttMul R.w R.M x.b p
  return ⟨a, b⟩

/-- lattice/src/rlwe.rs 853-860: `add_ntt_rlwe_mul_ntt_polynomial_assign`. -/
def addMul (R : Ctx) (x g : NTTRLWE) (p : List Nat) : Option NTTRLWE := do
  let a ← Poly.nttAddMul R.w R.M x.a g.a p
  let b ← Poly.nttAddMul R.w R.M x.b g.b p
  return ⟨a, b⟩

/-- lattice/src/rlwe.rs 867-874: `add_ntt_rlwe_mul_ntt_polynomial_assign_fast`. -/
def addMulFast (R : Ctx) (x g : NTTRLWE) (p : List Nat) : Option NTTRLWE := do
  let a ← Poly.nttAddMulFast R.w R.M x.a g.a p
  let b ← Poly.nttAddMulFast R.w R.M x.b g.b p
  return ⟨a, b⟩

/-- The loop shared by lattice/src/rlwe.rs 925-930, 953-957, 976-980, 1000-1005, 1026-1030 and
lattice/src/gadget/rlwe.rs 119-124, 143-149, 353-357, 381-386, 411-416: split off a digit polynomial,
transform it, multiply it with the next gadget element, accumulate with `acc`. -/
def gadgetLoop {G : Type} (R : Ctx) (B : Basis) (acc : NTTRLWE → G → List Nat → Option NTTRLWE) :
    List G → List Nat → NTTRLWE → Option NTTRLWE
  | [], _, x => some x
  | g :: gs, p, x => do
    let (d, p) ← Poly.decomposeLsb R.w B p
    let d ← Poly.toNtt R.w R.M R.tbl d
    let x ← acc x g d
    gadgetLoop R B acc gs p x

/-- lattice/src/rlwe.rs 1034-1049: `generate_random_zero_sample`. -/
def zeroSample (R : Ctx) (s a e : List Nat) : Option NTTRLWE :=
  if a.length = s.length ∧ e.length = s.length then do
    let e ← Poly.toNtt R.w R.M R.tbl e
    let b ← Poly.nttAddMul R.w R.M e a s
    return ⟨a, b⟩
  else none

/-- `l[0] += v`, a panic on the empty list. lattice/src/rlwe.rs 1065. -/
def addHead (R : Ctx) (l : List Nat) (v : Nat) : Option (List Nat) :=
  match l with
  | [] => none
  | x :: l => do
    let x ← Fp.add R.w R.M x v
    return x :: l

/-- lattice/src/rlwe.rs 1052-1071: `generate_random_value_sample`. -/
def valueSample (R : Ctx) (s : List Nat) (value : Nat) (a e : List Nat) : Option NTTRLWE :=
  if a.length = s.length ∧ e.length = s.length then do
    let e ← addHead R e value
    let b ← Poly.toNtt R.w R.M R.tbl e
    let b ← Poly.nttAddMul R.w R.M b a s
    return ⟨a, b⟩
  else none

end NTTRLWE
end Verif
