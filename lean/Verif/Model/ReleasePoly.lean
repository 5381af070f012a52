import Verif.Model.Poly
import Verif.Model.LWE

/-!
# Polynomials of any lengths in builds without debug assertions and overflow checks

In such a build (the default of `cargo build --release`) the length checks of the polynomial operations and of the
built-in transform do nothing, plain arithmetic wraps and shift amounts are taken modulo the width. `none` is a panic that
is left: an exhausted iterator of roots, a slice out of range, a chunk size of zero. Operations on field elements are those
of the checked build; on the reduced words of field elements they do not overflow (C05, C49).
-/

namespace Verif.ReleasePoly

/-- algebra/src/polynomial/native_polynomial.rs 405-439, algebra/src/polynomial/ntt_polynomial.rs 312-346: `AddAssign`
and `a + b` with an owned left operand. -/
def addAssign (w : Nat) (M : Barrett) (a b : List Nat) : Option (List Nat) := Poly.zipAssign (Fp.add w M) a b

/-- algebra/src/polynomial/native_polynomial.rs 441-449, algebra/src/polynomial/ntt_polynomial.rs 348-356: `&a + b`. -/
def addOwned (w : Nat) (M : Barrett) (a b : List Nat) : Option (List Nat) := addAssign w M b a

/-- algebra/src/polynomial/native_polynomial.rs 451-460, algebra/src/polynomial/ntt_polynomial.rs 358-367: `&a + &b`. -/
def addRefs (w : Nat) (M : Barrett) (a b : List Nat) : Option (List Nat) := LWE.zipCollect (Fp.add w M) a b

/-- algebra/src/polynomial/native_polynomial.rs 462-495, algebra/src/polynomial/ntt_polynomial.rs 369-402: `SubAssign`
and `a - b` with an owned left operand. -/
def subAssign (w : Nat) (M : Barrett) (a b : List Nat) : Option (List Nat) := Poly.zipAssign (Fp.subAssign w M) a b

/-- algebra/src/polynomial/native_polynomial.rs 497-506, algebra/src/polynomial/ntt_polynomial.rs 404-413: `&a - b`. -/
def subOwned (w : Nat) (M : Barrett) (a b : List Nat) : Option (List Nat) :=
  Poly.zipAssign (fun r l => Fp.sub w M l r) b a

/-- algebra/src/polynomial/native_polynomial.rs 508-517, algebra/src/polynomial/ntt_polynomial.rs 415-424: `&a - &b`. -/
def subRefs (w : Nat) (M : Barrett) (a b : List Nat) : Option (List Nat) := LWE.zipCollect (Fp.sub w M) a b

/-- algebra/src/polynomial/ntt_polynomial.rs 426-460: `MulAssign` on transform form and `a * b` with an owned left
operand. -/
def nttMulAssign (w : Nat) (M : Barrett) (a b : List Nat) : Option (List Nat) := Poly.zipAssign (Fp.mul w M) a b

/-- `F::MODULUS_VALUE << 1u32`: algebra/src/transformation/ntt_table.rs 379, 389, 413 and 422. -/
def twice (w q : Nat) : Nat := 2 * q % 2 ^ w

/-- algebra/src/transformation/ntt_table.rs 377-384: `guard`. -/
def guard (w q a : Nat) : Nat := if twice w q ≤ a then a - twice w q else a

/-- algebra/src/transformation/ntt_table.rs 398-403: `intt_normalize_assign`. -/
def invNormalize (q a : Nat) : Nat := if q ≤ a then a - q else a

/-- algebra/src/transformation/ntt_table.rs 386-396: `ntt_normalize_assign`. -/
def normalize (w q a : Nat) : Nat := invNormalize q (guard w q a)

/-- algebra/src/transformation/ntt_table.rs 410-418: `add_fast`. -/
def addFast (w q a b : Nat) : Nat := guard w q (wrappingAdd w a b)

/-- algebra/src/transformation/ntt_table.rs 420-423: `sub_fast`. -/
def subFast (w q a b : Nat) : Nat := wrappingSub w (wrappingAdd w a (twice w q)) b

/-- algebra/src/transformation/ntt_table.rs 425-433: `mul_root_fast`. -/
def mulRootFast (w q a : Nat) (r : Shoup) : Nat :=
  wrappingSub w (wrappingMul w r.value a) (wrappingMul w (trunc w (a * r.quotient / 2 ^ w)) q)

/-- algebra/src/transformation/ntt_table.rs 317-322: the forward butterfly. -/
def fwdButterfly (w q : Nat) (root : Shoup) (i j : Nat) : Nat × Nat :=
  let u := guard w q i
  let v := mulRootFast w q j root
  (wrappingAdd w u v, subFast w q u v)

/-- algebra/src/transformation/ntt_table.rs 349-354: the inverse butterfly. -/
def invButterfly (w q : Nat) (root : Shoup) (u v : Nat) : Nat × Nat :=
  (addFast w q u v, mulRootFast w q (subFast w q u v) root)

/-- algebra/src/transformation/ntt_table.rs 366-371: the last inverse butterfly. -/
def lastButterfly (w q : Nat) (scalar scaledR : Shoup) (u v : Nat) : Nat × Nat :=
  (mulRootFast w q (wrappingAdd w u v) scalar, mulRootFast w q (subFast w q u v) scaledR)

/-- `1usize << x`: algebra/src/transformation/ntt_table.rs 313 and 345. -/
def gap (x : Nat) : Nat := 2 ^ (x % 64)

/-- `gap << 1`: algebra/src/transformation/ntt_table.rs 314 and 346. -/
def chunk (x : Nat) : Nat := 2 * gap x % 2 ^ 64

/-- algebra/src/transformation/ntt_table.rs 313-324: the loop over the gaps. `chunks_exact_mut` panics for a chunk size of
zero and leaves what is beyond the last whole chunk. -/
def fwdLoop (w q : Nat) : Nat → List Shoup → List Nat → Option (List Shoup × List Nat)
  | 0, roots, vals => some (roots, vals)
  | x + 1, roots, vals =>
    if chunk x = 0 then none
    else do
      let (roots, vals) ← Ntt.layer (fun r i j => some (fwdButterfly w q r i j)) (gap x) (vals.length / chunk x) roots vals
      fwdLoop w q x roots vals

/-- algebra/src/transformation/ntt_table.rs 297-327: `transform_slice`. -/
def transform (w q : Nat) (t : NTTTable) (vals : List Nat) : Option (List Nat) :=
  if t.rootPowers.length = 0 then none
  else do
    let (_, out) ← fwdLoop w q t.logN (t.rootPowers.drop 1) vals
    return out.map (normalize w q)

/-- algebra/src/transformation/ntt_table.rs 345-356: the loop over the gaps, `k` of them from `x` on. -/
def invLoop (w q : Nat) : Nat → Nat → List Shoup → List Nat → Option (List Shoup × List Nat)
  | _, 0, roots, vals => some (roots, vals)
  | x, k + 1, roots, vals =>
    if chunk x = 0 then none
    else do
      let (roots, vals) ← Ntt.layer (fun r i j => some (invButterfly w q r i j)) (gap x) (vals.length / chunk x) roots vals
      invLoop w q (x + 1) k roots vals

/-- algebra/src/transformation/ntt_table.rs 329-374: `inverse_transform_slice`. The exponent is a `u32`, and `log_n - 1`
wraps for `log_n = 0`. -/
def inverse (w : Nat) (M : Barrett) (t : NTTTable) (vals : List Nat) : Option (List Nat) :=
  if t.invRootPowers.length = 0 then none
  else do
    let k := wrappingSub 32 t.logN 1
    let (roots, out) ← invLoop w M.value 0 k (t.invRootPowers.drop 1) vals
    let r ← roots.head?
    let sr ← Fp.mulRoot w M (Fp.fromRoot r) t.invDegree
    let scaledR ← Fp.toRoot w M sr
    if out.length < gap k then none
    else do
      let (a, b) ← Ntt.zipButterfly (fun u v => some (lastButterfly w M.value t.invDegree scaledR u v))
        (out.take (gap k)) (out.drop (gap k))
      return (a ++ b).map (invNormalize M.value)

/-- algebra/src/polynomial/native_polynomial.rs 519-581: `MulAssign<Self>` and the `Mul` forms using it. -/
def mul (w : Nat) (M : Barrett) (tbl : Nat → Option NTTTable) (a b : List Nat) : Option (List Nat) := do
  let t ← tbl (trailingZeros 64 a.length)
  let r ← transform w M.value t b
  let l ← transform w M.value t a
  let p ← Poly.mulFastAssign w M l r
  inverse w M t p

end Verif.ReleasePoly
