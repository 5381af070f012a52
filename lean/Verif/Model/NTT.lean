import Verif.Model.Root
import Verif.Model.Reverse

/-!
# Number theoretic transform

`algebra/src/transformation/ntt_table.rs`, the back end of the fields of width 8 and 16 and of every
field when the feature `concrete-ntt` is off (see `Verif.Model.Transform`). Values are stored words; `w` is the word width and `M` the Barrett constant of the field. `usize` is 64 bits.
-/

namespace Verif

/-- algebra/src/transformation/ntt_table.rs 31-44: `NTTTable`. -/
structure NTTTable where
  root : Nat
  invRoot : Nat
  logN : Nat
  n : Nat
  invDegree : Shoup
  rootPowers : List Shoup
  invRootPowers : List Shoup
  ordinal : List Shoup
  rev : List Nat

namespace Ntt

/-- The default `ShoupFactor`: algebra/src/modulus/shoup/mod.rs 9-15 derives `Default`. -/
def defaultRoot : Shoup := ⟨0, 0⟩

/-- algebra/src/transformation/ntt_table.rs 65-67: the bit reversal table of `0..coeff_count`. -/
def revTable (logN n : Nat) : Option (List Nat) :=
  (List.range n).mapM fun i => reverseLsbs 64 i logN

/-- algebra/src/transformation/ntt_table.rs 71-76 and 80-86: the loop storing each element at its index; an index out of
bounds panics. -/
def scatter (dest : List Shoup) : List (Shoup × Nat) → Option (List Shoup)
  | [] => some dest
  | (x, i) :: rest => if i < dest.length then scatter (dest.set i x) rest else none

/-- algebra/src/transformation/ntt_table.rs 50-101: `NTTTable::new`. `none` covers the `debug_assert_eq!`, a failed shift,
slicing out of range and the panics of the called operations. -/
def new (w : Nat) (M : Barrett) (root logN : Nat) (ordinal : List Shoup) : Option NTTTable := do
  let n ← shlC 64 1 logN
  let last ← ordinal.getLast?
  let invRoot := Fp.fromRoot last
  let p ← Fp.mul w M root invRoot
  if p ≠ Fp.one then none
  else do
    let rootOne ← ordinal[0]?
    let rev ← revTable logN n
    if n ≤ ordinal.length ∧ n + 1 ≤ ordinal.length ∧ 0 < n then do
      let rp ← scatter ((List.replicate n defaultRoot).set 0 rootOne) ((ordinal.take n).zip rev)
      let irp ← scatter ((List.replicate n defaultRoot).set 0 rootOne)
        ((ordinal.drop (n + 1)).reverse.zip (rev.map (· + 1)))
      let inv ← Fp.inv w M (Fp.fromUsize M n)
      let invDegree ← Fp.toRoot w M inv
      return { root := root, invRoot := invRoot, logN := logN, n := n, invDegree := invDegree,
               rootPowers := rp, invRootPowers := irp, ordinal := ordinal, rev := rev }
    else none

/-- algebra_derive/src/ntt.rs 385-388: the loop filling the ordinal root powers after the first
two. -/
def powersLoop (w : Nat) (M : Barrett) (f : Shoup) : Nat → Nat → Option (List Shoup)
  | 0, _ => some []
  | k + 1, power => do
    let p ← Fp.mulRoot w M power f
    let r ← Fp.toRoot w M p
    let rest ← powersLoop w M f k p
    return r :: rest

/-- algebra_derive/src/ntt.rs 374-388: the ordinal root powers. -/
def ordinalPowers (w : Nat) (M : Barrett) (root n : Nat) : Option (List Shoup) := do
  let one ← Fp.toRoot w M 1
  let f ← Fp.toRoot w M root
  let len ← mulC 64 n 2
  let k ← subC len 2
  let rest ← powersLoop w M f k root
  return one :: f :: rest

/-- algebra_derive/src/ntt.rs 370-396: `generate_ntt_table`. Outer `none` is a panic (for example
`2n` not fitting the value type), inner `none` the error `NoPrimitiveRoot`. -/
def generate (w : Nat) (M : Barrett) (logN : Nat) (draws : List Nat) :
    Option (Option NTTTable) := do
  let n ← shlC 64 1 logN
  let n2 ← mulC 64 n 2
  if n2 < 2 ^ w then do
    match ← Fp.tryMinimalPrimitiveRoot w M n2 draws with
    | none => return none
    | some root =>
      let ord ← ordinalPowers w M root n
      let t ← new w M root logN ord
      return some t
  else none

/-- Subtract `t` when the value is at least `t`: the body shared by `guard`, `add_fast` and the two
normalisations below. algebra/src/transformation/ntt_table.rs 377-403. -/
def condSub (t a : Nat) : Option Nat := if t ≤ a then subC a t else some a

/-- algebra/src/transformation/ntt_table.rs 377-384: `guard`. -/
def guard (w q a : Nat) : Option Nat := do
  let t ← shlC w q 1
  condSub t a

/-- algebra/src/transformation/ntt_table.rs 386-396: `ntt_normalize_assign`. -/
def normalize (w q a : Nat) : Option Nat := do
  let t ← shlC w q 1
  let r ← condSub t a
  condSub q r

/-- algebra/src/transformation/ntt_table.rs 398-403: `intt_normalize_assign`. -/
def invNormalize (q a : Nat) : Option Nat := condSub q a

/-- algebra/src/transformation/ntt_table.rs 405-408: `add_no_reduce`. -/
def addNoReduce (w a b : Nat) : Option Nat := addC w a b

/-- algebra/src/transformation/ntt_table.rs 410-418: `add_fast`. -/
def addFast (w q a b : Nat) : Option Nat := do
  let r ← addC w a b
  let t ← shlC w q 1
  condSub t r

/-- algebra/src/transformation/ntt_table.rs 420-423: `sub_fast`. -/
def subFast (w q a b : Nat) : Option Nat := do
  let t ← shlC w q 1
  let s ← addC w a t
  subC s b

/-- algebra/src/transformation/ntt_table.rs 425-433: `mul_root_fast`. -/
def mulRootFast (w q a : Nat) (r : Shoup) : Option Nat := do
  let (_, hw) ← wideningMulC w a r.quotient
  return wrappingSub w (wrappingMul w r.value a) (wrappingMul w hw q)

/-- algebra/src/transformation/ntt_table.rs 317-322: the forward butterfly. -/
def fwdButterfly (w q : Nat) (root : Shoup) (i j : Nat) : Option (Nat × Nat) := do
  let u ← guard w q i
  let v ← mulRootFast w q j root
  let a ← addNoReduce w u v
  let b ← subFast w q u v
  return (a, b)

/-- algebra/src/transformation/ntt_table.rs 349-354: the inverse butterfly. -/
def invButterfly (w q : Nat) (root : Shoup) (u v : Nat) : Option (Nat × Nat) := do
  let a ← addFast w q u v
  let d ← subFast w q u v
  let b ← mulRootFast w q d root
  return (a, b)

/-- algebra/src/transformation/ntt_table.rs 366-371: the last inverse butterfly. -/
def lastButterfly (w q : Nat) (scalar scaledR : Shoup) (u v : Nat) : Option (Nat × Nat) := do
  let s ← addNoReduce w u v
  let a ← mulRootFast w q s scalar
  let d ← subFast w q u v
  let b ← mulRootFast w q d scaledR
  return (a, b)

/-- algebra/src/transformation/ntt_table.rs 317, 349, 366: `for (i, j) in std::iter::zip(v0, v1)`, the elements of the longer
slice beyond the shorter one staying as they are. -/
def zipButterfly (f : Nat → Nat → Option (Nat × Nat)) :
    List Nat → List Nat → Option (List Nat × List Nat)
  | i :: is, j :: js => do
    let (a, b) ← f i j
    let (as, bs) ← zipButterfly f is js
    return (a :: as, b :: bs)
  | is, js => some (is, js)

/-- algebra/src/transformation/ntt_table.rs 314-324 and 346-356: one pass over the chunks of length `2 * gap`, each taking the
next root; `none` is `unwrap` on the exhausted iterator. Returns the roots left. -/
def layer (f : Shoup → Nat → Nat → Option (Nat × Nat)) (gap : Nat) :
    Nat → List Shoup → List Nat → Option (List Shoup × List Nat)
  | 0, roots, vals => some (roots, vals)
  | cnt + 1, roots, vals =>
    match roots with
    | [] => none
    | r :: rs => do
      let (a, b) ← zipButterfly (f r) (vals.take gap) ((vals.drop gap).take gap)
      let (rs', rest) ← layer f gap cnt rs (vals.drop (2 * gap))
      return (rs', a ++ b ++ rest)

/-- algebra/src/transformation/ntt_table.rs 313-324: the loop over gaps `2^(x-1), ..., 2, 1`. -/
def fwdLoop (w q : Nat) : Nat → List Shoup → List Nat → Option (List Shoup × List Nat)
  | 0, roots, vals => some (roots, vals)
  | x + 1, roots, vals => do
    let gap ← shlC 64 1 x
    let (roots', vals') ← layer (fwdButterfly w q) gap (vals.length / (gap * 2)) roots vals
    fwdLoop w q x roots' vals'

/-- algebra/src/transformation/ntt_table.rs 297-327: `transform_slice`. -/
def transform (w : Nat) (M : Barrett) (t : NTTTable) (vals : List Nat) : Option (List Nat) := do
  let n ← shlC 64 1 t.logN
  if vals.length ≠ n ∨ t.rootPowers.length = 0 then none
  else do
    let (_, out) ← fwdLoop w M.value t.logN (t.rootPowers.drop 1) vals
    out.mapM (normalize w M.value)

/-- algebra/src/transformation/ntt_table.rs 345-356: the loop over the gaps `2^x, 2^(x+1), ...`, `k` of them. -/
def invLoop (w q : Nat) : Nat → Nat → List Shoup → List Nat → Option (List Shoup × List Nat)
  | _, 0, roots, vals => some (roots, vals)
  | x, k + 1, roots, vals => do
    let gap ← shlC 64 1 x
    let (roots', vals') ← layer (invButterfly w q) gap (vals.length / (gap * 2)) roots vals
    invLoop w q (x + 1) k roots' vals'

/-- algebra/src/transformation/ntt_table.rs 329-374: `inverse_transform_slice`. For `log_n = 0` the range `0..log_n - 1`
underflows and panics. -/
def inverse (w : Nat) (M : Barrett) (t : NTTTable) (vals : List Nat) : Option (List Nat) := do
  let n ← shlC 64 1 t.logN
  if vals.length ≠ n ∨ t.invRootPowers.length = 0 then none
  else do
    let k ← subC t.logN 1
    let (roots, out) ← invLoop w M.value 0 k (t.invRootPowers.drop 1) vals
    let gap ← shlC 64 1 k
    let r ← roots.head?
    let sr ← Fp.mulRoot w M (Fp.fromRoot r) t.invDegree
    let scaledR ← Fp.toRoot w M sr
    let (a, b) ← zipButterfly (lastButterfly w M.value t.invDegree scaledR)
      (out.take gap) (out.drop gap)
    (a ++ b).mapM (invNormalize M.value)

/-- algebra/src/transformation/ntt_table.rs 217, 255 and 276: `usize::MAX >> (usize::BITS - log_n - 1)`. -/
def mask (logN : Nat) : Option Nat := do
  let s ← subC 64 logN
  let s ← subC s 1
  shrC 64 (2 ^ 64 - 1) s

/-- algebra/src/transformation/ntt_table.rs 224, 232, 240, 261 and 282: the table index of `X^degree` at position `i`. -/
def monoIndex (logN i degree : Nat) : Option Nat := do
  let m ← mask logN
  let a ← mulC 64 2 i
  let b ← addC 64 a 1
  let c ← mulC 64 b degree
  return c &&& m

/-- The same index in a build without overflow checks, where the arithmetic wraps.
algebra/src/transformation/ntt_table.rs 224, 232, 240, 261 and 282. -/
def monoIndexRelease (logN i degree : Nat) : Option Nat := do
  let m ← mask logN
  let a := 2 * i % 2 ^ 64
  let b := (a + 1) % 2 ^ 64
  let c := b * degree % 2 ^ 64
  return c &&& m

/-- algebra/src/transformation/ntt_table.rs 246-264: `transform_coeff_one_monomial` on a slice of length `len`; the
unchecked table access is `none` when out of range. -/
def oneMonomialWith (idx : Nat → Nat → Nat → Option Nat) (t : NTTTable) (degree len : Nat) :
    Option (List Nat) :=
  if degree = 0 then some (List.replicate len Fp.one)
  else do
    let n ← shlC 64 1 t.logN
    if len ≠ n ∨ t.rev.length ≠ n then none
    else t.rev.mapM fun i => do
      let k ← idx t.logN i degree
      let r ← t.ordinal[k]?
      return Fp.fromRoot r

/-- algebra/src/transformation/ntt_table.rs 266-285: `transform_coeff_neg_one_monomial`. -/
def negOneMonomialWith (idx : Nat → Nat → Nat → Option Nat) (M : Barrett) (t : NTTTable)
    (degree len : Nat) : Option (List Nat) :=
  if degree = 0 then do
    let m ← Fp.negOne M
    return List.replicate len m
  else if len ≠ t.n ∨ t.rev.length ≠ t.n then none
  else t.rev.mapM fun i => do
    let k ← idx t.logN i degree
    let r ← t.ordinal[k ^^^ t.n]?
    return Fp.fromRoot r

/-- algebra/src/transformation/ntt_table.rs 202-244: `transform_monomial`. -/
def monomialWith (idx : Nat → Nat → Nat → Option Nat) (w : Nat) (M : Barrett) (t : NTTTable)
    (coeff degree len : Nat) : Option (List Nat) :=
  if coeff = Fp.zero then some (List.replicate len Fp.zero)
  else if degree = 0 then some (List.replicate len coeff)
  else if len ≠ t.n ∨ t.rev.length ≠ t.n then none
  else do
    let neg ← Fp.negOne M
    if coeff = Fp.one then
      t.rev.mapM fun i => do
        let k ← idx t.logN i degree
        let r ← t.ordinal[k]?
        return Fp.fromRoot r
    else if coeff = neg then
      t.rev.mapM fun i => do
        let k ← idx t.logN i degree
        let r ← t.ordinal[k ^^^ t.n]?
        return Fp.fromRoot r
    else
      t.rev.mapM fun i => do
        let k ← idx t.logN i degree
        let r ← t.ordinal[k]?
        Fp.mulRoot w M coeff r

/-- The three functions in a build with overflow checks. algebra/src/transformation/ntt_table.rs 246-264. -/
def oneMonomial (t : NTTTable) (degree len : Nat) : Option (List Nat) :=
  oneMonomialWith monoIndex t degree len

/-- `transform_coeff_neg_one_monomial` in a build with overflow checks: algebra/src/transformation/ntt_table.rs 266-285. -/
def negOneMonomial (M : Barrett) (t : NTTTable) (degree len : Nat) : Option (List Nat) :=
  negOneMonomialWith monoIndex M t degree len

/-- `transform_monomial` in a build with overflow checks: algebra/src/transformation/ntt_table.rs 202-244. -/
def monomial (w : Nat) (M : Barrett) (t : NTTTable) (coeff degree len : Nat) : Option (List Nat) :=
  monomialWith monoIndex w M t coeff degree len

end Ntt
end Verif
