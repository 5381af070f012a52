import Verif.SpecPoly
import Verif.Model.Transform

/-!
# The contract of the external transform library

What `concrete.rs` relies on when it calls the external crate, in the words of the traits it
implements (algebra/src/transformation/mod.rs 20-111): `fwd` takes `n` canonical words to the values
of the polynomial at the `n` roots of `X^n + 1`, as canonical words; `inv` followed by `normalize`
takes words below `2q` back; the monomial functions give the transforms of `c X^d`, `X^d` and `-X^d`.
The order of the roots is left open.
-/

namespace Verif.Spec
open Finset

/-- `v` holds, entry by entry, the values of the polynomial `a` at the points `pt 0, ..., pt (n-1)`. -/
def ValuesAt (q n : Nat) (pt : Nat → ZMod q) (a v : List Nat) : Prop :=
  ∀ c, c < n → coeff q v c = ∑ m ∈ range n, coeff q a m * pt c ^ m

/-- A plan of the library for size `n` and modulus `q` that does what the traits document. -/
def PlanOk (q n : Nat) (p : Plan) : Prop :=
  ∃ pt : Nat → ZMod q,
    (∀ c, c < n → pt c ^ n = -1) ∧
    (∀ c c', c < n → c' < n → pt c = pt c' → c = c') ∧
    (∀ a, Reduced q n a → ∃ v, p.fwd a = some v ∧ Reduced q n v ∧ ValuesAt q n pt a v) ∧
    (∀ v, Reduced (2 * q) n v → ∃ u a, p.inv v = some u ∧ p.normalize u = some a ∧ Reduced q n a ∧
      ValuesAt q n pt a v) ∧
    (∀ d, d < 2 * n →
      (∀ c, c < q → ∃ v, p.fwdMonomial c d n = some v ∧ Reduced q n v ∧
        ∀ i, i < n → coeff q v i = c * pt i ^ d) ∧
      (∃ v, p.fwdCoeffOneMonomial d n = some v ∧ Reduced q n v ∧ ∀ i, i < n → coeff q v i = pt i ^ d) ∧
      ∃ v, p.fwdCoeffNegOneMonomial d n = some v ∧ Reduced q n v ∧
        ∀ i, i < n → coeff q v i = -pt i ^ d)

/-- For the modulus `q` the library returns only plans that do what the traits document, and a root
that is a word of `w` bits. -/
def LibraryOk (w q : Nat) (lib : PlanLibrary) : Prop :=
  ∀ n p, lib n q = some p → p.root < 2 ^ w ∧ PlanOk q n p

end Verif.Spec
