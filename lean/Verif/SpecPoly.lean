import Mathlib.Data.ZMod.Basic
import Mathlib.Algebra.BigOperators.Group.Finset.Basic

/-!
# Specifications for polynomials over `Z/q`

Independent of the model: a coefficient list stands for `p_0 + p_1 X + p_2 X^2 + ...`.
-/

namespace Verif.Spec
open Finset

/-- The value at `x` of the polynomial with the given coefficient words. -/
def evalPoly {q : Nat} (p : List Nat) (x : ZMod q) : ZMod q :=
  ∑ i ∈ range p.length, ((p.getD i 0 : Nat) : ZMod q) * x ^ i

/-- Coefficient `i` of the polynomial with the given coefficient words, zero beyond its length. -/
def coeff (q : Nat) (p : List Nat) (i : Nat) : ZMod q := ((p.getD i 0 : Nat) : ZMod q)

/-- A list of `n` canonical words. -/
def Reduced (q n : Nat) (p : List Nat) : Prop := p.length = n ∧ ∀ x ∈ p, x < q

/-- Coefficient `i` of the product of two polynomials modulo `X^n + 1`: the products `a_j b_l` with
`j + l = i`, minus those with `j + l = i + n`. -/
def negacyclicCoeff {R : Type} [CommRing R] (n : Nat) (a b : Nat → R) (i : Nat) : R :=
  ∑ j ∈ range n, ∑ l ∈ range n,
    if j + l = i then a j * b l else if j + l = i + n then -(a j * b l) else 0

/-- The `n` canonical coefficients of `c X^d` modulo `X^n + 1`: the only nonzero one is at `d mod n`,
with the sign `(-1)^(d / n)`. -/
def monomialCoeffs (q n c d : Nat) : List Nat :=
  (List.range n).map fun i =>
    if i = d % n then (if d / n % 2 = 0 then c else (q - c) % q) else 0

end Verif.Spec
