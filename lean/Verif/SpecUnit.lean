import Verif.SpecRing
import Verif.Model.Params
import Mathlib.Data.ENNReal.Inv
import Mathlib.Data.Nat.Log

/-!
# Specifications for the mask of the accumulator
-/

namespace Verif.Spec
open scoped ENNReal

/-- The polynomial with the coefficients `lut` is not zero at any root of `X^n + 1`. -/
def TableUnit (q n : Nat) (lut : List Nat) : Prop :=
  ∀ r : ZMod q, r ^ n = -1 → ∑ i ∈ Finset.range n, (lut.getD i 0 : ZMod q) * r ^ i ≠ 0

/-- The bound `n / q^(2^t)` for the probability that the digits of `n` uniform words have a common root. -/
noncomputable def rootTail (q n t : Nat) : ℝ≥0∞ := n * ((q : ℝ≥0∞) ^ 2 ^ t)⁻¹

/-- The bound for the probability that the accumulator of a bootstrapping is not as good as a uniform one: one common root
for every step of the rotation, and one for the RLWE key switching. -/
noncomputable def accTail (P : Params) (Q k t t' : Nat) : ℝ≥0∞ :=
  P.n * rootTail Q (2 ^ k) t + if P.steps = .brKsMs then rootTail Q (2 ^ Nat.clog 2 P.n) t' else 0

end Verif.Spec
