import Verif.SpecJoint

/-! # Specification of the failure bound in which rotation noise and rounding are taken together -/

namespace Verif.Spec
open scoped ENNReal

/-- What a noise of at most `η` leaves for the rotation and the rounding, in units of the modulus `2^m`, if the key switching
adds a noise of at most `κ`. -/
noncomputable def budget (Q m κ : Nat) (η : ℤ) : ℝ := η - 3 / 2 - 2 ^ m * (4 * κ + 7) / (4 * Q)

/-- The bound of the probability that the rotation and the rounding use more than that. `V` is the variance of the rounding. -/
noncomputable def tunedTail (P : Params) (Q k m : Nat) (v V : ℝ) (κ : Nat) (η : ℤ) : ℝ≥0∞ :=
  2 * gaussTail (V + (2 ^ m / Q) ^ 2 * rotationVariance P k v) (budget Q m κ η)

end Verif.Spec
