import Mathlib.Data.Rat.Floor
import Mathlib.Data.ZMod.Basic

/-! # Specifications for the Gaussian samplers, independent of the model -/

namespace Verif.Spec

/-- `z` is the integer nearest to `x`; of two equally near integers it is the one farther from zero. -/
def IsRounded (x : ℚ) (z : ℤ) : Prop := |(z : ℚ) - x| ≤ 1 / 2 ∧ (|(z : ℚ) - x| = 1 / 2 → |x| < |(z : ℚ)|)

/-- `e` is the canonical residue modulo `q` of the rounded `x`. -/
def IsSample (q : ℕ) (x : ℚ) (e : ℕ) : Prop := e < q ∧ ∃ z : ℤ, IsRounded x z ∧ (e : ZMod q) = (z : ZMod q)

end Verif.Spec
