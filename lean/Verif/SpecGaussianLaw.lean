import Verif.SpecRandom
import Verif.SpecGaussian
import Verif.Lemmas.F64

/-!
# Specification of the law of Gaussian errors
-/

namespace Verif.Spec
open scoped ENNReal
open Classical in
/-- The law `δ` of a number, given that its magnitude is below `D` (zero if that is impossible). -/
noncomputable def within (δ : PMF ℚ) (D : ℚ) : PMF ℚ :=
  if h : ∃ x ∈ {x : ℚ | |x| < D}, x ∈ δ.support then δ.filter {x | |x| < D} h else PMF.pure 0

/-- The nearest integer, halves away from zero. -/
def nearestAway (x : ℚ) : ℤ := if x < 0 then -⌊-x + 1 / 2⌋ else ⌊x + 1 / 2⌋

/-- The residue modulo `q` of the nearest integer. -/
def nearestMod (q : Nat) (x : ℚ) : Nat := (nearestAway x % q).toNat

/-- The law of a Gaussian error modulo `q`: a number of the law `δ`, given that its magnitude is below `D`, rounded to the
nearest integer. -/
noncomputable def gaussLaw (q : Nat) (δ : PMF ℚ) (D : ℚ) : PMF Nat := (within δ D).map (nearestMod q)

/-- What is asked of the law `δ` of the numbers that `Normal` delivers: they have at most 53 significant bits, the law is
symmetric, and the mean of `exp (t x)` is at most that of a normal variable of standard deviation `τ`. -/
structure Deviates (δ : PMF ℚ) (τ : ℝ) : Prop where
  f64 : ∀ x ∈ δ.support, F64.Representable |x|
  symm : ∀ x, δ (-x) = δ x
  mgf : ∀ t : ℝ, ∑' x, δ x * ENNReal.ofReal (Real.exp (t * x)) ≤ ENNReal.ofReal (Real.exp (τ ^ 2 * t ^ 2 / 2))

end Verif.Spec
