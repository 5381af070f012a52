import Mathlib.Probability.ProbabilityMassFunction.Constructions
import Mathlib.Analysis.SpecialFunctions.Exp
import Mathlib.Probability.Distributions.Uniform
import Verif.Model.BlindRotation
import Verif.Model.Sample

/-!
# Specifications for random draws

Probability laws are those of Mathlib; `p.toOuterMeasure A` is the probability of the event `A`.
-/

namespace Verif.Spec
open scoped ENNReal

/-- `k` independent values of the law `p`, one after the other. -/
noncomputable def draws {α : Type} (p : PMF α) : Nat → PMF (List α)
  | 0 => PMF.pure []
  | k + 1 => p.bind fun x => (draws p k).bind fun l => PMF.pure (x :: l)

/-- A value of the law `p` and an independent one of the law `r`. -/
noncomputable def pair {α β : Type} (p : PMF α) (r : PMF β) : PMF (α × β) :=
  p.bind fun x => r.bind fun y => PMF.pure (x, y)

/-- The integer of least magnitude with the residue `v` modulo `q`. -/
def centred (q v : Nat) : ℤ := if 2 * v ≤ q then v else (v : ℤ) - q

/-- The words of the law `χ` are residues modulo `q` of errors `e` that are sub-Gaussian with parameter `v`:
the mean of `exp (t e)` is at most that of a normal variable of variance `v`. -/
structure SubGaussian (q : Nat) (χ : PMF Nat) (v : ℝ) : Prop where
  lt : ∀ x ∈ χ.support, x < q
  mgf : ∀ t : ℝ, ∑' x, χ x * ENNReal.ofReal (Real.exp (t * centred q x)) ≤
    ENNReal.ofReal (Real.exp (v * t ^ 2 / 2))

/-- The draws of one RLWE sample of length `n`: a mask of the law `u`, then `n` errors of the law `χ`. -/
noncomputable def sampleLaw (u : PMF (List Nat)) (χ : PMF Nat) (n : Nat) : PMF Draw :=
  pair u (draws χ n)

/-- The draws of one RGSW sample with `len` levels. -/
noncomputable def rgswLaw (u : PMF (List Nat)) (χ : PMF Nat) (n len : Nat) :
    PMF BlindRotation.RgswDraw :=
  pair (draws (sampleLaw u χ n) len) (draws (sampleLaw u χ n) len)

/-- The draws of an RLWE key switching key with `cnt` elements of `len` levels; further draws, which are not
used, are zero. -/
noncomputable def rlweSwitchLaw (u : PMF (List Nat)) (χ : PMF Nat) (n len cnt : Nat) : PMF (Nat → List Draw) :=
  (draws (draws (sampleLaw u χ n) len) cnt).map fun l c =>
    l.getD c (List.replicate len (List.replicate n 0, List.replicate n 0))

/-- The draws of an LWE key switching key with `len` levels, `N` coefficients and `cnt` values for each; masks
have length `n`. Further draws, which are not used, are zero. -/
noncomputable def lweSwitchLaw (u : PMF (List Nat)) (χ : PMF Nat) (n cnt N len : Nat) :
    PMF (Nat → Nat → Nat → List Nat × Nat) :=
  (draws (draws (draws (pair u χ) cnt) N) len).map fun l j i v =>
    ((l.getD j []).getD i []).getD (v - 1) (List.replicate n 0, 0)

/-- A uniform byte. -/
noncomputable def uniformByte : PMF Nat := (PMF.uniformOfFintype (Fin (2 ^ 8))).map Fin.val

/-- The law of a draw of the centred binomial sampler from six uniform bytes, with `0` for a panic. -/
noncomputable def cbdLaw (w : Nat) (M : Barrett) : PMF Nat :=
  (draws uniformByte 6).map fun l => (Sample.cbd w M (l.getD 0 0) (l.getD 1 0) (l.getD 2 0) (l.getD 3 0)
    (l.getD 4 0) (l.getD 5 0)).getD 0

/-- The bound `2 exp(-T²/2V)` of the probability that a normal variable of variance `V` exceeds `T` in magnitude. -/
noncomputable def gaussTail (V T : ℝ) : ℝ≥0∞ := ENNReal.ofReal (2 * Real.exp (-(T ^ 2 / (2 * V))))

end Verif.Spec
