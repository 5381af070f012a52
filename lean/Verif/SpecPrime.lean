import Verif.SpecRandom
import Verif.Model.Prime

/-!
# Specification of the error probabilities of the primality test and of the root search

The witness of the first round is 2; the later ones are drawn from `Uniform::from(3..=n - 1)`
(algebra/src/utils/prime.rs 78-86), here the uniform law on `3, ..., n - 1`.
-/

namespace Verif.Spec
open scoped ENNReal

/-- The uniform law on `3, ..., n - 1` (on `{3}` when this range is empty). -/
noncomputable def witnessLaw (n : Nat) : PMF Nat :=
  if h : (Finset.Icc 3 (n - 1)).Nonempty then PMF.uniformOfFinset _ h else PMF.pure 3

/-- The probability that `probably_prime` with the given number of rounds reports a prime, the witnesses of the
second and later rounds being independent and uniform. -/
noncomputable def acceptProb (w n : Nat) (M : Barrett) (rounds : Nat) : ℝ≥0∞ :=
  (draws (witnessLaw n) (rounds - 1)).toOuterMeasure
    {l | Prime.probablyPrime w M rounds (fun i => l.getD (i - 1) 3) = some true}

/-- The documented bound (algebra/src/utils/prime.rs 10): "its error-probability bound is `(1/4)^rounds`". -/
def DocumentedBound (w n : Nat) (M : Barrett) (rounds : Nat) : Prop :=
  ¬ Nat.Prime n → acceptProb w n M rounds ≤ (1 / 4) ^ rounds

/-- The candidates of the root search: uniform on `2, ..., q - 1` (algebra_derive/src/ntt.rs 112), `{2}` when this
range is empty. -/
noncomputable def candidateLaw (q : Nat) : PMF Nat :=
  if h : (Finset.Icc 2 (q - 1)).Nonempty then PMF.uniformOfFinset _ h else PMF.pure 2

end Verif.Spec
