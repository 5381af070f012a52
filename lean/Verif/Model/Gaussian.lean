import Verif.Model.ModSwitch
import Verif.Model.Field
import Verif.Model.Sample

/-!
# Gaussian samplers

`algebra/src/random.rs`, `lattice/src/utils/sample.rs` and
`algebra/src/polynomial/native_polynomial.rs`. The source of randomness is a parameter: the list of
the `f64` numbers that `Normal::sample` delivers, as rationals. `f64` arithmetic is that of `F64`; numbers
that are not finite, and the sign of zero, are not modelled, so `Normal::new` succeeds.
-/

namespace Verif.Gaussian

/-- `f64::round`: half away from zero; the result is exact. algebra/src/random.rs 208,
lattice/src/utils/sample.rs 144. -/
def roundAway (x : ℚ) : ℤ := if x < 0 then -F64.round (-x) else F64.round x

/-- algebra/src/random.rs 112-118, lattice/src/utils/sample.rs 56-61: `FieldDiscreteGaussianSampler` and
`DiscreteGaussian`. The modulus of the second is a parameter of `lwe`, and it has no `cbd`. -/
structure Sampler where
  mean : ℚ
  stdDev : ℚ
  maxDev : ℚ
  cbd : Bool

/-- algebra/src/random.rs 135-136, 164-165: `cbd_enable`, the comparison of the bit patterns. -/
def cbdEnable (mean stdDev : ℚ) : Bool := mean = 0 && stdDev = F64.rnd (16 / 5)

/-- algebra/src/random.rs 128-142, lattice/src/utils/sample.rs 71-88: `new`; `none` is the error. -/
def new (mean stdDev : ℚ) : Option Sampler :=
  let maxDev := F64.mul stdDev 6
  if stdDev < 0 then none else some ⟨mean, stdDev, maxDev, cbdEnable mean stdDev⟩

/-- algebra/src/random.rs 150-170, lattice/src/utils/sample.rs 97-114: `new_with_max` and
`new_with_max_limit`. -/
def newWithMax (mean stdDev maxDev : ℚ) : Option Sampler :=
  if maxDev ≤ stdDev ∨ stdDev < 0 then none else some ⟨mean, stdDev, maxDev, cbdEnable mean stdDev⟩

/-- algebra/src/random.rs 207, lattice/src/utils/sample.rs 143: the test of the loop, `(value - mean).abs() <
max_std_dev`. The magnitude of a rounded difference is the rounded magnitude of the difference. -/
def accept (s : Sampler) (x : ℚ) : Bool := F64.rnd |x - s.mean| < s.maxDev

/-- lattice/src/utils/sample.rs 139-152: `sample` of `DiscreteGaussian` with modulus `q` and words of `w`
bits. Returns the sample and the unused deviates, or the inner `none` if the deviates run out before one is
accepted. -/
def lwe (w q : Nat) (s : Sampler) : List ℚ → Option (Option (Nat × List ℚ))
  | [] => some none
  | x :: xs =>
    if accept s x then do
      let v ← discreteGaussian w q (roundAway x)
      return some (v, xs)
    else lwe w q s xs

/-- algebra/src/random.rs 208-213: the field element of an accepted deviate. The word is the same as in
lattice/src/utils/sample.rs 144-149. -/
def element (w : Nat) (M : Barrett) (x : ℚ) : Option Nat := do
  let v ← discreteGaussian w M.value (roundAway x)
  Fp.new w M v

/-- algebra/src/random.rs 201-217: `sample` of `FieldDiscreteGaussianSampler`. -/
def field (w : Nat) (M : Barrett) (s : Sampler) : List ℚ → Option (Option (Nat × List ℚ))
  | [] => some none
  | x :: xs =>
    if accept s x then do
      let v ← element w M x
      return some (v, xs)
    else field w M s xs

/-- algebra/src/polynomial/native_polynomial.rs 243: `sample_iter(rng).take(n).collect()`. -/
def fieldVec (w : Nat) (M : Barrett) (s : Sampler) : Nat → List ℚ → Option (Option (List Nat))
  | 0, _ => some (some [])
  | n + 1, xs => do
    match ← field w M s xs with
    | none => return none
    | some (v, ys) =>
      match ← fieldVec w M s n ys with
      | none => return none
      | some vs => return some (v :: vs)

/-- algebra/src/polynomial/native_polynomial.rs 232-245: `random_with_gaussian`; `bytes` are the random bytes
of the centred binomial sampler. -/
def polynomial (w : Nat) (M : Barrett) (s : Sampler) (n : Nat) (bytes : Nat → Nat) (xs : List ℚ) :
    Option (Option (List Nat)) :=
  if s.cbd then do
    let v ← Sample.cbdVec w M bytes n 0
    return some v
  else fieldVec w M s n xs

/-- fhe_core/src/parameter.rs 263-296: `lwe_noise_distribution`, `ring_noise_distribution`,
`key_switching_noise_distribution_for_ring` and `key_switching_noise_distribution_for_lwe`, as functions of
the standard deviation stored in the parameters; `none` is the panic of `unwrap`. -/
def noise (stdDev : ℚ) : Option Sampler := new 0 stdDev

end Verif.Gaussian
