import Verif.SpecFailure

/-!
# Specifications for the joint noise of a bootstrapping
-/

namespace Verif.Spec
open Props
open scoped ENNReal

/-- The variance of the noise of a rotation, if the errors of the rotation key have the variance `v`. -/
def rotationVariance (P : Params) (k : Nat) (v : ℝ) : ℝ :=
  P.n * ((if P.lweKeyType = .binary then 2 else 4) * P.basis.decomposeLen * (2 ^ k : Nat) *
    (2 ^ P.basis.bits - 1 : Nat) ^ 2 * v)

/-- The variance of the noise of a key switching. -/
def switchVariance (w : Nat) (R : Ctx) (P : Params) (Q k m : Nat) (vL vR : ℝ) : ℝ :=
  match P.steps with
  | .brMsKs => lweLevels w P m * (2 ^ k : Nat) * vL
  | .brKsMs => rlweLevels R P Q * (2 ^ k : Nat) * (2 ^ P.keySwitchBits - 1 : Nat) ^ 2 * vR
  | .brMs => 0

/-- The factor of the noise of a key switching in `Q` times the noise of a bootstrapped ciphertext: with `BrMsKs` keys are
switched after the switch from `Q` to `q`. The factor of the noise of a rotation is `q`. -/
def switchFactor (steps : Steps) (Q m : Nat) : Nat := if steps = .brMsKs then Q else 2 ^ m

/-- The bound of the probability that `Q` times the noise of a bootstrapped ciphertext, without rounding, is more than `T`:
the bound for a normal variable whose variance is the sum of the variances of the two parts, twice. -/
noncomputable def jointTail (w : Nat) (R : Ctx) (P : Params) (Q k m : Nat) (v vL vR T : ℝ) : ℝ≥0∞ :=
  2 * gaussTail ((2 ^ m : Nat) ^ 2 * rotationVariance P k v +
    switchFactor P.steps Q m ^ 2 * switchVariance w R P Q k m vL vR) T

/-- `4Q` times a bound of the noise of a bootstrapped ciphertext, if `S` bounds `Q` times its part without rounding, the
switch from `Q` to `q` moves the phase by at most `(1 + 2T) / 2`, and the test vector by `7 / 4` units of the ring modulus. -/
def jointError (Q m S T : Nat) : ℤ := 4 * S + 7 * 2 ^ m + 2 * Q * (1 + 2 * T)

/-- The result `r` is a ciphertext of the bit `x` whose noise is at most `E / (4Q)`; it decrypts to `x` if `E` is small
enough. -/
def EncryptsWithin (w : Nat) (P : Params) (Q m : Nat) (sk : List Nat) (E : ℤ) (r : Option LWE) (x : Bool) : Prop :=
  ∃ (out : LWE) (e : ℤ), r = some out ∧ LWEReduced (2 ^ m) sk.length out ∧
    EncryptsBit (2 ^ m) sk out x e ∧ |4 * Q * e| ≤ E ∧
    (2 * E < Q * 2 ^ m → (P.lwe w).decrypt .bool sk out = some x.toNat)

end Verif.Spec
