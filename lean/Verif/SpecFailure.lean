import Verif.SpecRandom
import Verif.SpecBootstrap
import Verif.Model.SecretKey
import Mathlib.Data.Nat.Log

/-!
# Specifications for the probability that a gate fails
-/

namespace Verif
open Spec
open scoped ENNReal

/-- The laws of the masks and of the errors of an evaluation key: of the rotation key, of the LWE switching
key and of the RLWE switching key. -/
structure Spec.KeyLaws where
  mask : PMF (List Nat)
  err : PMF Nat
  maskLwe : PMF (List Nat)
  errLwe : PMF Nat
  maskRlwe : PMF (List Nat)
  errRlwe : PMF Nat

/-- The number of levels of the LWE switching key. -/
def Spec.lweLevels (w : Nat) (P : Params) (m : Nat) : Nat :=
  (Basis.newWord w P.keySwitchBits (2 ^ m)).elim 0 (·.decomposeLen)

/-- The number of levels of the RLWE switching key. -/
def Spec.rlweLevels (R : Ctx) (P : Params) (Q : Nat) : Nat :=
  (Basis.new R.w Q P.keySwitchBits).elim 0 (·.decomposeLen)

/-- The draws of an evaluation key, all independent. The RLWE switching key has dimension `2^k'`, the least
power of two that is at least `n`. -/
noncomputable def Spec.evalLaw (w : Nat) (R : Ctx) (P : Params) (Q k m : Nat) (L : KeyLaws) : PMF EvalDraws :=
  let rgsw := rgswLaw L.mask L.err (2 ^ k) P.basis.decomposeLen
  (pair (draws rgsw P.n) (draws (pair rgsw rgsw) P.n)).bind fun rot =>
    (pair (lweSwitchLaw L.maskLwe L.errLwe P.n (2 ^ P.keySwitchBits - 1) (2 ^ k) (lweLevels w P m))
      (rlweSwitchLaw L.maskRlwe L.errRlwe (2 ^ Nat.clog 2 P.n) (rlweLevels R P Q)
        (2 ^ (k - Nat.clog 2 P.n)))).map fun sw =>
    ⟨rot.1, rot.2, sw.1, sw.2⟩

/-- The masks are words of the right moduli and lengths, and the errors are sub-Gaussian with the parameters
`v`, `vL` and `vR`. -/
structure Spec.KeyLaws.Ok (L : KeyLaws) (P : Params) (Q k m : Nat) (v vL vR : ℝ) : Prop where
  mask : ∀ a ∈ L.mask.support, Reduced Q (2 ^ k) a
  err : SubGaussian Q L.err v
  nonneg : 0 ≤ v
  maskLwe : ∀ a ∈ L.maskLwe.support, Reduced (2 ^ m) P.n a
  errLwe : SubGaussian (2 ^ m) L.errLwe vL
  nonnegLwe : 0 ≤ vL
  maskRlwe : ∀ a ∈ L.maskRlwe.support, Reduced Q (2 ^ Nat.clog 2 P.n) a
  errRlwe : SubGaussian Q L.errRlwe vR
  nonnegRlwe : 0 ≤ vR

/-- The bound of the probability that the noise of a rotation is more than `T`. -/
noncomputable def Spec.rotationTail (P : Params) (k : Nat) (v T : ℝ) : ℝ≥0∞ :=
  gaussTail (P.n * ((if P.lweKeyType = .binary then 2 else 4) * P.basis.decomposeLen * (2 ^ k : Nat) *
    (2 ^ P.basis.bits - 1 : Nat) ^ 2 * v)) T

/-- The bound of the probability that the noise of a key switching is more than `T`. -/
noncomputable def Spec.switchTail (w : Nat) (R : Ctx) (P : Params) (Q k m : Nat) (vL vR T : ℝ) : ℝ≥0∞ :=
  match P.steps with
  | .brMsKs => gaussTail (lweLevels w P m * (2 ^ k : Nat) * vL) T
  | .brKsMs => gaussTail (rlweLevels R P Q * (2 ^ k : Nat) * (2 ^ P.keySwitchBits - 1 : Nat) ^ 2 * vR) T
  | .brMs => 0

/-- The switch from `Q` to `q` in the bootstrapping of `c` with the table `lut` changes the scaled phase by at most
`ρ / 2`. -/
structure EvalKey.OutRounding (K : EvalKey) (Q m : Nat) (S Z : List ℤ) (ρ : ℤ) (c : LWE)
    (lut : List Nat) : Prop where
  extracted : ∀ (c' : LWE) (acc : RLWE) (x y : LWE), K.P.steps ≠ .brKsMs → K.switchIn c = some c' →
    K.accumulate c' lut = some acc → RLWE.extractLocally K.R acc = some x →
    ModSwitch.lwe K.w Q (2 ^ m) x = some y →
    RoundedBy Q (2 ^ m) (if K.P.steps = .brMs then S else Z) ρ x y
  switched : ∀ (c' : LWE) (acc : RLWE) (x y : LWE) (dim : Nat) (key : List NTTGadgetRLWE),
    K.P.steps = .brKsMs → K.switchIn c = some c' → K.accumulate c' lut = some acc → K.sw = .rlwe dim key →
    RlweSwitch.keySwitchRlwe K.R dim key acc = some x → ModSwitch.lwe K.w Q (2 ^ m) x = some y →
    RoundedBy Q (2 ^ m) S ρ x y

/-- The rounding in the run of a gate that bootstraps the sum of its inputs. -/
def EvalKey.SumRounding (K : EvalKey) (Q m : Nat) (S Z : List ℤ) (ρ : ℤ)
    (lut : Ctx → Nat → Nat → Option (List Nat)) (c0 c1 : LWE) : Prop :=
  ∀ (O : ModOps) (c : LWE) (step : Nat) (l : List Nat), (K.P.lwe K.w).ops = some O →
    LWE.addRef O c0 c1 = some c → K.P.lutStep = some step → lut K.R K.P.ringDimension step = some l →
    K.OutRounding Q m S Z ρ c l

/-- The rounding in the run of a gate that bootstraps twice the difference of its inputs. -/
def EvalKey.DiffRounding (K : EvalKey) (Q m : Nat) (S Z : List ℤ) (ρ : ℤ)
    (lut : Ctx → Nat → Nat → Option (List Nat)) (c0 c1 : LWE) : Prop :=
  ∀ (O : ModOps) (c c' : LWE) (step : Nat) (l : List Nat), (K.P.lwe K.w).ops = some O →
    LWE.subRef O c0 c1 = some c → LWE.scalarMul O c 2 = some c' → K.P.lutStep = some step →
    lut K.R K.P.ringDimension step = some l → K.OutRounding Q m S Z ρ c' l

/-- The rounding in the run of `majority`. -/
def EvalKey.MajRounding (K : EvalKey) (Q m : Nat) (S Z : List ℤ) (ρ : ℤ) (c0 c1 c2 : LWE) : Prop :=
  ∀ (O : ModOps) (c c' : LWE) (step : Nat) (l : List Nat), (K.P.lwe K.w).ops = some O →
    LWE.addRef O c0 c1 = some c → LWE.addInplace O c c2 = some c' → K.P.lutStep = some step →
    Lut.andMajority K.R K.P.ringDimension step = some l → K.OutRounding Q m S Z ρ c' l

end Verif
