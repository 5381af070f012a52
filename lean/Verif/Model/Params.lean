import Verif.Model.LWE
import Verif.Model.Basis

/-!
# Validation of the scheme parameters

The floating point standard deviations are passed through unchecked by the code and are not
modelled.
-/

namespace Verif

/-- fhe_core/src/parameter.rs 12-30: `Steps`. -/
inductive Steps
  | brMsKs
  | brKsMs
  | brMs
deriving DecidableEq

/-- fhe_core/src/secret_key.rs 12-18: `LWESecretKeyType`. -/
inductive LWEKeyType
  | binary
  | ternary
deriving DecidableEq

/-- fhe_core/src/secret_key.rs 22-30: `RingSecretKeyType`. -/
inductive RingKeyType
  | binary
  | ternary
  | gaussian
deriving DecidableEq

/-- fhe_core/src/parameter.rs 82-116: `ConstParameters` without the standard deviations. -/
structure ConstParams where
  lweDimension : Nat
  lwePlainModulus : Nat
  lweCipherModulus : Nat
  lweKeyType : LWEKeyType
  ringDimension : Nat
  ringModulus : Nat
  ringKeyType : RingKeyType
  blindRotationBits : Nat
  steps : Steps
  keySwitchBits : Nat
deriving DecidableEq

/-- fhe_core/src/parameter.rs 34-79: `Parameters` without the standard deviations. -/
structure Params where
  n : Nat
  t : Nat
  q : Nat
  lweKeyType : LWEKeyType
  ringDimension : Nat
  ringModulus : Nat
  ringKeyType : RingKeyType
  basis : Basis
  steps : Steps
  keySwitchBits : Nat
deriving DecidableEq

/-- fhe_core/src/error.rs 3-36: the two errors `Parameters::new` returns. -/
inductive ParamError
  | ringDimension (N : Nat)
  | modulusAndDimension (Q N : Nat)
deriving DecidableEq

namespace Params

/-- fhe_core/src/parameter.rs 148-178: the checks on `t`, `q` and the basis. -/
def finish (wQ Q : Nat) (p : ConstParams) : Option (Except ParamError Params) :=
  if p.lwePlainModulus ≤ p.lweCipherModulus then
    if isPow2 p.lwePlainModulus && isPow2 p.lweCipherModulus then do
      let B ← Basis.new wQ Q p.blindRotationBits
      return .ok ⟨p.lweDimension, p.lwePlainModulus, p.lweCipherModulus, p.lweKeyType,
        p.ringDimension, p.ringModulus, p.ringKeyType, B, p.steps, p.keySwitchBits⟩
    else none
  else none

/-- fhe_core/src/parameter.rs 120-179: `Parameters::new` over a field of width `wQ` with modulus `Q`
(`usize` has 64 bits). `none` is a panic. -/
def new (wQ Q : Nat) (p : ConstParams) : Option (Except ParamError Params) :=
  if isPow2 p.ringDimension then do
    let twice ← shlC 64 p.ringDimension 1
    if twice ≠ 0 then do
      let m ← subC p.ringModulus 1
      let prod ← mulC 64 (m / twice) twice
      if prod ≠ m then return .error (.modulusAndDimension p.ringModulus p.ringDimension)
      else finish wQ Q p
    else none
  else some (.error (.ringDimension p.ringDimension))

/-- fhe_core/src/parameter.rs 181-221: the LWE part, for a ciphertext word of width `w`. -/
def lwe (w : Nat) (P : Params) : LWEParams := ⟨w, P.t, P.q⟩

end Params
end Verif
