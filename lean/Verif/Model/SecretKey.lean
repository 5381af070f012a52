import Verif.Model.Gates
import Verif.Model.Sample

/-!
# Key generation

`fhe_core/src/secret_key.rs`, `fhe_core/src/blind_rotation/mod.rs` and
`bool/src/bfhe/evaluate.rs`. Random words and samples are parameters.
-/

namespace Verif

/-- lattice/src/utils/sample.rs 9-29: `sample_binary_values`. -/
def Sample.binaryValues (words : Nat → Nat) (length : Nat) : List Nat :=
  fillVec [0, 1] 1 32 words length

/-- lattice/src/utils/sample.rs 32-53: `sample_ternary_values`. -/
def Sample.ternaryValues (q : Nat) (words : Nat → Nat) (length : Nat) : Option (List Nat) := do
  let m ← subC q 1
  return fillVec [0, 0, 1, m] 2 16 words length

/-- lattice/src/utils/sample.rs 155-169: `BinarySampler`. -/
def Sample.binaryValue (r : Nat) : Nat := r % 2

/-- lattice/src/utils/sample.rs 171-199: `TernarySampler::new(modulus)` and its `sample`. -/
def Sample.ternaryValue (q r : Nat) : Option Nat := do
  let m ← subC q 1
  return [0, 0, 1, m].getD (r % 4) 0

/-- fhe_core/src/secret_key.rs 44-53: `SecretKeyPack` without the parameters. -/
structure KeyPack where
  lwe : List Nat
  ring : List Nat
  ringNtt : List Nat

/-- The randomness of the secret keys: the words for the two keys and the samples of the Gaussian ring key.
fhe_core/src/secret_key.rs 56-113. -/
structure KeyDraws where
  lwe : Nat → Nat
  ring : Nat → Nat
  gauss : List Nat

namespace KeyPack

/-- fhe_core/src/secret_key.rs 56-66: `create_lwe_secret_key`. -/
def lweKey (P : Params) (words : Nat → Nat) : Option (List Nat) :=
  match P.lweKeyType with
  | .binary => some (Sample.binaryValues words P.n)
  | .ternary => Sample.ternaryValues P.q words P.n

/-- fhe_core/src/secret_key.rs 74-113: the ring secret key. -/
def ringKey (R : Ctx) (P : Params) (lwe : List Nat) (d : KeyDraws) : Option (List Nat) :=
  match P.steps with
  | .brMsKs =>
    match P.ringKeyType with
    | .binary => some (Sample.binaryVec d.ring P.ringDimension)
    | .ternary => Sample.ternaryVec R.M d.ring P.ringDimension
    | .gaussian => none
  | .brKsMs =>
    match P.ringKeyType with
    | .binary => some (Sample.binaryVec d.ring P.ringDimension)
    | .ternary => Sample.ternaryVec R.M d.ring P.ringDimension
    | .gaussian => some (d.gauss.take P.ringDimension)
  | .brMs =>
    if (P.ringKeyType = .binary ∨ P.ringKeyType = .ternary) ∧ P.n = P.ringDimension then do
      let m ← Fp.negOne R.M
      return lwe.map (LweSwitch.convert m)
    else none

/-- fhe_core/src/secret_key.rs 69-122: `SecretKeyPack::new`. -/
def new (R : Ctx) (P : Params) (d : KeyDraws) : Option KeyPack := do
  let lwe ← lweKey P d.lwe
  let ring ← ringKey R P lwe d
  let ringNtt ← Poly.toNtt R.w R.M R.tbl ring
  return ⟨lwe, ring, ringNtt⟩

end KeyPack

/-- The randomness of the evaluation key: of the binary or ternary rotation key, and of the LWE or RLWE
switching key. fhe_core/src/blind_rotation/mod.rs 59-85 and bool/src/bfhe/evaluate.rs 48-61. -/
structure EvalDraws where
  binary : List BlindRotation.RgswDraw
  ternary : List (BlindRotation.RgswDraw × BlindRotation.RgswDraw)
  lwe : Nat → Nat → Nat → List Nat × Nat
  rlwe : Nat → List Draw

/-- fhe_core/src/blind_rotation/mod.rs 59-85: `BlindRotationKey::generate`. -/
def RotationKey.generate (R : Ctx) (P : Params) (pack : KeyPack) (d : EvalDraws) : Option RotationKey :=
  match P.lweKeyType with
  | .binary => do
    let key ← BlindRotation.binaryGenerate R pack.ringNtt P.basis pack.lwe d.binary
    return .binary key
  | .ternary => do
    let key ← BlindRotation.ternaryGenerate R pack.ringNtt P.basis pack.lwe d.ternary
    return .ternary key

/-- bool/src/bfhe/evaluate.rs 53-61: the switching key. -/
def SwitchKey.generate (w : Nat) (R : Ctx) (P : Params) (pack : KeyPack) (d : EvalDraws) :
    Option SwitchKey :=
  match P.steps with
  | .brMsKs => do
    let O ← (P.lwe w).ops
    let (B, key) ← LweSwitch.generate w P.q P.keySwitchBits O pack.lwe pack.ring d.lwe
    return .lwe B P.n key
  | .brKsMs => do
    let key ← RlweSwitch.generate R P.keySwitchBits pack.lwe pack.ring pack.ringNtt d.rlwe
    return .rlwe P.n key
  | .brMs => some .none

/-- bool/src/bfhe/evaluate.rs 48-68: `EvaluationKey::new`. -/
def EvalKey.new (w : Nat) (R : Ctx) (P : Params) (pack : KeyPack) (d : EvalDraws) : Option EvalKey := do
  let rot ← RotationKey.generate R P pack d
  let sw ← SwitchKey.generate w R P pack d
  return ⟨w, R, P, rot, sw⟩

end Verif
