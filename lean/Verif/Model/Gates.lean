import Verif.Model.BlindRotation
import Verif.Model.KeySwitch
import Verif.Model.ModSwitch
import Verif.Model.Params

/-!
# Boolean gates

`bool/src/bfhe/evaluate.rs`, with the key enums of `fhe_core`. `usize` has 64 bits.
-/

namespace Verif

/-! ## Lookup tables -/

namespace Lut

/-- `l.iter_mut().step_by(step).for_each(|a| *a = v)` for a step that is not zero.
bool/src/bfhe/evaluate.rs 392-400, 499-507 and 526-534. -/
def fill (step v : Nat) (l : List Nat) : List Nat :=
  l.mapIdx fun i x => if i % step = 0 then v else x

/-- bool/src/bfhe/evaluate.rs 388-402, 495-509, 522-536: a zero polynomial with `v0` written to every
`step`-th entry below `mid` and `v1` to every `step`-th entry from `mid` on. `step_by(0)` and a slice past the
end panic. -/
def split (n step mid v0 v1 : Nat) : Option (List Nat) :=
  if step = 0 ∨ n < mid then none
  else
    let v := Poly.zero n
    some (fill step v0 (v.take mid) ++ fill step v1 (v.drop mid))

/-- bool/src/bfhe/evaluate.rs 347, 367, 414, 434, 454, 474: `q_div_8`. -/
def eighth (R : Ctx) : Option Nat := do
  let v ← shrC R.w R.M.value 3
  Fp.new R.w R.M v

/-- bool/src/bfhe/evaluate.rs 348, 368, 415, 435, 455, 475: `neg_q_div_8`. -/
def negEighth (R : Ctx) : Option Nat := do
  let v ← eighth R
  let v ← subC R.M.value v
  Fp.new R.w R.M v

/-- bool/src/bfhe/evaluate.rs 379-403: `init_nand_and_majority_lut`. -/
def nandAndMajority (n step v01 v23 : Nat) : Option (List Nat) := split n step (n / 2 + n / 4) v01 v23

/-- bool/src/bfhe/evaluate.rs 486-510: `init_or_nor_lut`. -/
def orNor (n step v12 v30 : Nat) : Option (List Nat) := split n step (n / 4) v30 v12

/-- bool/src/bfhe/evaluate.rs 513-537: `init_xor_xnor_lut`. -/
def xorXnor (n step v2 v0 : Nat) : Option (List Nat) := split n step (n / 2) v0 v2

/-- bool/src/bfhe/evaluate.rs 339-356: `init_nand_lut`. -/
def nand (R : Ctx) (n step : Nat) : Option (List Nat) := do
  nandAndMajority n step (← eighth R) (← negEighth R)

/-- bool/src/bfhe/evaluate.rs 359-376: `init_and_majority_lut`. -/
def andMajority (R : Ctx) (n step : Nat) : Option (List Nat) := do
  nandAndMajority n step (← negEighth R) (← eighth R)

/-- bool/src/bfhe/evaluate.rs 406-423: `init_or_lut`. -/
def or (R : Ctx) (n step : Nat) : Option (List Nat) := do
  orNor n step (← eighth R) (← negEighth R)

/-- bool/src/bfhe/evaluate.rs 426-443: `init_nor_lut`. -/
def nor (R : Ctx) (n step : Nat) : Option (List Nat) := do
  orNor n step (← negEighth R) (← eighth R)

/-- bool/src/bfhe/evaluate.rs 446-463: `init_xor_lut`. -/
def xor (R : Ctx) (n step : Nat) : Option (List Nat) := do
  xorXnor n step (← eighth R) (← negEighth R)

/-- bool/src/bfhe/evaluate.rs 466-483: `init_xnor_lut`. -/
def xnor (R : Ctx) (n step : Nat) : Option (List Nat) := do
  xorXnor n step (← negEighth R) (← eighth R)

end Lut

/-- bool/src/bfhe/evaluate.rs 29-45: `lut_step`; a remainder by zero and `unimplemented!` are `none`. -/
def Params.lutStep (P : Params) : Option Nat := do
  let twice ← shlC 64 P.ringDimension 1
  if P.q = 0 then none
  else if twice % P.q = 0 then some (twice / P.q)
  else if P.q % twice = 0 then some 1
  else none

/-! ## Bootstrapping -/

/-- fhe_core/src/blind_rotation/mod.rs 23-28: `BlindRotationKey`. -/
inductive RotationKey
  | binary (key : List NTTRGSW)
  | ternary (key : List (NTTRGSW × NTTRGSW))

/-- fhe_core/src/blind_rotation/mod.rs 44-56: `blind_rotate`. -/
def RotationKey.rotate (R : Ctx) (lut : List Nat) (c : LWE) : RotationKey → Option RLWE
  | .binary key => BlindRotation.binary R key lut c
  | .ternary key => BlindRotation.ternary R key lut c

/-- fhe_core/src/key_switch/mod.rs: `KeySwitchingKeyEnum`, with the fields of the keys
(fhe_core/src/key_switch/lwe.rs 13-26, fhe_core/src/key_switch/rlwe.rs 15-20) except for the modulus, which is
that of the parameters. -/
inductive SwitchKey
  | lwe (B : Basis) (dim : Nat) (key : List (List (List LWE)))
  | rlwe (dim : Nat) (key : List NTTGadgetRLWE)
  | none

/-- bool/src/bfhe/evaluate.rs 11-18: `EvaluationKey`, for ciphertext words of width `w` and the field `R`. -/
structure EvalKey where
  w : Nat
  R : Ctx
  P : Params
  rot : RotationKey
  sw : SwitchKey

namespace EvalKey

/-- bool/src/bfhe/evaluate.rs 86: `acc.b[0] += Q / 8`. -/
def addEighth (R : Ctx) (acc : RLWE) : Option RLWE := do
  let v ← Lut.eighth R
  let b ← NTTRLWE.addHead R acc.b v
  return ⟨acc.a, b⟩

/-- bool/src/bfhe/evaluate.rs 72-80: the ciphertext with modulus `2N`. -/
def switchIn (K : EvalKey) (c : LWE) : Option LWE := do
  let twice ← shlC 64 K.P.ringDimension 1
  if twice < 2 ^ K.w then ModSwitch.lwe K.w K.P.q twice c else none

/-- bool/src/bfhe/evaluate.rs 82-86: the rotated table with offset. -/
def accumulate (K : EvalKey) (c : LWE) (lut : List Nat) : Option RLWE := do
  let acc ← K.rot.rotate K.R lut c
  addEighth K.R acc

/-- bool/src/bfhe/evaluate.rs 90-91: the input of the LWE key switching in the order `BrMsKs`. -/
def extractSwitch (K : EvalKey) (acc : RLWE) : Option LWE := do
  let x ← RLWE.extractLocally K.R acc
  ModSwitch.lwe K.w K.R.M.value K.P.q x

/-- bool/src/bfhe/evaluate.rs 88-119: the remaining steps; `c` is the switched input, which is overwritten. -/
def finish (K : EvalKey) (c : LWE) (acc : RLWE) : Option LWE :=
  match K.P.steps with
  | .brMsKs => do
    let x ← K.extractSwitch acc
    match K.sw with
    | .lwe B dim key => do
      let O ← (K.P.lwe K.w).ops
      LweSwitch.keySwitch K.w B O dim key x
    | _ => Option.none
  | .brKsMs =>
    match K.sw with
    | .rlwe dim key => do
      let x ← RlweSwitch.keySwitchRlwe K.R dim key acc
      ModSwitch.lweInplace K.w K.R.M.value K.P.q x c
    | _ => Option.none
  | .brMs => do
    let x ← RLWE.extractLocally K.R acc
    ModSwitch.lweInplace K.w K.R.M.value K.P.q x c

/-- bool/src/bfhe/evaluate.rs 71-122: `bootstrap`. -/
def bootstrap (K : EvalKey) (c : LWE) (lut : List Nat) : Option LWE := do
  let c ← K.switchIn c
  let acc ← K.accumulate c lut
  K.finish c acc

/-! ## Gates -/

/-- bool/src/bfhe/evaluate.rs 160-168: `not`. -/
def not (K : EvalKey) (c : LWE) : Option LWE := (K.P.lwe K.w).not c

/-- bool/src/bfhe/evaluate.rs 181-185, 199-204, 218-222, 236-240: the sum of two ciphertexts, then `bootstrap`
with a table. -/
def sumGate (K : EvalKey) (lut : Ctx → Nat → Nat → Option (List Nat)) (c0 c1 : LWE) :
    Option LWE := do
  let O ← (K.P.lwe K.w).ops
  let c ← LWE.addRef O c0 c1
  let step ← K.P.lutStep
  let l ← lut K.R K.P.ringDimension step
  K.bootstrap c l

/-- bool/src/bfhe/evaluate.rs 254-259, 273-278: twice the difference of two ciphertexts, then `bootstrap` with
a table. -/
def diffGate (K : EvalKey) (lut : Ctx → Nat → Nat → Option (List Nat)) (c0 c1 : LWE) :
    Option LWE := do
  let O ← (K.P.lwe K.w).ops
  let c ← LWE.subRef O c0 c1
  let c ← LWE.scalarMul O c 2
  let step ← K.P.lutStep
  let l ← lut K.R K.P.ringDimension step
  K.bootstrap c l

/-- bool/src/bfhe/evaluate.rs 177-186: `nand`. -/
def nand (K : EvalKey) (c0 c1 : LWE) : Option LWE := K.sumGate Lut.nand c0 c1

/-- bool/src/bfhe/evaluate.rs 195-205: `and`. -/
def and (K : EvalKey) (c0 c1 : LWE) : Option LWE := K.sumGate Lut.andMajority c0 c1

/-- bool/src/bfhe/evaluate.rs 214-223: `or`. -/
def or (K : EvalKey) (c0 c1 : LWE) : Option LWE := K.sumGate Lut.or c0 c1

/-- bool/src/bfhe/evaluate.rs 232-241: `nor`. -/
def nor (K : EvalKey) (c0 c1 : LWE) : Option LWE := K.sumGate Lut.nor c0 c1

/-- bool/src/bfhe/evaluate.rs 250-260: `xor`. -/
def xor (K : EvalKey) (c0 c1 : LWE) : Option LWE := K.diffGate Lut.xor c0 c1

/-- bool/src/bfhe/evaluate.rs 268-279: `xnor`. -/
def xnor (K : EvalKey) (c0 c1 : LWE) : Option LWE := K.diffGate Lut.xnor c0 c1

/-- bool/src/bfhe/evaluate.rs 290-305: `majority`. -/
def majority (K : EvalKey) (c0 c1 c2 : LWE) : Option LWE := do
  let O ← (K.P.lwe K.w).ops
  let c ← LWE.addRef O c0 c1
  let c ← LWE.addInplace O c c2
  let step ← K.P.lutStep
  let l ← Lut.andMajority K.R K.P.ringDimension step
  K.bootstrap c l

/-- bool/src/bfhe/evaluate.rs 316-335: `mux`; the two parts of `rayon::join` share no mutable state. -/
def mux (K : EvalKey) (c0 c1 c2 : LWE) : Option LWE := do
  let O ← (K.P.lwe K.w).ops
  let n0 ← K.not c0
  let t0 ← K.and c0 c1
  let t1 ← K.and n0 c2
  let c ← LWE.addInplace O t0 t1
  let step ← K.P.lutStep
  let l ← Lut.or K.R K.P.ringDimension step
  K.bootstrap c l

end EvalKey
end Verif
