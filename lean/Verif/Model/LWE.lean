import Verif.Model.PowOf2
import Verif.Model.Field
import Verif.Model.Poly
import Verif.Model.Plaintext

/-!
# LWE ciphertexts

`lattice/src/lwe.rs`. The generic code works with any implementation of the `*Reduce` traits; these
implementations are the fields of `ModOps`.
-/

namespace Verif

/-- The trait methods that the generic LWE code calls for one modulus. algebra/src/reduce/ops.rs 4-184. -/
structure ModOps where
  add : Nat → Nat → Option Nat
  sub : Nat → Nat → Option Nat
  mul : Nat → Nat → Option Nat
  neg : Nat → Option Nat
  dot : List Nat → List Nat → Option Nat

/-- algebra/src/modulus/powof2/internal_macros.rs 14-166: the traits for a power-of-two
modulus. -/
def PowOf2.ops (w : Nat) (M : PowOf2) : ModOps where
  add a b := some (PowOf2.addReduce w M a b)
  sub a b := some (PowOf2.subReduce w M a b)
  mul a b := some (PowOf2.mulReduce w M a b)
  neg a := some (PowOf2.negReduce w M a)
  dot a b := PowOf2.dotProduct w M a b

/-- lattice/src/lwe.rs 16-26: `LWE`. -/
structure LWE where
  a : List Nat
  b : Nat
deriving DecidableEq

namespace LWE

/-- `x.iter().zip(y).map(f).collect()`. lattice/src/lwe.rs 78, 126, 174-178 and 229-233. -/
def zipCollect (f : Nat → Nat → Option Nat) : List Nat → List Nat → Option (List Nat)
  | a :: as, b :: bs => do
    let c ← f a b
    let cs ← zipCollect f as bs
    return c :: cs
  | _, _ => some []

/-- lattice/src/lwe.rs 168-182: `add_reduce_component_wise_ref`. -/
def addRef (O : ModOps) (x y : LWE) : Option LWE :=
  if x.a.length = y.a.length then do
    let a ← zipCollect O.add x.a y.a
    let b ← O.add x.b y.b
    return ⟨a, b⟩
  else none

/-- lattice/src/lwe.rs 203-214 (and 191-198): `add_reduce_inplace_component_wise`. -/
def addInplace (O : ModOps) (x y : LWE) : Option LWE :=
  if x.a.length = y.a.length then do
    let a ← Poly.zipAssign O.add x.a y.a
    let b ← O.add x.b y.b
    return ⟨a, b⟩
  else none

/-- lattice/src/lwe.rs 223-237: `sub_reduce_component_wise_ref`. -/
def subRef (O : ModOps) (x y : LWE) : Option LWE :=
  if x.a.length = y.a.length then do
    let a ← zipCollect O.sub x.a y.a
    let b ← O.sub x.b y.b
    return ⟨a, b⟩
  else none

/-- lattice/src/lwe.rs 258-269 (and 246-253): `sub_reduce_inplace_component_wise`. -/
def subInplace (O : ModOps) (x y : LWE) : Option LWE :=
  if x.a.length = y.a.length then do
    let a ← Poly.zipAssign O.sub x.a y.a
    let b ← O.sub x.b y.b
    return ⟨a, b⟩
  else none

/-- lattice/src/lwe.rs 274-283: `scalar_mul_reduce_inplace`. -/
def scalarMul (O : ModOps) (x : LWE) (s : Nat) : Option LWE := do
  let a ← x.a.mapM fun v => O.mul v s
  let b ← O.mul x.b s
  return ⟨a, b⟩

/-- lattice/src/lwe.rs 289-300: `add_assign_rhs_mul_scalar_reduce`. -/
def addMulScalar (O : ModOps) (x y : LWE) (s : Nat) : Option LWE := do
  let a ← Poly.zipAssign (fun v r => do O.add v (← O.mul r s)) x.a y.a
  let m ← O.mul y.b s
  let b ← O.add x.b m
  return ⟨a, b⟩

/-- lattice/src/lwe.rs 304-311 and 315-322: `neg_reduce`, `neg_reduce_assign`. -/
def neg (O : ModOps) (x : LWE) : Option LWE := do
  let a ← x.a.mapM O.neg
  let b ← O.neg x.b
  return ⟨a, b⟩

/-- lattice/src/lwe.rs 327-352: `generate_random_zero_sample`, where `draws` are the uniform samples and `e` is
the noise sample. -/
def zeroSample (O : ModOps) (secret draws : List Nat) (e : Nat) : Option LWE := do
  let a := draws.take secret.length
  let d ← O.dot a secret
  let b ← O.add d e
  return ⟨a, b⟩

end LWE

/-- lattice/src/utils/sample.rs 135-153: a sample of `DiscreteGaussian` with modulus `q`, where `z`
is the accepted normal deviate after `round()`; the conversion from `f64` saturates. The
rejection loop is in `Verif.Model.Gaussian`. -/
def discreteGaussian (w q : Nat) (z : Int) : Option Nat :=
  if z < 0 then subC q (min z.natAbs (2 ^ w - 1)) else some (min z.natAbs (2 ^ w - 1))

/-- fhe_core/src/parameter.rs 34-45: the part of `LWEParameters` used by encryption; `w` is the width
of the ciphertext word type, `t` the plaintext and `q` the ciphertext modulus. -/
structure LWEParams where
  w : Nat
  t : Nat
  q : Nat

namespace LWEParams

/-- fhe_core/src/parameter.rs 195-197 with fhe_core/src/plaintext.rs 179-181: `lwe_cipher_modulus`. -/
def ops (P : LWEParams) : Option ModOps := do
  let M ← PowOf2.new P.q
  return PowOf2.ops P.w M

/-- fhe_core/src/secret_key.rs 150-177: `encrypt`. -/
def encrypt (P : LWEParams) (secret draws : List Nat) (z : Int) (message : Nat) : Option LWE := do
  let O ← P.ops
  let e ← discreteGaussian P.w P.q z
  let c ← LWE.zeroSample O secret draws e
  let m ← Plain.encode P.w message P.t P.q
  let b ← O.add c.b m
  return ⟨c.a, b⟩

/-- fhe_core/src/secret_key.rs 184-185 and 201-203: the phase `b - <a, s>`. -/
def phase (O : ModOps) (secret : List Nat) (c : LWE) : Option Nat := do
  let d ← O.dot c.a secret
  O.sub c.b d

/-- fhe_core/src/secret_key.rs 181-192: `decrypt`. -/
def decrypt (P : LWEParams) (msg : Plain.Msg) (secret : List Nat) (c : LWE) : Option Nat := do
  let O ← P.ops
  let p ← phase O secret c
  Plain.decode msg p P.t P.q

/-- fhe_core/src/secret_key.rs 196-215: `decrypt_with_noise`. -/
def decryptWithNoise (P : LWEParams) (msg : Plain.Msg) (secret : List Nat) (c : LWE) :
    Option (Nat × Nat) := do
  let O ← P.ops
  let p ← phase O secret c
  let m ← Plain.decode msg p P.t P.q
  let fresh ← Plain.encode P.w m P.t P.q
  let x ← O.sub p fresh
  let y ← O.sub fresh p
  return (m, min x y)

/-- bool/src/bfhe/evaluate.rs 160-168: `not`. -/
def not (P : LWEParams) (c : LWE) : Option LWE := do
  let O ← P.ops
  let n ← LWE.neg O c
  let s ← shrC P.w P.q 2
  let b ← O.add n.b s
  return ⟨n.a, b⟩

end LWEParams
end Verif
