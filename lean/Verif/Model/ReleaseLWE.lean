import Verif.Model.Gates

/-!
# Ciphertexts of different dimensions in builds without debug assertions

`debug_assert_eq!` on the lengths of LWE ciphertexts does nothing in such a build (the default of
`cargo build --release`), so the operations go on with what `zip` gives. Assertions further down, in `bootstrap` and
`decode`, are kept: with the keys and parameters for which the theorems are stated they do not fire, and a run of the
checked build that does not panic is also a run of this build.
-/

namespace Verif.Release

/-- lattice/src/lwe.rs 168-182: `add_reduce_component_wise_ref` without line 173. -/
def addRef (O : ModOps) (x y : LWE) : Option LWE := do
  let a ← LWE.zipCollect O.add x.a y.a
  let b ← O.add x.b y.b
  return ⟨a, b⟩

/-- lattice/src/lwe.rs 203-214: `add_reduce_inplace_component_wise` without line 208. -/
def addInplace (O : ModOps) (x y : LWE) : Option LWE := do
  let a ← Poly.zipAssign O.add x.a y.a
  let b ← O.add x.b y.b
  return ⟨a, b⟩

/-- lattice/src/lwe.rs 223-237: `sub_reduce_component_wise_ref` without line 228. -/
def subRef (O : ModOps) (x y : LWE) : Option LWE := do
  let a ← LWE.zipCollect O.sub x.a y.a
  let b ← O.sub x.b y.b
  return ⟨a, b⟩

/-- algebra/src/modulus/powof2/internal_macros.rs 150-165: `dot_product_reduce` without line 158. -/
def dotProduct (w : Nat) (M : PowOf2) (a b : List Nat) : Nat :=
  PowOf2.reduce M ((a.zip b).foldl (fun acc xy => wrappingAdd w (wrappingMul w xy.1 xy.2) acc) 0)

/-- fhe_core/src/secret_key.rs 181-192: `decrypt`. -/
def decrypt (P : LWEParams) (msg : Plain.Msg) (secret : List Nat) (c : LWE) : Option Nat := do
  let M ← PowOf2.new P.q
  let p := PowOf2.subReduce P.w M c.b (dotProduct P.w M c.a secret)
  Plain.decode msg p P.t P.q

/-- bool/src/bfhe/evaluate.rs 181-185, 199-204, 218-222, 236-240: as `EvalKey.sumGate`. -/
def sumGate (K : EvalKey) (lut : Ctx → Nat → Nat → Option (List Nat)) (c0 c1 : LWE) : Option LWE := do
  let O ← (K.P.lwe K.w).ops
  let c ← addRef O c0 c1
  let step ← K.P.lutStep
  let l ← lut K.R K.P.ringDimension step
  K.bootstrap c l

/-- bool/src/bfhe/evaluate.rs 254-259, 273-278: as `EvalKey.diffGate`. -/
def diffGate (K : EvalKey) (lut : Ctx → Nat → Nat → Option (List Nat)) (c0 c1 : LWE) : Option LWE := do
  let O ← (K.P.lwe K.w).ops
  let c ← subRef O c0 c1
  let c ← LWE.scalarMul O c 2
  let step ← K.P.lutStep
  let l ← lut K.R K.P.ringDimension step
  K.bootstrap c l

/-- bool/src/bfhe/evaluate.rs 177-186: `nand`. -/
def nand (K : EvalKey) (c0 c1 : LWE) : Option LWE := sumGate K Lut.nand c0 c1

/-- bool/src/bfhe/evaluate.rs 195-205: `and`. -/
def and (K : EvalKey) (c0 c1 : LWE) : Option LWE := sumGate K Lut.andMajority c0 c1

/-- bool/src/bfhe/evaluate.rs 214-223: `or`. -/
def or (K : EvalKey) (c0 c1 : LWE) : Option LWE := sumGate K Lut.or c0 c1

/-- bool/src/bfhe/evaluate.rs 232-241: `nor`. -/
def nor (K : EvalKey) (c0 c1 : LWE) : Option LWE := sumGate K Lut.nor c0 c1

/-- bool/src/bfhe/evaluate.rs 250-260: `xor`. -/
def xor (K : EvalKey) (c0 c1 : LWE) : Option LWE := diffGate K Lut.xor c0 c1

/-- bool/src/bfhe/evaluate.rs 268-279: `xnor`. -/
def xnor (K : EvalKey) (c0 c1 : LWE) : Option LWE := diffGate K Lut.xnor c0 c1

/-- bool/src/bfhe/evaluate.rs 290-305: `majority`. -/
def majority (K : EvalKey) (c0 c1 c2 : LWE) : Option LWE := do
  let O ← (K.P.lwe K.w).ops
  let c ← addRef O c0 c1
  let c ← addInplace O c c2
  let step ← K.P.lutStep
  let l ← Lut.andMajority K.R K.P.ringDimension step
  K.bootstrap c l

/-- bool/src/bfhe/evaluate.rs 316-335: `mux`. -/
def mux (K : EvalKey) (c0 c1 c2 : LWE) : Option LWE := do
  let O ← (K.P.lwe K.w).ops
  let n0 ← K.not c0
  let t0 ← and K c0 c1
  let t1 ← and K n0 c2
  let c ← addInplace O t0 t1
  let step ← K.P.lutStep
  let l ← Lut.or K.R K.P.ringDimension step
  K.bootstrap c l

end Verif.Release
