import Verif.Model.RGSW
import Verif.Model.Gcd
import Verif.Model.Sample
import Verif.Model.Goldilocks

/-!
# Builds without overflow checks

In such a build (the default of `cargo build --release`) the plain operators `+`, `-`, `*` wrap and `debug_assert!`
does nothing. A run of the checked build that does not panic is also a run of this build, so only functions whose
checked build can overflow have a model of their own here.
-/

namespace Verif.Release

/-- algebra/src/reduce/macros.rs 7-14 and 19-26: `add_reduce` and `add_reduce_assign` with a word as modulus. The
subtraction is guarded. -/
def add (w m a b : Nat) : Nat :=
  let r := wrappingAdd w a b
  if m ≤ r then r - m else r

/-- A plain signed operation of algebra/src/utils/gcd.rs 86-130 on `w` bits, wrapping. -/
def wrapS (w : Nat) (x : Int) : Int := (x + 2 ^ (w - 1)) % 2 ^ w - 2 ^ (w - 1)

/-- algebra/src/utils/gcd.rs 87-99 and 101-113: as `Gcd.halve`. -/
def halve (w : Nat) (x y : Int) : Nat → Nat → Int → Int → Option (Nat × Int × Int)
  | 0, u, a, b => if u % 2 = 0 then none else some (u, a, b)
  | fuel + 1, u, a, b =>
    if u % 2 = 0 then
      let u := u / 2
      if a % 2 = 0 ∧ b % 2 = 0 then halve w x y fuel u (a / 2) (b / 2)
      else if x < b then halve w x y fuel u (wrapS w (a + y) / 2) (wrapS w (b - x) / 2)
      else halve w x y fuel u (wrapS w (a - y) / 2) (wrapS w (b + x) / 2)
    else some (u, a, b)

/-- algebra/src/utils/gcd.rs 86-128: as `Gcd.egcdLoop`. -/
def egcdLoop (w : Nat) (x y : Int) :
    Nat → Nat → Nat → Int → Int → Int → Int → Option (Int × Int × Nat)
  | 0, _, _, _, _, _, _ => none
  | fuel + 1, u, v, a, b, c, d => do
    let (u, a, b) ← halve w x y u u a b
    let (v, c, d) ← halve w x y v v c d
    if v ≤ u then
      let u := u - v
      let a := wrapS w (a - c)
      let b := wrapS w (b - d)
      if u = 0 then return (c, d, v) else egcdLoop w x y fuel u v a b c d
    else
      let v := v - u
      let c := wrapS w (c - a)
      let d := wrapS w (d - b)
      if u = 0 then return (c, d, v) else egcdLoop w x y fuel u v a b c d

/-- algebra/src/utils/gcd.rs 66-129: `extended_gcd`. The shifts are by less than `w`, which `Gcd.extendedGcd` shows;
`none` is the end of the fuel only. -/
def extendedGcd (w x y : Nat) : Option (Int × Int × Nat) :=
  if x = 0 ∨ y = 0 then some (0, 0, 0)
  else do
    let shift := trailingZeros w (x ||| y)
    let x := x / 2 ^ shift
    let y := y / 2 ^ shift
    let g := 1 * 2 ^ shift % 2 ^ w
    let (c, d, v) ← egcdLoop w (toSigned w x) (toSigned w y) (x + y) x y 1 0 0 1
    return (c, d, g * v % 2 ^ w)

/-- algebra/src/reduce/macros.rs 92-112: `try_inv_reduce`. -/
def tryInvReduce (w a m : Nat) : Option (Option Nat) := do
  let (_, inv, g) ← extendedGcd w m a
  if g = 1 then
    if 0 < inv then return some (ofSigned w inv)
    else return some (ofSigned w (wrapS w (inv + toSigned w m)))
  else return none

/-- algebra/src/utils/sample.rs 61-73: the `cbd` closure. -/
def cbd (w : Nat) (M : Barrett) (x0 x1 x2 x3 x4 x5 : Nat) : Option Nat :=
  let x2 := x2 &&& 0x1F
  let x5 := x5 &&& 0x1F
  let a := Sample.countOnes 8 x0 + Sample.countOnes 8 x1 + Sample.countOnes 8 x2
  let b := Sample.countOnes 8 x3 + Sample.countOnes 8 x4 + Sample.countOnes 8 x5
  if b ≤ a then Fp.new w M (a - b) else Fp.new w M (wrappingSub w M.value (b - a))

/-- algebra/src/modulus/goldilocks/ops.rs 79-85: `neg_reduce`. -/
def goldilocksNeg (a : Nat) : Nat := if a = 0 then 0 else wrappingSub 64 Goldilocks.P a

/-- The loop of lattice/src/gadget/rlwe.rs 185-190 and 209-214: as `GadgetRLWE.generateLoop`. -/
def generateLoop (R : Ctx) (sample : Nat → List Nat → List Nat → Option RLWE) (basis : Nat) :
    Nat → Nat → List Draw → Option (List RLWE)
  | 0, _, _ => some []
  | _ + 1, _, [] => none
  | k + 1, power, (a, e) :: ds => do
    let r ← sample power a e
    let rs ← generateLoop R sample basis k (wrappingMul R.w power basis) ds
    return r :: rs

/-- lattice/src/gadget/rlwe.rs 172-193: `generate_random_one_sample`. -/
def gadgetOne (R : Ctx) (s : List Nat) (B : Basis) (draws : List Draw) : Option GadgetRLWE := do
  let data ← generateLoop R (GadgetRLWE.oneElement R s) B.basis B.decomposeLen Fp.one draws
  return ⟨data, B⟩

/-- lattice/src/gadget/rlwe.rs 196-217: `generate_random_neg_secret_sample`. -/
def gadgetNegSecret (R : Ctx) (s : List Nat) (B : Basis) (draws : List Draw) : Option GadgetRLWE := do
  let data ← generateLoop R (GadgetRLWE.negSecretElement R s) B.basis B.decomposeLen Fp.one draws
  return ⟨data, B⟩

/-- lattice/src/rgsw.rs 175-193: `generate_random_one_sample`. -/
def rgswOne (R : Ctx) (s : List Nat) (B : Basis) (d0 d1 : List Draw) : Option RGSW := do
  let c0 ← gadgetNegSecret R s B d0
  let c1 ← gadgetOne R s B d1
  return ⟨c0, c1⟩

end Verif.Release
