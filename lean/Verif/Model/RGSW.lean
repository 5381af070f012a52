import Verif.Model.RLWE

/-!
# Gadget RLWE and RGSW samples

`lattice/src/gadget/rlwe.rs`, `lattice/src/rgsw.rs`, and the products of
`lattice/src/rlwe.rs`. The random draws of a sample are given as a list of pairs: the uniform
polynomial and the sampled error words. Too few draws are `none`.
-/

namespace Verif

/-- lattice/src/gadget/rlwe.rs 24-29: `GadgetRLWE`. -/
structure GadgetRLWE where
  data : List RLWE
  basis : Basis
  deriving DecidableEq

/-- lattice/src/gadget/rlwe.rs 233-238: `NTTGadgetRLWE`. -/
structure NTTGadgetRLWE where
  data : List NTTRLWE
  basis : Basis
  deriving DecidableEq

/-- lattice/src/rgsw.rs 22-28: `RGSW`. -/
structure RGSW where
  cNegSM : GadgetRLWE
  cM : GadgetRLWE
  deriving DecidableEq

/-- lattice/src/rgsw.rs 212-218: `NTTRGSW`. -/
structure NTTRGSW where
  cNegSM : NTTGadgetRLWE
  cM : NTTGadgetRLWE
  deriving DecidableEq

/-- The draws of one sample: the uniform words and the error words. lattice/src/rlwe.rs 1043-1046 and
1062-1064. -/
abbrev Draw := List Nat × List Nat

namespace GadgetRLWE

/-- lattice/src/gadget/rlwe.rs 119-124, 143-149: multiply the element with the transformed digits, add. -/
def accumulate (R : Ctx) (x : NTTRLWE) (g : RLWE) (d : List Nat) : Option NTTRLWE := do
  let t ← RLWE.mulNtt R g d
  NTTRLWE.add R x t

/-- lattice/src/gadget/rlwe.rs 106-126: `mul_polynomial`. -/
def mulPolynomial (R : Ctx) (g : GadgetRLWE) (p : List Nat) : Option RLWE := do
  let x ← NTTRLWE.gadgetLoop R g.basis (accumulate R) g.data p (NTTRLWE.zero p.length)
  NTTRLWE.toCoeff R x

/-- lattice/src/gadget/rlwe.rs 130-151: `mul_polynomial_add_rlwe` (lattice/src/rlwe.rs 321-327:
`add_gadget_rlwe_mul_polynomial`). -/
def mulPolynomialAdd (R : Ctx) (g : GadgetRLWE) (p : List Nat) (x : RLWE) : Option RLWE := do
  let x ← RLWE.toNtt R x
  let x ← NTTRLWE.gadgetLoop R g.basis (accumulate R) g.data p x
  NTTRLWE.toCoeff R x

/-- The loop of lattice/src/gadget/rlwe.rs 185-190 and 209-214: the basis power is multiplied after every
element, the last one included. -/
def generateLoop (R : Ctx) (sample : Nat → List Nat → List Nat → Option RLWE) (basis : Nat) :
    Nat → Nat → List Draw → Option (List RLWE)
  | 0, _, _ => some []
  | _ + 1, _, [] => none
  | k + 1, power, (a, e) :: ds => do
    let r ← sample power a e
    let power ← mulC R.w power basis
    let rs ← generateLoop R sample basis k power ds
    return r :: rs

/-- lattice/src/gadget/rlwe.rs 156-169: `generate_random_zero_sample`. -/
def zeroSample (R : Ctx) (s : List Nat) (B : Basis) (draws : List Draw) : Option GadgetRLWE :=
  if B.decomposeLen ≤ draws.length then do
    let data ← (draws.take B.decomposeLen).mapM fun d => RLWE.zeroSample R s d.1 d.2
    return ⟨data, B⟩
  else none

/-- lattice/src/gadget/rlwe.rs 186-187: one element of an encryption of `1`. -/
def oneElement (R : Ctx) (s : List Nat) (power : Nat) (a e : List Nat) : Option RLWE := do
  let r ← RLWE.zeroSample R s a e
  let b ← NTTRLWE.addHead R r.b power
  return ⟨r.a, b⟩

/-- lattice/src/gadget/rlwe.rs 172-193: `generate_random_one_sample`. -/
def oneSample (R : Ctx) (s : List Nat) (B : Basis) (draws : List Draw) : Option GadgetRLWE := do
  let data ← generateLoop R (oneElement R s) B.basis B.decomposeLen Fp.one draws
  return ⟨data, B⟩

/-- lattice/src/gadget/rlwe.rs 210-211: one element of an encryption of `-s`. -/
def negSecretElement (R : Ctx) (s : List Nat) (power : Nat) (a e : List Nat) : Option RLWE := do
  let r ← RLWE.zeroSample R s a e
  let a ← NTTRLWE.addHead R r.a power
  return ⟨a, r.b⟩

/-- lattice/src/gadget/rlwe.rs 196-217: `generate_random_neg_secret_sample`. -/
def negSecretSample (R : Ctx) (s : List Nat) (B : Basis) (draws : List Draw) :
    Option GadgetRLWE := do
  let data ← generateLoop R (negSecretElement R s) B.basis B.decomposeLen Fp.one draws
  return ⟨data, B⟩

end GadgetRLWE

namespace NTTGadgetRLWE

/-- lattice/src/gadget/rlwe.rs 240-248: `From<GadgetRLWE>`. -/
def ofGadget (R : Ctx) (g : GadgetRLWE) : Option NTTGadgetRLWE := do
  let data ← g.data.mapM (RLWE.toNtt R)
  return ⟨data, g.basis⟩

/-- lattice/src/gadget/rlwe.rs 341-360: `mul_polynomial`. -/
def mulPolynomial (R : Ctx) (g : NTTGadgetRLWE) (p : List Nat) : Option NTTRLWE :=
  NTTRLWE.gadgetLoop R g.basis (NTTRLWE.addMul R) g.data p (NTTRLWE.zero p.length)

/-- lattice/src/gadget/rlwe.rs 364-387: `mul_polynomial_inplace`. -/
def mulPolynomialInplace (R : Ctx) (g : NTTGadgetRLWE) (p : List Nat) (dest : NTTRLWE) :
    Option NTTRLWE :=
  NTTRLWE.gadgetLoop R g.basis (NTTRLWE.addMul R) g.data p dest.setZero

/-- lattice/src/gadget/rlwe.rs 394-417: `mul_polynomial_inplace_fast`. -/
def mulPolynomialFast (R : Ctx) (g : NTTGadgetRLWE) (p : List Nat) (dest : NTTRLWE) :
    Option NTTRLWE :=
  NTTRLWE.gadgetLoop R g.basis (NTTRLWE.addMulFast R) g.data p dest.setZero

/-- lattice/src/gadget/rlwe.rs 420-433: `add_ntt_gadget_rlwe_mul_ntt_polynomial_inplace`; the destination has
the shape of `self`. lattice/src/rlwe.rs 878-886 computes each element with the product-sum of
`NTTRLWE.addMul`. -/
def addMulNtt (R : Ctx) (g h : NTTGadgetRLWE) (p : List Nat) : Option NTTGadgetRLWE := do
  let data ← (g.data.zip h.data).mapM fun x => NTTRLWE.addMul R x.1 x.2 p
  return ⟨data, g.basis⟩

/-- The loops of lattice/src/gadget/rlwe.rs 467-480 and 500-508: the basis power is not multiplied after the
last element. -/
def generateLoop (R : Ctx) (sample : Nat → List Nat → List Nat → Option NTTRLWE) (basis : Nat) :
    Nat → Nat → List Draw → Option (List NTTRLWE)
  | _, _, [] => none
  | 0, power, (a, e) :: _ => do
    let r ← sample power a e
    return [r]
  | k + 1, power, (a, e) :: ds => do
    let r ← sample power a e
    let power ← mulC R.w power basis
    let rs ← generateLoop R sample basis k power ds
    return r :: rs

/-- lattice/src/gadget/rlwe.rs 438-451: `generate_random_zero_sample`. -/
def zeroSample (R : Ctx) (s : List Nat) (B : Basis) (draws : List Draw) : Option NTTGadgetRLWE :=
  if B.decomposeLen ≤ draws.length then do
    let data ← (draws.take B.decomposeLen).mapM fun d => NTTRLWE.zeroSample R s d.1 d.2
    return ⟨data, B⟩
  else none

/-- lattice/src/gadget/rlwe.rs 454-483: `generate_random_one_sample`. -/
def oneSample (R : Ctx) (s : List Nat) (B : Basis) (draws : List Draw) : Option NTTGadgetRLWE := do
  let k ← subC B.decomposeLen 1
  let data ← generateLoop R (NTTRLWE.valueSample R s) B.basis k Fp.one draws
  return ⟨data, B⟩

/-- lattice/src/gadget/rlwe.rs 501-502: one element of an encryption of `-s`: the power is added to every
entry of `a`. -/
def negSecretElement (R : Ctx) (s : List Nat) (power : Nat) (a e : List Nat) : Option NTTRLWE := do
  let r ← NTTRLWE.zeroSample R s a e
  let a ← r.a.mapM fun v => Fp.add R.w R.M v power
  return ⟨a, r.b⟩

/-- lattice/src/gadget/rlwe.rs 486-511: `generate_random_neg_secret_sample`. -/
def negSecretSample (R : Ctx) (s : List Nat) (B : Basis) (draws : List Draw) :
    Option NTTGadgetRLWE := do
  let k ← subC B.decomposeLen 1
  let data ← generateLoop R (negSecretElement R s) B.basis k Fp.one draws
  return ⟨data, B⟩

end NTTGadgetRLWE

namespace NTTRLWE

/-- lattice/src/rlwe.rs 890-906, 910-931: `add_gadget_rlwe_mul_polynomial`. -/
def addGadgetMul (R : Ctx) (x : NTTRLWE) (g : NTTGadgetRLWE) (p : List Nat) : Option NTTRLWE :=
  gadgetLoop R g.basis (addMul R) g.data p x

/-- lattice/src/rlwe.rs 938-958, 965-981: `add_assign_gadget_rlwe_mul_polynomial_fast`, `.._inplace_fast`. -/
def addGadgetMulFast (R : Ctx) (x : NTTRLWE) (g : NTTGadgetRLWE) (p : List Nat) : Option NTTRLWE :=
  gadgetLoop R g.basis (addMulFast R) g.data p x

/-- lattice/src/rlwe.rs 985-1005: `sub_assign_gadget_rlwe_mul_polynomial_inplace`: the negated polynomial is
decomposed. -/
def subGadgetMul (R : Ctx) (x : NTTRLWE) (g : NTTGadgetRLWE) (p : List Nat) : Option NTTRLWE := do
  let p ← Poly.neg R.M p
  gadgetLoop R g.basis (addMul R) g.data p x

/-- lattice/src/rlwe.rs 1012-1031: `sub_assign_gadget_rlwe_mul_polynomial_inplace_fast`. -/
def subGadgetMulFast (R : Ctx) (x : NTTRLWE) (g : NTTGadgetRLWE) (p : List Nat) :
    Option NTTRLWE := do
  let p ← Poly.neg R.M p
  gadgetLoop R g.basis (addMulFast R) g.data p x

end NTTRLWE

namespace RLWE

/-- lattice/src/rlwe.rs 492-496: `mul_rgsw`. -/
def mulRgsw (R : Ctx) (x : RLWE) (g : RGSW) : Option RLWE := do
  let r ← GadgetRLWE.mulPolynomial R g.cNegSM x.a
  GadgetRLWE.mulPolynomialAdd R g.cM x.b r

/-- lattice/src/rlwe.rs 504-510: `mul_ntt_rgsw`. -/
def mulNttRgsw (R : Ctx) (x : RLWE) (g : NTTRGSW) : Option RLWE := do
  let r ← NTTGadgetRLWE.mulPolynomial R g.cNegSM x.a
  let r ← NTTRLWE.addGadgetMul R r g.cM x.b
  NTTRLWE.toCoeff R r

/-- lattice/src/rlwe.rs 518-541: `mul_assign_ntt_rgsw`; `median` is the pre-allocated accumulator with its old
content. The pair is the new `self` and the new content of `median`. -/
def mulAssignNttRgsw (R : Ctx) (x : RLWE) (g : NTTRGSW) (median : NTTRLWE) :
    Option (RLWE × NTTRLWE) := do
  let m ← NTTGadgetRLWE.mulPolynomialFast R g.cNegSM x.a median
  let m ← NTTRLWE.addGadgetMulFast R m g.cM x.b
  let r ← NTTRLWE.toCoeff R m
  return (r, m)

/-- lattice/src/rlwe.rs 549-574: `mul_ntt_rgsw_inplace`: the same computation, the result goes to
`destination`. -/
def mulNttRgswInplace (R : Ctx) (x : RLWE) (g : NTTRGSW) (median : NTTRLWE) : Option RLWE := do
  let (r, _) ← mulAssignNttRgsw R x g median
  return r

end RLWE

namespace NTTRGSW

/-- lattice/src/rgsw.rs 220-228: `From<RGSW>`. -/
def ofRgsw (R : Ctx) (g : RGSW) : Option NTTRGSW := do
  let c0 ← NTTGadgetRLWE.ofGadget R g.cNegSM
  let c1 ← NTTGadgetRLWE.ofGadget R g.cM
  return ⟨c0, c1⟩

/-- lattice/src/rgsw.rs 321-338: `add_ntt_rgsw_mul_ntt_polynomial_inplace`. -/
def addMulNtt (R : Ctx) (g h : NTTRGSW) (p : List Nat) : Option NTTRGSW := do
  let c0 ← NTTGadgetRLWE.addMulNtt R g.cNegSM h.cNegSM p
  let c1 ← NTTGadgetRLWE.addMulNtt R g.cM h.cM p
  return ⟨c0, c1⟩

/-- lattice/src/rgsw.rs 343-366: `generate_random_zero_sample`. -/
def zeroSample (R : Ctx) (s : List Nat) (B : Basis) (d0 d1 : List Draw) : Option NTTRGSW := do
  let c0 ← NTTGadgetRLWE.zeroSample R s B d0
  let c1 ← NTTGadgetRLWE.zeroSample R s B d1
  return ⟨c0, c1⟩

/-- lattice/src/rgsw.rs 369-392: `generate_random_one_sample`. -/
def oneSample (R : Ctx) (s : List Nat) (B : Basis) (d0 d1 : List Draw) : Option NTTRGSW := do
  let c0 ← NTTGadgetRLWE.negSecretSample R s B d0
  let c1 ← NTTGadgetRLWE.oneSample R s B d1
  return ⟨c0, c1⟩

end NTTRGSW

namespace RGSW

/-- lattice/src/rgsw.rs 149-172: `generate_random_zero_sample`. -/
def zeroSample (R : Ctx) (s : List Nat) (B : Basis) (d0 d1 : List Draw) : Option RGSW := do
  let c0 ← GadgetRLWE.zeroSample R s B d0
  let c1 ← GadgetRLWE.zeroSample R s B d1
  return ⟨c0, c1⟩

/-- lattice/src/rgsw.rs 175-193: `generate_random_one_sample`. -/
def oneSample (R : Ctx) (s : List Nat) (B : Basis) (d0 d1 : List Draw) : Option RGSW := do
  let c0 ← GadgetRLWE.negSecretSample R s B d0
  let c1 ← GadgetRLWE.oneSample R s B d1
  return ⟨c0, c1⟩

/-- lattice/src/rgsw.rs 131-134, 139-141: `GadgetRLWE::new` with its length assertion. -/
def mkGadget (data : List RLWE) (B : Basis) : Option GadgetRLWE :=
  if data.length = B.decomposeLen then some ⟨data, B⟩ else none

/-- lattice/src/rgsw.rs 126-144: `mul_small_ntt_rgsw`. -/
def mulSmallNtt (R : Ctx) (x : RGSW) (g : NTTRGSW) : Option RGSW := do
  let d0 ← x.cNegSM.data.mapM fun r => RLWE.mulNttRgsw R r g
  let c0 ← mkGadget d0 x.cNegSM.basis
  let d1 ← x.cM.data.mapM fun r => RLWE.mulNttRgsw R r g
  let c1 ← mkGadget d1 x.cNegSM.basis
  return ⟨c0, c1⟩

/-- lattice/src/rgsw.rs 116-119: `mul_small_rgsw`. -/
def mulSmall (R : Ctx) (x g : RGSW) : Option RGSW := do
  let g ← NTTRGSW.ofRgsw R g
  mulSmallNtt R x g

end RGSW
end Verif
