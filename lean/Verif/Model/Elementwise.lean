import Verif.Model.RGSW

/-!
# Entry-wise operations on ring, gadget and RGSW ciphertexts with a destination

`lattice/src/rlwe.rs`, `lattice/src/gadget/rlwe.rs`, `lattice/src/rgsw.rs`,
`lattice/src/lwe.rs`. A destination is an argument with its old content: the loops are zips, so
entries beyond the shortest operand stay as they were, and a gadget destination keeps its own basis.
-/

namespace Verif

namespace Poly

/-- `algebra/src/polynomial/ntt_polynomial.rs` 194-201: `mul_inplace`. -/
def nttMulInplace (w : Nat) (M : Barrett) (a b dest : List Nat) : Option (List Nat) :=
  zip3Assign (Fp.mul w M) a b dest

/-- `algebra/src/polynomial/ntt_polynomial.rs` 599-610: `ntt_add_mul_inplace`. -/
def nttAddMulInplace (w : Nat) (M : Barrett) :
    List Nat → List Nat → List Nat → List Nat → Option (List Nat)
  | a :: as, b :: bs, c :: cs, _ :: ds => do
    let r ← Fp.addMul w M a b c
    let rs ← nttAddMulInplace w M as bs cs ds
    return r :: rs
  | _, _, _, ds => some ds

end Poly

/-- `x.iter().zip(y).zip(dest.iter_mut()).for_each(..)`: `f` is given the two elements and the old
destination element; the destination elements beyond stay. lattice/src/gadget/rlwe.rs 85-102, 320-337 and 426-432. -/
def zipInto {α β : Type} (f : α → α → β → Option β) : List α → List α → List β → Option (List β)
  | x :: xs, y :: ys, d :: ds => do
    let r ← f x y d
    let rs ← zipInto f xs ys ds
    return r :: rs
  | _, _, ds => some ds

namespace RLWE

/-- lattice/src/rlwe.rs 280-283: `add_inplace`. -/
def addInplace (R : Ctx) (x y dest : RLWE) : Option RLWE := do
  let a ← Poly.addInplace R.w R.M x.a y.a dest.a
  let b ← Poly.addInplace R.w R.M x.b y.b dest.b
  return ⟨a, b⟩

/-- lattice/src/rlwe.rs 288-291: `sub_inplace`. -/
def subInplace (R : Ctx) (x y dest : RLWE) : Option RLWE := do
  let a ← Poly.subInplace R.w R.M x.a y.a dest.a
  let b ← Poly.subInplace R.w R.M x.b y.b dest.b
  return ⟨a, b⟩

end RLWE

namespace NTTRLWE

/-- lattice/src/rlwe.rs 784-789: `sub_element_wise_ref`. -/
def sub (R : Ctx) (x y : NTTRLWE) : Option NTTRLWE := do
  let a ← Poly.sub R.w R.M x.a y.a
  let b ← Poly.sub R.w R.M x.b y.b
  return ⟨a, b⟩

/-- lattice/src/rlwe.rs 819-822: `add_inplace`. -/
def addInplace (R : Ctx) (x y dest : NTTRLWE) : Option NTTRLWE := do
  let a ← Poly.addInplace R.w R.M x.a y.a dest.a
  let b ← Poly.addInplace R.w R.M x.b y.b dest.b
  return ⟨a, b⟩

/-- lattice/src/rlwe.rs 827-830: `sub_inplace`. -/
def subInplace (R : Ctx) (x y dest : NTTRLWE) : Option NTTRLWE := do
  let a ← Poly.subInplace R.w R.M x.a y.a dest.a
  let b ← Poly.subInplace R.w R.M x.b y.b dest.b
  return ⟨a, b⟩

/-- lattice/src/rlwe.rs 842-849: `mul_ntt_polynomial_inplace`. -/
def mulNttInplace (R : Ctx) (x : NTTRLWE) (p : List Nat) (dest : NTTRLWE) : Option NTTRLWE := do
  let a ← Poly.nttMulInplace R.w R.M x.a p dest.a
  let b ← Poly.nttMulInplace R.w R.M x.b p dest.b
  return ⟨a, b⟩

/-- lattice/src/rlwe.rs 878-886: `add_ntt_rlwe_mul_ntt_polynomial_inplace`. -/
def addMulInplace (R : Ctx) (x g : NTTRLWE) (p : List Nat) (dest : NTTRLWE) : Option NTTRLWE := do
  let a ← Poly.nttAddMulInplace R.w R.M x.a g.a p dest.a
  let b ← Poly.nttAddMulInplace R.w R.M x.b g.b p dest.b
  return ⟨a, b⟩

end NTTRLWE

namespace GadgetRLWE

/-- lattice/src/gadget/rlwe.rs 85-91: `add_inplace`; the assertion compares the bases of the operands only. -/
def addInplace (R : Ctx) (g h dest : GadgetRLWE) : Option GadgetRLWE :=
  if g.basis.basis = h.basis.basis then do
    let data ← zipInto (RLWE.addInplace R) g.data h.data dest.data
    return ⟨data, dest.basis⟩
  else none

/-- lattice/src/gadget/rlwe.rs 96-102: `sub_inplace`. -/
def subInplace (R : Ctx) (g h dest : GadgetRLWE) : Option GadgetRLWE :=
  if g.basis.basis = h.basis.basis then do
    let data ← zipInto (RLWE.subInplace R) g.data h.data dest.data
    return ⟨data, dest.basis⟩
  else none

end GadgetRLWE

namespace NTTGadgetRLWE

/-- lattice/src/gadget/rlwe.rs 277-284: `zero`. -/
def zero (n : Nat) (B : Basis) : NTTGadgetRLWE :=
  ⟨(List.range B.decomposeLen).map fun _ => NTTRLWE.zero n, B⟩

/-- lattice/src/gadget/rlwe.rs 288-290: `set_zero`. -/
def setZero (g : NTTGadgetRLWE) : NTTGadgetRLWE := ⟨g.data.map NTTRLWE.setZero, g.basis⟩

/-- lattice/src/gadget/rlwe.rs 320-326: `add_inplace`. -/
def addInplace (R : Ctx) (g h dest : NTTGadgetRLWE) : Option NTTGadgetRLWE :=
  if g.basis.basis = h.basis.basis then do
    let data ← zipInto (NTTRLWE.addInplace R) g.data h.data dest.data
    return ⟨data, dest.basis⟩
  else none

/-- lattice/src/gadget/rlwe.rs 331-337: `sub_inplace`. -/
def subInplace (R : Ctx) (g h dest : NTTGadgetRLWE) : Option NTTGadgetRLWE :=
  if g.basis.basis = h.basis.basis then do
    let data ← zipInto (NTTRLWE.subInplace R) g.data h.data dest.data
    return ⟨data, dest.basis⟩
  else none

/-- lattice/src/rgsw.rs 312-314: every element times a polynomial in transform form. -/
def mulNttAssign (R : Ctx) (g : NTTGadgetRLWE) (p : List Nat) : Option NTTGadgetRLWE := do
  let data ← g.data.mapM fun x => NTTRLWE.mulNtt R x p
  return ⟨data, g.basis⟩

/-- lattice/src/gadget/rlwe.rs 420-433: `add_ntt_gadget_rlwe_mul_ntt_polynomial_inplace` with its destination;
no assertion. -/
def addMulNttInplace (R : Ctx) (g h : NTTGadgetRLWE) (p : List Nat) (dest : NTTGadgetRLWE) :
    Option NTTGadgetRLWE := do
  let data ← zipInto (fun x y d => NTTRLWE.addMulInplace R x y p d) g.data h.data dest.data
  return ⟨data, dest.basis⟩

end NTTGadgetRLWE

namespace RGSW

/-- lattice/src/rgsw.rs 95-99: `add_inplace`. -/
def addInplace (R : Ctx) (g h dest : RGSW) : Option RGSW := do
  let c1 ← GadgetRLWE.addInplace R g.cM h.cM dest.cM
  let c0 ← GadgetRLWE.addInplace R g.cNegSM h.cNegSM dest.cNegSM
  return ⟨c0, c1⟩

/-- lattice/src/rgsw.rs 104-108: `sub_inplace`. -/
def subInplace (R : Ctx) (g h dest : RGSW) : Option RGSW := do
  let c1 ← GadgetRLWE.subInplace R g.cM h.cM dest.cM
  let c0 ← GadgetRLWE.subInplace R g.cNegSM h.cNegSM dest.cNegSM
  return ⟨c0, c1⟩

end RGSW

namespace NTTRGSW

/-- lattice/src/rgsw.rs 248-253: `zero`. -/
def zero (n : Nat) (B : Basis) : NTTRGSW := ⟨NTTGadgetRLWE.zero n B, NTTGadgetRLWE.zero n B⟩

/-- lattice/src/rgsw.rs 257-260: `set_zero`. -/
def setZero (g : NTTRGSW) : NTTRGSW := ⟨g.cNegSM.setZero, g.cM.setZero⟩

/-- lattice/src/rgsw.rs 295-299: `add_inplace`. -/
def addInplace (R : Ctx) (g h dest : NTTRGSW) : Option NTTRGSW := do
  let c1 ← NTTGadgetRLWE.addInplace R g.cM h.cM dest.cM
  let c0 ← NTTGadgetRLWE.addInplace R g.cNegSM h.cNegSM dest.cNegSM
  return ⟨c0, c1⟩

/-- lattice/src/rgsw.rs 304-308: `sub_inplace`. -/
def subInplace (R : Ctx) (g h dest : NTTRGSW) : Option NTTRGSW := do
  let c1 ← NTTGadgetRLWE.subInplace R g.cM h.cM dest.cM
  let c0 ← NTTGadgetRLWE.subInplace R g.cNegSM h.cNegSM dest.cNegSM
  return ⟨c0, c1⟩

/-- lattice/src/rgsw.rs 311-318: `mul_ntt_polynomial_assign`. -/
def mulNttAssign (R : Ctx) (g : NTTRGSW) (p : List Nat) : Option NTTRGSW := do
  let c1 ← NTTGadgetRLWE.mulNttAssign R g.cM p
  let c0 ← NTTGadgetRLWE.mulNttAssign R g.cNegSM p
  return ⟨c0, c1⟩

/-- lattice/src/rgsw.rs 321-338: `add_ntt_rgsw_mul_ntt_polynomial_inplace` with its destination. -/
def addMulNttInplace (R : Ctx) (g h : NTTRGSW) (p : List Nat) (dest : NTTRGSW) :
    Option NTTRGSW := do
  let c0 ← NTTGadgetRLWE.addMulNttInplace R g.cNegSM h.cNegSM p dest.cNegSM
  let c1 ← NTTGadgetRLWE.addMulNttInplace R g.cM h.cM p dest.cM
  return ⟨c0, c1⟩

end NTTRGSW

namespace LWE

/-- lattice/src/lwe.rs 72-81: `add_component_wise_ref`, where `f` is the `+` of the component type. -/
def addComponentRef (f : Nat → Nat → Option Nat) (x y : LWE) : Option LWE :=
  if x.a.length = y.a.length then do
    let a ← zipCollect f x.a y.a
    let b ← f x.b y.b
    return ⟨a, b⟩
  else none

/-- lattice/src/lwe.rs 101-111 (and 90-96): `add_inplace_component_wise`, where `f` is `+=`. -/
def addComponentInplace (f : Nat → Nat → Option Nat) (x y : LWE) : Option LWE :=
  if x.a.length = y.a.length then do
    let a ← Poly.zipAssign f x.a y.a
    let b ← f x.b y.b
    return ⟨a, b⟩
  else none

/-- lattice/src/lwe.rs 120-129: `sub_component_wise_ref`, where `f` is `-`. -/
def subComponentRef (f : Nat → Nat → Option Nat) (x y : LWE) : Option LWE :=
  if x.a.length = y.a.length then do
    let a ← zipCollect f x.a y.a
    let b ← f x.b y.b
    return ⟨a, b⟩
  else none

/-- lattice/src/lwe.rs 149-159 (and 138-144): `sub_inplace_component_wise`, where `f` is `-=`. -/
def subComponentInplace (f : Nat → Nat → Option Nat) (x y : LWE) : Option LWE :=
  if x.a.length = y.a.length then do
    let a ← Poly.zipAssign f x.a y.a
    let b ← f x.b y.b
    return ⟨a, b⟩
  else none

end LWE
end Verif
