import Verif.Model.SecretKey

/-!
# Counting transforms

The functions that call a number theoretic transform, written once more with a state: the numbers of calls of
`transform_slice` and of `inverse_transform_slice` so far. These are the calls that the counters of
algebra/src/transformation/ntt_table.rs 152-196 count (302-308 and 334-340); the shortcuts for monomials
(algebra/src/transformation/ntt_table.rs 198-286) are not counted there, and not here. Calls without a transform are
those of the other model files. A panic is `none`, and then nothing is said about the numbers.
-/

namespace Verif

/-- The numbers of forward and of inverse transforms: `NTT_COUNT` and `INTT_COUNT`,
algebra/src/transformation/ntt_table.rs 157-158, without a bound. -/
abbrev Work := Nat × Nat

/-- A computation that counts its transforms. algebra/src/transformation/ntt_table.rs 302-308 and 334-340. -/
abbrev WorkM := StateT Work Option

namespace Work

/-- algebra/src/transformation/ntt_table.rs 296-326: `transform_slice`, counted in 301-307. -/
def transform (w : Nat) (M : Barrett) (t : Table) (vals : List Nat) : WorkM (List Nat) := do
  modify fun k => (k.1 + 1, k.2)
  Table.transform w M t vals

/-- algebra/src/transformation/ntt_table.rs 328-374: `inverse_transform_slice`, counted in 333-340. -/
def inverse (w : Nat) (M : Barrett) (t : Table) (vals : List Nat) : WorkM (List Nat) := do
  modify fun k => (k.1, k.2 + 1)
  Table.inverse w M t vals

namespace Poly

/-- algebra/src/polynomial/ntt_polynomial.rs 38-47: `NTTPolynomial::from(Polynomial)`. -/
def toNtt (w : Nat) (M : Barrett) (tbl : Nat → Option Table) (a : List Nat) : WorkM (List Nat) := do
  let t ← Poly.tableFor tbl a.length
  transform w M t a

/-- algebra/src/polynomial/native_polynomial.rs 44-53: `Polynomial::from(NTTPolynomial)`. -/
def ofNtt (w : Nat) (M : Barrett) (tbl : Nat → Option Table) (a : List Nat) : WorkM (List Nat) := do
  let t ← Poly.tableFor tbl a.length
  inverse w M t a

/-- algebra/src/polynomial/native_polynomial.rs 519-534 (and the `Mul` forms 536-581): `MulAssign<Self>`. -/
def mul (w : Nat) (M : Barrett) (tbl : Nat → Option Table) (a b : List Nat) : WorkM (List Nat) :=
  if a.length = b.length then do
    let t ← Poly.tableFor tbl a.length
    let r ← transform w M t b
    let l ← transform w M t a
    let p ← Poly.mulFastAssign w M l r
    inverse w M t p
  else StateT.lift none

/-- algebra/src/polynomial/native_polynomial.rs 620-652: `MulAssign<NTTPolynomial>`. -/
def mulNtt (w : Nat) (M : Barrett) (tbl : Nat → Option Table) (a r : List Nat) : WorkM (List Nat) :=
  if a.length = r.length then do
    let t ← Poly.tableFor tbl a.length
    let l ← transform w M t a
    let p ← Poly.mulFastAssign w M l r
    inverse w M t p
  else StateT.lift none

/-- algebra/src/polynomial/native_polynomial.rs 676-695: `Inv`. -/
def inv (w : Nat) (M : Barrett) (tbl : Nat → Option Table) (a : List Nat) : WorkM (List Nat) := do
  let v ← toNtt w M tbl a
  let i ← Poly.nttInv w M v
  ofNtt w M tbl i

end Poly

namespace RLWE

/-- lattice/src/rlwe.rs 618-626: `From<RLWE> for NTTRLWE`. -/
def toNtt (R : Ctx) (x : RLWE) : WorkM NTTRLWE := do
  let a ← Poly.toNtt R.w R.M R.tbl x.a
  let b ← Poly.toNtt R.w R.M R.tbl x.b
  return ⟨a, b⟩

/-- lattice/src/rlwe.rs 296-317: `mul_ntt_polynomial_inplace`. -/
def mulNtt (R : Ctx) (x : RLWE) (p : List Nat) : WorkM NTTRLWE :=
  if x.a.length = p.length ∧ x.b.length = p.length then do
    let a ← Poly.toNtt R.w R.M R.tbl x.a
    let b ← Poly.toNtt R.w R.M R.tbl x.b
    let a ← Poly.nttMul R.w R.M a p
    let b ← Poly.nttMul R.w R.M b p
    return ⟨a, b⟩
  else StateT.lift none

/-- lattice/src/rlwe.rs 577-595: `generate_random_zero_sample`. -/
def zeroSample (R : Ctx) (s a e : List Nat) : WorkM RLWE :=
  if a.length = s.length ∧ e.length = s.length then do
    let v ← Poly.toNtt R.w R.M R.tbl a
    let v ← Poly.nttMul R.w R.M v s
    let p ← Poly.ofNtt R.w R.M R.tbl v
    let b ← Poly.add R.w R.M e p
    return ⟨a, b⟩
  else StateT.lift none

end RLWE

namespace NTTRLWE

/-- lattice/src/rlwe.rs 75-83 and 674-686: `inverse_transform_inplace`, `From<NTTRLWE> for RLWE`. -/
def toCoeff (R : Ctx) (x : NTTRLWE) : WorkM RLWE := do
  let a ← Poly.ofNtt R.w R.M R.tbl x.a
  let b ← Poly.ofNtt R.w R.M R.tbl x.b
  return ⟨a, b⟩

/-- The loop of lattice/src/rlwe.rs 925-930, 953-957, 976-980, 1000-1005, 1026-1030 and
lattice/src/gadget/rlwe.rs 119-124, 143-149, 353-357, 381-386, 411-416. -/
def gadgetLoop {G : Type} (R : Ctx) (B : Basis) (acc : NTTRLWE → G → List Nat → WorkM NTTRLWE) :
    List G → List Nat → NTTRLWE → WorkM NTTRLWE
  | [], _, x => return x
  | g :: gs, p, x => do
    let (d, p) ← Poly.decomposeLsb R.w B p
    let d ← Poly.toNtt R.w R.M R.tbl d
    let x ← acc x g d
    gadgetLoop R B acc gs p x

/-- lattice/src/rlwe.rs 1034-1049: `generate_random_zero_sample`. -/
def zeroSample (R : Ctx) (s a e : List Nat) : WorkM NTTRLWE :=
  if a.length = s.length ∧ e.length = s.length then do
    let e ← Poly.toNtt R.w R.M R.tbl e
    let b ← Poly.nttAddMul R.w R.M e a s
    return ⟨a, b⟩
  else StateT.lift none

/-- lattice/src/rlwe.rs 1052-1071: `generate_random_value_sample`. -/
def valueSample (R : Ctx) (s : List Nat) (value : Nat) (a e : List Nat) : WorkM NTTRLWE :=
  if a.length = s.length ∧ e.length = s.length then do
    let e ← NTTRLWE.addHead R e value
    let b ← Poly.toNtt R.w R.M R.tbl e
    let b ← Poly.nttAddMul R.w R.M b a s
    return ⟨a, b⟩
  else StateT.lift none

/-- lattice/src/rlwe.rs 890-906, 910-931: `add_gadget_rlwe_mul_polynomial`. -/
def addGadgetMul (R : Ctx) (x : NTTRLWE) (g : NTTGadgetRLWE) (p : List Nat) : WorkM NTTRLWE :=
  gadgetLoop R g.basis (fun x g d => NTTRLWE.addMul R x g d) g.data p x

/-- lattice/src/rlwe.rs 938-958, 965-981: `add_assign_gadget_rlwe_mul_polynomial_fast`, `.._inplace_fast`. -/
def addGadgetMulFast (R : Ctx) (x : NTTRLWE) (g : NTTGadgetRLWE) (p : List Nat) : WorkM NTTRLWE :=
  gadgetLoop R g.basis (fun x g d => NTTRLWE.addMulFast R x g d) g.data p x

/-- lattice/src/rlwe.rs 1012-1031: `sub_assign_gadget_rlwe_mul_polynomial_inplace_fast`. -/
def subGadgetMulFast (R : Ctx) (x : NTTRLWE) (g : NTTGadgetRLWE) (p : List Nat) : WorkM NTTRLWE := do
  let p ← Poly.neg R.M p
  gadgetLoop R g.basis (fun x g d => NTTRLWE.addMulFast R x g d) g.data p x

end NTTRLWE

namespace GadgetRLWE

/-- lattice/src/gadget/rlwe.rs 119-124, 143-149: multiply the element with the transformed digits, add. -/
def accumulate (R : Ctx) (x : NTTRLWE) (g : RLWE) (d : List Nat) : WorkM NTTRLWE := do
  let t ← RLWE.mulNtt R g d
  NTTRLWE.add R x t

/-- lattice/src/gadget/rlwe.rs 106-126: `mul_polynomial`. -/
def mulPolynomial (R : Ctx) (g : GadgetRLWE) (p : List Nat) : WorkM RLWE := do
  let x ← NTTRLWE.gadgetLoop R g.basis (accumulate R) g.data p (NTTRLWE.zero p.length)
  NTTRLWE.toCoeff R x

/-- lattice/src/gadget/rlwe.rs 130-151: `mul_polynomial_add_rlwe`. -/
def mulPolynomialAdd (R : Ctx) (g : GadgetRLWE) (p : List Nat) (x : RLWE) : WorkM RLWE := do
  let x ← RLWE.toNtt R x
  let x ← NTTRLWE.gadgetLoop R g.basis (accumulate R) g.data p x
  NTTRLWE.toCoeff R x

end GadgetRLWE

namespace NTTGadgetRLWE

/-- lattice/src/gadget/rlwe.rs 341-360: `mul_polynomial`. -/
def mulPolynomial (R : Ctx) (g : NTTGadgetRLWE) (p : List Nat) : WorkM NTTRLWE :=
  NTTRLWE.gadgetLoop R g.basis (fun x g d => NTTRLWE.addMul R x g d) g.data p (NTTRLWE.zero p.length)

/-- lattice/src/gadget/rlwe.rs 394-417: `mul_polynomial_inplace_fast`. -/
def mulPolynomialFast (R : Ctx) (g : NTTGadgetRLWE) (p : List Nat) (dest : NTTRLWE) : WorkM NTTRLWE :=
  NTTRLWE.gadgetLoop R g.basis (fun x g d => NTTRLWE.addMulFast R x g d) g.data p dest.setZero

/-- The loops of lattice/src/gadget/rlwe.rs 467-480 and 500-508. -/
def generateLoop (R : Ctx) (sample : Nat → List Nat → List Nat → WorkM NTTRLWE) (basis : Nat) :
    Nat → Nat → List Draw → WorkM (List NTTRLWE)
  | _, _, [] => StateT.lift none
  | 0, power, (a, e) :: _ => do
    let r ← sample power a e
    return [r]
  | k + 1, power, (a, e) :: ds => do
    let r ← sample power a e
    let power ← mulC R.w power basis
    let rs ← generateLoop R sample basis k power ds
    return r :: rs

/-- The loop of lattice/src/gadget/rlwe.rs 447-449. -/
def zeroLoop (R : Ctx) (s : List Nat) : List Draw → WorkM (List NTTRLWE)
  | [] => return []
  | d :: ds => do
    let r ← NTTRLWE.zeroSample R s d.1 d.2
    let rs ← zeroLoop R s ds
    return r :: rs

/-- lattice/src/gadget/rlwe.rs 438-451: `generate_random_zero_sample`. -/
def zeroSample (R : Ctx) (s : List Nat) (B : Basis) (draws : List Draw) : WorkM NTTGadgetRLWE :=
  if B.decomposeLen ≤ draws.length then do
    let data ← zeroLoop R s (draws.take B.decomposeLen)
    return ⟨data, B⟩
  else StateT.lift none

/-- lattice/src/gadget/rlwe.rs 454-483: `generate_random_one_sample`. -/
def oneSample (R : Ctx) (s : List Nat) (B : Basis) (draws : List Draw) : WorkM NTTGadgetRLWE := do
  let k ← subC B.decomposeLen 1
  let data ← generateLoop R (NTTRLWE.valueSample R s) B.basis k Fp.one draws
  return ⟨data, B⟩

/-- lattice/src/gadget/rlwe.rs 501-502: one element of an encryption of `-s`. -/
def negSecretElement (R : Ctx) (s : List Nat) (power : Nat) (a e : List Nat) : WorkM NTTRLWE := do
  let r ← NTTRLWE.zeroSample R s a e
  let a ← (r.a.mapM fun v => Fp.add R.w R.M v power : Option (List Nat))
  return ⟨a, r.b⟩

/-- lattice/src/gadget/rlwe.rs 486-511: `generate_random_neg_secret_sample`. -/
def negSecretSample (R : Ctx) (s : List Nat) (B : Basis) (draws : List Draw) : WorkM NTTGadgetRLWE := do
  let k ← subC B.decomposeLen 1
  let data ← generateLoop R (negSecretElement R s) B.basis k Fp.one draws
  return ⟨data, B⟩

end NTTGadgetRLWE

namespace NTTRGSW

/-- lattice/src/rgsw.rs 343-366: `generate_random_zero_sample`. -/
def zeroSample (R : Ctx) (s : List Nat) (B : Basis) (d0 d1 : List Draw) : WorkM NTTRGSW := do
  let c0 ← NTTGadgetRLWE.zeroSample R s B d0
  let c1 ← NTTGadgetRLWE.zeroSample R s B d1
  return ⟨c0, c1⟩

/-- lattice/src/rgsw.rs 369-392: `generate_random_one_sample`. -/
def oneSample (R : Ctx) (s : List Nat) (B : Basis) (d0 d1 : List Draw) : WorkM NTTRGSW := do
  let c0 ← NTTGadgetRLWE.negSecretSample R s B d0
  let c1 ← NTTGadgetRLWE.oneSample R s B d1
  return ⟨c0, c1⟩

end NTTRGSW

namespace RLWE

/-- lattice/src/rlwe.rs 492-496: `mul_rgsw`. -/
def mulRgsw (R : Ctx) (x : RLWE) (g : RGSW) : WorkM RLWE := do
  let r ← GadgetRLWE.mulPolynomial R g.cNegSM x.a
  GadgetRLWE.mulPolynomialAdd R g.cM x.b r

/-- lattice/src/rlwe.rs 504-510: `mul_ntt_rgsw`. -/
def mulNttRgsw (R : Ctx) (x : RLWE) (g : NTTRGSW) : WorkM RLWE := do
  let r ← NTTGadgetRLWE.mulPolynomial R g.cNegSM x.a
  let r ← NTTRLWE.addGadgetMul R r g.cM x.b
  NTTRLWE.toCoeff R r

/-- lattice/src/rlwe.rs 518-541: `mul_assign_ntt_rgsw`. -/
def mulAssignNttRgsw (R : Ctx) (x : RLWE) (g : NTTRGSW) (median : NTTRLWE) :
    WorkM (RLWE × NTTRLWE) := do
  let m ← NTTGadgetRLWE.mulPolynomialFast R g.cNegSM x.a median
  let m ← NTTRLWE.addGadgetMulFast R m g.cM x.b
  let r ← NTTRLWE.toCoeff R m
  return (r, m)

end RLWE

namespace BlindRotation
open Verif.BlindRotation (State RgswDraw rotateLut init)

/-- fhe_core/src/blind_rotation/binary.rs 50-64, fhe_core/src/blind_rotation/ternary.rs 78-90. -/
def update (R : Ctx) (n : Nat) (st : State) (key : NTTRGSW) (a : Nat) : WorkM State := do
  let ext ← RLWE.mulMonomialSubOne R st.acc n a st.ext
  let (ext, median) ← RLWE.mulAssignNttRgsw R ext key st.median
  let acc ← RLWE.add R st.acc ext
  return ⟨acc, ext, median⟩

/-- fhe_core/src/blind_rotation/binary.rs 48-68: one step of the fold. -/
def binaryStep (R : Ctx) (n : Nat) (st : State) (key : NTTRGSW) (a : Nat) : WorkM State :=
  if a = 0 then return st else update R n st key a

/-- fhe_core/src/blind_rotation/ternary.rs 61-94: one step of the fold. -/
def ternaryStep (R : Ctx) (t : Table) (n : Nat) (st : State) (key : NTTRGSW × NTTRGSW) (a : Nat) :
    WorkM State :=
  if a = 0 then return st
  else do
    let negA ← subC (2 * n) a
    let m ← Table.negOneMonomial R.M t negA n
    let ek ← NTTRGSW.addMulNtt R key.1 key.2 m
    update R n st ek a

/-- fhe_core/src/blind_rotation/binary.rs 45-68, fhe_core/src/blind_rotation/ternary.rs 58-94: the fold. -/
def loop {K : Type} (step : State → K → Nat → WorkM State) :
    List K → List Nat → State → WorkM State
  | k :: ks, a :: as, st => do
    let st ← step st k a
    loop step ks as st
  | _, _, st => return st

/-- fhe_core/src/blind_rotation/binary.rs 19-69: `blind_rotate` with a binary key. -/
def binary (R : Ctx) (key : List NTTRGSW) (lut : List Nat) (lwe : LWE) : WorkM RLWE := do
  let lut ← rotateLut R lut lwe.b
  let st ← loop (binaryStep R lut.length) key lwe.a (init lut)
  return st.acc

/-- fhe_core/src/blind_rotation/ternary.rs 24-95: `blind_rotate` with a ternary key. -/
def ternary (R : Ctx) (key : List (NTTRGSW × NTTRGSW)) (lut : List Nat) (lwe : LWE) : WorkM RLWE := do
  let t ← Poly.tableFor R.tbl lut.length
  let lut ← rotateLut R lut lwe.b
  let st ← loop (ternaryStep R t lut.length) key lwe.a (init lut)
  return st.acc

/-- fhe_core/src/blind_rotation/binary.rs 85-101: the key element of one bit. -/
def binaryKey (R : Ctx) (sn : List Nat) (B : Basis) (s : Nat) (d : RgswDraw) : WorkM NTTRGSW :=
  if s = 0 then NTTRGSW.zeroSample R sn B d.1 d.2 else NTTRGSW.oneSample R sn B d.1 d.2

/-- fhe_core/src/blind_rotation/binary.rs 72-104: `generate`. -/
def binaryGenerate (R : Ctx) (sn : List Nat) (B : Basis) : List Nat → List RgswDraw →
    WorkM (List NTTRGSW)
  | [], _ => return []
  | _ :: _, [] => StateT.lift none
  | s :: ss, d :: ds => do
    let g ← binaryKey R sn B s d
    let gs ← binaryGenerate R sn B ss ds
    return g :: gs

/-- fhe_core/src/blind_rotation/ternary.rs 111-158: the key element of one ternary digit. -/
def ternaryKey (R : Ctx) (sn : List Nat) (B : Basis) (s : Nat) (d : RgswDraw × RgswDraw) :
    WorkM (NTTRGSW × NTTRGSW) :=
  if s = 1 then do
    let x ← NTTRGSW.oneSample R sn B d.1.1 d.1.2
    let y ← NTTRGSW.zeroSample R sn B d.2.1 d.2.2
    return (x, y)
  else if s = 0 then do
    let x ← NTTRGSW.zeroSample R sn B d.1.1 d.1.2
    let y ← NTTRGSW.zeroSample R sn B d.2.1 d.2.2
    return (x, y)
  else do
    let x ← NTTRGSW.zeroSample R sn B d.1.1 d.1.2
    let y ← NTTRGSW.oneSample R sn B d.2.1 d.2.2
    return (x, y)

/-- fhe_core/src/blind_rotation/ternary.rs 98-161: `generate`. -/
def ternaryGenerate (R : Ctx) (sn : List Nat) (B : Basis) : List Nat → List (RgswDraw × RgswDraw) →
    WorkM (List (NTTRGSW × NTTRGSW))
  | [], _ => return []
  | _ :: _, [] => StateT.lift none
  | s :: ss, d :: ds => do
    let g ← ternaryKey R sn B s d
    let gs ← ternaryGenerate R sn B ss ds
    return g :: gs

end BlindRotation

namespace RlweSwitch
open Verif.RlweSwitch (nextPow2 chunks rlweChunks lweChunks)

/-- fhe_core/src/key_switch/rlwe.rs 74-83 and 98-110: the samples for one transformed key part. -/
def samples (R : Ctx) (sn : List Nat) (basis : Nat) :
    Nat → List Nat → List Draw → WorkM (List NTTRLWE)
  | 0, _, _ => return []
  | _ + 1, _, [] => StateT.lift none
  | 1, z, (a, e) :: _ => do
    let x ← NTTRLWE.zeroSample R sn a e
    let b ← Poly.add R.w R.M x.b z
    return [⟨x.a, b⟩]
  | cnt + 2, z, (a, e) :: ds => do
    let x ← NTTRLWE.zeroSample R sn a e
    let b ← Poly.add R.w R.M x.b z
    let z ← Poly.mulScalar R.w R.M z basis
    let xs ← samples R sn basis (cnt + 1) z ds
    return ⟨x.a, b⟩ :: xs

/-- fhe_core/src/key_switch/rlwe.rs 84, 111, with the length assertion of lattice/src/gadget/rlwe.rs 260-263. -/
def element (R : Ctx) (B : Basis) (sn : List Nat) (basis : Nat) (z : List Nat) (ds : List Draw) :
    WorkM NTTGadgetRLWE := do
  let data ← samples R sn basis B.decomposeLen z ds
  if data.length = B.decomposeLen then return ⟨data, B⟩ else StateT.lift none

/-- fhe_core/src/key_switch/rlwe.rs 94-114: the elements of the key chunks. -/
def elements (R : Ctx) (B : Basis) (sn : List Nat) (basis : Nat) (d : Nat → List Draw) :
    Nat → List (List Nat) → WorkM (List NTTGadgetRLWE)
  | _, [] => return []
  | c, z :: zs => do
    let z ← Poly.toNtt R.w R.M R.tbl z
    let g ← element R B sn basis z (d c)
    let gs ← elements R B sn basis d (c + 1) zs
    return g :: gs

/-- fhe_core/src/key_switch/rlwe.rs 69-115: the key for one or for several chunks. -/
def keyParts (R : Ctx) (B : Basis) (n : Nat) (sn : List Nat) (basis : Nat) (ring ringNtt : List Nat)
    (d : Nat → List Draw) : WorkM (List NTTGadgetRLWE) :=
  if n = ring.length then do
    let g ← element R B sn basis ringNtt (d 0)
    return [g]
  else elements R B sn basis d 0 (chunks n ring)

/-- fhe_core/src/key_switch/rlwe.rs 24-118: `generate`. -/
def generate (R : Ctx) (bits : Nat) (sk ring ringNtt : List Nat) (d : Nat → List Draw) :
    WorkM (List NTTGadgetRLWE) :=
  let n := nextPow2 sk.length
  if n ≤ ring.length then do
    let B ← Basis.new R.w R.M.value bits
    let negOne ← Fp.negOne R.M
    let s := sk.map (LweSwitch.convert negOne) ++ List.replicate (n - sk.length) Fp.zero
    let sn ← Poly.toNtt R.w R.M R.tbl s
    let basis ← Fp.new R.w R.M B.basis
    keyParts R B n sn basis ring ringNtt d
  else StateT.lift none

/-- fhe_core/src/key_switch/rlwe.rs 181-189: the loop over key elements and mask chunks. -/
def loop (R : Ctx) : List NTTGadgetRLWE → List (List Nat) → NTTRLWE → WorkM NTTRLWE
  | g :: gs, p :: ps, x => do
    let x ← NTTRLWE.subGadgetMulFast R x g p
    loop R gs ps x
  | _, _, x => return x

/-- fhe_core/src/key_switch/rlwe.rs 172-192: `key_switch_inner`. -/
def inner (R : Ctx) (dim : Nat) (key : List NTTGadgetRLWE) (b : Nat) (ps : List (List Nat)) :
    WorkM LWE := do
  let n := nextPow2 dim
  let x ← loop R key ps ⟨Poly.zero n, List.replicate n b⟩
  let x ← NTTRLWE.toCoeff R x
  RLWE.extractPartial R x dim

/-- fhe_core/src/key_switch/rlwe.rs 121-143: `key_switch_for_rlwe`. -/
def keySwitchRlwe (R : Ctx) (dim : Nat) (key : List NTTGadgetRLWE) (x : RLWE) : WorkM LWE := do
  let b ← x.b[0]?
  let ps ← rlweChunks R (nextPow2 dim) x.a
  inner R dim key b ps

/-- fhe_core/src/key_switch/rlwe.rs 146-170: `key_switch_for_lwe`. -/
def keySwitchLwe (R : Ctx) (dim : Nat) (key : List NTTGadgetRLWE) (c : LWE) : WorkM LWE := do
  let ps ← lweChunks R (nextPow2 dim) c.a
  inner R dim key c.b ps

end RlweSwitch

/-- fhe_core/src/secret_key.rs 69-122: `SecretKeyPack::new`. -/
def newKeyPack (R : Ctx) (P : Params) (d : KeyDraws) : WorkM KeyPack := do
  let lwe ← KeyPack.lweKey P d.lwe
  let ring ← KeyPack.ringKey R P lwe d
  let ringNtt ← Poly.toNtt R.w R.M R.tbl ring
  return ⟨lwe, ring, ringNtt⟩

/-- fhe_core/src/blind_rotation/mod.rs 59-85: `BlindRotationKey::generate`. -/
def newRotationKey (R : Ctx) (P : Params) (pack : KeyPack) (d : EvalDraws) : WorkM RotationKey :=
  match P.lweKeyType with
  | .binary => do
    let key ← BlindRotation.binaryGenerate R pack.ringNtt P.basis pack.lwe d.binary
    return .binary key
  | .ternary => do
    let key ← BlindRotation.ternaryGenerate R pack.ringNtt P.basis pack.lwe d.ternary
    return .ternary key

/-- bool/src/bfhe/evaluate.rs 53-61: the switching key. -/
def newSwitchKey (w : Nat) (R : Ctx) (P : Params) (pack : KeyPack) (d : EvalDraws) : WorkM SwitchKey :=
  match P.steps with
  | .brMsKs => do
    let O ← (P.lwe w).ops
    let (B, key) ← LweSwitch.generate w P.q P.keySwitchBits O pack.lwe pack.ring d.lwe
    return .lwe B P.n key
  | .brKsMs => do
    let key ← RlweSwitch.generate R P.keySwitchBits pack.lwe pack.ring pack.ringNtt d.rlwe
    return .rlwe P.n key
  | .brMs => return .none

/-- bool/src/bfhe/evaluate.rs 48-68: `EvaluationKey::new`. -/
def newEvalKey (w : Nat) (R : Ctx) (P : Params) (pack : KeyPack) (d : EvalDraws) : WorkM EvalKey := do
  let rot ← newRotationKey R P pack d
  let sw ← newSwitchKey w R P pack d
  return ⟨w, R, P, rot, sw⟩

namespace EvalKey

/-- fhe_core/src/blind_rotation/mod.rs 44-56: `blind_rotate`. -/
def rotate (R : Ctx) (lut : List Nat) (c : LWE) : RotationKey → WorkM RLWE
  | .binary key => BlindRotation.binary R key lut c
  | .ternary key => BlindRotation.ternary R key lut c

/-- bool/src/bfhe/evaluate.rs 82-86: the rotated table with offset. -/
def accumulate (K : EvalKey) (c : LWE) (lut : List Nat) : WorkM RLWE := do
  let acc ← rotate K.R lut c K.rot
  EvalKey.addEighth K.R acc

/-- bool/src/bfhe/evaluate.rs 88-119: the remaining steps. -/
def finish (K : EvalKey) (c : LWE) (acc : RLWE) : WorkM LWE :=
  match K.P.steps with
  | .brMsKs => do
    let x ← K.extractSwitch acc
    match K.sw with
    | .lwe B dim key => do
      let O ← (K.P.lwe K.w).ops
      LweSwitch.keySwitch K.w B O dim key x
    | _ => StateT.lift none
  | .brKsMs =>
    match K.sw with
    | .rlwe dim key => do
      let x ← RlweSwitch.keySwitchRlwe K.R dim key acc
      ModSwitch.lweInplace K.w K.R.M.value K.P.q x c
    | _ => StateT.lift none
  | .brMs => do
    let x ← RLWE.extractLocally K.R acc
    ModSwitch.lweInplace K.w K.R.M.value K.P.q x c

/-- bool/src/bfhe/evaluate.rs 71-122: `bootstrap`. -/
def bootstrap (K : EvalKey) (c : LWE) (lut : List Nat) : WorkM LWE := do
  let c ← K.switchIn c
  let acc ← accumulate K c lut
  finish K c acc

/-- bool/src/bfhe/evaluate.rs 181-185, 199-204, 218-222, 236-240: `nand`, `and`, `or`, `nor`. -/
def sumGate (K : EvalKey) (lut : Ctx → Nat → Nat → Option (List Nat)) (c0 c1 : LWE) : WorkM LWE := do
  let O ← (K.P.lwe K.w).ops
  let c ← LWE.addRef O c0 c1
  let step ← K.P.lutStep
  let l ← lut K.R K.P.ringDimension step
  bootstrap K c l

/-- bool/src/bfhe/evaluate.rs 254-259, 273-278: `xor`, `xnor`. -/
def diffGate (K : EvalKey) (lut : Ctx → Nat → Nat → Option (List Nat)) (c0 c1 : LWE) : WorkM LWE := do
  let O ← (K.P.lwe K.w).ops
  let c ← LWE.subRef O c0 c1
  let c ← LWE.scalarMul O c 2
  let step ← K.P.lutStep
  let l ← lut K.R K.P.ringDimension step
  bootstrap K c l

/-- bool/src/bfhe/evaluate.rs 290-305: `majority`. -/
def majority (K : EvalKey) (c0 c1 c2 : LWE) : WorkM LWE := do
  let O ← (K.P.lwe K.w).ops
  let c ← LWE.addRef O c0 c1
  let c ← LWE.addInplace O c c2
  let step ← K.P.lutStep
  let l ← Lut.andMajority K.R K.P.ringDimension step
  bootstrap K c l

/-- bool/src/bfhe/evaluate.rs 316-335: `mux`. The two parts of `rayon::join` may run in any order; the numbers do
not depend on it. -/
def mux (K : EvalKey) (c0 c1 c2 : LWE) : WorkM LWE := do
  let O ← (K.P.lwe K.w).ops
  let n0 ← K.not c0
  let t0 ← sumGate K Lut.andMajority c0 c1
  let t1 ← sumGate K Lut.andMajority n0 c2
  let c ← LWE.addInplace O t0 t1
  let step ← K.P.lutStep
  let l ← Lut.or K.R K.P.ringDimension step
  bootstrap K c l

end EvalKey
end Work
end Verif
