import Verif.Model.Elementwise
import Verif.Model.BlindRotation
import Verif.Model.KeySwitch

/-!
# Work spaces

The functions of `lattice/src/rlwe.rs`, `lattice/src/gadget/rlwe.rs` and of the loops in `fhe_core`
that take pre-allocated work spaces (`lattice/src/utils/space.rs`), with the content of every space
before and after the call. `Verif.Model.RLWE`, `RGSW`, `BlindRotation` and `KeySwitch` leave the
spaces out; C80 shows that they may.
-/

namespace Verif.Scratch

/-- algebra/src/polynomial/native_polynomial.rs 108-110, algebra/src/polynomial/ntt_polynomial.rs 102-104,
lattice/src/rlwe.rs 681-682: `copy_from_slice`, a panic when the lengths differ. -/
def copyFrom (dest src : List Nat) : Option (List Nat) :=
  if dest.length = src.length then some src else none

/-- algebra/src/polynomial/native_polynomial.rs 345-347: `destination.iter_mut().zip(self)`; the new
destination and what is left in `self`. -/
def digitsInto (w : Nat) (B : Basis) : List Nat → List Nat → Option (List Nat × List Nat)
  | _ :: ds, x :: xs => do
    let (d, x) ← Basis.decomposeLsb w B.mask B.bits x
    let (ds, xs) ← digitsInto w B ds xs
    return (d :: ds, x :: xs)
  | ds, xs => some (ds, xs)

/-- algebra/src/polynomial/native_polynomial.rs 340-348: `decompose_lsb_bits_inplace` with its destination. -/
def decomposeInto (w : Nat) (B : Basis) (p dest : List Nat) : Option (List Nat × List Nat) :=
  if dest.length = p.length then digitsInto w B dest p else none

/-- lattice/src/utils/space.rs 9-11 and 53-55: a `DecompositionSpace` and a `PolynomialSpace`. -/
structure Spaces where
  dec : List Nat
  poly : List Nat
  deriving DecidableEq, Repr

/-- lattice/src/utils/space.rs 32-36 and 76-80: `new`. -/
def Spaces.new (n : Nat) : Spaces := ⟨Poly.zero n, Poly.zero n⟩

/-- The loop of lattice/src/rlwe.rs 925-930, 953-957, 976-980, 1000-1005, 1026-1030 and lattice/src/gadget/rlwe.rs
119-124, 143-149, 353-357, 381-386, 411-416 with its spaces; `t` is the table fetched before the loop, `S` what
the loop accumulates into. -/
def gadgetLoop {G S : Type} (R : Ctx) (B : Basis) (t : Table) (acc : S → G → List Nat → Option S) :
    List G → Spaces → S → Option (Spaces × S)
  | [], s, x => some (s, x)
  | g :: gs, s, x => do
    let (dec, poly) ← decomposeInto R.w B s.poly s.dec
    let dec ← Table.transform R.w R.M t dec
    let x ← acc x g dec
    gadgetLoop R B t acc gs ⟨dec, poly⟩ x

/-- lattice/src/gadget/rlwe.rs 364-387: `mul_polynomial_inplace`. -/
def mulPolynomialInplace (R : Ctx) (g : NTTGadgetRLWE) (p : List Nat) (s : Spaces) (dest : NTTRLWE) :
    Option (Spaces × NTTRLWE) := do
  let t ← Poly.tableFor R.tbl p.length
  let poly ← copyFrom s.poly p
  gadgetLoop R g.basis t (NTTRLWE.addMul R) g.data ⟨s.dec, poly⟩ dest.setZero

/-- lattice/src/gadget/rlwe.rs 394-417: `mul_polynomial_inplace_fast`. -/
def mulPolynomialInplaceFast (R : Ctx) (g : NTTGadgetRLWE) (p : List Nat) (s : Spaces) (dest : NTTRLWE) :
    Option (Spaces × NTTRLWE) := do
  let t ← Poly.tableFor R.tbl p.length
  let poly ← copyFrom s.poly p
  gadgetLoop R g.basis t (NTTRLWE.addMulFast R) g.data ⟨s.dec, poly⟩ dest.setZero

/-- lattice/src/rlwe.rs 910-931: `add_assign_gadget_rlwe_mul_polynomial`. -/
def addAssignGadget (R : Ctx) (x : NTTRLWE) (g : NTTGadgetRLWE) (p : List Nat) (s : Spaces) :
    Option (Spaces × NTTRLWE) :=
  if p.length = s.poly.length then do
    let t ← Poly.tableFor R.tbl p.length
    let poly ← copyFrom s.poly p
    gadgetLoop R g.basis t (NTTRLWE.addMul R) g.data ⟨s.dec, poly⟩ x
  else none

/-- lattice/src/rlwe.rs 938-958: `add_assign_gadget_rlwe_mul_polynomial_fast`. -/
def addAssignGadgetFast (R : Ctx) (x : NTTRLWE) (g : NTTGadgetRLWE) (p : List Nat) (s : Spaces) :
    Option (Spaces × NTTRLWE) :=
  if p.length = s.poly.length then do
    let t ← Poly.tableFor R.tbl p.length
    let poly ← copyFrom s.poly p
    gadgetLoop R g.basis t (NTTRLWE.addMulFast R) g.data ⟨s.dec, poly⟩ x
  else none

/-- lattice/src/rlwe.rs 965-981: `add_assign_gadget_rlwe_mul_polynomial_inplace_fast`; the polynomial is the
caller's and changes. -/
def addAssignGadgetInplaceFast (R : Ctx) (x : NTTRLWE) (g : NTTGadgetRLWE) (p dec : List Nat) :
    Option (Spaces × NTTRLWE) := do
  let t ← Poly.tableFor R.tbl p.length
  gadgetLoop R g.basis t (NTTRLWE.addMulFast R) g.data ⟨dec, p⟩ x

/-- lattice/src/rlwe.rs 985-1005: `sub_assign_gadget_rlwe_mul_polynomial_inplace`. -/
def subAssignGadget (R : Ctx) (x : NTTRLWE) (g : NTTGadgetRLWE) (p dec : List Nat) :
    Option (Spaces × NTTRLWE) := do
  let t ← Poly.tableFor R.tbl p.length
  let p ← Poly.neg R.M p
  gadgetLoop R g.basis t (NTTRLWE.addMul R) g.data ⟨dec, p⟩ x

/-- lattice/src/rlwe.rs 1012-1031: `sub_assign_gadget_rlwe_mul_polynomial_inplace_fast`. -/
def subAssignGadgetFast (R : Ctx) (x : NTTRLWE) (g : NTTGadgetRLWE) (p dec : List Nat) :
    Option (Spaces × NTTRLWE) := do
  let t ← Poly.tableFor R.tbl p.length
  let p ← Poly.neg R.M p
  gadgetLoop R g.basis t (NTTRLWE.addMulFast R) g.data ⟨dec, p⟩ x

/-- lattice/src/rlwe.rs 674-686: `inverse_transform_inplace` with its destination. -/
def inverseInto (R : Ctx) (x : NTTRLWE) (dest : RLWE) : Option RLWE := do
  let t ← Poly.tableFor R.tbl dest.a.length
  let a ← copyFrom dest.a x.a
  let b ← copyFrom dest.b x.b
  let a ← Table.inverse R.w R.M t a
  let b ← Table.inverse R.w R.M t b
  return ⟨a, b⟩

/-- lattice/src/rlwe.rs 296-317: `mul_ntt_polynomial_inplace` with its destination. -/
def mulNttInto (R : Ctx) (x : RLWE) (p : List Nat) (dest : NTTRLWE) : Option NTTRLWE := do
  let t ← Poly.tableFor R.tbl p.length
  let a ← copyFrom dest.a x.a
  let b ← copyFrom dest.b x.b
  let a ← Table.transform R.w R.M t a
  let b ← Table.transform R.w R.M t b
  let a ← Poly.nttMul R.w R.M a p
  let b ← Poly.nttMul R.w R.M b p
  return ⟨a, b⟩

/-- lattice/src/gadget/rlwe.rs 122-123 and 146-148: the product goes to `temp`, which is added to the sum. -/
def accumulate (R : Ctx) (x : NTTRLWE × NTTRLWE) (g : RLWE) (d : List Nat) : Option (NTTRLWE × NTTRLWE) := do
  let temp ← mulNttInto R g d x.2
  let sum ← NTTRLWE.add R x.1 temp
  return (sum, temp)

/-- lattice/src/gadget/rlwe.rs 106-126: `mul_polynomial` of the coefficient form, with its own spaces. -/
def gadgetMul (R : Ctx) (g : GadgetRLWE) (p : List Nat) : Option RLWE := do
  let t ← Poly.tableFor R.tbl p.length
  let (_, x, _) ← gadgetLoop R g.basis t (accumulate R) g.data ⟨Poly.zero p.length, p⟩
    (NTTRLWE.zero p.length, NTTRLWE.zero p.length)
  NTTRLWE.toCoeff R x

/-- lattice/src/gadget/rlwe.rs 130-151: `mul_polynomial_add_rlwe`. -/
def gadgetMulAdd (R : Ctx) (g : GadgetRLWE) (p : List Nat) (x : RLWE) : Option RLWE := do
  let t ← Poly.tableFor R.tbl p.length
  let x ← RLWE.toNtt R x
  let (_, x, _) ← gadgetLoop R g.basis t (accumulate R) g.data ⟨Poly.zero p.length, p⟩
    (x, NTTRLWE.zero p.length)
  NTTRLWE.toCoeff R x

/-- lattice/src/rlwe.rs 518-541: `mul_assign_ntt_rgsw`: the new `self`, the spaces and the accumulator space. -/
def mulAssignNttRgsw (R : Ctx) (x : RLWE) (g : NTTRGSW) (s : Spaces) (median : NTTRLWE) :
    Option (RLWE × Spaces × NTTRLWE) := do
  let (s, m) ← mulPolynomialInplaceFast R g.cNegSM x.a s median
  let (s, m) ← addAssignGadgetFast R m g.cM x.b s
  let r ← inverseInto R m x
  return (r, s, m)

/-- lattice/src/rlwe.rs 549-574: `mul_ntt_rgsw_inplace`. -/
def mulNttRgswInplace (R : Ctx) (x : RLWE) (g : NTTRGSW) (s : Spaces) (median : NTTRLWE) (dest : RLWE) :
    Option (RLWE × Spaces × NTTRLWE) := do
  let (s, m) ← mulPolynomialInplaceFast R g.cNegSM x.a s median
  let (s, m) ← addAssignGadgetFast R m g.cM x.b s
  let r ← inverseInto R m dest
  return (r, s, m)

/-- fhe_core/src/blind_rotation/binary.rs 25-28 and 43: the accumulator and all spaces of the loop. -/
structure State where
  acc : RLWE
  ext : RLWE
  median : NTTRLWE
  spaces : Spaces

/-- fhe_core/src/blind_rotation/binary.rs 25-28 and 43, fhe_core/src/blind_rotation/ternary.rs 35-38 and 56. -/
def init (lut : List Nat) : State :=
  ⟨⟨Poly.zero lut.length, lut⟩, ⟨Poly.zero lut.length, Poly.zero lut.length⟩, NTTRLWE.zero lut.length,
    Spaces.new lut.length⟩

/-- fhe_core/src/blind_rotation/binary.rs 50-64, fhe_core/src/blind_rotation/ternary.rs 78-90. -/
def update (R : Ctx) (n : Nat) (st : State) (key : NTTRGSW) (a : Nat) : Option State := do
  let ext ← RLWE.mulMonomialSubOne R st.acc n a st.ext
  let (ext, s, median) ← mulAssignNttRgsw R ext key st.spaces st.median
  let acc ← RLWE.add R st.acc ext
  return ⟨acc, ext, median, s⟩

/-- fhe_core/src/blind_rotation/binary.rs 48-68: one step of the fold. -/
def binaryStep (R : Ctx) (n : Nat) (st : State) (key : NTTRGSW) (a : Nat) : Option State :=
  if a = 0 then some st else update R n st key a

/-- fhe_core/src/blind_rotation/ternary.rs 61-94: one step of the fold; the second component is the space
`evaluation_key`, the monomial goes to the decomposition space. -/
def ternaryStep (R : Ctx) (t : Table) (n : Nat) (st : State × NTTRGSW) (key : NTTRGSW × NTTRGSW) (a : Nat) :
    Option (State × NTTRGSW) :=
  if a = 0 then some st
  else do
    let negA ← subC (2 * n) a
    let dec ← Table.negOneMonomial R.M t negA st.1.spaces.dec.length
    let ek ← NTTRGSW.addMulNttInplace R key.1 key.2 dec st.2
    let st' ← update R n { st.1 with spaces := ⟨dec, st.1.spaces.poly⟩ } ek a
    return (st', ek)

/-- fhe_core/src/blind_rotation/binary.rs 45-68, fhe_core/src/blind_rotation/ternary.rs 58-94: the fold over
`key.iter().zip(lwe.a())`. -/
def loop {K S : Type} (step : S → K → Nat → Option S) : List K → List Nat → S → Option S
  | k :: ks, a :: as, st => do
    let st ← step st k a
    loop step ks as st
  | _, _, st => some st

/-- fhe_core/src/blind_rotation/binary.rs 19-69: `blind_rotate` with a binary key. -/
def binary (R : Ctx) (key : List NTTRGSW) (lut : List Nat) (lwe : LWE) : Option RLWE := do
  let lut ← BlindRotation.rotateLut R lut lwe.b
  let st ← loop (binaryStep R lut.length) key lwe.a (init lut)
  return st.acc

/-- fhe_core/src/blind_rotation/ternary.rs 24-95: `blind_rotate` with a ternary key; `B` is the argument
`blind_rotation_basis`, the basis of the space `evaluation_key`. -/
def ternary (R : Ctx) (B : Basis) (key : List (NTTRGSW × NTTRGSW)) (lut : List Nat) (lwe : LWE) :
    Option RLWE := do
  let t ← Poly.tableFor R.tbl lut.length
  let lut ← BlindRotation.rotateLut R lut lwe.b
  let st ← loop (ternaryStep R t lut.length) key lwe.a (init lut, NTTRGSW.zero lut.length B)
  return st.1.acc

/-- fhe_core/src/key_switch/rlwe.rs 181-189: the loop over key elements and mask chunks; the chunk is copied to
the polynomial space. -/
def switchLoop (R : Ctx) : List NTTGadgetRLWE → List (List Nat) → Spaces → NTTRLWE →
    Option (Spaces × NTTRLWE)
  | g :: gs, p :: ps, s, x => do
    let poly ← copyFrom s.poly p
    let (s, x) ← subAssignGadgetFast R x g poly s.dec
    switchLoop R gs ps s x
  | _, _, s, x => some (s, x)

/-- fhe_core/src/key_switch/rlwe.rs 172-192: `key_switch_inner`. -/
def switchInner (R : Ctx) (dim : Nat) (key : List NTTGadgetRLWE) (b : Nat) (ps : List (List Nat)) :
    Option LWE := do
  let n := RlweSwitch.nextPow2 dim
  let (_, x) ← switchLoop R key ps (Spaces.new n) ⟨Poly.zero n, List.replicate n b⟩
  let x ← NTTRLWE.toCoeff R x
  RLWE.extractPartial R x dim

/-- fhe_core/src/key_switch/rlwe.rs 121-143: `key_switch_for_rlwe`. -/
def switchRlwe (R : Ctx) (dim : Nat) (key : List NTTGadgetRLWE) (x : RLWE) : Option LWE := do
  let b ← x.b[0]?
  let ps ← RlweSwitch.rlweChunks R (RlweSwitch.nextPow2 dim) x.a
  switchInner R dim key b ps

/-- fhe_core/src/key_switch/rlwe.rs 146-170: `key_switch_for_lwe`. -/
def switchLwe (R : Ctx) (dim : Nat) (key : List NTTGadgetRLWE) (c : LWE) : Option LWE := do
  let ps ← RlweSwitch.lweChunks R (RlweSwitch.nextPow2 dim) c.a
  switchInner R dim key c.b ps

/-- The work spaces a caller keeps between products: lattice/src/rlwe.rs 518-525 and 549-556. -/
structure Work where
  spaces : Spaces
  median : NTTRLWE

/-- A call of a product with the caller's work spaces. `product`: lattice/src/rlwe.rs 518-541, `productInto`:
lattice/src/rlwe.rs 549-574, `gadget`: lattice/src/gadget/rlwe.rs 364-387 into the accumulator space,
`gadgetFast`: lattice/src/gadget/rlwe.rs 394-417, `add`: lattice/src/rlwe.rs 910-931, `addFast`:
lattice/src/rlwe.rs 938-958. -/
inductive Call where
  | product (x : RLWE) (g : NTTRGSW)
  | productInto (x : RLWE) (g : NTTRGSW) (dest : RLWE)
  | gadget (g : NTTGadgetRLWE) (p : List Nat)
  | gadgetFast (g : NTTGadgetRLWE) (p : List Nat)
  | add (x : NTTRLWE) (g : NTTGadgetRLWE) (p : List Nat)
  | addFast (x : NTTRLWE) (g : NTTGadgetRLWE) (p : List Nat)

/-- What a call hands to the caller: lattice/src/rlwe.rs 518-574 and 910-958, lattice/src/gadget/rlwe.rs 364-417. -/
inductive Reply where
  | coefficients (x : RLWE)
  | values (x : NTTRLWE)
  deriving DecidableEq

/-- One call with the caller's spaces: lattice/src/rlwe.rs 518-574 and 910-958, lattice/src/gadget/rlwe.rs
364-417. -/
def perform (R : Ctx) (W : Work) : Call → Option (Work × Reply)
  | .product x g => do
    let (r, s, m) ← mulAssignNttRgsw R x g W.spaces W.median
    return (⟨s, m⟩, .coefficients r)
  | .productInto x g dest => do
    let (r, s, m) ← mulNttRgswInplace R x g W.spaces W.median dest
    return (⟨s, m⟩, .coefficients r)
  | .gadget g p => do
    let (s, m) ← mulPolynomialInplace R g p W.spaces W.median
    return (⟨s, m⟩, .values m)
  | .gadgetFast g p => do
    let (s, m) ← mulPolynomialInplaceFast R g p W.spaces W.median
    return (⟨s, m⟩, .values m)
  | .add x g p => do
    let (s, y) ← addAssignGadget R x g p W.spaces
    return (⟨s, W.median⟩, .values y)
  | .addFast x g p => do
    let (s, y) ← addAssignGadgetFast R x g p W.spaces
    return (⟨s, W.median⟩, .values y)

/-- Calls one after the other, all with the same spaces: lattice/src/rlwe.rs 518-574 and 910-958,
lattice/src/gadget/rlwe.rs 364-417. -/
def performAll (R : Ctx) : Work → List Call → Option (List Reply)
  | _, [] => some []
  | W, c :: cs => do
    let (W, r) ← perform R W c
    let rs ← performAll R W cs
    return r :: rs

end Verif.Scratch
