import Verif.Model.Field

/-!
# Decomposition basis and gadget decomposition of one field element
-/

namespace Verif

/-- algebra/src/decompose_basis.rs 12-20: `Basis`. -/
structure Basis where
  basis : Nat
  decomposeLen : Nat
  mask : Nat
  bits : Nat
deriving DecidableEq

namespace Basis

/-- algebra/src/decompose_basis.rs 37-39: one bit less for a power-of-two modulus. -/
def coverBits (q modulusBits : Nat) : Option Nat :=
  if isPow2 q then subC modulusBits 1 else some modulusBits

/-- algebra/src/decompose_basis.rs 31-51: `Basis::new` for a field of width `w` and modulus `q`. The
failed assertion, the shift by the full width and the division by zero are `none`. -/
def new (w q bits : Nat) : Option Basis := do
  let modulusBits := w - leadingZeros w q
  if bits ≤ modulusBits then
    let modulusBits ← coverBits q modulusBits
    let s ← subC w bits
    let mask ← shrC w (2 ^ w - 1) s
    let basis ← shlC w 1 bits
    if bits = 0 then none
    else return ⟨basis, (modulusBits + bits - 1) / bits, mask, bits⟩
  else none

/-- The loop shared by `decompose` and `decompose_at`
(algebra_derive/src/decomposable_field.rs 27-33, 43-49): the slots are overwritten until the rest of
the value is zero. -/
def writeDigits (w mask bits : Nat) : Nat → List Nat → Option (List Nat)
  | _, [] => some []
  | temp, v :: vs =>
    if temp = 0 then some (v :: vs)
    else do
      let t ← shrC w temp bits
      let rest ← writeDigits w mask bits t vs
      return (temp &&& mask) :: rest

/-- algebra_derive/src/decomposable_field.rs 18-35: `decompose`. -/
def decompose (w : Nat) (B : Basis) (x : Nat) : Option (List Nat) :=
  writeDigits w B.mask B.bits x (List.replicate B.decomposeLen 0)

/-- algebra_derive/src/decomposable_field.rs 37-50: `decompose_at`. -/
def decomposeAt (w : Nat) (B : Basis) (x : Nat) (dest : List Nat) : Option (List Nat) :=
  writeDigits w B.mask B.bits x dest

/-- algebra_derive/src/decomposable_field.rs 52-57 (and 59-63): `decompose_lsb_bits`; the pair is the
digit and the new value of `self`. -/
def decomposeLsb (w mask bits x : Nat) : Option (Nat × Nat) := do
  let t ← shrC w x bits
  return (x &&& mask, t)

/-- Calling `decompose_lsb_bits` `k` times in a row, as the gadget product does
(lattice/src/gadget/rlwe.rs 119-124, `decompose_lsb_bits_inplace` per level). -/
def stream (w mask bits : Nat) : Nat → Nat → Option (List Nat)
  | 0, _ => some []
  | k + 1, x => do
    let (d, x) ← decomposeLsb w mask bits x
    let ds ← stream w mask bits k x
    return d :: ds

end Basis
end Verif
