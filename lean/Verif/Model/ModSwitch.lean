import Verif.Model.LWE
import Verif.Model.Poly
import Mathlib.Data.Rat.Floor

/-!
# Modulus switching, `fhe_core/src/modulus_switch.rs`

The `f64` numbers are rationals. An operation returns the exact result rounded to 53 significant
bits, ties to even, which is IEEE 754 as long as no exponent leaves the range of the format: the
numbers here are 0 or between `2^-64` and `2^128`, so that cannot happen for words of at most 64 bits.
-/

namespace Verif
namespace F64

/-- `2^e` as a rational. Used by fhe_core/src/modulus_switch.rs 13-14 and 24-28. -/
def p2 (e : ℤ) : ℚ := if 0 ≤ e then ((2 ^ e.toNat : Nat) : ℚ) else 1 / ((2 ^ (-e).toNat : Nat) : ℚ)

/-- The exponent of a positive rational: the largest `e` with `2^e ≤ x`. Used by
fhe_core/src/modulus_switch.rs 13-14 and 24-28. -/
def exponent (x : ℚ) : ℤ :=
  let e : ℤ := (Nat.log2 x.num.toNat : ℤ) - Nat.log2 x.den
  if p2 e ≤ x then e else e - 1

/-- The nearest integer, ties to even. Used by fhe_core/src/modulus_switch.rs 13-14 and 24-28. -/
def nearestEven (x : ℚ) : ℤ :=
  let f := x.floor
  if x - f < 1 / 2 then f
  else if 1 / 2 < x - f then f + 1
  else if f % 2 = 0 then f else f + 1

/-- The `f64` nearest to the non-negative rational `x`. Used by fhe_core/src/modulus_switch.rs 13-14 and
24-28. -/
def rnd (x : ℚ) : ℚ :=
  if x = 0 then 0
  else
    let s := p2 (exponent x - 52)
    nearestEven (x / s) * s

/-- `as f64` of a word. fhe_core/src/modulus_switch.rs 13-14 and 26. -/
def ofWord (v : Nat) : ℚ := rnd v

/-- The product of fhe_core/src/modulus_switch.rs 26. -/
def mul (x y : ℚ) : ℚ := rnd (x * y)

/-- The quotient of fhe_core/src/modulus_switch.rs 26. -/
def div (x y : ℚ) : ℚ := rnd (x / y)

/-- `f64::round`, half away from zero; the result is exact. fhe_core/src/modulus_switch.rs 26. -/
def round (x : ℚ) : ℤ := (x + 1 / 2).floor

/-- `as` from a rounded `f64` to a word of `w` bits, saturating. fhe_core/src/modulus_switch.rs 25. -/
def toWord (w : Nat) (x : ℤ) : Nat := min x.toNat (2 ^ w - 1)

end F64

namespace ModSwitch

/-- fhe_core/src/modulus_switch.rs 16-22, 48-54, 83-89: `reduce`. -/
def reduce (q' v : Nat) : Option Nat := if v < q' then some v else subC v q'

/-- fhe_core/src/modulus_switch.rs 13-14, 24-28, 45-46, 56-60, 79-80, 91-95: `switch` of one value, `w` is the
width of the new word type. -/
def switch (w q q' v : Nat) : Option Nat :=
  reduce q' (F64.toWord w (F64.round (F64.div (F64.mul (F64.ofWord v) (F64.ofWord q')) (F64.ofWord q))))

/-- fhe_core/src/modulus_switch.rs 9-34: `lwe_modulus_switch`, fhe_core/src/modulus_switch.rs 74-99:
`lwe_modulus_switch_assign_between_modulus`. -/
def lwe (w q q' : Nat) (c : LWE) : Option LWE := do
  let a ← c.a.mapM (switch w q q')
  let b ← switch w q q' c.b
  return ⟨a, b⟩

/-- fhe_core/src/modulus_switch.rs 40-69: `lwe_modulus_switch_inplace`; the mask of the destination keeps its
length. -/
def lweInplace (w q q' : Nat) (c dest : LWE) : Option LWE := do
  let a ← Poly.zipAssign (fun _ v => switch w q q' v) dest.a c.a
  let b ← switch w q q' c.b
  return ⟨a, b⟩

end ModSwitch
end Verif
