import Verif.Model.Word

/-!
# Bit reversal
-/

namespace Verif

/-- The standard library `reverse_bits` of a `w`-bit word: the lowest bit of `x` becomes the
highest bit of the result. Called by algebra/src/utils/reverse.rs 25. -/
def reverseBits : Nat → Nat → Nat
  | 0, _ => 0
  | w + 1, x => x % 2 * 2 ^ w + reverseBits w (x / 2)

/-- algebra/src/utils/reverse.rs 20-27: `reverse_lsbs`; a failed `debug_assert!` is `none`. -/
def reverseLsbs (w x bits : Nat) : Option Nat :=
  if bits < w then
    if x = 0 ∨ bits = 0 then some 0
    else do
      let s ← subC w bits
      shrC w (reverseBits w x) s
  else none

end Verif
