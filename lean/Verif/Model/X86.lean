import Verif.Model.Goldilocks

/-!
# The code compiled for x86 only

The instructions are modelled from the vendor's documentation (`ADD`, `ADC`, `SBB`): registers are words, the
carry flag is a Boolean.
-/

namespace Verif.X86

/-- The instruction `adc` at width `w`: sum of both operands and the carry flag, and the new carry flag.
Reached from algebra/src/primitive/widening/carrying_add.rs 54, 62, 95, 103 and, with a clear flag (`add`), from
algebra/src/modulus/goldilocks/mod.rs 97. -/
def adc (w a b : Nat) (cf : Bool) : Nat × Bool :=
  ((a + b + cf.toNat) % 2 ^ w, decide (2 ^ w ≤ a + b + cf.toNat))

/-- The instruction `sbb` at width `w`: first operand minus second operand minus carry flag, and the new carry
flag. Reached from algebra/src/primitive/widening/borrowing_sub.rs 46, 54, 87, 95 and
algebra/src/modulus/goldilocks/mod.rs 105. -/
def sbb (w a b : Nat) (cf : Bool) : Nat × Bool :=
  ((a + 2 ^ w - b + 2 ^ w - cf.toNat) % 2 ^ w, decide (a < b + cf.toNat))

/-- The intrinsics `_addcarry_u32` and `_addcarry_u64`: the carry flag is set from a byte (nonzero is set), the
carry out is returned as a byte. Called by algebra/src/primitive/widening/carrying_add.rs 54, 62, 95, 103. -/
def addcarryIntrinsic (w c a b : Nat) : Nat × Nat :=
  let r := adc w a b (decide (c ≠ 0))
  (r.2.toNat, r.1)

/-- The intrinsics `_subborrow_u32` and `_subborrow_u64`.
Called by algebra/src/primitive/widening/borrowing_sub.rs 46, 54, 87, 95. -/
def subborrowIntrinsic (w c a b : Nat) : Nat × Nat :=
  let r := sbb w a b (decide (c ≠ 0))
  (r.2.toNat, r.1)

/-- algebra/src/primitive/widening/carrying_add.rs 50-64 and 91-105: `addcarry_u32` and `addcarry_u64`, which
`carrying_add` 78-88 and 119-129 calls. -/
def carryingAdd (w a b : Nat) (carry : Bool) : Nat × Bool :=
  let r := addcarryIntrinsic w carry.toNat a b
  (r.2, r.1 != 0)

/-- algebra/src/primitive/widening/borrowing_sub.rs 42-56 and 83-97: `subborrow_u32` and `subborrow_u64`, which
`borrowing_sub` 70-80 and 111-121 calls. -/
def borrowingSub (w a b : Nat) (borrow : Bool) : Nat × Bool :=
  let r := subborrowIntrinsic w borrow.toNat a b
  (r.2, r.1 != 0)

/-- algebra/src/modulus/goldilocks/mod.rs 91-115: `add_no_canonicalize_trashing_input`. Both registers are
overwritten; the 32-bit `sbb` of the low half of the second register with itself clears the high half. -/
def addNoCanonicalize (x y : Nat) : Option Nat := do
  let s := adc 64 x y false
  let low := s.1
  let y32 := trunc 32 y
  let adjustment := (sbb 32 y32 y32 s.2).1
  addC 64 low adjustment

/-- algebra/src/modulus/goldilocks/mod.rs 129-132: `reduce96`. -/
def reduce96 (lo hi : Nat) : Option Nat := do
  let t1 ← mulC 64 hi Goldilocks.EPSILON
  addNoCanonicalize lo t1

/-- algebra/src/modulus/goldilocks/mod.rs 137-148 with `split` 151-153: `reduce128`. -/
def reduce128 (x : Nat) : Option Nat := do
  let lo := trunc 64 x
  let hi := trunc 64 (x / 2 ^ 64)
  let hihi := hi / 2 ^ 32
  let hilo := hi &&& Goldilocks.EPSILON
  let s := overflowingSub 64 lo hihi
  let t0 ← if s.2 then subC s.1 Goldilocks.EPSILON else some s.1
  let t1 ← mulC 64 hilo Goldilocks.EPSILON
  addNoCanonicalize t0 t1

end Verif.X86
