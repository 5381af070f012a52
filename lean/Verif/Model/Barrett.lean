import Verif.Model.PrimReduce

/-!
# Barrett modulus

algebra/src/modulus/barrett/{mod.rs, internal_macros.rs, ops.rs}.
-/

namespace Verif

/-- algebra/src/modulus/barrett/mod.rs 34-39. `ratio = [r0, r1]`. -/
structure Barrett where
  value : Nat
  r0 : Nat
  r1 : Nat
  deriving DecidableEq, Repr

namespace Barrett

/-- algebra/src/modulus/barrett/internal_macros.rs 16-18: `div_rem`. Division by zero panics. -/
def divRem (numerator divisor : Nat) : Option (Nat × Nat) :=
  if divisor = 0 then none else some (numerator / divisor, numerator % divisor)

/-- algebra/src/modulus/barrett/internal_macros.rs 21-25: `div_wide`. `hi << BITS` is taken in the wide type. -/
def divWide (w hi divisor : Nat) : Option (Nat × Nat) := do
  let lhs ← shlC (2 * w) hi w
  let (q, r) ← divRem lhs divisor
  return (trunc w q, trunc w r)

/-- algebra/src/modulus/barrett/internal_macros.rs 28-32: `div_half`, with `HALF_BITS = BITS >> 1`. -/
def divHalf (w rem divisor : Nat) : Option (Nat × Nat) := do
  let n1 ← shlC w rem (w / 2)
  let (hi, rem) ← divRem n1 divisor
  let n2 ← shlC w rem (w / 2)
  let (lo, rem) ← divRem n2 divisor
  let h ← shlC w hi (w / 2)
  return (h ||| lo, rem)

/-- algebra/src/modulus/barrett/internal_macros.rs 34-54: `div_inplace`; returns `(ratio[0], ratio[1], rem)`. -/
def divInplace (w value : Nat) : Option (Nat × Nat × Nat) :=
  if value ≤ (2 ^ w - 1) / 2 ^ (w / 2) then do
    let (q1, r) ← divHalf w 1 value
    let (q0, r) ← divHalf w r value
    return (q0, q1, r)
  else do
    let (q1, r) ← divWide w 1 value
    let (q0, r) ← divWide w r value
    return (q0, q1, r)

/-- algebra/src/modulus/barrett/internal_macros.rs 11-70: `BarrettModulus::new`; `none` is a panic. -/
def new (w value : Nat) : Option Barrett :=
  if value = 0 ∨ value = 1 then none
  else if bitLen value < w - 1 then do
    let (q0, q1, _) ← divInplace w value
    return { value := value, r0 := q0, r1 := q1 }
  else none

/-- algebra/src/modulus/barrett/internal_macros.rs 107-130: `lazy_reduce` of one word. -/
def lazyReduce1 (w : Nat) (M : Barrett) (x : Nat) : Option Nat := do
  let tmp ← wideningMulHwC w x M.r0
  let tmp ← carryingMulHwC w x M.r1 tmp
  return wrappingSub w x (wrappingMul w tmp M.value)

/-- algebra/src/modulus/barrett/internal_macros.rs 162-171: `reduce` of one word. -/
def reduce1 (w : Nat) (M : Barrett) (x : Nat) : Option Nat := do
  let tmp ← lazyReduce1 w M x
  if M.value ≤ tmp then subC tmp M.value else return tmp

/-- algebra/src/modulus/barrett/internal_macros.rs 202-240 (array) and 311-349 (tuple): `lazy_reduce` of two
words, low word first. The two texts are identical up to field syntax. -/
def lazyReduce2 (w : Nat) (M : Barrett) (x0 x1 : Nat) : Option Nat := do
  let ah ← wideningMulHwC w x0 M.r0
  let b ← carryingMulC w x0 M.r1 ah
  let c ← wideningMulC w x1 M.r0
  let d := wrappingMul w x1 M.r1
  let s ← addC w b.2 c.2
  let bch ← addC w s (overflowingAdd w b.1 c.1).2.toNat
  let q := wrappingAdd w d bch
  return wrappingSub w x0 (wrappingMul w q M.value)

/-- algebra/src/modulus/barrett/internal_macros.rs 271-280 and 380-389: `reduce` of two words. -/
def reduce2 (w : Nat) (M : Barrett) (x0 x1 : Nat) : Option Nat := do
  let r ← lazyReduce2 w M x0 x1
  if M.value ≤ r then subC r M.value else return r

/-- `iter().rfold(last, |acc, &x| f x acc)` over `other ++ [last]`, in the
panicking monad: the list is little endian, the fold starts at the last word.
algebra/src/modulus/barrett/internal_macros.rs 406-408 and 427-429. -/
def rfoldWords (f : Nat → Nat → Option Nat) : List Nat → Option Nat
  | [] => none
  | [v] => some v
  | x :: xs => do
    let acc ← rfoldWords f xs
    f x acc

/-- algebra/src/modulus/barrett/internal_macros.rs 396-410: `lazy_reduce` of a slice (empty: `unreachable!`). -/
def lazyReduceSlice (w : Nat) (M : Barrett) : List Nat → Option Nat
  | [] => none
  | [v] => if v < M.value then some v else lazyReduce1 w M v
  | xs => rfoldWords (lazyReduce2 w M) xs

/-- algebra/src/modulus/barrett/internal_macros.rs 417-431: `reduce` of a slice (empty: `unreachable!`). -/
def reduceSlice (w : Nat) (M : Barrett) : List Nat → Option Nat
  | [] => none
  | [v] => if v < M.value then some v else reduce1 w M v
  | xs => rfoldWords (reduce2 w M) xs

/-- algebra/src/modulus/barrett/internal_macros.rs 508-513: `multiply_add`, `c += a * b` on two words. -/
def multiplyAdd (w : Nat) (c : Nat × Nat) (a b : Nat) : Option (Nat × Nat) := do
  let (lw, hw) ← wideningMulC w a b
  let (c0, carry) := overflowingAdd w c.1 lw
  let (c1, _) := carryingAdd w c.2 hw carry
  return (c0, c1)

/-- algebra/src/modulus/barrett/internal_macros.rs 521-524: the accumulation loop over one chunk. -/
def accumulate (w : Nat) : Nat × Nat → List (Nat × Nat) → Option (Nat × Nat)
  | c, [] => some c
  | c, (a, b) :: rest => do
    let c ← multiplyAdd w c a b
    accumulate w c rest

/-- Standard library `chunks_exact(16)`: full chunks only, the remainder is
dropped. Implemented by repeated splitting with the list length as fuel.
algebra/src/modulus/barrett/internal_macros.rs 518-519. -/
def chunksExact16 {α : Type} : Nat → List α → List (List α)
  | 0, _ => []
  | fuel + 1, xs =>
    if 16 ≤ xs.length then xs.take 16 :: chunksExact16 fuel (xs.drop 16) else []

/-- algebra/src/modulus/barrett/internal_macros.rs 527-529: the fold of the reduced chunk results. -/
def foldChunks (w : Nat) (M : Barrett) : Nat → List (List (Nat × Nat)) → Option Nat
  | acc, [] => some acc
  | acc, ch :: rest => do
    let c ← accumulate w (0, 0) ch
    let r ← reduce2 w M c.1 c.2
    let acc ← addReduce w M.value acc r
    foldChunks w M acc rest

/-- algebra/src/modulus/barrett/internal_macros.rs 502-530: `dot_product_reduce`. The `debug_assert_eq!` on
the lengths is the `none` branch. Zipping the two chunk iterators equals
chunking the zipped list because the lengths agree. -/
def dotProduct (w : Nat) (M : Barrett) (a b : List Nat) : Option Nat :=
  if a.length = b.length then
    foldChunks w M 0 (chunksExact16 a.length (a.zip b))
  else none

/-- algebra/src/modulus/barrett/ops.rs 79-101: `mul_reduce`, `mul_reduce_assign`. -/
def mulReduce (w : Nat) (M : Barrett) (a b : Nat) : Option Nat := do
  let (lo, hi) ← wideningMulC w a b
  reduce2 w M lo hi

/-- algebra/src/modulus/barrett/ops.rs 199-221: `lazy_mul_reduce`. -/
def lazyMulReduce (w : Nat) (M : Barrett) (a b : Nat) : Option Nat := do
  let (lo, hi) ← wideningMulC w a b
  lazyReduce2 w M lo hi

/-- algebra/src/modulus/barrett/ops.rs 13-23: `add_reduce`. -/
def addReduceB (w : Nat) (M : Barrett) (a b : Nat) : Option Nat := addReduce w M.value a b

/-- algebra/src/modulus/barrett/ops.rs 35-45: `sub_reduce`. -/
def subReduceB (w : Nat) (M : Barrett) (a b : Nat) : Option Nat := subReduce w M.value a b

/-- algebra/src/modulus/barrett/ops.rs 57-67: `neg_reduce`. -/
def negReduceB (M : Barrett) (a : Nat) : Option Nat := negReduce M.value a

end Barrett
end Verif
