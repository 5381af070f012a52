import Verif.Model.Field

/-!
# Samplers

Random words are inputs: a list or a stream of the words the generator delivers.
-/

namespace Verif.Sample

/-- algebra/src/random.rs 54-61 (and algebra/src/field/mod.rs 87-88): the rejection threshold for
range `q` and sample width `s`; `none` is the division-by-zero panic. -/
def thresh (s q : Nat) : Option Nat := if q = 0 then none else some (wrappingNeg s q % q)

/-- algebra/src/random.rs 74-79 (and algebra/src/field/mod.rs 90-95): one iteration of the sampling
loop on the random word `x`; the inner `none` means "draw again". -/
def uniformStep (s q x : Nat) : Option (Option Nat) := do
  let t ← thresh s q
  let (lo, hi) ← wideningMulC s x q
  if t ≤ lo then return some hi else return none

/-- algebra/src/random.rs 71-82 (and algebra/src/field/mod.rs 86-98): the loop over the words the
generator delivers, then `F::new(hi.as_into())`. The inner `none` means that the words ran out
before one was accepted. -/
def uniform (w s : Nat) (M : Barrett) : List Nat → Option (Option Nat)
  | [] => some none
  | x :: xs => do
    match ← uniformStep s M.value x with
    | some hi => do
      let v ← Fp.new w M (trunc w hi)
      return some v
    | none => uniform w s M xs

/-- algebra/src/polynomial/native_polynomial.rs 249-259 and algebra/src/polynomial/ntt_polynomial.rs 211-221: `random`,
`n` values of the uniform sampler one after the other, as one loop over the words the generator delivers. The inner
`none` means that the words ran out. -/
def uniformVec (w s : Nat) (M : Barrett) : Nat → List Nat → Option (Option (List Nat))
  | 0, _ => some (some [])
  | _ + 1, [] => some none
  | n + 1, x :: xs => do
    match ← uniformStep s M.value x with
    | some hi => do
      let v ← Fp.new w M (trunc w hi)
      match ← uniformVec w s M n xs with
      | some rest => return some (v :: rest)
      | none => return none
    | none => uniformVec w s M (n + 1) xs

/-- algebra/src/utils/sample.rs 17-20, 24-27 and 41-44, 48-51: fill a chunk of `len` elements from
the random word `r`, `b` bits per element, through the table `tbl`. -/
def fillChunk (tbl : List Nat) (b : Nat) : Nat → Nat → List Nat
  | 0, _ => []
  | len + 1, r => tbl.getD (r % 2 ^ b) 0 :: fillChunk tbl b len (r / 2 ^ b)

/-- The full chunks (algebra/src/utils/sample.rs 14-21, 38-45): `k` chunks of `c` elements from consecutive random
words starting at word `i`. -/
def fillChunks (tbl : List Nat) (b c : Nat) (words : Nat → Nat) : Nat → Nat → List Nat
  | 0, _ => []
  | k + 1, i => fillChunk tbl b c (words i) ++ fillChunks tbl b c words k (i + 1)

/-- algebra/src/utils/sample.rs 13-28, 37-52: full chunks, then the remainder from one more random word. -/
def fillVec (tbl : List Nat) (b c : Nat) (words : Nat → Nat) (length : Nat) : List Nat :=
  fillChunks tbl b c words (length / c) 0 ++ fillChunk tbl b (length % c) (words (length / c))

/-- algebra/src/utils/sample.rs 7-28: `sample_binary_field_vec`. -/
def binaryVec (words : Nat → Nat) (length : Nat) : List Nat :=
  fillVec [Fp.zero, Fp.one] 1 32 words length

/-- algebra/src/utils/sample.rs 31-52: `sample_ternary_field_vec`. -/
def ternaryVec (M : Barrett) (words : Nat → Nat) (length : Nat) : Option (List Nat) := do
  let m ← Fp.negOne M
  return fillVec [Fp.zero, Fp.zero, Fp.one, m] 2 16 words length

/-- algebra/src/random.rs 90-95: `FieldBinarySampler`. -/
def binary (r : Nat) : Nat := [Fp.zero, Fp.one].getD (r % 2) 0

/-- algebra/src/random.rs 105-110: `FieldTernarySampler`. -/
def ternary (M : Barrett) (r : Nat) : Option Nat := do
  let m ← Fp.negOne M
  return [Fp.zero, Fp.zero, Fp.one, m].getD (r % 4) 0

/-- `count_ones` of a word of at most `k` bits. algebra/src/utils/sample.rs 66-67. -/
def countOnes : Nat → Nat → Nat
  | 0, _ => 0
  | k + 1, x => x % 2 + countOnes k (x / 2)

/-- algebra/src/utils/sample.rs 61-73: the `cbd` closure on the six random bytes. -/
def cbd (w : Nat) (M : Barrett) (x0 x1 x2 x3 x4 x5 : Nat) : Option Nat := do
  let x2 := x2 &&& 0x1F
  let x5 := x5 &&& 0x1F
  let a := countOnes 8 x0 + countOnes 8 x1 + countOnes 8 x2
  let b := countOnes 8 x3 + countOnes 8 x4 + countOnes 8 x5
  if b ≤ a then Fp.new w M (a - b)
  else do
    let d ← subC M.value (b - a)
    Fp.new w M d

/-- algebra/src/utils/sample.rs 75: `length` draws; draw `i` uses bytes `6i .. 6i+5`. -/
def cbdVec (w : Nat) (M : Barrett) (bytes : Nat → Nat) : Nat → Nat → Option (List Nat)
  | 0, _ => some []
  | k + 1, i => do
    let v ← cbd w M (bytes (6 * i)) (bytes (6 * i + 1)) (bytes (6 * i + 2)) (bytes (6 * i + 3))
      (bytes (6 * i + 4)) (bytes (6 * i + 5))
    let rest ← cbdVec w M bytes k (i + 1)
    return v :: rest

end Verif.Sample
