import Verif.Model.RGSW
import Verif.Model.LWE

/-!
# Blind rotation

`fhe_core/src/blind_rotation/binary.rs` and `ternary.rs`. The ring dimension `n` is the
length of the lookup table. The draws of the generated keys are parameters.
-/

namespace Verif

namespace BlindRotation

/-- fhe_core/src/blind_rotation/binary.rs 33-35, fhe_core/src/blind_rotation/ternary.rs 46-48: rotate right by
`k`, negate the first `k` coefficients. -/
def rotateNegHead (R : Ctx) (lut : List Nat) (k : Nat) : Option (List Nat) := do
  let s ← subC lut.length k
  let head ← (lut.drop s).mapM (Fp.neg R.M)
  return head ++ lut.take s

/-- fhe_core/src/blind_rotation/binary.rs 36-40, fhe_core/src/blind_rotation/ternary.rs 49-53: rotate right by
`r`, negate the coefficients from `r` on. -/
def rotateNegTail (R : Ctx) (lut : List Nat) (r : Nat) : Option (List Nat) := do
  let s ← subC lut.length r
  let tail ← (lut.take s).mapM (Fp.neg R.M)
  return lut.drop s ++ tail

/-- fhe_core/src/blind_rotation/binary.rs 31-41, fhe_core/src/blind_rotation/ternary.rs 44-54: `lut * X^(-b)`.
-/
def rotateLut (R : Ctx) (lut : List Nat) (b : Nat) : Option (List Nat) :=
  if b = 0 then some lut
  else do
    let negB ← subC (2 * lut.length) b
    if negB ≤ lut.length then rotateNegHead R lut negB
    else rotateNegTail R lut (negB - lut.length)

/-- fhe_core/src/blind_rotation/binary.rs 25-28, fhe_core/src/blind_rotation/ternary.rs 35-38: the accumulator
and the reused buffers of the loop. The decomposition and polynomial buffers are overwritten before every read
and left out. -/
structure State where
  acc : RLWE
  ext : RLWE
  median : NTTRLWE

/-- fhe_core/src/blind_rotation/binary.rs 25-28, 43, fhe_core/src/blind_rotation/ternary.rs 35-38, 56 with
lattice/src/utils/space.rs: the initial state. -/
def init (lut : List Nat) : State :=
  ⟨⟨Poly.zero lut.length, lut⟩, ⟨Poly.zero lut.length, Poly.zero lut.length⟩,
    NTTRLWE.zero lut.length⟩

/-- fhe_core/src/blind_rotation/binary.rs 50-64, fhe_core/src/blind_rotation/ternary.rs 78-90: `ACC += (X^a -
1) * ACC * key`. -/
def update (R : Ctx) (n : Nat) (st : State) (key : NTTRGSW) (a : Nat) : Option State := do
  let ext ← RLWE.mulMonomialSubOne R st.acc n a st.ext
  let (ext, median) ← RLWE.mulAssignNttRgsw R ext key st.median
  let acc ← RLWE.add R st.acc ext
  return ⟨acc, ext, median⟩

/-- fhe_core/src/blind_rotation/binary.rs 48-68: one step of the fold. -/
def binaryStep (R : Ctx) (n : Nat) (st : State) (key : NTTRGSW) (a : Nat) : Option State :=
  if a = 0 then some st else update R n st key a

/-- fhe_core/src/blind_rotation/ternary.rs 61-94: one step of the fold; `t` is the table read in
fhe_core/src/blind_rotation/ternary.rs 41. -/
def ternaryStep (R : Ctx) (t : Table) (n : Nat) (st : State) (key : NTTRGSW × NTTRGSW) (a : Nat) :
    Option State :=
  if a = 0 then some st
  else do
    let negA ← subC (2 * n) a
    let m ← Table.negOneMonomial R.M t negA n
    let ek ← NTTRGSW.addMulNtt R key.1 key.2 m
    update R n st ek a

/-- fhe_core/src/blind_rotation/binary.rs 45-68, fhe_core/src/blind_rotation/ternary.rs 58-94: the fold over
`key.iter().zip(lwe.a())`. -/
def loop {K : Type} (step : State → K → Nat → Option State) :
    List K → List Nat → State → Option State
  | k :: ks, a :: as, st => do
    let st ← step st k a
    loop step ks as st
  | _, _, st => some st

/-- fhe_core/src/blind_rotation/binary.rs 19-69: `blind_rotate` with a binary key. -/
def binary (R : Ctx) (key : List NTTRGSW) (lut : List Nat) (lwe : LWE) : Option RLWE := do
  let lut ← rotateLut R lut lwe.b
  let st ← loop (binaryStep R lut.length) key lwe.a (init lut)
  return st.acc

/-- fhe_core/src/blind_rotation/ternary.rs 24-95: `blind_rotate` with a ternary key. -/
def ternary (R : Ctx) (key : List (NTTRGSW × NTTRGSW)) (lut : List Nat) (lwe : LWE) :
    Option RLWE := do
  let t ← Poly.tableFor R.tbl lut.length
  let lut ← rotateLut R lut lwe.b
  let st ← loop (ternaryStep R t lut.length) key lwe.a (init lut)
  return st.acc

/-- lattice/src/rgsw.rs: the draws of one RGSW sample. Lines 343-392. -/
abbrev RgswDraw := List Draw × List Draw

/-- fhe_core/src/blind_rotation/binary.rs 85-101: the key element of one bit. -/
def binaryKey (R : Ctx) (sn : List Nat) (B : Basis) (s : Nat) (d : RgswDraw) : Option NTTRGSW :=
  if s = 0 then NTTRGSW.zeroSample R sn B d.1 d.2 else NTTRGSW.oneSample R sn B d.1 d.2

/-- fhe_core/src/blind_rotation/binary.rs 72-104: `generate`. -/
def binaryGenerate (R : Ctx) (sn : List Nat) (B : Basis) : List Nat → List RgswDraw →
    Option (List NTTRGSW)
  | [], _ => some []
  | _ :: _, [] => none
  | s :: ss, d :: ds => do
    let g ← binaryKey R sn B s d
    let gs ← binaryGenerate R sn B ss ds
    return g :: gs

/-- fhe_core/src/blind_rotation/ternary.rs 111-158: the key element of one ternary digit. -/
def ternaryKey (R : Ctx) (sn : List Nat) (B : Basis) (s : Nat) (d : RgswDraw × RgswDraw) :
    Option (NTTRGSW × NTTRGSW) :=
  if s = 1 then do
    let x ← NTTRGSW.oneSample R sn B d.1.1 d.1.2
    let y ← NTTRGSW.zeroSample R sn B d.2.1 d.2.2
    return (x, y)
  else if s = 0 then do
    let x ← NTTRGSW.zeroSample R sn B d.1.1 d.1.2
    let y ← NTTRGSW.zeroSample R sn B d.2.1 d.2.2
    return (x, y)
  else do
    let x ← NTTRGSW.zeroSample R sn B d.1.1 d.1.2
    let y ← NTTRGSW.oneSample R sn B d.2.1 d.2.2
    return (x, y)

/-- fhe_core/src/blind_rotation/ternary.rs 98-161: `generate`. -/
def ternaryGenerate (R : Ctx) (sn : List Nat) (B : Basis) : List Nat → List (RgswDraw × RgswDraw) →
    Option (List (NTTRGSW × NTTRGSW))
  | [], _ => some []
  | _ :: _, [] => none
  | s :: ss, d :: ds => do
    let g ← ternaryKey R sn B s d
    let gs ← ternaryGenerate R sn B ss ds
    return g :: gs

end BlindRotation
end Verif
