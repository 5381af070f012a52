import Verif.Model.Aes
import Verif.Model.Word

/-!
# The AES-based pseudo-random generator

`BlockRng` is a type of the `rand_core` crate (version 0.6); its buffering is modelled from the
published source of that crate, everything else is code of the repository.
-/

namespace Verif

/-- The two architecture-dependent entry points of algebra/src/utils/aes.rs. Lines 72-75 and 196-199. -/
structure AesImpl where
  new : Block → RoundKeys
  many : RoundKeys → List Block → List Block

/-- The x86 code. algebra/src/utils/aes.rs 77-117 and 201-221. -/
def AesImpl.x86 : AesImpl := ⟨Aes.newX86, Aes.encryptManyX86⟩

/-- The aarch64 code. algebra/src/utils/aes.rs 119-159 and 223-240. -/
def AesImpl.arm : AesImpl := ⟨Aes.newArm, Aes.encryptManyArm⟩

/-- algebra/src/utils/prg.rs 12-15: `PrgCore`. -/
structure PrgCore where
  aes : RoundKeys
  state : Nat

namespace PrgCore

/-- algebra/src/utils/prg.rs 40-43: `from_seed`. -/
def fromSeed (I : AesImpl) (seed : Block) : PrgCore := ⟨I.new seed, 0⟩

/-- algebra/src/utils/prg.rs 24-31: `k` blocks with consecutive counter values; the pair is the blocks
and the new counter. The `u64` addition panics on overflow. -/
def states : Nat → Nat → Option (List Block × Nat)
  | 0, s => some ([], s)
  | k + 1, s => do
    let s' ← addC 64 s 1
    let b ← Block.ofU64s s 0
    let r ← states k s'
    return (b :: r.1, r.2)

/-- The four little endian `u32` of a block (`bytemuck::cast`). algebra/src/utils/prg.rs 32. -/
def words (b : Block) : List Nat := b.toList.map fun lane => Block.leValue lane.toList

/-- algebra/src/utils/prg.rs 22-33: `generate`: thirty-two words and the new state. -/
def generate (I : AesImpl) (c : PrgCore) : Option (List Nat × PrgCore) := do
  let r ← states 8 c.state
  return ((I.many c.aes r.1).flatMap words, ⟨c.aes, r.2⟩)

end PrgCore

/-- `rand_core::block::BlockRng<PrgCore>`, wrapped by `Prg` (algebra/src/utils/prg.rs 48-50). -/
structure Prg where
  results : List Nat
  index : Nat
  core : PrgCore

namespace Prg

/-- algebra/src/utils/prg.rs 77-80: `from_seed`; `BlockRng::new` starts with an exhausted buffer. -/
def fromSeed (I : AesImpl) (seed : Block) : Prg :=
  ⟨List.replicate 32 0, 32, PrgCore.fromSeed I seed⟩

/-- `BlockRng::generate_and_set`. The field of algebra/src/utils/prg.rs 50. -/
def generateAndSet (I : AesImpl) (g : Prg) (index : Nat) : Option Prg := do
  let r ← PrgCore.generate I g.core
  return ⟨r.1, index, r.2⟩

/-- The refill check at the start of `next_u32` and of each step of `fill_bytes`.
The generator of algebra/src/utils/prg.rs 55 and 65. -/
def refill (I : AesImpl) (g : Prg) : Option Prg :=
  if g.results.length ≤ g.index then generateAndSet I g 0 else some g

/-- algebra/src/utils/prg.rs 53-56 with `BlockRng::next_u32`. -/
def nextU32 (I : AesImpl) (g : Prg) : Option (Nat × Prg) := do
  let g ← refill I g
  let v ← g.results[g.index]?
  return (v, { g with index := g.index + 1 })

/-- `read_u64` inside `BlockRng::next_u64`. Called by algebra/src/utils/prg.rs 60. -/
def readU64 (results : List Nat) (index : Nat) : Option Nat := do
  let x ← results[index]?
  let y ← results[index + 1]?
  return (y * 2 ^ 32) ||| x

/-- algebra/src/utils/prg.rs 58-61 with `BlockRng::next_u64`. -/
def nextU64 (I : AesImpl) (g : Prg) : Option (Nat × Prg) :=
  let len := g.results.length
  if g.index < len - 1 then do
    let v ← readU64 g.results g.index
    return (v, { g with index := g.index + 2 })
  else if len ≤ g.index then do
    let g ← generateAndSet I g 2
    let v ← readU64 g.results 0
    return (v, g)
  else do
    let x ← g.results[len - 1]?
    let g ← generateAndSet I g 1
    let y ← g.results[0]?
    return ((y * 2 ^ 32) ||| x, g)

/-- `fill_via_u32_chunks` of `rand_core`: copies whole little endian words, the last one possibly in
part; returns the words consumed and the bytes. Called by algebra/src/utils/prg.rs 65. -/
def fillVia (src : List Nat) (n : Nat) : Nat × List Byte :=
  let bytes := min (src.length * 4) n
  let words := (bytes + 3) / 4
  (words, ((src.take words).flatMap (Block.leBytes 4)).take bytes)

/-- algebra/src/utils/prg.rs 63-66 with the loop of `BlockRng::fill_bytes`; `fuel` bounds the number
of iterations by the number of bytes still to be written. -/
def fillBytes (I : AesImpl) : Nat → Prg → Nat → Option (List Byte × Prg)
  | _, g, 0 => some ([], g)
  | 0, _, _ + 1 => none
  | fuel + 1, g, n + 1 => do
    let g ← refill I g
    let r := fillVia (g.results.drop g.index) (n + 1)
    let rest ← fillBytes I fuel { g with index := g.index + r.1 } (n + 1 - r.2.length)
    return (r.2 ++ rest.1, rest.2)

/-- algebra/src/utils/prg.rs 116-120: `random_bytes`. -/
def randomBytes (I : AesImpl) (g : Prg) (n : Nat) : Option (List Byte × Prg) := fillBytes I n g n

/-- algebra/src/utils/prg.rs 98-102: `random_bool`; the `Standard` distribution of the `rand` crate for `bool` is the
sign of one word as an `i32`. -/
def randomBool (I : AesImpl) (g : Prg) : Option (Bool × Prg) := do
  let r ← nextU32 I g
  return (decide (2 ^ 31 ≤ r.1), r.2)

/-- algebra/src/utils/prg.rs 104-108: `random_bools`; `fill` of the `rand` crate draws each element of a slice of
booleans on its own. -/
def randomBools (I : AesImpl) : Nat → Prg → Option (List Bool × Prg)
  | 0, g => some ([], g)
  | n + 1, g => do
    let r ← randomBool I g
    let rest ← randomBools I n r.2
    return (r.1 :: rest.1, rest.2)

/-- algebra/src/utils/prg.rs 110-114: `random_byte`; `Standard` for `u8` is one word cut to eight bits. -/
def randomByte (I : AesImpl) (g : Prg) : Option (Byte × Prg) := do
  let r ← nextU32 I g
  return (BitVec.ofNat 8 r.1, r.2)

/-- algebra/src/utils/prg.rs 122-126 with algebra/src/utils/block.rs 233-238: `random_block`; `Standard` for `u128` is
`(y << 64) | x` for two consecutive double words `x` and `y`. -/
def randomBlock (I : AesImpl) (g : Prg) : Option (Block × Prg) := do
  let x ← nextU64 I g
  let y ← nextU64 I x.2
  let b ← Block.ofU128 ((y.1 * 2 ^ 64) ||| x.1)
  return (b, y.2)

/-- `bytemuck::cast_slice_mut` between `n` blocks and their bytes. algebra/src/utils/prg.rs 131. -/
def blocksOf : Nat → List Byte → Option (List Block)
  | 0, _ => some []
  | n + 1, l => do
    let b ← Block.ofBytes (l.take 16)
    let rest ← blocksOf n (l.drop 16)
    return b :: rest

/-- algebra/src/utils/prg.rs 128-133: `random_blocks`. -/
def randomBlocks (I : AesImpl) (g : Prg) (n : Nat) : Option (List Block × Prg) := do
  let r ← randomBytes I g (16 * n)
  let l ← blocksOf n r.1
  return (l, r.2)

/-- algebra/src/utils/prg.rs 82-85 with the default `SeedableRng::from_rng` of `rand_core`: a new generator whose seed is
filled by the generator `g`; the pair is the new generator and the rest of `g`. -/
def fromRng (I : AesImpl) (g : Prg) : Option (Prg × Prg) := do
  let r ← randomBytes I g 16
  let seed ← Block.ofBytes r.1
  return (fromSeed I seed, r.2)

/-- A request to the generator. algebra/src/utils/prg.rs 52-72 and 90-134. -/
inductive Request
  | u32
  | u64
  | bytes (n : Nat)
  | bool
  | bools (n : Nat)
  | byte
  | block
  | blocks (n : Nat)

/-- The answer to a request. algebra/src/utils/prg.rs 52-72 and 90-134. -/
inductive Answer
  | word (x : Nat)
  | bytes (l : List Byte)
  | bools (l : List Bool)
  | blocks (l : List Block)
deriving DecidableEq

/-- One request. algebra/src/utils/prg.rs 52-72 and 90-134. -/
def serve (I : AesImpl) (g : Prg) : Request → Option (Answer × Prg)
  | .u32 => (nextU32 I g).map fun r => (.word r.1, r.2)
  | .u64 => (nextU64 I g).map fun r => (.word r.1, r.2)
  | .bytes n => (randomBytes I g n).map fun r => (.bytes r.1, r.2)
  | .bool => (randomBool I g).map fun r => (.bools [r.1], r.2)
  | .bools n => (randomBools I n g).map fun r => (.bools r.1, r.2)
  | .byte => (randomByte I g).map fun r => (.bytes [r.1], r.2)
  | .block => (randomBlock I g).map fun r => (.blocks [r.1], r.2)
  | .blocks n => (randomBlocks I g n).map fun r => (.blocks r.1, r.2)

/-- A history of requests. algebra/src/utils/prg.rs 52-72 and 90-134. -/
def serveAll (I : AesImpl) (g : Prg) : List Request → Option (List Answer × Prg)
  | [] => some ([], g)
  | r :: rs => do
    let a ← serve I g r
    let rest ← serveAll I a.2 rs
    return (a.1 :: rest.1, rest.2)

end Prg
end Verif
