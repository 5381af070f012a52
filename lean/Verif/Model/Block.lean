/-!
# 128-bit blocks

A block is its sixteen bytes in memory order, grouped in four 32-bit lanes. Conversions written with
`bytemuck::cast` reinterpret the memory; both supported architectures (x86 and aarch64) are little
endian, so an integer is the little endian value of its bytes.
-/

namespace Verif

/-- One byte of memory. The `u8` of algebra/src/utils/block.rs 50. -/
abbrev Byte := BitVec 8

/-- Four values of the same type: the bytes of a 32-bit lane, or the lanes of a 128-bit register.
The registers of algebra/src/utils/block.rs 22-34. -/
structure V4 (α : Type) where
  x0 : α
  x1 : α
  x2 : α
  x3 : α
deriving DecidableEq

namespace V4
variable {α β γ : Type}

/-- Elementwise operations on registers. Used by algebra/src/utils/aes.rs 26-65. -/
def map (f : α → β) (v : V4 α) : V4 β := ⟨f v.x0, f v.x1, f v.x2, f v.x3⟩

/-- Elementwise operations on two registers. algebra/src/utils/block.rs 164-224. -/
def zip (f : α → β → γ) (v : V4 α) (w : V4 β) : V4 γ :=
  ⟨f v.x0 w.x0, f v.x1 w.x1, f v.x2 w.x2, f v.x3 w.x3⟩

/-- Lane selection by the two low bits of the index. Used by algebra/src/utils/sse2neon.rs 24-58. -/
def get (v : V4 α) (i : Nat) : α :=
  match i % 4 with
  | 0 => v.x0
  | 1 => v.x1
  | 2 => v.x2
  | _ => v.x3

/-- The four values in order. algebra/src/utils/block.rs 80-85. -/
def toList (v : V4 α) : List α := [v.x0, v.x1, v.x2, v.x3]

end V4

/-- algebra/src/utils/block.rs 18-34: `Block`. -/
abbrev Block := V4 (V4 Byte)

namespace Block

/-- The little endian value of some bytes of memory. The casts of algebra/src/utils/block.rs 80-99. -/
def leValue : List Byte → Nat
  | [] => 0
  | b :: bs => b.toNat + 256 * leValue bs

/-- The `k` bytes of memory of an integer. The casts of algebra/src/utils/block.rs 101-119. -/
def leBytes : Nat → Nat → List Byte
  | 0, _ => []
  | k + 1, x => BitVec.ofNat 8 x :: leBytes k (x / 256)

/-- algebra/src/utils/block.rs 80-85 and 150-155 (`AsRef`): the bytes of a block. -/
def toBytes (b : Block) : List Byte := b.x0.toList ++ b.x1.toList ++ b.x2.toList ++ b.x3.toList

/-- algebra/src/utils/block.rs 48-60 (`new`) and 101-106 (`From<[u8; 16]>`): loads sixteen bytes; the
type `[u8; 16]` excludes other lengths (`none`). -/
def ofBytes : List Byte → Option Block
  | [a0, a1, a2, a3, b0, b1, b2, b3, c0, c1, c2, c3, d0, d1, d2, d3] =>
    some ⟨⟨a0, a1, a2, a3⟩, ⟨b0, b1, b2, b3⟩, ⟨c0, c1, c2, c3⟩, ⟨d0, d1, d2, d3⟩⟩
  | _ => none

/-- algebra/src/utils/block.rs 62-71: `try_from_slice`. -/
def tryFromSlice (l : List Byte) : Option Block :=
  if l.length ≠ 16 then none else ofBytes (l.take 16)

/-- algebra/src/utils/block.rs 94-99: `u128::from(Block)`. -/
def toU128 (b : Block) : Nat := leValue (toBytes b)

/-- algebra/src/utils/block.rs 114-119: `Block::from(u128)`. -/
def ofU128 (x : Nat) : Option Block := ofBytes (leBytes 16 x)

/-- algebra/src/utils/block.rs 87-92: `<[u64; 2]>::from(Block)`. -/
def toU64s (b : Block) : Nat × Nat := (leValue ((toBytes b).take 8), leValue ((toBytes b).drop 8))

/-- algebra/src/utils/block.rs 108-113: `Block::from([u64; 2])`. -/
def ofU64s (x y : Nat) : Option Block := ofBytes (leBytes 8 x ++ leBytes 8 y)

/-- algebra/src/utils/block.rs 121-128: equality compares the `u128` values. -/
def beq (a b : Block) : Bool := toU128 a == toU128 b

/-- algebra/src/utils/block.rs 164-178: `bitxor` (the register operation is bytewise). -/
def xor (a b : Block) : Block := V4.zip (V4.zip (· ^^^ ·)) a b

/-- algebra/src/utils/block.rs 187-201: `bitor`. -/
def or (a b : Block) : Block := V4.zip (V4.zip (· ||| ·)) a b

/-- algebra/src/utils/block.rs 210-224: `bitand`. -/
def and (a b : Block) : Block := V4.zip (V4.zip (· &&& ·)) a b

/-- The constant block 0 (algebra/src/utils/block.rs 40-46, 73-78). -/
def zero : Block := ⟨⟨0, 0, 0, 0⟩, ⟨0, 0, 0, 0⟩, ⟨0, 0, 0, 0⟩, ⟨0, 0, 0, 0⟩⟩

/-- One upper-case hexadecimal digit. The format `{:02X}` of algebra/src/utils/block.rs 134 and 144. -/
def hexDigit (d : Nat) : Char := if d < 10 then Char.ofNat (48 + d) else Char.ofNat (55 + d)

/-- algebra/src/utils/block.rs 130-148: `Debug` and `Display`, most significant byte first. -/
def format (b : Block) : List Char :=
  (toBytes b).reverse.flatMap fun x => [hexDigit (x.toNat / 16), hexDigit (x.toNat % 16)]

end Block
end Verif
