import Verif.Model.Block
import Verif.SpecAes

/-!
# AES-128

The register intrinsics are modelled from their documentation: `_mm_aesenc_si128`, `_mm_aesenclast_si128`
and `_mm_aeskeygenassist_si128` on x86, `vaeseq_u8` and `vaesmcq_u8` on aarch64. They contain the AES
S-box in hardware, for which the S-box of FIPS 197 (`Spec.Aes.sbox`) stands. The emulation of the key
generation assist on aarch64 is code of the repository and uses the table of the repository.
-/

namespace Verif

/-- The type of the expanded key: eleven round keys, in order. algebra/src/utils/aes.rs 23. -/
abbrev RoundKeys := List Block

namespace Simd

/-- Intrinsic `_mm_shuffle_ps(a, b, imm)` on 32-bit lanes. -/
def shufflePs (a b : Block) (imm : Nat) : Block :=
  ⟨a.get imm, a.get (imm / 4), b.get (imm / 16), b.get (imm / 64)⟩

/-- Intrinsic `_mm_shuffle_epi32(a, imm)`. Used by algebra/src/utils/aes.rs 41. -/
def shuffleEpi32 (a : Block) (imm : Nat) : Block :=
  ⟨a.get imm, a.get (imm / 4), a.get (imm / 16), a.get (imm / 64)⟩

/-- S-box of the hardware on one lane. Part of the instructions used by algebra/src/utils/aes.rs 28, 174 and 188. -/
def subLane (v : V4 Byte) : V4 Byte := v.map Spec.Aes.sbox

/-- Byte rotation of one lane. Part of the instruction used by algebra/src/utils/aes.rs 28. -/
def rotLane (v : V4 Byte) : V4 Byte := ⟨v.x1, v.x2, v.x3, v.x0⟩

/-- Exclusive or with an 8-bit constant at the low byte of a lane. -/
def xorLow (v : V4 Byte) (rc : Byte) : V4 Byte := { v with x0 := v.x0 ^^^ rc }

/-- Intrinsic `_mm_aeskeygenassist_si128(a, rcon)`. Used by algebra/src/utils/aes.rs 28. -/
def keyGenAssist (a : Block) (rc : Byte) : Block :=
  ⟨subLane a.x1, xorLow (rotLane (subLane a.x1)) rc,
    subLane a.x3, xorLow (rotLane (subLane a.x3)) rc⟩

/-- Doubling in the AES field, as the hardware does it.
Part of the instructions used by algebra/src/utils/aes.rs 174 and 188. -/
def xtime (b : Byte) : Byte := (b <<< 1) ^^^ (if b.msb then 0x1b else 0)

/-- Row rotation: byte `r` of column `c` comes from column `c + r`.
Part of the instructions used by algebra/src/utils/aes.rs 174, 177 and 188. -/
def shiftRows (s : Block) : Block :=
  ⟨⟨s.x0.x0, s.x1.x1, s.x2.x2, s.x3.x3⟩, ⟨s.x1.x0, s.x2.x1, s.x3.x2, s.x0.x3⟩,
    ⟨s.x2.x0, s.x3.x1, s.x0.x2, s.x1.x3⟩, ⟨s.x3.x0, s.x0.x1, s.x1.x2, s.x2.x3⟩⟩

/-- Column mixing of one lane. Part of the instructions used by algebra/src/utils/aes.rs 174 and 188. -/
def mixLane (v : V4 Byte) : V4 Byte :=
  ⟨xtime v.x0 ^^^ (xtime v.x1 ^^^ v.x1) ^^^ v.x2 ^^^ v.x3,
    xtime v.x1 ^^^ (xtime v.x2 ^^^ v.x2) ^^^ v.x3 ^^^ v.x0,
    xtime v.x2 ^^^ (xtime v.x3 ^^^ v.x3) ^^^ v.x0 ^^^ v.x1,
    xtime v.x3 ^^^ (xtime v.x0 ^^^ v.x0) ^^^ v.x1 ^^^ v.x2⟩

/-- Intrinsic `_mm_aesenc_si128(a, key)`: shift rows, S-box, mix columns, add the key.
Used by algebra/src/utils/aes.rs 174 and 212. -/
def aesenc (a key : Block) : Block := Block.xor (((shiftRows a).map subLane).map mixLane) key

/-- Intrinsic `_mm_aesenclast_si128(a, key)`. Used by algebra/src/utils/aes.rs 177 and 217. -/
def aesenclast (a key : Block) : Block := Block.xor ((shiftRows a).map subLane) key

/-- Intrinsic `vaeseq_u8(data, key)`: add the key, S-box, shift rows.
Used by algebra/src/utils/aes.rs 188, 191, 231 and 236. -/
def vaese (data key : Block) : Block := shiftRows ((Block.xor data key).map subLane)

/-- Intrinsic `vaesmcq_u8(data)`: mix columns. Used by algebra/src/utils/aes.rs 188 and 231. -/
def vaesmc (data : Block) : Block := data.map mixLane

end Simd

namespace Neon

/-- algebra/src/utils/sse2neon.rs 4-21: `AES_SBOX`. -/
def sboxTable : List Nat := [
  0x63, 0x7C, 0x77, 0x7B, 0xF2, 0x6B, 0x6F, 0xC5, 0x30, 0x01, 0x67, 0x2B, 0xFE, 0xD7, 0xAB, 0x76,
  0xCA, 0x82, 0xC9, 0x7D, 0xFA, 0x59, 0x47, 0xF0, 0xAD, 0xD4, 0xA2, 0xAF, 0x9C, 0xA4, 0x72, 0xC0,
  0xB7, 0xFD, 0x93, 0x26, 0x36, 0x3F, 0xF7, 0xCC, 0x34, 0xA5, 0xE5, 0xF1, 0x71, 0xD8, 0x31, 0x15,
  0x04, 0xC7, 0x23, 0xC3, 0x18, 0x96, 0x05, 0x9A, 0x07, 0x12, 0x80, 0xE2, 0xEB, 0x27, 0xB2, 0x75,
  0x09, 0x83, 0x2C, 0x1A, 0x1B, 0x6E, 0x5A, 0xA0, 0x52, 0x3B, 0xD6, 0xB3, 0x29, 0xE3, 0x2F, 0x84,
  0x53, 0xD1, 0x00, 0xED, 0x20, 0xFC, 0xB1, 0x5B, 0x6A, 0xCB, 0xBE, 0x39, 0x4A, 0x4C, 0x58, 0xCF,
  0xD0, 0xEF, 0xAA, 0xFB, 0x43, 0x4D, 0x33, 0x85, 0x45, 0xF9, 0x02, 0x7F, 0x50, 0x3C, 0x9F, 0xA8,
  0x51, 0xA3, 0x40, 0x8F, 0x92, 0x9D, 0x38, 0xF5, 0xBC, 0xB6, 0xDA, 0x21, 0x10, 0xFF, 0xF3, 0xD2,
  0xCD, 0x0C, 0x13, 0xEC, 0x5F, 0x97, 0x44, 0x17, 0xC4, 0xA7, 0x7E, 0x3D, 0x64, 0x5D, 0x19, 0x73,
  0x60, 0x81, 0x4F, 0xDC, 0x22, 0x2A, 0x90, 0x88, 0x46, 0xEE, 0xB8, 0x14, 0xDE, 0x5E, 0x0B, 0xDB,
  0xE0, 0x32, 0x3A, 0x0A, 0x49, 0x06, 0x24, 0x5C, 0xC2, 0xD3, 0xAC, 0x62, 0x91, 0x95, 0xE4, 0x79,
  0xE7, 0xC8, 0x37, 0x6D, 0x8D, 0xD5, 0x4E, 0xA9, 0x6C, 0x56, 0xF4, 0xEA, 0x65, 0x7A, 0xAE, 0x08,
  0xBA, 0x78, 0x25, 0x2E, 0x1C, 0xA6, 0xB4, 0xC6, 0xE8, 0xDD, 0x74, 0x1F, 0x4B, 0xBD, 0x8B, 0x8A,
  0x70, 0x3E, 0xB5, 0x66, 0x48, 0x03, 0xF6, 0x0E, 0x61, 0x35, 0x57, 0xB9, 0x86, 0xC1, 0x1D, 0x9E,
  0xE1, 0xF8, 0x98, 0x11, 0x69, 0xD9, 0x8E, 0x94, 0x9B, 0x1E, 0x87, 0xE9, 0xCE, 0x55, 0x28, 0xDF,
  0x8C, 0xA1, 0x89, 0x0D, 0xBF, 0xE6, 0x42, 0x68, 0x41, 0x99, 0x2D, 0x0F, 0xB0, 0x54, 0xBB, 0x16]

/-- algebra/src/utils/sse2neon.rs 79-83 (body of the loop): table lookup of one byte. -/
def sbox (b : Byte) : Byte := BitVec.ofNat 8 (sboxTable.getD b.toNat 0)

/-- algebra/src/utils/sse2neon.rs 24-46: `_mm_shuffle_epi32!`: lane by lane. -/
def shuffleEpi32 (a : Block) (imm : Nat) : Block :=
  let ret : Block := ⟨a.get (imm &&& 3), a.get (imm &&& 3), a.get (imm &&& 3), a.get (imm &&& 3)⟩
  let ret := { ret with x1 := a.get ((imm >>> 2) &&& 3) }
  let ret := { ret with x2 := a.get ((imm >>> 4) &&& 3) }
  { ret with x3 := a.get ((imm >>> 6) &&& 3) }

/-- algebra/src/utils/sse2neon.rs 48-58: `_mm_shuffle_ps!`. -/
def shufflePs (a b : Block) (imm : Nat) : Block :=
  let ret : Block := ⟨a.get (imm &&& 3), a.get (imm &&& 3), a.get (imm &&& 3), a.get (imm &&& 3)⟩
  let ret := { ret with x1 := a.get ((imm >>> 2) &&& 3) }
  let ret := { ret with x2 := b.get ((imm >>> 4) &&& 3) }
  { ret with x3 := b.get ((imm >>> 6) &&& 3) }

/-- The 32-bit integer of four bytes (`bytemuck::cast`, little endian). algebra/src/utils/sse2neon.rs 82-83. -/
def toU32 (v : V4 Byte) : BitVec 32 := v.x3 ++ v.x2 ++ v.x1 ++ v.x0

/-- The four bytes of a 32-bit integer. algebra/src/utils/sse2neon.rs 75-76. -/
def ofU32 (x : BitVec 32) : V4 Byte :=
  ⟨x.extractLsb' 0 8, x.extractLsb' 8 8, x.extractLsb' 16 8, x.extractLsb' 24 8⟩

/-- algebra/src/utils/sse2neon.rs 92 and 94: `(x.rotate_right(8) | (x << 24)) ^ rcon`. -/
def rotXor (x : BitVec 32) (rc : Byte) : BitVec 32 :=
  (x.rotateRight 8 ||| (x <<< 24)) ^^^ rc.setWidth 32

/-- algebra/src/utils/sse2neon.rs 69-99: `_mm_aeskeygenassist_si128!`. Lane 0 of a register shuffled
with `0x55` is lane 1, with `0xFF` lane 3. -/
def keyGenAssist (key : Block) (rc : Byte) : Block :=
  let x1 := ((shuffleEpi32 key 0x55).get 0).map sbox
  let x3 := ((shuffleEpi32 key 0xFF).get 0).map sbox
  let x1 := toU32 x1
  let x3 := toU32 x3
  ⟨ofU32 x1, ofU32 (rotXor x1 rc), ofU32 x3, ofU32 (rotXor x3 rc)⟩

end Neon

namespace Aes

/-- The round constants passed to the key expansion (algebra/src/utils/aes.rs 87-114, 129-156). -/
def rcons : List Byte := [1, 2, 4, 8, 16, 32, 64, 128, 27, 54]

/-- algebra/src/utils/aes.rs 26-44: `expand_assist_x86!` with `v4 = v1`; the state is `(v1, v3)`. -/
def expandX86 (v1 v3 : Block) (sc : Nat) (ac : Byte) : Block × Block :=
  let v2 := Simd.keyGenAssist v1 ac
  let v3 := Simd.shufflePs v3 v1 16
  let v1 := Block.xor v1 v3
  let v3 := Simd.shufflePs v3 v1 140
  let v1 := Block.xor v1 v3
  let v2 := Simd.shuffleEpi32 v2 sc
  let v1 := Block.xor v1 v2
  (v1, v3)

/-- algebra/src/utils/aes.rs 47-65: `expand_assist_arm!`. -/
def expandArm (v1 v3 : Block) (sc : Nat) (ac : Byte) : Block × Block :=
  let v2 := Neon.keyGenAssist v1 ac
  let v3 := Neon.shufflePs v3 v1 16
  let v1 := Block.xor v1 v3
  let v3 := Neon.shufflePs v3 v1 140
  let v1 := Block.xor v1 v3
  let v2 := Neon.shuffleEpi32 v2 sc
  let v1 := Block.xor v1 v2
  (v1, v3)

/-- The unrolled sequence of expansions and stores of algebra/src/utils/aes.rs 87-115 and 129-157. -/
def expandAll (step : Block → Block → Nat → Byte → Block × Block) :
    Block → Block → List Byte → RoundKeys
  | _, _, [] => []
  | x0, x2, rc :: rest =>
    let r := step x0 x2 255 rc
    r.1 :: expandAll step r.1 r.2 rest

/-- algebra/src/utils/aes.rs 72-117: `Aes::new` on x86. -/
def newX86 (key : Block) : RoundKeys := key :: expandAll expandX86 key Block.zero rcons

/-- algebra/src/utils/aes.rs 72-75, 119-159: `Aes::new` on aarch64. -/
def newArm (key : Block) : RoundKeys := key :: expandAll expandArm key Block.zero rcons

/-- algebra/src/utils/aes.rs 161-179: `encrypt_block` on x86. -/
def encryptX86 (ks : RoundKeys) (blk : Block) : Block :=
  let ctxt := Block.xor blk (ks.getD 0 Block.zero)
  let ctxt := ((ks.drop 1).take 9).foldl Simd.aesenc ctxt
  Simd.aesenclast ctxt (ks.getD 10 Block.zero)

/-- algebra/src/utils/aes.rs 161-165, 181-193: `encrypt_block` on aarch64. -/
def encryptArm (ks : RoundKeys) (blk : Block) : Block :=
  let ctxt := (ks.take 9).foldl (fun c k => Simd.vaesmc (Simd.vaese c k)) blk
  Block.xor (Simd.vaese ctxt (ks.getD 9 Block.zero)) (ks.getD 10 Block.zero)

/-- algebra/src/utils/aes.rs 196-221: `encrypt_many_blocks` on x86, key by key over all blocks. -/
def encryptManyX86 (ks : RoundKeys) (blks : List Block) : List Block :=
  let ctxt := blks.map fun ct => Block.xor ct (ks.getD 0 Block.zero)
  let ctxt := ((ks.drop 1).take 9).foldl (fun cs key => cs.map fun ct => Simd.aesenc ct key) ctxt
  ctxt.map fun ct => Simd.aesenclast ct (ks.getD 10 Block.zero)

/-- algebra/src/utils/aes.rs 196-199, 223-240: `encrypt_many_blocks` on aarch64. -/
def encryptManyArm (ks : RoundKeys) (blks : List Block) : List Block :=
  let ctxt := (ks.take 9).foldl
    (fun cs key => cs.map fun ct => Simd.vaesmc (Simd.vaese ct key)) blks
  ctxt.map fun ct => Block.xor (Simd.vaese ct (ks.getD 9 Block.zero)) (ks.getD 10 Block.zero)

/-- Overwrites `blks[lo..lo + src.len()]` with `src`. algebra/src/utils/aes.rs 249 and 259. -/
def splice (blks src : List Block) (lo : Nat) : List Block :=
  blks.take lo ++ src ++ blks.drop (lo + src.length)

/-- algebra/src/utils/aes.rs 247-250: the loop over full groups of eight, iterations `i, i+1, ...`
(`n` of them). -/
def sliceLoop (many : List Block → List Block) : Nat → Nat → List Block → List Block
  | 0, _, blks => blks
  | n + 1, i, blks =>
    let buf := (blks.drop (i * 8)).take 8
    sliceLoop many n (i + 1) (splice blks (many buf) (i * 8))

/-- algebra/src/utils/aes.rs 243-271: `encrypt_block_slice`; `many` is `encrypt_many_blocks`. The seven
guarded instances for the remainder differ only in the array length. -/
def encryptSlice (many : List Block → List Block) (blks : List Block) : List Block :=
  let len := blks.length
  let blks := sliceLoop many (len / 8) 0 blks
  let remain := len % 8
  if remain > 0 then splice blks (many (blks.drop (len - remain))) (len - remain) else blks

end Aes
end Verif
