/-!
# AES-128 as in FIPS 197

Written from the standard, independently of the code: the state is a 4 by 4 matrix of bytes, the
S-box is computed from the field inversion and the affine map.
-/

namespace Verif.Spec.Aes

/-- Multiplication by `x` in GF(2)[x]/(x^8 + x^4 + x^3 + x + 1). -/
def xtimes (b : BitVec 8) : BitVec 8 := (b <<< 1) ^^^ (if b.msb then 0x1b else 0)

/-- Multiplication in that field, by the binary expansion of the first factor (`n` bits). -/
def mulBits : Nat → BitVec 8 → BitVec 8 → BitVec 8
  | 0, _, _ => 0
  | n + 1, a, b => (if a.getLsbD 0 then b else 0) ^^^ mulBits n (a >>> 1) (xtimes b)

/-- Multiplication in GF(2^8). -/
def mul (a b : BitVec 8) : BitVec 8 := mulBits 8 a b

/-- Powers in GF(2^8). -/
def pow (a : BitVec 8) : Nat → BitVec 8
  | 0 => 1
  | n + 1 => mul a (pow a n)

/-- The inverse, with `0` mapped to `0`: `a^254`, by `254 = 2 * 127` and squarings. -/
def inv (a : BitVec 8) : BitVec 8 :=
  let a2 := mul a a
  let a4 := mul a2 a2
  let a8 := mul a4 a4
  let a16 := mul a8 a8
  let a32 := mul a16 a16
  let a64 := mul a32 a32
  let a128 := mul a64 a64
  mul a2 (mul a4 (mul a8 (mul a16 (mul a32 (mul a64 a128)))))

/-- FIPS 197, 5.1.1: the S-box. -/
def sbox (a : BitVec 8) : BitVec 8 :=
  let b := inv a
  b ^^^ b.rotateLeft 1 ^^^ b.rotateLeft 2 ^^^ b.rotateLeft 3 ^^^ b.rotateLeft 4 ^^^ 0x63

/-- The state: row, column. -/
abbrev State := Fin 4 → Fin 4 → BitVec 8

/-- A word of the key schedule. -/
abbrev Word := Fin 4 → BitVec 8

/-- FIPS 197, 5.1.1. -/
def subBytes (s : State) : State := fun r c => sbox (s r c)

/-- FIPS 197, 5.1.2: row `r` is rotated left by `r`. -/
def shiftRows (s : State) : State := fun r c => s r (c + r)

/-- FIPS 197, 5.1.3. -/
def mixColumns (s : State) : State := fun r c =>
  mul 2 (s r c) ^^^ mul 3 (s (r + 1) c) ^^^ s (r + 2) c ^^^ s (r + 3) c

/-- FIPS 197, 5.1.4: adds four key words, one per column. -/
def addRoundKey (w : Nat → Word) (round : Nat) (s : State) : State := fun r c =>
  s r c ^^^ w (4 * round + c.val) r

/-- FIPS 197, 5.2: rotation of a word. -/
def rotWord (w : Word) : Word := fun i => w (i + 1)

/-- FIPS 197, 5.2: the S-box on a word. -/
def subWord (w : Word) : Word := fun i => sbox (w i)

/-- FIPS 197, 5.2: the round constant `[x^(i-1), 0, 0, 0]`. -/
def rcon (i : Nat) : Word := fun j => if j = 0 then pow 2 (i - 1) else 0

/-- FIPS 197, 5.2: the words of the key schedule for a 128-bit key. -/
def keyWord (key : State) : Nat → Word
  | i =>
    if h : i < 4 then fun r => key r ⟨i, h⟩
    else if i % 4 = 0 then
      fun j => keyWord key (i - 4) j ^^^ subWord (rotWord (keyWord key (i - 1))) j ^^^ rcon (i / 4) j
    else fun j => keyWord key (i - 4) j ^^^ keyWord key (i - 1) j
decreasing_by all_goals omega

/-- The middle rounds `1, ..., n`. -/
def rounds (w : Nat → Word) : Nat → State → State
  | 0, s => s
  | n + 1, s => addRoundKey w (n + 1) (mixColumns (shiftRows (subBytes (rounds w n s))))

/-- FIPS 197, 5.1: the cipher with ten rounds. -/
def cipher (key : State) (input : State) : State :=
  let w := keyWord key
  addRoundKey w 10 (shiftRows (subBytes (rounds w 9 (addRoundKey w 0 input))))

end Verif.Spec.Aes
