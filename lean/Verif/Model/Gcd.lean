import Verif.Model.Word

/-!
# Greatest common divisor, Bezout coefficients, modular inverse

Signed words of width `w` are integers in `[-2^(w-1), 2^(w-1))`; plain signed `+` and `-`
are checked (`none` is the overflow panic). Loops take fuel; running out of fuel is `none`,
and the theorems show it does not happen.
-/

namespace Verif

/-- Range check of a plain signed operation on `w` bits. The plain operations of algebra/src/utils/gcd.rs 86-130. -/
def chkS (w : Nat) (x : Int) : Option Int :=
  if -(2 ^ (w - 1) : Int) ≤ x ∧ x < 2 ^ (w - 1) then some x else none

/-- `x as Signed`: two's complement reinterpretation of an unsigned word. algebra/src/utils/gcd.rs 92-112. -/
def toSigned (w x : Nat) : Int := if x < 2 ^ (w - 1) then (x : Int) else (x : Int) - 2 ^ w

/-- `x as Unsigned`: two's complement reinterpretation of a signed word.
algebra/src/reduce/macros.rs 85-87 and 101-103. -/
def ofSigned (w : Nat) (x : Int) : Nat := (x % 2 ^ w).toNat

namespace Gcd

/-- `x >> x.trailing_zeros()`. algebra/src/utils/gcd.rs 41-50. -/
def oddPart (w x : Nat) : Option Nat := shrC w x (trailingZeros w x)

/-- algebra/src/utils/gcd.rs 44-52: the loop of `gcd`. -/
def gcdLoop (w : Nat) : Nat → Nat → Nat → Option Nat
  | 0, m, n => if m = n then some m else none
  | fuel + 1, m, n =>
    if m = n then some m
    else if n < m then do
      let m ← subC m n
      let m ← oddPart w m
      gcdLoop w fuel m n
    else do
      let n ← subC n m
      let n ← oddPart w n
      gcdLoop w fuel m n

/-- algebra/src/utils/gcd.rs 29-54: `gcd`. -/
def gcd (w m n : Nat) : Option Nat :=
  if m = 0 ∨ n = 0 then some (m ||| n)
  else do
    let shift := trailingZeros w (m ||| n)
    let m ← oddPart w m
    let n ← oddPart w n
    let g ← gcdLoop w (m + n) m n
    shlC w g shift

/-- algebra/src/utils/gcd.rs 57-59: `coprime`. -/
def coprime (w m n : Nat) : Option Bool := do
  let g ← gcd w m n
  return decide (g ≤ 1)

/-- algebra/src/utils/gcd.rs 62-64: `not_coprime`. -/
def notCoprime (w m n : Nat) : Option Bool := do
  let g ← gcd w m n
  return decide (1 < g)

/-- algebra/src/utils/gcd.rs 87-99 and 101-113 (the two loops have the same text): halve `u` while it is even,
adjusting its two coefficients. `x` and `y` are already signed here. -/
def halve (w : Nat) (x y : Int) : Nat → Nat → Int → Int → Option (Nat × Int × Int)
  | 0, u, a, b => if u % 2 = 0 then none else some (u, a, b)
  | fuel + 1, u, a, b =>
    if u % 2 = 0 then
      let u := u / 2
      if a % 2 = 0 ∧ b % 2 = 0 then halve w x y fuel u (a / 2) (b / 2)
      else if x < b then do
        let a ← chkS w (a + y)
        let b ← chkS w (b - x)
        halve w x y fuel u (a / 2) (b / 2)
      else do
        let a ← chkS w (a - y)
        let b ← chkS w (b + x)
        halve w x y fuel u (a / 2) (b / 2)
    else some (u, a, b)

/-- algebra/src/utils/gcd.rs 86-128: the main loop. -/
def egcdLoop (w : Nat) (x y : Int) :
    Nat → Nat → Nat → Int → Int → Int → Int → Option (Int × Int × Nat)
  | 0, _, _, _, _, _, _ => none
  | fuel + 1, u, v, a, b, c, d => do
    let (u, a, b) ← halve w x y u u a b
    let (v, c, d) ← halve w x y v v c d
    if v ≤ u then
      let u := u - v
      let a ← chkS w (a - c)
      let b ← chkS w (b - d)
      if u = 0 then return (c, d, v) else egcdLoop w x y fuel u v a b c d
    else
      let v := v - u
      let c ← chkS w (c - a)
      let d ← chkS w (d - b)
      if u = 0 then return (c, d, v) else egcdLoop w x y fuel u v a b c d

/-- algebra/src/utils/gcd.rs 66-129: `extended_gcd`. -/
def extendedGcd (w x y : Nat) : Option (Int × Int × Nat) :=
  if x = 0 ∨ y = 0 then some (0, 0, 0)
  else do
    let shift := trailingZeros w (x ||| y)
    let x ← shrC w x shift
    let y ← shrC w y shift
    let g ← shlC w 1 shift
    let (c, d, v) ← egcdLoop w (toSigned w x) (toSigned w y) (x + y) x y 1 0 0 1
    let g ← mulC w g v
    return (c, d, g)

/-- algebra/src/reduce/macros.rs 92-112: `try_inv_reduce`. The outer option is a panic, the
inner one is `Ok`/`Err`. -/
def tryInvReduce (w a m : Nat) : Option (Option Nat) :=
  if a < m then do
    let (_, inv, g) ← extendedGcd w m a
    if g = 1 then
      if 0 < inv then return some (ofSigned w inv)
      else do
        let s ← chkS w (inv + toSigned w m)
        return some (ofSigned w s)
    else return none
  else none

/-- algebra/src/reduce/macros.rs 75-90: `inv_reduce`; the failed `assert_eq!` is `none`. -/
def invReduce (w a m : Nat) : Option Nat :=
  if a < m then do
    let (_, inv, g) ← extendedGcd w m a
    if g = 1 then
      if 0 < inv then return ofSigned w inv
      else do
        let s ← chkS w (inv + toSigned w m)
        return ofSigned w s
    else none
  else none

end Gcd
end Verif
