import Verif.Model.Word

/-!
# Message encoding

`fhe_core/src/plaintext.rs`. Messages are natural numbers: a `bool` is 0 or 1.
-/

namespace Verif.Plain

/-- fhe_core/src/plaintext.rs 122-135: the message types, `bool` and the unsigned integers. -/
inductive Msg where
  | bool
  | uint (bits : Nat)
deriving DecidableEq

/-- fhe_core/src/plaintext.rs 22-62: `Shrink::shrink`; `none` is the panic. -/
def shrink : Msg → Nat → Option Nat
  | .bool, c => if c = 0 then some 0 else if c = 1 then some 1 else none
  | .uint bits, c => if c > 2 ^ bits - 1 then none else some c

/-- fhe_core/src/plaintext.rs 78-92: `encode` into a ciphertext word of width `w`; `t` and `q` are `u64`. -/
def encode (w : Nat) (message t q : Nat) : Option Nat :=
  if isPow2 q && isPow2 t then
    if message < t then do
      let cipher ← shlC 64 message (trailingZeros 64 (q / t))
      return trunc w cipher
    else none
  else none

/-- fhe_core/src/plaintext.rs 111-116: `decode` before the conversion to the message type. -/
def decodeRaw (cipher t q : Nat) : Option Nat :=
  if isPow2 q && isPow2 t then do
    let s ← subC (trailingZeros 64 (q / t)) 1
    let temp ← shrC 64 cipher s
    let half ← shrC 64 temp 1
    let sum ← addC 64 half (temp &&& 1)
    let m ← subC t 1
    return sum &&& m
  else none

/-- fhe_core/src/plaintext.rs 106-119: `decode`. -/
def decode (msg : Msg) (cipher t q : Nat) : Option Nat := do
  let decoded ← decodeRaw cipher t q
  shrink msg decoded

end Verif.Plain
