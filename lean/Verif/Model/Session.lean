import Verif.Model.SecretKey

/-!
# Applications of the Boolean scheme

`bool/src/key_gen.rs`, `bool/src/encrypt.rs`, `bool/src/decrypt.rs`, the wrapper `Evaluator` of
`bool/src/bfhe/evaluate.rs` and `fhe_core/src/utils.rs`. An application generates the keys and then calls
the encryptor, the evaluator and the decryptor in any order on the ciphertexts it has so far.
-/

namespace Verif

/-! ## The gates on bits of `ut` -/

namespace Util

/-- fhe_core/src/utils.rs 5-7: `not`. -/
def not (a : Bool) : Bool := !a

/-- fhe_core/src/utils.rs 11-13: `and`, with the operator `&`. -/
def and (a b : Bool) : Bool := Bool.and a b

/-- fhe_core/src/utils.rs 17-19: `nand`. -/
def nand (a b : Bool) : Bool := not (and a b)

/-- fhe_core/src/utils.rs 23-25: `or`, with the operator `|`. -/
def or (a b : Bool) : Bool := Bool.or a b

/-- fhe_core/src/utils.rs 29-31: `nor`. -/
def nor (a b : Bool) : Bool := not (or a b)

/-- fhe_core/src/utils.rs 35-37: `xor`, with the operator `^`. -/
def xor (a b : Bool) : Bool := Bool.xor a b

/-- fhe_core/src/utils.rs 41-43: `xnor`. -/
def xnor (a b : Bool) : Bool := not (xor a b)

/-- fhe_core/src/utils.rs 47-49: `majority`. -/
def majority (a b c : Bool) : Bool := Bool.or (Bool.or (Bool.and a b) (Bool.and b c)) (Bool.and a c)

end Util

/-- bool/src/key_gen.rs 13-18: `KeyGen::generate_secret_key`. -/
def KeyGen.generateSecretKey (R : Ctx) (P : Params) (d : KeyDraws) : Option KeyPack := KeyPack.new R P d

/-- bool/src/encrypt.rs 9-17 and bool/src/decrypt.rs 8-16: `Encryptor` and `Decryptor` keep a copy of the key
pack, bool/src/bfhe/evaluate.rs 126-138: `Evaluator` the evaluation key. `w` is the width of the ciphertext words. -/
structure App where
  w : Nat
  P : Params
  encryptor : KeyPack
  evaluator : EvalKey
  decryptor : KeyPack

/-- One call of an application. Ciphertexts are numbered in the order in which they were made; the uniform words and the
rounded normal deviate of an encryption are parameters.
bool/src/encrypt.rs 21, bool/src/decrypt.rs 20-28 and bool/src/bfhe/evaluate.rs 160-336. -/
inductive Call
  | encrypt (b : Bool) (mask : List Nat) (z : ℤ)
  | not (i : Nat)
  | nand (i j : Nat)
  | and (i j : Nat)
  | or (i j : Nat)
  | nor (i j : Nat)
  | xor (i j : Nat)
  | xnor (i j : Nat)
  | majority (i j k : Nat)
  | mux (i j k : Nat)
  | decrypt (i : Nat)
  | decryptWithNoise (i : Nat)

/-- The value returned to the application by a decryption. bool/src/decrypt.rs 20-28. -/
inductive Reply
  | value (v : Nat)
  | noisy (v e : Nat)

namespace App

/-- The first calls of an application: `KeyGen::generate_secret_key`, `Encryptor::new`, `Evaluator::new` and
`Decryptor::new`.
bool/src/key_gen.rs 13-18, bool/src/encrypt.rs 15, bool/src/bfhe/evaluate.rs 134 and bool/src/decrypt.rs 14. -/
def start (w : Nat) (R : Ctx) (P : Params) (dk : KeyDraws) (d : EvalDraws) : Option App := do
  let pack ← KeyGen.generateSecretKey R P dk
  let K ← EvalKey.new w R P pack d
  return ⟨w, P, pack, K, pack⟩

/-- bool/src/encrypt.rs 21-27: `encrypt`. -/
def encrypt (A : App) (b : Bool) (mask : List Nat) (z : ℤ) : Option LWE :=
  (A.P.lwe A.w).encrypt A.encryptor.lwe mask z b.toNat

/-- bool/src/decrypt.rs 20-22: `decrypt` to `bool`. -/
def decrypt (A : App) (c : LWE) : Option Nat := (A.P.lwe A.w).decrypt .bool A.decryptor.lwe c

/-- bool/src/decrypt.rs 26-28: `decrypt_with_noise` to `bool`. -/
def decryptWithNoise (A : App) (c : LWE) : Option (Nat × Nat) :=
  (A.P.lwe A.w).decryptWithNoise .bool A.decryptor.lwe c

/-- One call on the store `cs` of ciphertexts. A number without a ciphertext is an error of the application and gives
`none`. bool/src/encrypt.rs 21-27, bool/src/decrypt.rs 20-28 and bool/src/bfhe/evaluate.rs 160-336. -/
def exec (A : App) (cs : List LWE) : Call → Option (List LWE × Option Reply)
  | .encrypt b mask z => do
    let c ← A.encrypt b mask z
    return (cs ++ [c], none)
  | .not i => do
    let c ← A.evaluator.not (← cs[i]?)
    return (cs ++ [c], none)
  | .nand i j => do
    let c ← A.evaluator.nand (← cs[i]?) (← cs[j]?)
    return (cs ++ [c], none)
  | .and i j => do
    let c ← A.evaluator.and (← cs[i]?) (← cs[j]?)
    return (cs ++ [c], none)
  | .or i j => do
    let c ← A.evaluator.or (← cs[i]?) (← cs[j]?)
    return (cs ++ [c], none)
  | .nor i j => do
    let c ← A.evaluator.nor (← cs[i]?) (← cs[j]?)
    return (cs ++ [c], none)
  | .xor i j => do
    let c ← A.evaluator.xor (← cs[i]?) (← cs[j]?)
    return (cs ++ [c], none)
  | .xnor i j => do
    let c ← A.evaluator.xnor (← cs[i]?) (← cs[j]?)
    return (cs ++ [c], none)
  | .majority i j k => do
    let c ← A.evaluator.majority (← cs[i]?) (← cs[j]?) (← cs[k]?)
    return (cs ++ [c], none)
  | .mux i j k => do
    let c ← A.evaluator.mux (← cs[i]?) (← cs[j]?) (← cs[k]?)
    return (cs ++ [c], none)
  | .decrypt i => do
    let v ← A.decrypt (← cs[i]?)
    return (cs, some (.value v))
  | .decryptWithNoise i => do
    let (v, e) ← A.decryptWithNoise (← cs[i]?)
    return (cs, some (.noisy v e))

/-- A history of calls: the store and the replies.
bool/src/encrypt.rs 21-27, bool/src/decrypt.rs 20-28 and bool/src/bfhe/evaluate.rs 160-336. -/
def run (A : App) : List Call → List LWE → Option (List LWE × List Reply)
  | [], cs => some (cs, [])
  | x :: xs, cs => do
    let (cs, r) ← A.exec cs x
    let (cs, rs) ← A.run xs cs
    return (cs, r.toList ++ rs)

end App
end Verif
