import Verif.Model.Session
import Verif.SpecCircuit

/-!
# The same calls on bits
-/

namespace Verif
open Spec

/-- What a decryption has to return: a bit, or a bit with its noise. -/
inductive Answer
  | value (b : Bool)
  | noisy (b : Bool)

/-- A call on the store `bs` of bits: what an application that does not encrypt would compute. -/
def Call.plain (bs : List Bool) : Call → Option (List Bool × Option Answer)
  | .encrypt b _ _ => some (bs ++ [b], none)
  | .not i => do
    let x ← bs[i]?
    return (bs ++ [decide (x = false)], none)
  | .nand i j => do
    let x ← bs[i]?
    let y ← bs[j]?
    return (bs ++ [decide (x = false ∨ y = false)], none)
  | .and i j => do
    let x ← bs[i]?
    let y ← bs[j]?
    return (bs ++ [decide (x = true ∧ y = true)], none)
  | .or i j => do
    let x ← bs[i]?
    let y ← bs[j]?
    return (bs ++ [decide (x = true ∨ y = true)], none)
  | .nor i j => do
    let x ← bs[i]?
    let y ← bs[j]?
    return (bs ++ [decide (x = false ∧ y = false)], none)
  | .xor i j => do
    let x ← bs[i]?
    let y ← bs[j]?
    return (bs ++ [decide (x ≠ y)], none)
  | .xnor i j => do
    let x ← bs[i]?
    let y ← bs[j]?
    return (bs ++ [decide (x = y)], none)
  | .majority i j k => do
    let x ← bs[i]?
    let y ← bs[j]?
    let z ← bs[k]?
    return (bs ++ [decide (2 ≤ x.toNat + y.toNat + z.toNat)], none)
  | .mux i j k => do
    let x ← bs[i]?
    let y ← bs[j]?
    let z ← bs[k]?
    return (bs ++ [if x then y else z], none)
  | .decrypt i => do
    let x ← bs[i]?
    return (bs, some (.value x))
  | .decryptWithNoise i => do
    let x ← bs[i]?
    return (bs, some (.noisy x))

/-- A history of calls on bits. -/
def Call.plainRun : List Call → List Bool → Option (List Bool × List Answer)
  | [], bs => some (bs, [])
  | x :: xs, bs => do
    let (bs, r) ← x.plain bs
    let (bs, rs) ← Call.plainRun xs bs
    return (bs, r.toList ++ rs)

/-- The randomness of a call is admissible: masks are words below `q`, deviates at most `η`. -/
def Call.Ok (n q : Nat) (η : ℤ) : Call → Prop
  | .encrypt _ mask z => (n ≤ mask.length ∧ ∀ x ∈ mask, x < q) ∧ |z| ≤ η
  | _ => True

/-- The reply is the bit, and a reported noise is at most `η`. -/
def Reply.Correct (η : ℤ) : Reply → Answer → Prop
  | .value v, .value b => v = b.toNat
  | .noisy v e, .noisy b => v = b.toNat ∧ (e : ℤ) ≤ η
  | _, _ => False

end Verif
