import Verif.SpecWrongKey

/-! # Specification of attacks with a decryption oracle -/

namespace Verif.Spec

/-- A ciphertext of dimension `n` that nobody encrypted: the mask is zero but for the word `Δ` at `j`, the body is `v Δ`. -/
def probe (Δ n j v : Nat) : LWE := ⟨(List.replicate n 0).set j Δ, v * Δ⟩

/-- The key, from the replies of Boolean decryption to `n` probes. -/
def recoverKey (q Δ n : Nat) (oracle : LWE → Option Nat) : List Nat :=
  (List.range n).map fun j => match oracle (probe Δ n j 1) with
    | some 1 => 0
    | some _ => 1
    | none => q - 1

/-- The key, from the knowledge which of `2 n` decryptions panicked. -/
def recoverKeyFromPanics (q Δ n : Nat) (panics : LWE → Bool) : List Nat :=
  (List.range n).map fun j =>
    if panics (probe Δ n j 1) then q - 1 else if panics (probe Δ n j 2) then 0 else 1

end Verif.Spec
