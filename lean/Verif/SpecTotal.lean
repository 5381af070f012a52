import Verif.Model.Session

/-!
# Well-formed ciphertexts
-/

namespace Verif

/-- A ciphertext of `n + 1` words of width `w`, with any content. -/
def Spec.CipherWords (w n : Nat) (c : LWE) : Prop := (c.a.length = n ∧ ∀ x ∈ c.a, x < 2 ^ w) ∧ c.b < 2 ^ w

/-- The ciphertext with every word reduced modulo `q`. -/
def Spec.residues (q : Nat) (c : LWE) : LWE := ⟨c.a.map (· % q), c.b % q⟩

/-- The message whose encoding is nearest to the phase `p`, for messages modulo `t`. -/
def Spec.nearestMessage (t q p : Nat) : Nat := (2 * t * p + q) / (2 * q) % t

/-- The numbers of the ciphertexts a call uses. -/
def Call.uses : Call → List Nat
  | .encrypt _ _ _ => []
  | .not i => [i]
  | .nand i j => [i, j]
  | .and i j => [i, j]
  | .or i j => [i, j]
  | .nor i j => [i, j]
  | .xor i j => [i, j]
  | .xnor i j => [i, j]
  | .majority i j k => [i, j, k]
  | .mux i j k => [i, j, k]
  | .decrypt i => [i]
  | .decryptWithNoise i => [i]

/-- A call that makes a ciphertext, with admissible randomness: a mask of enough words below `q`, and a deviate that is
not below `-q`. -/
def Call.Makes (n q : Nat) : Call → Prop
  | .encrypt _ mask z => (n ≤ mask.length ∧ ∀ x ∈ mask, x < q) ∧ -(q : ℤ) ≤ z
  | .decrypt _ => False
  | .decryptWithNoise _ => False
  | _ => True

/-- A history of encryptions and gates that uses only ciphertexts that exist; `s` are there at the beginning. -/
def Call.History (n q : Nat) : Nat → List Call → Prop
  | _, [] => True
  | s, x :: xs => x.Makes n q ∧ (∀ i ∈ x.uses, i < s) ∧ Call.History n q (s + 1) xs

end Verif
