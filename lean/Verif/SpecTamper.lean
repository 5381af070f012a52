import Verif.SpecWrongKey
import Verif.SpecLWE

/-! # Specification of changed ciphertexts -/

namespace Verif.Spec

/-- The words `x` and `y` differ modulo `q` by an integer of magnitude at most `β`. -/
def Near (q β x y : Nat) : Prop := ∃ e : ℤ, |e| ≤ β ∧ (y : ZMod q) = (x : ZMod q) + (e : ZMod q)

/-- The ciphertext `c'` is `c` after every word was changed by at most `β`; mask words at positions where the key is
zero may have changed arbitrarily. -/
structure Changed (q n β : Nat) (sk : List Nat) (c c' : LWE) : Prop where
  mask : ∀ j < n, sk.getD j 0 = 0 ∨ Near q β (c.a.getD j 0) (c'.a.getD j 0)
  body : Near q β c.b c'.b

/-- The number of key words that are not zero. -/
def keyWeight (sk : List Nat) : Nat := sk.countP (· ≠ 0)

/-- A ciphertext of `m` that everybody can make: no mask and no noise. -/
def publicCiphertext (t q n m : Nat) : LWE := ⟨List.replicate n 0, m * (q / t)⟩

end Verif.Spec
