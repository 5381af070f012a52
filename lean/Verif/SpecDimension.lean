import Verif.SpecBootstrap

/-!
# Ciphertexts of another dimension than the key
-/

namespace Verif

/-- The first `n` words; missing words are 0. -/
def Spec.resizeWords (n : Nat) (l : List Nat) : List Nat := (l ++ List.replicate n 0).take n

/-- The ciphertext of dimension `n` with the same words as `c`, as far as they go; missing words are 0. -/
def Spec.resize (n : Nat) (c : LWE) : LWE := ⟨resizeWords n c.a, c.b⟩

/-- The ciphertext `old` after `out` has been stored into it word by word: its dimension stays, and if it is larger than
that of `out` so do the words beyond. -/
def Spec.storeInto (out old : LWE) : LWE := ⟨(out.a ++ old.a.drop out.a.length).take old.a.length, out.b⟩

/-- What a call on operands of dimension `d` returns, if the same call on the operands resized to the dimension `n` of
the key returns `out`: the same when the last step is the LWE key switching, and otherwise a ciphertext of dimension `d`
with the words of `out`, as far as both go. -/
def Spec.Misfit (steps : Steps) (n d : Nat) (out out' : LWE) : Prop :=
  out'.b = out.b ∧ (steps = .brMsKs → out' = out) ∧
  (steps ≠ .brMsKs → out'.a.length = d ∧ ∀ i < min n d, out'.a[i]? = out.a[i]?)

/-- The dimension of the results of calls on operands of dimension `d`. -/
def Spec.resultDim (K : EvalKey) (n d : Nat) : Nat := if K.P.steps = .brMsKs then n else d

/-- The gates of two operands. -/
def Spec.binaryGates (K : EvalKey) : List (LWE → LWE → Option LWE) := [K.nand, K.and, K.or, K.nor, K.xor, K.xnor]

end Verif
