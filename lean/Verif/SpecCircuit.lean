import Verif.SpecBootstrap

/-!
# Boolean circuits, on bits and on ciphertexts
-/

namespace Verif
open Spec Props

/-- A circuit over numbered inputs, made of the gates of the evaluator. -/
inductive Circuit
  | input (i : Nat)
  | not (x : Circuit)
  | nand (x y : Circuit)
  | and (x y : Circuit)
  | or (x y : Circuit)
  | nor (x y : Circuit)
  | xor (x y : Circuit)
  | xnor (x y : Circuit)
  | majority (x y z : Circuit)
  | mux (x y z : Circuit)

namespace Circuit

/-- The value on bits. -/
def eval (b : Nat → Bool) : Circuit → Bool
  | input i => b i
  | not x => !x.eval b
  | nand x y => !(x.eval b && y.eval b)
  | and x y => x.eval b && y.eval b
  | or x y => x.eval b || y.eval b
  | nor x y => !(x.eval b || y.eval b)
  | xor x y => x.eval b != y.eval b
  | xnor x y => x.eval b == y.eval b
  | majority x y z => Spec.maj (x.eval b) (y.eval b) (z.eval b)
  | mux x y z => if x.eval b then y.eval b else z.eval b

/-- The calls of the evaluator on ciphertexts. -/
def run (K : EvalKey) (c : Nat → LWE) : Circuit → Option LWE
  | input i => some (c i)
  | not x => do K.not (← x.run K c)
  | nand x y => do K.nand (← x.run K c) (← y.run K c)
  | and x y => do K.and (← x.run K c) (← y.run K c)
  | or x y => do K.or (← x.run K c) (← y.run K c)
  | nor x y => do K.nor (← x.run K c) (← y.run K c)
  | xor x y => do K.xor (← x.run K c) (← y.run K c)
  | xnor x y => do K.xnor (← x.run K c) (← y.run K c)
  | majority x y z => do K.majority (← x.run K c) (← y.run K c) (← z.run K c)
  | mux x y z => do K.mux (← x.run K c) (← y.run K c) (← z.run K c)

/-- In the evaluation of the circuit on the inputs `c` the noises that occur in the bootstrappings are at most `L`. -/
def NoiseWithin (K : EvalKey) (Q k m : Nat) (sk z : List Nat) (S Z : List ℤ) (L : Level) (c : Nat → LWE) :
    Circuit → Prop
  | input _ => True
  | not x => x.NoiseWithin K Q k m sk z S Z L c
  | nand x y => x.NoiseWithin K Q k m sk z S Z L c ∧ y.NoiseWithin K Q k m sk z S Z L c ∧
    ∀ a b, x.run K c = some a → y.run K c = some b → K.SumNoise Q k m sk z S Z L Lut.nand a b
  | and x y => x.NoiseWithin K Q k m sk z S Z L c ∧ y.NoiseWithin K Q k m sk z S Z L c ∧
    ∀ a b, x.run K c = some a → y.run K c = some b → K.SumNoise Q k m sk z S Z L Lut.andMajority a b
  | or x y => x.NoiseWithin K Q k m sk z S Z L c ∧ y.NoiseWithin K Q k m sk z S Z L c ∧
    ∀ a b, x.run K c = some a → y.run K c = some b → K.SumNoise Q k m sk z S Z L Lut.or a b
  | nor x y => x.NoiseWithin K Q k m sk z S Z L c ∧ y.NoiseWithin K Q k m sk z S Z L c ∧
    ∀ a b, x.run K c = some a → y.run K c = some b → K.SumNoise Q k m sk z S Z L Lut.nor a b
  | xor x y => x.NoiseWithin K Q k m sk z S Z L c ∧ y.NoiseWithin K Q k m sk z S Z L c ∧
    ∀ a b, x.run K c = some a → y.run K c = some b → K.DiffNoise Q k m sk z S Z L Lut.xor a b
  | xnor x y => x.NoiseWithin K Q k m sk z S Z L c ∧ y.NoiseWithin K Q k m sk z S Z L c ∧
    ∀ a b, x.run K c = some a → y.run K c = some b → K.DiffNoise Q k m sk z S Z L Lut.xnor a b
  | majority x y w => x.NoiseWithin K Q k m sk z S Z L c ∧ y.NoiseWithin K Q k m sk z S Z L c ∧
    w.NoiseWithin K Q k m sk z S Z L c ∧ ∀ a b d, x.run K c = some a → y.run K c = some b →
      w.run K c = some d → K.MajNoise Q k m sk z S Z L a b d
  | mux x y w => x.NoiseWithin K Q k m sk z S Z L c ∧ y.NoiseWithin K Q k m sk z S Z L c ∧
    w.NoiseWithin K Q k m sk z S Z L c ∧ ∀ a b d, x.run K c = some a → y.run K c = some b →
      w.run K c = some d → K.MuxNoise Q k m sk z S Z L a b d

end Circuit

/-- `c` encrypts `b` with a noise of at most `η`. -/
def Spec.Encrypts (q : Nat) (sk : List Nat) (η : ℤ) (c : LWE) (b : Bool) : Prop :=
  LWEReduced q sk.length c ∧ ∃ e : ℤ, |e| ≤ η ∧ EncryptsBit q sk c b e

/-- The noise level `η` is stable if bootstrappings have noises of at most `L`: three ciphertexts of this level can be
added for a gate, and the result of a bootstrapping has it again. -/
structure Spec.Stable (steps : Steps) (Q k m : Nat) (L : Level) (η : ℤ) : Prop where
  nonneg : 0 ≤ L.inp
  gate : 24 * 2 ^ k * η + 2 * 2 ^ m * L.inp < 2 ^ k * 2 ^ m
  fresh : outError steps Q m L ≤ 4 * Q * η

end Verif
