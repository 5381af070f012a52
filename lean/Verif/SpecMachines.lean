import Verif.SpecLayers

/-!
# Sequential machines

A machine has `n` bits of state and reads `k` bits in each step. Its next state is given by circuits whose inputs are the state
(numbers below `n`) and the bits that are read (numbers from `n` on).
-/

namespace Verif

/-- The circuit with other circuits in place of its inputs. -/
def Circuit.subst (σ : Nat → Circuit) : Circuit → Circuit
  | input i => σ i
  | not x => not (x.subst σ)
  | nand x y => nand (x.subst σ) (y.subst σ)
  | and x y => and (x.subst σ) (y.subst σ)
  | or x y => or (x.subst σ) (y.subst σ)
  | nor x y => nor (x.subst σ) (y.subst σ)
  | xor x y => xor (x.subst σ) (y.subst σ)
  | xnor x y => xnor (x.subst σ) (y.subst σ)
  | majority x y z => majority (x.subst σ) (y.subst σ) (z.subst σ)
  | mux x y z => mux (x.subst σ) (y.subst σ) (z.subst σ)

/-- The state after some steps of the machine `F`. The bits below `n` of `b` are the first state, and the following ones are
read, `k` in each step. -/
def Spec.machine (F : List Circuit) (n k : Nat) (b : Nat → Bool) : Nat → List Bool
  | 0 => (List.range n).map b
  | t + 1 => F.map fun X => X.eval fun i => if i < n then (machine F n k b t).getD i false else b (n + t * k + (i - n))

/-- The circuits of the state after some steps. -/
def Circuits.unroll (F : List Circuit) (n k : Nat) : Nat → List Circuit
  | 0 => (List.range n).map .input
  | t + 1 => F.map (Circuit.subst fun i => if i < n then (unroll F n k t).getD i (.input 0) else .input (n + t * k + (i - n)))

/-- The state after some steps, where `step` is any function that gives the next state. The bits of `b` are used as in `machine`. -/
def Spec.steps {n k : Nat} (step : (Fin n → Bool) → (Fin k → Bool) → Fin n → Bool) (b : Nat → Bool) : Nat → Fin n → Bool
  | 0 => fun i => b i
  | t + 1 => step (steps step b t) fun j => b (n + t * k + j)

end Verif
