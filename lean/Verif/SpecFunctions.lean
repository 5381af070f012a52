import Verif.SpecRenewed

/-!
# Schedules of circuits

The gates of a circuit in an order in which they can be evaluated one by one.
-/

namespace Verif
open Spec

namespace Circuit

/-- The number of gates. -/
def size : Circuit → Nat
  | input _ => 0
  | not x => x.size + 1
  | nand x y | and x y | or x y | nor x y | xor x y | xnor x y => x.size + y.size + 1
  | majority x y z | mux x y z => x.size + y.size + z.size + 1

/-- Gates of one or two operands only. -/
def Binary : Circuit → Prop
  | input _ => True
  | not x => x.Binary
  | nand x y | and x y | or x y | nor x y | xor x y | xnor x y => x.Binary ∧ y.Binary
  | majority _ _ _ | mux _ _ _ => False

/-- A gate after two schedules, each with the number of its result. -/
def thenGate (g : Circuit → Circuit → Circuit) (x y : List Circuit × Nat) : List Circuit × Nat :=
  (x.1 ++ y.1 ++ [g (input (x.2 + y.1.length)) (input y.2)], 0)

/-- The gates of a circuit in the order of evaluation, if `s` other ciphertexts come before the inputs, and the number of the
result after them. The result of each gate gets the number 0, and the numbers of all others grow by one. -/
def schedule : Circuit → Nat → List Circuit × Nat
  | input i, s => ([], s + i)
  | not x, s => ((x.schedule s).1 ++ [not (input (x.schedule s).2)], 0)
  | nand x y, s => thenGate nand (x.schedule s) (y.schedule (s + (x.schedule s).1.length))
  | and x y, s => thenGate and (x.schedule s) (y.schedule (s + (x.schedule s).1.length))
  | or x y, s => thenGate or (x.schedule s) (y.schedule (s + (x.schedule s).1.length))
  | nor x y, s => thenGate nor (x.schedule s) (y.schedule (s + (x.schedule s).1.length))
  | xor x y, s => thenGate xor (x.schedule s) (y.schedule (s + (x.schedule s).1.length))
  | xnor x y, s => thenGate xnor (x.schedule s) (y.schedule (s + (x.schedule s).1.length))
  | majority _ _ _, _ | mux _ _ _, _ => ([], 0)

/-- The plan that evaluates one gate of the schedule in each layer. -/
def plan (X : Circuit) (t : Nat) (_ : Nat → LWE) : List Circuit := ((X.schedule 0).1[t]?).toList

end Circuit

/-- The last result that was computed decrypts to the bit `v`. -/
def Spec.LastIs (decrypt : LWE → Option Nat) (v : Bool) (log : List (List (Circuit × LWE))) : Prop :=
  ∃ X out, log.getLast? = some [(X, out)] ∧ decrypt out = some v.toNat

/-- A circuit for the function `f` of `n` bits: a decision on the last bit between the functions of the other bits. A
constant is the exclusive or of the first bit with itself, or its negation. -/
def Spec.decide : (n : Nat) → ((Fin n → Bool) → Bool) → Circuit
  | 0, f => if f Fin.elim0 then .xnor (.input 0) (.input 0) else .xor (.input 0) (.input 0)
  | n + 1, f => .or (.and (.input n) (decide n fun b => f (Fin.snoc (α := fun _ => Bool) b true)))
      (.and (.not (.input n)) (decide n fun b => f (Fin.snoc (α := fun _ => Bool) b false)))

end Verif
