import Verif.SpecLayers

/-!
# Arithmetic of numbers given by their bits

Lists of bits have the lowest bit first.
-/

namespace Verif

/-- The number with the given bits. -/
def Spec.number : List Nat → Nat
  | [] => 0
  | b :: bs => b + 2 * number bs

namespace Circuits

/-- The inputs with the numbers `s`, `s + 1`, ..., `s + n - 1`. -/
def inputs (s n : Nat) : List Circuit := (List.range' s n).map .input

/-- Addition with a carry. -/
def addCarry : List Circuit → List Circuit → Circuit → List Circuit
  | [], [], c => [c]
  | x :: xs, [], c => .xor x c :: addCarry xs [] (.and x c)
  | [], y :: ys, c => .xor y c :: addCarry [] ys (.and y c)
  | x :: xs, y :: ys, c => .xor (.xor x y) c :: addCarry xs ys (.or (.and x y) (.and (.xor x y) c))

/-- Addition. -/
def add : List Circuit → List Circuit → List Circuit
  | [], ys => ys
  | xs, [] => xs
  | x :: xs, y :: ys => .xor x y :: addCarry xs ys (.and x y)

/-- Multiplication by the bits of the second factor, one after the other, added to `hi`. -/
def mulFrom (xs : List Circuit) : List Circuit → List Circuit → List Circuit
  | hi, [] => hi
  | hi, y :: ys => match add hi (xs.map fun x => .and x y) with
    | [] => []
    | s :: hi => s :: mulFrom xs hi ys

/-- Multiplication. -/
def mul : List Circuit → List Circuit → List Circuit
  | x :: xs, y :: ys => .and x y :: mulFrom (x :: xs) (xs.map fun x => .and x y) ys
  | _, _ => []

/-- Comparison, if `r` compares the lower bits. -/
def lessFrom : List Circuit → List Circuit → Circuit → Circuit
  | x :: xs, y :: ys, r => lessFrom xs ys (.or (.and (.not x) y) (.and (.xnor x y) r))
  | _, _, r => r

/-- Comparison: whether the first number is less than the second. -/
def less : List Circuit → List Circuit → Circuit
  | x :: xs, y :: ys => lessFrom xs ys (.and (.not x) y)
  | _, _ => .xor (.input 0) (.input 0)

end Circuits
end Verif
