import Verif.SpecFunctions

/-!
# Circuits layer by layer

The gates of the same depth form a layer. Equal parts of circuits are evaluated once.
-/

namespace Verif
open Spec

deriving instance DecidableEq for Circuit

namespace Circuit

/-- The circuits that the last gate is applied to. -/
def operands : Circuit → List Circuit
  | input _ => []
  | not x => [x]
  | nand x y | and x y | or x y | nor x y | xor x y | xnor x y => [x, y]
  | majority x y z | mux x y z => [x, y, z]

/-- The last gate with other operands. -/
def withOperands (f : Circuit → Circuit) : Circuit → Circuit
  | input i => input i
  | not x => not (f x)
  | nand x y => nand (f x) (f y)
  | and x y => and (f x) (f y)
  | or x y => or (f x) (f y)
  | nor x y => nor (f x) (f y)
  | xor x y => xor (f x) (f y)
  | xnor x y => xnor (f x) (f y)
  | majority x y z => majority (f x) (f y) (f z)
  | mux x y z => mux (f x) (f y) (f z)

/-- The greatest number of gates on a path from an input to the result. -/
def depth : Circuit → Nat
  | input _ => 0
  | not x => x.depth + 1
  | nand x y | and x y | or x y | nor x y | xor x y | xnor x y => max x.depth y.depth + 1
  | majority x y z | mux x y z => max x.depth (max y.depth z.depth) + 1

/-- The parts of a circuit. -/
def parts : Circuit → List Circuit
  | input i => [input i]
  | not x => not x :: x.parts
  | nand x y => nand x y :: (x.parts ++ y.parts)
  | and x y => and x y :: (x.parts ++ y.parts)
  | or x y => or x y :: (x.parts ++ y.parts)
  | nor x y => nor x y :: (x.parts ++ y.parts)
  | xor x y => xor x y :: (x.parts ++ y.parts)
  | xnor x y => xnor x y :: (x.parts ++ y.parts)
  | majority x y z => majority x y z :: (x.parts ++ y.parts ++ z.parts)
  | mux x y z => mux x y z :: (x.parts ++ y.parts ++ z.parts)

/-- Gates of at most `ary` operands, no `mux`. -/
def Upto (ary : Nat) : Circuit → Prop
  | input _ => True
  | not x => x.Upto ary
  | nand x y | and x y | or x y | nor x y | xor x y | xnor x y => 2 ≤ ary ∧ x.Upto ary ∧ y.Upto ary
  | majority x y z => 3 ≤ ary ∧ x.Upto ary ∧ y.Upto ary ∧ z.Upto ary
  | mux _ _ _ => False

end Circuit

namespace Circuits

/-- The parts of several circuits. -/
def parts (Xs : List Circuit) : List Circuit := Xs.flatMap Circuit.parts

/-- The greatest depth. -/
def depth (Xs : List Circuit) : Nat := (Xs.map Circuit.depth).foldr max 0

/-- The number of different parts that are gates. -/
def gates (Xs : List Circuit) : Nat := ((parts Xs).filter fun y => 0 < y.depth).dedup.length

/-- The different parts of depth `t`. -/
def level (Xs : List Circuit) (t : Nat) : List Circuit := ((parts Xs).filter fun y => y.depth = t).dedup

/-- The number of the result of a part after the parts of depth up to `t` have been evaluated. -/
def place (Xs : List Circuit) : Nat → Circuit → Nat
  | 0, .input i => i
  | 0, _ => 0
  | t + 1, y => if y.depth = t + 1 then (level Xs (t + 1)).idxOf y else (level Xs (t + 1)).length + place Xs t y

/-- The gates of layer `t`, on numbered ciphertexts. -/
def layer (Xs : List Circuit) (t : Nat) : List Circuit :=
  (level Xs (t + 1)).map (Circuit.withOperands fun y => .input (place Xs t y))

/-- The plan that evaluates all gates of one depth in each layer. -/
def plan (Xs : List Circuit) (t : Nat) (_ : Nat → LWE) : List Circuit := layer Xs t

/-- The results of the circuits after all layers, if the inputs are `c`. -/
def results (Xs : List Circuit) (c : Nat → LWE) (log : List (List (Circuit × LWE))) : List LWE :=
  Xs.map fun X => log.foldl (fun c l => prepend (l.map Prod.snd) c) c (place Xs (depth Xs) X)

end Circuits
end Verif
