import Verif.SpecCircuit
import Verif.SpecTotal

/-!
# Laws of the gates that hold for ciphertexts, not only for bits
-/

namespace Verif

/-- The sum of two ciphertexts word by word, in the integers. -/
def Spec.plus (x y : LWE) : LWE := ⟨List.zipWith (· + ·) x.a y.a, x.b + y.b⟩

/-- The ciphertext of `n` zeros and phase zero: `false` without noise under every key. -/
def Spec.trivialFalse (n : Nat) : LWE := ⟨List.replicate n 0, 0⟩

namespace Circuit

/-- Two circuits that arise from each other by applying the following laws anywhere in them, any number of times:
the operands of `nand`, `and`, `or`, `nor` and `majority` may be permuted; two negations cancel; a negated selector
swaps the alternatives; `xor` and `xnor` of two negations are those of the swapped operands; `xor` (`xnor`) of
something with itself may be replaced by that of anything else with itself. -/
inductive Rewrites : Circuit → Circuit → Prop
  | refl (x) : Rewrites x x
  | symm {x y} : Rewrites x y → Rewrites y x
  | trans {x y z} : Rewrites x y → Rewrites y z → Rewrites x z
  | inNot {x x'} : Rewrites x x' → Rewrites (not x) (not x')
  | inNand {x x' y y'} : Rewrites x x' → Rewrites y y' → Rewrites (nand x y) (nand x' y')
  | inAnd {x x' y y'} : Rewrites x x' → Rewrites y y' → Rewrites (and x y) (and x' y')
  | inOr {x x' y y'} : Rewrites x x' → Rewrites y y' → Rewrites (or x y) (or x' y')
  | inNor {x x' y y'} : Rewrites x x' → Rewrites y y' → Rewrites (nor x y) (nor x' y')
  | inXor {x x' y y'} : Rewrites x x' → Rewrites y y' → Rewrites (xor x y) (xor x' y')
  | inXnor {x x' y y'} : Rewrites x x' → Rewrites y y' → Rewrites (xnor x y) (xnor x' y')
  | inMajority {x x' y y' z z'} : Rewrites x x' → Rewrites y y' → Rewrites z z' →
      Rewrites (majority x y z) (majority x' y' z')
  | inMux {x x' y y' z z'} : Rewrites x x' → Rewrites y y' → Rewrites z z' → Rewrites (mux x y z) (mux x' y' z')
  | nandComm (x y) : Rewrites (nand x y) (nand y x)
  | andComm (x y) : Rewrites (and x y) (and y x)
  | orComm (x y) : Rewrites (or x y) (or y x)
  | norComm (x y) : Rewrites (nor x y) (nor y x)
  | majorityFirst (x y z) : Rewrites (majority x y z) (majority y x z)
  | majorityLast (x y z) : Rewrites (majority x y z) (majority x z y)
  | notNot (x) : Rewrites (not (not x)) x
  | muxNot (x y z) : Rewrites (mux (not x) y z) (mux x z y)
  | xorNot (x y) : Rewrites (xor (not x) (not y)) (xor y x)
  | xnorNot (x y) : Rewrites (xnor (not x) (not y)) (xnor y x)
  | xorSelf (x y) : Rewrites (xor x x) (xor y y)
  | xnorSelf (x y) : Rewrites (xnor x x) (xnor y y)

end Circuit
end Verif
