import Verif.SpecWrongKey
import Verif.SpecBootstrap

/-! # Specification of gates with the evaluation key of another secret key -/

namespace Verif.Spec

/-- The bootstrapped gates of two and three operands, with one operand left open and the others fixed. -/
def openGates (K : EvalKey) (x y : LWE) : List (LWE → Option LWE) :=
  [fun c => K.nand c x, fun c => K.nand x c, fun c => K.and c x, fun c => K.and x c, fun c => K.or c x,
    fun c => K.or x c, fun c => K.nor c x, fun c => K.nor x c, fun c => K.xor c x, fun c => K.xor x c,
    fun c => K.xnor c x, fun c => K.xnor x c, fun c => K.majority c x y, fun c => K.majority x c y,
    fun c => K.majority x y c]

/-- A message is encrypted with the key `sk'`, the gate `g` is evaluated with the evaluation key `K`, and the result is
decrypted with the key `sk`. -/
noncomputable def gateWrong (K : EvalKey) (n : Nat) [NeZero (K.P.lwe K.w).q] (χ : PMF ℤ) (sk sk' : List Nat)
    (g : LWE → Option LWE) (v : Nat) : PMF (Option Nat) :=
  (encryptLaw (K.P.lwe K.w) n χ sk' v).map fun c => c.bind fun c => (g c).bind ((K.P.lwe K.w).decrypt .bool sk)

/-- A fair coin. -/
noncomputable def coin : PMF (Option Nat) := (uniformBelow 2).map some

/-- Digits -1, 0 and 1. -/
def SmallDigits (S : List ℤ) : Prop := ∀ s ∈ S, s = 0 ∨ s = 1 ∨ s = -1

end Verif.Spec
