import Verif.SpecKeySwitch
import Verif.SpecSampler
import Verif.SpecFailure
import Verif.SpecCircuit

/-!
# Specifications for the masks of switched ciphertexts
-/

namespace Verif.Spec

/-- The polynomials `p c j`, for `c < cnt` and `j < len`, have no common root among the roots of `X^n + 1`. -/
def NoCommonRoot {q n : Nat} (p : Nat → Nat → Rq (ZMod q) n) (cnt len : Nat) : Prop :=
  ∀ r : ZMod q, r ^ n = -1 → ∃ c < cnt, ∃ j < len, ∑ i ∈ Finset.range n, (p c j).seq i * r ^ i ≠ 0

/-- The digit `j` of the polynomial decomposed for chunk `c` when the RLWE ciphertext with mask `a` of degree
`N` is switched to degree `n`. -/
def switchDigit (q n N bits : Nat) (a : List Nat) (c j : Nat) : Rq (ZMod q) n :=
  digitPoly q n bits (switchWords q n (extractWords q N a) c) j

end Verif.Spec

namespace Verif
open Spec

/-- In the bootstrapping of `c` with the table `lut` the digits of the accumulator, which are multiplied with the
RLWE switching key, have no common root. -/
def EvalKey.Nondegenerate (K : EvalKey) (Q k : Nat) (c : LWE) (lut : List Nat) : Prop :=
  ∀ (c' : LWE) (acc : RLWE), K.switchIn c = some c' → K.accumulate c' lut = some acc →
    NoCommonRoot (switchDigit Q (2 ^ Nat.clog 2 K.P.n) (2 ^ k) K.P.keySwitchBits acc.a)
      (2 ^ (k - Nat.clog 2 K.P.n)) (rlweLevels K.R K.P Q)

/-- The same for a gate that bootstraps the sum of its inputs. -/
def EvalKey.SumNondegenerate (K : EvalKey) (Q k : Nat) (lut : Ctx → Nat → Nat → Option (List Nat))
    (c0 c1 : LWE) : Prop :=
  ∀ (O : ModOps) (c : LWE) (step : Nat) (l : List Nat), (K.P.lwe K.w).ops = some O →
    LWE.addRef O c0 c1 = some c → K.P.lutStep = some step → lut K.R K.P.ringDimension step = some l →
    K.Nondegenerate Q k c l

/-- The same for a gate that bootstraps twice the difference of its inputs. -/
def EvalKey.DiffNondegenerate (K : EvalKey) (Q k : Nat) (lut : Ctx → Nat → Nat → Option (List Nat))
    (c0 c1 : LWE) : Prop :=
  ∀ (O : ModOps) (c c' : LWE) (step : Nat) (l : List Nat), (K.P.lwe K.w).ops = some O →
    LWE.subRef O c0 c1 = some c → LWE.scalarMul O c 2 = some c' → K.P.lutStep = some step →
    lut K.R K.P.ringDimension step = some l → K.Nondegenerate Q k c' l

/-- The same for `majority`. -/
def EvalKey.MajNondegenerate (K : EvalKey) (Q k : Nat) (c0 c1 c2 : LWE) : Prop :=
  ∀ (O : ModOps) (c c' : LWE) (step : Nat) (l : List Nat), (K.P.lwe K.w).ops = some O →
    LWE.addRef O c0 c1 = some c → LWE.addInplace O c c2 = some c' → K.P.lutStep = some step →
    Lut.andMajority K.R K.P.ringDimension step = some l → K.Nondegenerate Q k c' l

namespace Circuit

/-- One gate with one bootstrapping, on inputs. -/
def OneGate : Circuit → Prop
  | nand (input _) (input _) => True
  | and (input _) (input _) => True
  | or (input _) (input _) => True
  | nor (input _) (input _) => True
  | xor (input _) (input _) => True
  | xnor (input _) (input _) => True
  | majority (input _) (input _) (input _) => True
  | _ => False

/-- In the bootstrapping of a single gate the digits of the accumulator have no common root. -/
def Nondegenerate (K : EvalKey) (Q k : Nat) (c : Nat → LWE) : Circuit → Prop
  | nand (input i) (input j) => K.SumNondegenerate Q k Lut.nand (c i) (c j)
  | and (input i) (input j) => K.SumNondegenerate Q k Lut.andMajority (c i) (c j)
  | or (input i) (input j) => K.SumNondegenerate Q k Lut.or (c i) (c j)
  | nor (input i) (input j) => K.SumNondegenerate Q k Lut.nor (c i) (c j)
  | xor (input i) (input j) => K.DiffNondegenerate Q k Lut.xor (c i) (c j)
  | xnor (input i) (input j) => K.DiffNondegenerate Q k Lut.xnor (c i) (c j)
  | majority (input i) (input j) (input l) => K.MajNondegenerate Q k (c i) (c j) (c l)
  | _ => True

end Circuit

end Verif
