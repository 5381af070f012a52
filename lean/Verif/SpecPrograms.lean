import Verif.Lemmas.Ring
import Verif.Model.EvalForm
import Verif.Model.RLWE

/-!
# Programs over polynomials

A client of the polynomial types writes expressions that mix coefficient forms, transform forms and
transform forms with lazily reduced entries. `PolyExpr` is the language of these expressions, `run`
executes one with the modelled operations, and `value` is the element of `ZMod q [X] / (X^n + 1)` that
the same expression denotes. `value` uses the ring operations only.
-/

namespace Verif.Spec

/-- The three representations of a polynomial: `coeff` is `Polynomial`, `eval` is `NTTPolynomial`, and
`lazy` is an `NTTPolynomial` used as an accumulator of the functions with suffix `_fast`. -/
inductive Form
  | coeff
  | eval
  | lazy

/-- Expressions over polynomials. -/
inductive PolyExpr : Form → Type
  /-- a polynomial given by its coefficients -/
  | lit (l : List Nat) : PolyExpr .coeff
  | zero : PolyExpr .coeff
  | add (a b : PolyExpr .coeff) : PolyExpr .coeff
  | sub (a b : PolyExpr .coeff) : PolyExpr .coeff
  | neg (a : PolyExpr .coeff) : PolyExpr .coeff
  | scale (a : PolyExpr .coeff) (c : Nat) : PolyExpr .coeff
  | mul (a b : PolyExpr .coeff) : PolyExpr .coeff
  /-- `Polynomial * NTTPolynomial` -/
  | mulEval (a : PolyExpr .coeff) (b : PolyExpr .eval) : PolyExpr .coeff
  /-- `Polynomial::from(NTTPolynomial)` -/
  | toCoeff (a : PolyExpr .eval) : PolyExpr .coeff
  /-- `Polynomial::from(NTTPolynomial)` for a lazily reduced accumulator -/
  | finish (a : PolyExpr .lazy) : PolyExpr .coeff
  | evalZero : PolyExpr .eval
  | evalAdd (a b : PolyExpr .eval) : PolyExpr .eval
  | evalSub (a b : PolyExpr .eval) : PolyExpr .eval
  | evalNeg (a : PolyExpr .eval) : PolyExpr .eval
  | evalScale (a : PolyExpr .eval) (c : Nat) : PolyExpr .eval
  | evalMul (a b : PolyExpr .eval) : PolyExpr .eval
  /-- `NTTPolynomial * Polynomial` -/
  | evalMulCoeff (a : PolyExpr .eval) (b : PolyExpr .coeff) : PolyExpr .eval
  /-- `a + b * c` by `add_mul_assign` -/
  | evalAddMul (a b c : PolyExpr .eval) : PolyExpr .eval
  /-- `NTTPolynomial::from(Polynomial)` -/
  | toEval (a : PolyExpr .coeff) : PolyExpr .eval
  /-- an accumulator that starts from a reduced transform form -/
  | start (a : PolyExpr .eval) : PolyExpr .lazy
  /-- `a + b * c` by `add_mul_assign_fast` -/
  | accumulate (a : PolyExpr .lazy) (b c : PolyExpr .eval) : PolyExpr .lazy

namespace PolyExpr

/-- The element of the ring that an expression denotes. -/
def value (q n : Nat) : {f : Form} → PolyExpr f → Rq (ZMod q) n
  | _, lit l => Rq.ofWords q n l
  | _, zero => 0
  | _, add a b => a.value q n + b.value q n
  | _, sub a b => a.value q n - b.value q n
  | _, neg a => -a.value q n
  | _, scale a c => Rq.const (c : ZMod q) * a.value q n
  | _, mul a b => a.value q n * b.value q n
  | _, mulEval a b => a.value q n * b.value q n
  | _, toCoeff a => a.value q n
  | _, finish a => a.value q n
  | _, evalZero => 0
  | _, evalAdd a b => a.value q n + b.value q n
  | _, evalSub a b => a.value q n - b.value q n
  | _, evalNeg a => -a.value q n
  | _, evalScale a c => Rq.const (c : ZMod q) * a.value q n
  | _, evalMul a b => a.value q n * b.value q n
  | _, evalMulCoeff a b => a.value q n * b.value q n
  | _, evalAddMul a b c => a.value q n + b.value q n * c.value q n
  | _, toEval a => a.value q n
  | _, start a => a.value q n
  | _, accumulate a b c => a.value q n + b.value q n * c.value q n

/-- The words that the code computes for an expression, `none` for a panic. -/
def run (R : Ctx) (n : Nat) : {f : Form} → PolyExpr f → Option (List Nat)
  | _, lit l => some l
  | _, zero => some (Poly.zero n)
  | _, add a b => do Poly.add R.w R.M (← a.run R n) (← b.run R n)
  | _, sub a b => do Poly.sub R.w R.M (← a.run R n) (← b.run R n)
  | _, neg a => do Poly.neg R.M (← a.run R n)
  | _, scale a c => do Poly.mulScalar R.w R.M (← a.run R n) c
  | _, mul a b => do Poly.mul R.w R.M R.tbl (← a.run R n) (← b.run R n)
  | _, mulEval a b => do Poly.mulNtt R.w R.M R.tbl (← a.run R n) (← b.run R n)
  | _, toCoeff a => do Poly.ofNtt R.w R.M R.tbl (← a.run R n)
  | _, finish a => do Poly.ofNtt R.w R.M R.tbl (← a.run R n)
  | _, evalZero => some (Poly.zero n)
  | _, evalAdd a b => do EvalForm.addAssign R.w R.M (← a.run R n) (← b.run R n)
  | _, evalSub a b => do EvalForm.subAssign R.w R.M (← a.run R n) (← b.run R n)
  | _, evalNeg a => do EvalForm.neg R.M (← a.run R n)
  | _, evalScale a c => do EvalForm.mulScalar R.w R.M (← a.run R n) c
  | _, evalMul a b => do Poly.nttMul R.w R.M (← a.run R n) (← b.run R n)
  | _, evalMulCoeff a b => do EvalForm.mulNative R.w R.M R.tbl (← a.run R n) (← b.run R n)
  | _, evalAddMul a b c => do Poly.nttAddMul R.w R.M (← a.run R n) (← b.run R n) (← c.run R n)
  | _, toEval a => do Poly.toNtt R.w R.M R.tbl (← a.run R n)
  | _, start a => a.run R n
  | _, accumulate a b c => do Poly.nttAddMulFast R.w R.M (← a.run R n) (← b.run R n) (← c.run R n)

/-- The literals have `n` coefficients below `q`, the scalars are below `q`. -/
def Ok (q n : Nat) : {f : Form} → PolyExpr f → Prop
  | _, lit l => Reduced q n l
  | _, zero => True
  | _, add a b => a.Ok q n ∧ b.Ok q n
  | _, sub a b => a.Ok q n ∧ b.Ok q n
  | _, neg a => a.Ok q n
  | _, scale a c => a.Ok q n ∧ c < q
  | _, mul a b => a.Ok q n ∧ b.Ok q n
  | _, mulEval a b => a.Ok q n ∧ b.Ok q n
  | _, toCoeff a => a.Ok q n
  | _, finish a => a.Ok q n
  | _, evalZero => True
  | _, evalAdd a b => a.Ok q n ∧ b.Ok q n
  | _, evalSub a b => a.Ok q n ∧ b.Ok q n
  | _, evalNeg a => a.Ok q n
  | _, evalScale a c => a.Ok q n ∧ c < q
  | _, evalMul a b => a.Ok q n ∧ b.Ok q n
  | _, evalMulCoeff a b => a.Ok q n ∧ b.Ok q n
  | _, evalAddMul a b c => a.Ok q n ∧ b.Ok q n ∧ c.Ok q n
  | _, toEval a => a.Ok q n
  | _, start a => a.Ok q n
  | _, accumulate a b c => a.Ok q n ∧ b.Ok q n ∧ c.Ok q n

end PolyExpr

/-- The bound on the words of a representation. -/
def Form.bound (q : Nat) : Form → Nat
  | .coeff => q
  | .eval => q
  | .lazy => 2 * q

end Verif.Spec
