import Verif.SpecRGSW
import Verif.SpecElementwise
import Verif.Model.Elementwise
import Mathlib.Algebra.BigOperators.Fin
import Mathlib.Algebra.Order.BigOperators.Group.Finset

/-!
# Programs over ring ciphertexts

A client combines ring ciphertexts and RGSW ciphertexts, in coefficient and in transform form, with the
public operations. `CtExpr` is the language of these programs and `run` executes one with the modelled
operations. `message`, `weight` and `noise` are computed from the program and from what is known about
the inputs, without looking at any ciphertext: the message is in the ring `ZMod q [X] / (X^n + 1)`, the
weight bounds the sum of the absolute values of the coefficients of an RGSW message, the noise bounds
the absolute value of the coefficients of the errors.
-/

namespace Verif.Spec

/-- The coefficients are the residues of integers whose absolute values have sum at most `N`. -/
def Rq.Weight {q n : Nat} (N : Nat) (p : Rq (ZMod q) n) : Prop :=
  ∃ z : Fin n → ℤ, ∑ i, |z i| ≤ N ∧ ∀ i, (z i : ZMod q) = p.co i

/-- The sum of the absolute values of the centred residues of a list of words below `q`. -/
def l1 (q : Nat) (l : List Nat) : Nat := (l.map fun x => min x (q - x)).sum

/-- The four types of ciphertexts. -/
inductive Kind
  | rlwe
  | nttRlwe
  | rgsw
  | nttRgsw

/-- The type of the model for each. -/
def Kind.Ct : Kind → Type
  | .rlwe => RLWE
  | .nttRlwe => NTTRLWE
  | .rgsw => RGSW
  | .nttRgsw => NTTRGSW

/-- Programs over ciphertexts. Polynomials are given by coefficients and transformed when used. -/
inductive CtExpr : Kind → Type
  | input {κ : Kind} (i : Nat) : CtExpr κ
  | add (a b : CtExpr .rlwe) : CtExpr .rlwe
  | sub (a b : CtExpr .rlwe) : CtExpr .rlwe
  /-- `a + X^r b` -/
  | addMono (a b : CtExpr .rlwe) (r : Nat) : CtExpr .rlwe
  /-- `(X^r - 1) a` -/
  | monoSubOne (a : CtExpr .rlwe) (r : Nat) : CtExpr .rlwe
  | toCoeff (a : CtExpr .nttRlwe) : CtExpr .rlwe
  /-- external product with an RGSW ciphertext -/
  | ext (a : CtExpr .rlwe) (g : CtExpr .rgsw) : CtExpr .rlwe
  | extNtt (a : CtExpr .rlwe) (g : CtExpr .nttRgsw) : CtExpr .rlwe
  | toNtt (a : CtExpr .rlwe) : CtExpr .nttRlwe
  | addNtt (a b : CtExpr .nttRlwe) : CtExpr .nttRlwe
  | subNtt (a b : CtExpr .nttRlwe) : CtExpr .nttRlwe
  /-- product of a ciphertext in coefficient form with a polynomial -/
  | mulPoly (a : CtExpr .rlwe) (p : List Nat) : CtExpr .nttRlwe
  | mulPolyNtt (a : CtExpr .nttRlwe) (p : List Nat) : CtExpr .nttRlwe
  /-- `a + b * p` -/
  | addMulPoly (a b : CtExpr .nttRlwe) (p : List Nat) : CtExpr .nttRlwe
  | addG (g h : CtExpr .rgsw) : CtExpr .rgsw
  | subG (g h : CtExpr .rgsw) : CtExpr .rgsw
  /-- product of two RGSW ciphertexts -/
  | mulG (g h : CtExpr .rgsw) : CtExpr .rgsw
  | mulGNtt (g : CtExpr .rgsw) (h : CtExpr .nttRgsw) : CtExpr .rgsw
  | toNttG (g : CtExpr .rgsw) : CtExpr .nttRgsw
  | addNttG (g h : CtExpr .nttRgsw) : CtExpr .nttRgsw
  | subNttG (g h : CtExpr .nttRgsw) : CtExpr .nttRgsw
  | mulPolyG (g : CtExpr .nttRgsw) (p : List Nat) : CtExpr .nttRgsw
  | addMulPolyG (g h : CtExpr .nttRgsw) (p : List Nat) : CtExpr .nttRgsw

/-- What is known about the inputs: for each type and index the message, the bound on the errors, and
for RGSW ciphertexts the weight of the message. -/
structure Known (q n : Nat) where
  message : Kind → Nat → Rq (ZMod q) n
  noise : Kind → Nat → Nat
  weight : Kind → Nat → Nat

namespace CtExpr

/-- The message of the result. -/
def message {q n : Nat} (Γ : Known q n) : {κ : Kind} → CtExpr κ → Rq (ZMod q) n
  | κ, input i => Γ.message κ i
  | _, add a b => a.message Γ + b.message Γ
  | _, sub a b => a.message Γ - b.message Γ
  | _, addMono a b r => a.message Γ + Rq.mono r * b.message Γ
  | _, monoSubOne a r => (Rq.mono r - 1) * a.message Γ
  | _, toCoeff a => a.message Γ
  | _, ext a g => g.message Γ * a.message Γ
  | _, extNtt a g => g.message Γ * a.message Γ
  | _, toNtt a => a.message Γ
  | _, addNtt a b => a.message Γ + b.message Γ
  | _, subNtt a b => a.message Γ - b.message Γ
  | _, mulPoly a p => a.message Γ * Rq.ofWords q n p
  | _, mulPolyNtt a p => a.message Γ * Rq.ofWords q n p
  | _, addMulPoly a b p => a.message Γ + b.message Γ * Rq.ofWords q n p
  | _, addG g h => g.message Γ + h.message Γ
  | _, subG g h => g.message Γ - h.message Γ
  | _, mulG g h => g.message Γ * h.message Γ
  | _, mulGNtt g h => g.message Γ * h.message Γ
  | _, toNttG g => g.message Γ
  | _, addNttG g h => g.message Γ + h.message Γ
  | _, subNttG g h => g.message Γ - h.message Γ
  | _, mulPolyG g p => g.message Γ * Rq.ofWords q n p
  | _, addMulPolyG g h p => g.message Γ + h.message Γ * Rq.ofWords q n p

/-- A bound on the weight of the message of an RGSW ciphertext. -/
def weight {q n : Nat} (Γ : Known q n) : {κ : Kind} → CtExpr κ → Nat
  | κ, input i => Γ.weight κ i
  | _, addG g h => g.weight Γ + h.weight Γ
  | _, subG g h => g.weight Γ + h.weight Γ
  | _, mulG g h => g.weight Γ * h.weight Γ
  | _, mulGNtt g h => g.weight Γ * h.weight Γ
  | _, toNttG g => g.weight Γ
  | _, addNttG g h => g.weight Γ + h.weight Γ
  | _, subNttG g h => g.weight Γ + h.weight Γ
  | _, mulPolyG g p => g.weight Γ * l1 q p
  | _, addMulPolyG g h p => g.weight Γ + h.weight Γ * l1 q p
  | _, _ => 0

/-- The error that an external product adds, for a gadget of `len` digits of `bits` bits and RGSW
errors of at most `e`. -/
def gadgetNoise (n bits len e : Nat) : Nat := 2 * (len * (n * ((2 ^ bits - 1) * e)))

/-- A bound on the errors of the result, for a gadget of `len` digits of `bits` bits. -/
def noise {q n : Nat} (Γ : Known q n) (bits len : Nat) : {κ : Kind} → CtExpr κ → Nat
  | κ, input i => Γ.noise κ i
  | _, add a b => a.noise Γ bits len + b.noise Γ bits len
  | _, sub a b => a.noise Γ bits len + b.noise Γ bits len
  | _, addMono a b _ => a.noise Γ bits len + b.noise Γ bits len
  | _, monoSubOne a _ => 2 * a.noise Γ bits len
  | _, toCoeff a => a.noise Γ bits len
  | _, ext a g => g.weight Γ * a.noise Γ bits len + gadgetNoise n bits len (g.noise Γ bits len)
  | _, extNtt a g => g.weight Γ * a.noise Γ bits len + gadgetNoise n bits len (g.noise Γ bits len)
  | _, toNtt a => a.noise Γ bits len
  | _, addNtt a b => a.noise Γ bits len + b.noise Γ bits len
  | _, subNtt a b => a.noise Γ bits len + b.noise Γ bits len
  | _, mulPoly a p => l1 q p * a.noise Γ bits len
  | _, mulPolyNtt a p => l1 q p * a.noise Γ bits len
  | _, addMulPoly a b p => a.noise Γ bits len + l1 q p * b.noise Γ bits len
  | _, addG g h => g.noise Γ bits len + h.noise Γ bits len
  | _, subG g h => g.noise Γ bits len + h.noise Γ bits len
  | _, mulG g h => h.weight Γ * g.noise Γ bits len + gadgetNoise n bits len (h.noise Γ bits len)
  | _, mulGNtt g h => h.weight Γ * g.noise Γ bits len + gadgetNoise n bits len (h.noise Γ bits len)
  | _, toNttG g => g.noise Γ bits len
  | _, addNttG g h => g.noise Γ bits len + h.noise Γ bits len
  | _, subNttG g h => g.noise Γ bits len + h.noise Γ bits len
  | _, mulPolyG g p => l1 q p * g.noise Γ bits len
  | _, addMulPolyG g h p => g.noise Γ bits len + l1 q p * h.noise Γ bits len

/-- The ciphertext that the code computes from the inputs `ι`, `none` for a panic. The operations of
RGSW ciphertexts that need a destination get a copy of an operand, `mul_monic_monomial_sub_one_inplace`
gets a zero ciphertext; the results do not depend on the content (C35, C58). -/
def run (R : Ctx) (n : Nat) (ι : (κ : Kind) → Nat → κ.Ct) : {κ : Kind} → CtExpr κ → Option κ.Ct
  | κ, input i => some (ι κ i)
  | _, add a b => do RLWE.add R (← a.run R n ι) (← b.run R n ι)
  | _, sub a b => do RLWE.sub R (← a.run R n ι) (← b.run R n ι)
  | _, addMono a b r => do RLWE.addMulMonomial R (← a.run R n ι) (← b.run R n ι) n r
  | _, monoSubOne a r => do
    RLWE.mulMonomialSubOne R (← a.run R n ι) n r ⟨Poly.zero n, Poly.zero n⟩
  | _, toCoeff a => do NTTRLWE.toCoeff R (← a.run R n ι)
  | _, ext a g => do RLWE.mulRgsw R (← a.run R n ι) (← g.run R n ι)
  | _, extNtt a g => do RLWE.mulNttRgsw R (← a.run R n ι) (← g.run R n ι)
  | _, toNtt a => do RLWE.toNtt R (← a.run R n ι)
  | _, addNtt a b => do NTTRLWE.add R (← a.run R n ι) (← b.run R n ι)
  | _, subNtt a b => do NTTRLWE.sub R (← a.run R n ι) (← b.run R n ι)
  | _, mulPoly a p => do RLWE.mulNtt R (← a.run R n ι) (← Poly.toNtt R.w R.M R.tbl p)
  | _, mulPolyNtt a p => do NTTRLWE.mulNtt R (← a.run R n ι) (← Poly.toNtt R.w R.M R.tbl p)
  | _, addMulPoly a b p => do
    NTTRLWE.addMul R (← a.run R n ι) (← b.run R n ι) (← Poly.toNtt R.w R.M R.tbl p)
  | _, addG g h => do
    let x ← g.run R n ι
    RGSW.addInplace R x (← h.run R n ι) x
  | _, subG g h => do
    let x ← g.run R n ι
    RGSW.subInplace R x (← h.run R n ι) x
  | _, mulG g h => do RGSW.mulSmall R (← g.run R n ι) (← h.run R n ι)
  | _, mulGNtt g h => do RGSW.mulSmallNtt R (← g.run R n ι) (← h.run R n ι)
  | _, toNttG g => do NTTRGSW.ofRgsw R (← g.run R n ι)
  | _, addNttG g h => do
    let x ← g.run R n ι
    NTTRGSW.addInplace R x (← h.run R n ι) x
  | _, subNttG g h => do
    let x ← g.run R n ι
    NTTRGSW.subInplace R x (← h.run R n ι) x
  | _, mulPolyG g p => do NTTRGSW.mulNttAssign R (← g.run R n ι) (← Poly.toNtt R.w R.M R.tbl p)
  | _, addMulPolyG g h p => do
    NTTRGSW.addMulNtt R (← g.run R n ι) (← h.run R n ι) (← Poly.toNtt R.w R.M R.tbl p)

/-- The powers of `X` are at most `2n`, the polynomials have `n` coefficients below `q`. -/
def Ok (q n : Nat) : {κ : Kind} → CtExpr κ → Prop
  | _, input _ => True
  | _, add a b => a.Ok q n ∧ b.Ok q n
  | _, sub a b => a.Ok q n ∧ b.Ok q n
  | _, addMono a b r => a.Ok q n ∧ b.Ok q n ∧ r ≤ 2 * n
  | _, monoSubOne a r => a.Ok q n ∧ r ≤ 2 * n
  | _, toCoeff a => a.Ok q n
  | _, ext a g => a.Ok q n ∧ g.Ok q n
  | _, extNtt a g => a.Ok q n ∧ g.Ok q n
  | _, toNtt a => a.Ok q n
  | _, addNtt a b => a.Ok q n ∧ b.Ok q n
  | _, subNtt a b => a.Ok q n ∧ b.Ok q n
  | _, mulPoly a p => a.Ok q n ∧ Reduced q n p
  | _, mulPolyNtt a p => a.Ok q n ∧ Reduced q n p
  | _, addMulPoly a b p => a.Ok q n ∧ b.Ok q n ∧ Reduced q n p
  | _, addG g h => g.Ok q n ∧ h.Ok q n
  | _, subG g h => g.Ok q n ∧ h.Ok q n
  | _, mulG g h => g.Ok q n ∧ h.Ok q n
  | _, mulGNtt g h => g.Ok q n ∧ h.Ok q n
  | _, toNttG g => g.Ok q n
  | _, addNttG g h => g.Ok q n ∧ h.Ok q n
  | _, subNttG g h => g.Ok q n ∧ h.Ok q n
  | _, mulPolyG g p => g.Ok q n ∧ Reduced q n p
  | _, addMulPolyG g h p => g.Ok q n ∧ h.Ok q n ∧ Reduced q n p

end CtExpr

/-- The client's selection between two ciphertexts by an RGSW ciphertext of a bit: `y + g * (x - y)`. -/
def select (R : Ctx) (g : NTTRGSW) (x y : RLWE) : Option RLWE := do
  let d ← RLWE.sub R x y
  let p ← RLWE.mulNttRgsw R d g
  RLWE.add R y p

/-- The client's look-up in a table of `2^d` ciphertexts by `d` RGSW ciphertexts of bits, the most
significant one first; `i` is the number read so far. -/
def lookup (R : Ctx) (table : Nat → RLWE) : List NTTRGSW → Nat → Option RLWE
  | [], i => some (table i)
  | g :: gs, i => do
    let x ← lookup R table gs (2 * i + 1)
    let y ← lookup R table gs (2 * i)
    select R g x y

/-- The number with the given bits, most significant first, after the bits of `i`. -/
def ofBits : List Bool → Nat → Nat
  | [], i => i
  | b :: bs, i => ofBits bs (2 * i + b.toNat)

/-- A ciphertext of the message `m` under the ring key `s` with errors of at most `E`; for RGSW
ciphertexts of digits of `bits` bits, with a message of weight at most `N`. -/
def IsCiphertext (R : Ctx) (q n bits : Nat) (s m : Rq (ZMod q) n) (E N : Nat) : (κ : Kind) → κ.Ct → Prop
  | .rlwe, c => ∃ e, Rq.Bounded E e ∧ RLWE.HasPhase q n s c (m + e)
  | .nttRlwe, c => ∃ e, Rq.Bounded E e ∧ NTTRLWE.HasPhase R q q n s c (m + e)
  | .rgsw, c => m.Weight N ∧ ∃ e0 e1, (∀ j, Rq.Bounded E (e0 j)) ∧ (∀ j, Rq.Bounded E (e1 j)) ∧
      RGSW.Encrypts R.w q n bits s m e0 e1 c
  | .nttRgsw, c => m.Weight N ∧ ∃ e0 e1, (∀ j, Rq.Bounded E (e0 j)) ∧ (∀ j, Rq.Bounded E (e1 j)) ∧
      NTTRGSW.Encrypts R q n bits s m e0 e1 c

end Verif.Spec
