import Verif.SpecPoly
import Mathlib.Data.Fintype.Basic

/-!
# Specifications for the ring `R[X] / (X^n + 1)`

Independent of the model: an element is its `n` coefficients, the product is the negacyclic
convolution of `Verif.SpecPoly`.
-/

namespace Verif.Spec

/-- The elements of `R[X] / (X^n + 1)`, as coefficient vectors. -/
structure Rq (R : Type) (n : Nat) where
  co : Fin n → R

namespace Rq
variable {R : Type} {n : Nat}

@[ext] theorem ext {p r : Rq R n} (h : ∀ i, p.co i = r.co i) : p = r := by
  cases p; cases r; congr; exact funext h

/-- The coefficients as a sequence, zero beyond `n`. -/
def seq [Zero R] (p : Rq R n) (i : Nat) : R := if h : i < n then p.co ⟨i, h⟩ else 0

/-- The first `n` terms of a sequence. -/
def ofSeq (n : Nat) (f : Nat → R) : Rq R n := ⟨fun i => f i.val⟩

instance [Zero R] : Zero (Rq R n) := ⟨⟨fun _ => 0⟩⟩
instance [Add R] : Add (Rq R n) := ⟨fun p r => ⟨fun i => p.co i + r.co i⟩⟩
instance [Sub R] : Sub (Rq R n) := ⟨fun p r => ⟨fun i => p.co i - r.co i⟩⟩
instance [Neg R] : Neg (Rq R n) := ⟨fun p => ⟨fun i => -p.co i⟩⟩
instance [CommRing R] : One (Rq R n) := ⟨⟨fun i => if i.val = 0 then 1 else 0⟩⟩
instance [CommRing R] : Mul (Rq R n) := ⟨fun p r => ofSeq n (negacyclicCoeff n p.seq r.seq)⟩

/-- The constant polynomial. -/
def const [Zero R] (c : R) : Rq R n := ⟨fun i => if i.val = 0 then c else 0⟩

/-- `X^d` modulo `X^n + 1`: coefficient `(-1)^(d / n)` at `d mod n`. -/
def mono [CommRing R] (d : Nat) : Rq R n :=
  ⟨fun i => if i.val = d % n then (if d / n % 2 = 0 then 1 else -1) else 0⟩

/-- The polynomial of a list of coefficient words. -/
def ofWords (q n : Nat) (l : List Nat) : Rq (ZMod q) n := ⟨fun i => Spec.coeff q l i.val⟩

/-- Every coefficient is the residue of an integer of absolute value at most `e`. -/
def Bounded {q n : Nat} (e : Nat) (p : Rq (ZMod q) n) : Prop :=
  ∀ i, ∃ z : ℤ, |z| ≤ e ∧ (z : ZMod q) = p.co i

end Rq
end Verif.Spec
