import Verif.Model.Scratch

/-! # Specification of work spaces -/

namespace Verif.Spec
open Scratch

/-- The transform functions of a field work in place on a slice: what they write has the length of what they got.
(For the tables of this code base this is a theorem, for the external library it is the type of the functions.) -/
def SliceTables (R : Ctx) : Prop :=
  ∀ j t, R.tbl j = some t →
    (∀ v out, Table.transform R.w R.M t v = some out → out.length = v.length) ∧
    (∀ v out, Table.inverse R.w R.M t v = some out → out.length = v.length) ∧
    ∀ d len out, Table.negOneMonomial R.M t d len = some out → out.length = len

/-- Spaces made for dimension `n`, with any content. -/
def Spaces.Sized (n : Nat) (s : Spaces) : Prop := s.dec.length = n ∧ s.poly.length = n

/-- A ring ciphertext in coefficient form of dimension `n`, with any content. -/
def SizedRLWE (n : Nat) (x : RLWE) : Prop := x.a.length = n ∧ x.b.length = n

/-- A ring ciphertext in transform form of dimension `n`, with any content. -/
def SizedNTT (n : Nat) (x : NTTRLWE) : Prop := x.a.length = n ∧ x.b.length = n

/-- The work spaces of a caller, made for dimension `n`, with any content. -/
def Work.Sized (n : Nat) (W : Work) : Prop := Spaces.Sized n W.spaces ∧ SizedNTT n W.median

/-- New work spaces: lattice/src/utils/space.rs 32-36, 76-80 and 120-124 fill them with zeros. -/
def Work.fresh (n : Nat) : Work := ⟨Spaces.new n, NTTRLWE.zero n⟩

/-- A gadget ciphertext made for dimension `n` and basis `B`. -/
def SizedGadget (n : Nat) (B : Basis) (g : NTTGadgetRLWE) : Prop :=
  g.basis = B ∧ g.data.length = B.decomposeLen ∧ ∀ x ∈ g.data, SizedNTT n x

/-- An RGSW ciphertext made for dimension `n` and basis `B`. -/
def SizedRgsw (n : Nat) (B : Basis) (g : NTTRGSW) : Prop := SizedGadget n B g.cNegSM ∧ SizedGadget n B g.cM

end Verif.Spec
