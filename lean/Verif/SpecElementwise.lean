import Verif.Model.RGSW

/-!
# Shapes of destinations

A destination has the right shape when its polynomials have `n` words and, for gadget ciphertexts,
when its basis is the given one and it has one element per digit. The words themselves are
arbitrary.
-/

namespace Verif

/-- Two polynomials of `n` words. -/
def RLWE.Shaped (n : Nat) (x : RLWE) : Prop := x.a.length = n ∧ x.b.length = n

@[inherit_doc RLWE.Shaped]
def NTTRLWE.Shaped (n : Nat) (x : NTTRLWE) : Prop := x.a.length = n ∧ x.b.length = n

/-- Basis `B`, one element per digit. -/
structure GadgetRLWE.Shaped (n : Nat) (B : Basis) (g : GadgetRLWE) : Prop where
  basis : g.basis = B
  len : g.data.length = B.decomposeLen
  elem : ∀ x ∈ g.data, x.Shaped n

@[inherit_doc GadgetRLWE.Shaped]
structure NTTGadgetRLWE.Shaped (n : Nat) (B : Basis) (g : NTTGadgetRLWE) : Prop where
  basis : g.basis = B
  len : g.data.length = B.decomposeLen
  elem : ∀ x ∈ g.data, x.Shaped n

/-- Both halves have the shape. -/
def RGSW.Shaped (n : Nat) (B : Basis) (g : RGSW) : Prop := g.cNegSM.Shaped n B ∧ g.cM.Shaped n B

@[inherit_doc RGSW.Shaped]
def NTTRGSW.Shaped (n : Nat) (B : Basis) (g : NTTRGSW) : Prop :=
  g.cNegSM.Shaped n B ∧ g.cM.Shaped n B

end Verif
