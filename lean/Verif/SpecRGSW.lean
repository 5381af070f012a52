import Verif.SpecRLWE
import Verif.Lemmas.Ring
import Verif.Model.RGSW

/-!
# Specifications for gadget and RGSW ciphertexts

What it means for the data of the modelled ciphertext types to be ciphertexts, in terms of the ring
`ZMod q [X] / (X^n + 1)` only. `e` names the errors.
-/

namespace Verif
open Spec

/-- The words of `x` are two polynomials with `b - a * s = φ`. -/
structure RLWE.HasPhase (q n : Nat) (s : Rq (ZMod q) n) (x : RLWE) (φ : Rq (ZMod q) n) : Prop where
  a : Reduced q n x.a
  b : Reduced q n x.b
  phase : rlwePhase s (Rq.ofWords q n x.a) (Rq.ofWords q n x.b) = φ

/-- `x` has words below `K` and its inverse transform has phase `φ`. -/
structure NTTRLWE.HasPhase (R : Ctx) (K q n : Nat) (s : Rq (ZMod q) n) (x : NTTRLWE)
    (φ : Rq (ZMod q) n) : Prop where
  a : Reduced K n x.a
  b : Reduced K n x.b
  phase : ∃ y, NTTRLWE.toCoeff R x = some y ∧ y.HasPhase q n s φ

/-- Element `j` of the gadget ciphertext of `m` has phase `m * B^j + e j`, where `B = 2^bits`. -/
structure GadgetRLWE.Encrypts (w q n bits : Nat) (s m : Rq (ZMod q) n) (e : Nat → Rq (ZMod q) n)
    (g : GadgetRLWE) : Prop where
  basis : Basis.new w q bits = some g.basis
  len : g.data.length = g.basis.decomposeLen
  elem : ∀ j (h : j < g.data.length),
    g.data[j].HasPhase q n s (m * Rq.const ((2 ^ (bits * j) : Nat) : ZMod q) + e j)

/-- The same for a gadget ciphertext in transform form. -/
structure NTTGadgetRLWE.Encrypts (R : Ctx) (q n bits : Nat) (s m : Rq (ZMod q) n)
    (e : Nat → Rq (ZMod q) n) (g : NTTGadgetRLWE) : Prop where
  basis : Basis.new R.w q bits = some g.basis
  len : g.data.length = g.basis.decomposeLen
  elem : ∀ j (h : j < g.data.length),
    g.data[j].HasPhase R q q n s (m * Rq.const ((2 ^ (bits * j) : Nat) : ZMod q) + e j)

/-- An RGSW ciphertext of `m`: a gadget ciphertext of `-s * m` and one of `m`. -/
structure RGSW.Encrypts (w q n bits : Nat) (s m : Rq (ZMod q) n) (e0 e1 : Nat → Rq (ZMod q) n)
    (g : RGSW) : Prop where
  negSM : g.cNegSM.Encrypts w q n bits s (-s * m) e0
  m : g.cM.Encrypts w q n bits s m e1

/-- The same in transform form. -/
structure NTTRGSW.Encrypts (R : Ctx) (q n bits : Nat) (s m : Rq (ZMod q) n)
    (e0 e1 : Nat → Rq (ZMod q) n) (g : NTTRGSW) : Prop where
  negSM : g.cNegSM.Encrypts R q n bits s (-s * m) e0
  m : g.cM.Encrypts R q n bits s m e1

/-- The error of a gadget product with the words `l`: digit polynomial times error, summed. -/
noncomputable def Spec.gadgetError (q n bits len : Nat) [NeZero n] [Nontrivial (ZMod q)] (l : List Nat) (e : Nat → Rq (ZMod q) n) :
    Rq (ZMod q) n := ∑ j ∈ Finset.range len, digitPoly q n bits l j * e j

end Verif
