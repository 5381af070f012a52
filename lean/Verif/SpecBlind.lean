import Verif.SpecRGSW
import Mathlib.Algebra.BigOperators.Group.List.Basic

/-!
# Specifications for blind rotation

Independent of the model of the rotation.
-/

namespace Verif
open Spec

/-- `X^z` modulo `X^n + 1` for an integer `z`; the order of `X` divides `2n`. -/
def Spec.Rq.monoZ {R : Type} [CommRing R] {n : Nat} (z : ℤ) : Rq R n :=
  Rq.mono (z % (2 * n : ℕ)).toNat

/-- The phase `b - <a, S>` of an LWE ciphertext under an integer key, as an integer. -/
def Spec.intPhase (S : List ℤ) (a : List Nat) (b : Nat) : ℤ :=
  b - (List.zipWith (fun (x : Nat) z => (x : ℤ) * z) a S).sum

/-- The integer of a binary key word. -/
def Spec.binaryDigit (s : Nat) : ℤ := if s = 0 then 0 else 1

/-- The integer of a ternary key word; `-1` is stored as the modulus minus one. -/
def Spec.ternaryDigit (s : Nat) : ℤ := if s = 1 then 1 else if s = 0 then 0 else -1

/-- `g` is an RGSW ciphertext of `m` with every error coefficient at most `E` in absolute value. -/
def NTTRGSW.EncryptsWithin (R : Ctx) (q n bits : Nat) (s m : Rq (ZMod q) n) (E : Nat)
    (g : NTTRGSW) : Prop :=
  ∃ e0 e1 : Nat → Rq (ZMod q) n, (∀ j, (e0 j).Bounded E) ∧ (∀ j, (e1 j).Bounded E) ∧
    g.Encrypts R q n bits s m e0 e1

/-- A blind rotation key of the bits `S`: element `i` encrypts bit `i`. -/
def BinaryKey (R : Ctx) (q n bits : Nat) (s : Rq (ZMod q) n) (E : Nat) (S : List ℤ)
    (key : List NTTRGSW) : Prop :=
  List.Forall₂ (fun g z => (z = 0 ∨ z = 1) ∧
    g.EncryptsWithin R q n bits s (Rq.const (z : ZMod q)) E) key S

/-- A blind rotation key of the ternary digits `S`: element `i` encrypts whether digit `i` is `1`, and
whether it is `-1`. -/
def TernaryKey (R : Ctx) (q n bits : Nat) (s : Rq (ZMod q) n) (E : Nat) (S : List ℤ)
    (key : List (NTTRGSW × NTTRGSW)) : Prop :=
  List.Forall₂ (fun g z => (z = 0 ∨ z = 1 ∨ z = -1) ∧
    g.1.EncryptsWithin R q n bits s (Rq.const (if z = 1 then 1 else 0)) E ∧
    g.2.EncryptsWithin R q n bits s (Rq.const (if z = -1 then 1 else 0)) E) key S

/-- `r` has the phase `lut * X^(-φ)` up to an error of at most `β` in every coefficient. -/
def RLWE.RotatedBy (q n : Nat) (s : Rq (ZMod q) n) (lut : List Nat) (φ : ℤ) (β : Nat) (r : RLWE) :
    Prop :=
  ∃ err : Rq (ZMod q) n, err.Bounded β ∧
    r.HasPhase q n s (Rq.ofWords q n lut * Rq.monoZ (-φ) + err)

end Verif
