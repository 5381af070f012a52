import Verif.SpecRGSW

/-!
# Specifications for gadget ciphertexts with any number of elements
-/

namespace Verif
open Spec

/-- Element `j` of the list has phase `m * B^j + e j`, where `B = 2^bits`; any number of elements. -/
def Spec.Multiples (q n bits : Nat) (s m : Rq (ZMod q) n) (e : Nat → Rq (ZMod q) n) (l : List RLWE) : Prop :=
  ∀ j (h : j < l.length), l[j].HasPhase q n s (m * Rq.const ((2 ^ (bits * j) : Nat) : ZMod q) + e j)

/-- The same in transform form. -/
def Spec.NttMultiples (R : Ctx) (q n bits : Nat) (s m : Rq (ZMod q) n) (e : Nat → Rq (ZMod q) n) (l : List NTTRLWE) : Prop :=
  ∀ j (h : j < l.length), l[j].HasPhase R q q n s (m * Rq.const ((2 ^ (bits * j) : Nat) : ZMod q) + e j)

/-- The remainders of the coefficients modulo `B`. -/
def Spec.lowPart (q n B : Nat) (p : List Nat) : Rq (ZMod q) n := ⟨fun i => ((p.getD i.val 0 % B : Nat) : ZMod q)⟩

end Verif
