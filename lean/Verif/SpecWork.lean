import Verif.Model.Work
import Mathlib.Algebra.Group.Prod

/-!
# How many transforms an operation makes

A pair is the number of forward and the number of inverse transforms.
-/

namespace Verif.SpecWork

/-- The counting computation `x` returns what `v` returns, panics exactly when `v` does, and makes `k` transforms. -/
def Costs {α : Type} (x : WorkM α) (v : Option α) (k : Work) : Prop :=
  ∀ before : Work, x before = v.map fun r => (r, before + k)

/-- The number of mask words that are not zero. -/
def nonzero (mask : List Nat) : Nat := (mask.filter fun a => a ≠ 0).length

/-- Blind rotation: `2 L` forward and two inverse transforms for every mask word that is not zero; `L` is the number
of digits of the basis. -/
def rotation (L : Nat) (mask : List Nat) : Work := (nonzero mask * (2 * L), nonzero mask * 2)

/-- The switching key from a ring of dimension `N` to one of dimension `n`: the transform of the new key, then per part
of the old key one transform, unless there is one part, and one per digit. -/
def switchKey (L n N : Nat) : Work := (1 + if n = N then L else N / n * (L + 1), 0)

/-- The number of digits of the basis for RLWE key switching. -/
def switchDigits (R : Ctx) (P : Params) : Nat :=
  match Basis.new R.w R.M.value P.keySwitchBits with
  | some B => B.decomposeLen
  | none => 0

/-- What a bootstrap adds to the rotation. Only the order that switches keys over the ring makes further transforms:
one per digit and part of the ring, and two back. -/
def switching (R : Ctx) (P : Params) : Work :=
  match P.steps with
  | .brKsMs => (P.ringDimension / RlweSwitch.nextPow2 P.n * switchDigits R P, 2)
  | _ => (0, 0)

/-- A bootstrap of a ciphertext whose mask, switched to modulus `2 N`, is `mask`. -/
def bootstrap (R : Ctx) (P : Params) (mask : List Nat) : Work :=
  rotation P.basis.decomposeLen (mask.take P.n) + switching R P

/-- A bootstrap makes at most this many, whatever the ciphertext. -/
def bootstrapMax (R : Ctx) (P : Params) : Work :=
  (P.n * (2 * P.basis.decomposeLen), P.n * 2) + switching R P

/-- The rotation key: one or two ring ciphertext pairs per digit of the basis and bit of the key. -/
def rotationKey (P : Params) : Work :=
  match P.lweKeyType with
  | .binary => (2 * P.basis.decomposeLen * P.n, 0)
  | .ternary => (4 * P.basis.decomposeLen * P.n, 0)

/-- The evaluation key: the rotation key and, where keys are switched over the ring, the switching key. -/
def evalKey (R : Ctx) (P : Params) : Work :=
  rotationKey P + match P.steps with
    | .brKsMs => switchKey (switchDigits R P) (RlweSwitch.nextPow2 P.n) P.ringDimension
    | _ => (0, 0)

end Verif.SpecWork
