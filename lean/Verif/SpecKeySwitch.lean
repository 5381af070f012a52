import Verif.SpecBlind
import Verif.SpecLWE
import Verif.Model.LWE
import Verif.SpecRGSW

/-!
# Specifications for key switching
-/

namespace Verif
open Spec

/-- An LWE key switching key from the integer key `S` to the key `sk`: element `(j, i, v)` has phase
`v * S i * B^j + err j i v`, for `v = 1 .. B - 1` and `B = 2^bits`. -/
structure LweSwitchKey (q bits len : Nat) (sk : List Nat) (S : List ℤ)
    (err : Nat → Nat → Nat → ZMod q) (key : List (List (List LWE))) : Prop where
  levels : key.length = len
  rows : ∀ l ∈ key, l.length = S.length ∧ ∀ r ∈ l, r.length = 2 ^ bits - 1
  elem : ∀ (j i v : Nat) (l : List (List LWE)) (r : List LWE) (c : LWE) (z : ℤ),
    key[j]? = some l → l[i]? = some r → r[v]? = some c → S[i]? = some z →
    Reduced q sk.length c.a ∧ c.b < q ∧
    lwePhase q sk c.a c.b = (v + 1 : Nat) * (z : ZMod q) * (2 ^ (bits * j) : Nat) + err j i (v + 1)

/-- The digit `j` of `x`, base `2^bits`. -/
def Spec.digit (bits x j : Nat) : Nat := x / 2 ^ (bits * j) % 2 ^ bits

/-- The errors of the key elements used for the mask `a`: one per non-zero digit. -/
def Spec.switchError (q bits len : Nat) (err : Nat → Nat → Nat → ZMod q) (a : List Nat) : ZMod q :=
  ∑ j ∈ Finset.range len, ∑ i ∈ Finset.range a.length,
    if digit bits (a.getD i 0) j = 0 then 0 else err j i (digit bits (a.getD i 0) j)

/-- An RLWE key switching key from the ring key words `z` to the ring element `s` of degree below `n`:
element `c` is a gadget ciphertext of the chunk `c` of `z`, with the errors `e c`. -/
structure RlweSwitchKey (R : Ctx) (q n bits : Nat) (s : Rq (ZMod q) n) (z : List Nat)
    (e : Nat → Nat → Rq (ZMod q) n) (key : List NTTGadgetRLWE) : Prop where
  len : key.length * n = z.length
  elem : ∀ c (h : c < key.length),
    key[c].Encrypts R q n bits s (Rq.ofWords q n (z.drop (c * n))) (e c)

/-- The words decomposed for chunk `c` of the mask `a`:
`-a_0, a_(n-1), .., a_1` counted from the start of the chunk. -/
def Spec.switchWords (q n : Nat) (a : List Nat) (c : Nat) : List Nat :=
  (List.range n).map fun i =>
    if i = 0 then (q - a.getD (c * n) 0) % q else a.getD (c * n + (n - i)) 0

/-- The mask `a_0, -a_(n-1), .., -a_1` of the LWE ciphertext extracted from an RLWE ciphertext with
the mask `a` of length `n`. -/
def Spec.extractWords (q n : Nat) (a : List Nat) : List Nat :=
  (List.range n).map fun i => if i = 0 then a.getD 0 0 else (q - a.getD (n - i) 0) % q

/-- The error of RLWE key switching for the mask `a`: the constant coefficients of the gadget errors
of the chunks. -/
noncomputable def Spec.rlweSwitchError (q n bits len : Nat) [NeZero n] [Nontrivial (ZMod q)]
    (e : Nat → Nat → Rq (ZMod q) n) (a : List Nat) (cnt : Nat) : ZMod q :=
  ∑ c ∈ Finset.range cnt,
    (gadgetError q n bits len (switchWords q n a c) (e c)).co ⟨0, Nat.pos_of_ne_zero (NeZero.ne n)⟩

end Verif
