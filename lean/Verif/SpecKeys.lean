import Verif.Model.Params

/-!
# Which parameters have keys
-/

namespace Verif

/-- What the chosen steps ask of the parameters, for a field of width `wQ` with modulus `Q`, ring dimension `2^k` and
`q = 2^m`: after a modulus switch the LWE key switching needs a ring key of small digits and between 1 and `m` bits per
digit; the ring key switching needs an LWE dimension that is at most the ring dimension and a digit length between 1 and
the length of `Q`, below the word width; without key switching the two keys are the same, of small digits. -/
def Spec.KeysFit (wQ Q k m : Nat) (P : Params) : Prop :=
  match P.steps with
  | .brMsKs => P.ringKeyType ≠ .gaussian ∧ 1 ≤ P.keySwitchBits ∧ P.keySwitchBits ≤ m
  | .brKsMs => P.n ≤ 2 ^ k ∧ 1 ≤ P.keySwitchBits ∧ P.keySwitchBits < wQ ∧ 2 ^ (P.keySwitchBits - 1) ≤ Q
  | .brMs => P.ringKeyType ≠ .gaussian ∧ P.n = 2 ^ k

end Verif
