import Verif.SpecRandom

/-! # Specifications of the laws of the samplers -/

namespace Verif.Spec

/-- The uniform law on the numbers below `m`. -/
noncomputable def uniformBelow (m : Nat) [NeZero m] : PMF Nat := (PMF.uniformOfFintype (Fin m)).map Fin.val

/-- A uniform word of `s` bits. -/
noncomputable def uniformWord (s : Nat) : PMF Nat := uniformBelow (2 ^ s)

/-- The number with ternary law modulo `q`: of four equally likely cases two give 0, one gives 1 and one gives the
representative `q - 1` of -1. -/
noncomputable def ternaryLaw (q : Nat) : PMF Nat :=
  (uniformBelow 4).map fun i => if i = 2 then 1 else if i = 3 then q - 1 else 0

/-- `m` independent uniform words, as the stream of words of a generator (words after them are 0). -/
noncomputable def wordStream (s m : Nat) : PMF (Nat → Nat) := (draws (uniformWord s) m).map fun l i => l.getD i 0

end Verif.Spec
