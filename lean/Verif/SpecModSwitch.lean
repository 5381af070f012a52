import Verif.SpecBlind

/-!
# Specifications for modulus switching
-/

namespace Verif.Spec

/-- The integer nearest to `x / q`, ties up. -/
def nearest (x q : Nat) : Nat := (2 * x + q) / (2 * q)

end Verif.Spec
