import Verif.SpecDimension
import Verif.SpecWrongKey
import Verif.Model.ReleaseLWE

/-! # Specification of builds without debug assertions -/

namespace Verif.Spec

/-- The gates of two operands in a checked build, each with the same gate in a build without debug assertions. -/
def gatePairs (K : EvalKey) : List ((LWE → LWE → Option LWE) × (LWE → LWE → Option LWE)) :=
  [(K.nand, Release.nand K), (K.and, Release.and K), (K.or, Release.or K), (K.nor, Release.nor K),
    (K.xor, Release.xor K), (K.xnor, Release.xnor K)]

/-- A message is encrypted, the ciphertext loses all mask words but the first `d`, and it is decrypted with the same key
in a build without debug assertions. -/
noncomputable def decryptCut (P : LWEParams) (n : Nat) [NeZero P.q] (χ : PMF ℤ) (msg : Plain.Msg) (d : Nat)
    (sk : List Nat) (m : Nat) : PMF (Option Nat) :=
  (encryptLaw P n χ sk m).map fun c => c.bind fun c => Release.decrypt P msg sk ⟨c.a.take d, c.b⟩

end Verif.Spec
