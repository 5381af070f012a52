import Verif.SpecSecrecy

/-!
# Specification of sums of fresh ciphertexts

A caller encrypts messages one after the other and adds, subtracts or adds a multiple of each new ciphertext.
-/

namespace Verif.Spec
open scoped ENNReal

/-- What is done with the encryption of a message: it is added to the sum, subtracted from it, or `c` times added. The
word `c` modulo `q` also stands for negative factors. -/
inductive Term where
  | add (m : Nat)
  | sub (m : Nat)
  | scaled (c m : Nat)

/-- The message that is encrypted. -/
def Term.message : Term → Nat
  | .add m | .sub m | .scaled _ m => m

/-- The integer factor of the message; for a word modulo `q`, the integer of least magnitude. -/
def Term.factor (q : Nat) : Term → ℤ
  | .add _ => 1
  | .sub _ => -1
  | .scaled c _ => centred q c

/-- The factor is a word modulo `q` and the message one modulo `t`. -/
def Term.Valid (t q : Nat) : Term → Prop
  | .add m | .sub m => m < t
  | .scaled c m => c < q ∧ m < t

/-- The operation of the library. -/
def Term.apply (O : ModOps) (sum x : LWE) : Term → Option LWE
  | .add _ => LWE.addInplace O sum x
  | .sub _ => LWE.subInplace O sum x
  | .scaled c _ => LWE.addMulScalar O sum x c

/-- The outcome of a program that encrypts the messages of the terms one after the other and updates the sum. -/
noncomputable def sumLaw (P : LWEParams) (n : Nat) [NeZero P.q] (χ : PMF ℤ) (sk : List Nat) :
    List Term → Option LWE → PMF (Option LWE)
  | [], sum => PMF.pure sum
  | s :: l, sum => (encryptLaw P n χ sk s.message).bind fun x =>
      sumLaw P n χ sk l (do s.apply (← P.ops) (← sum) (← x))

/-- The message of the sum: that of the start and the messages with their factors, modulo `t`. -/
def sumMessage (t q m₀ : Nat) (l : List Term) : Nat :=
  (((m₀ : ℤ) + (l.map fun s => s.factor q * (s.message : ℤ)).sum) % t).toNat

/-- The sum of the squares of the factors. -/
def sumSquares (q : Nat) (l : List Term) : ℤ := (l.map fun s => s.factor q ^ 2).sum

/-- Integer errors that are sub-Gaussian with parameter `v`: the mean of `exp (t e)` is at most that of a normal
variable of variance `v`. -/
def SubGaussianInt (χ : PMF ℤ) (v : ℝ) : Prop :=
  ∀ t : ℝ, ∑' e : ℤ, χ e * ENNReal.ofReal (Real.exp (t * e)) ≤ ENNReal.ofReal (Real.exp (v * t ^ 2 / 2))

end Verif.Spec
