import Verif.Model.Native
import Verif.Props.LWE

/-! # C63: arithmetic modulo the word size -/

namespace Verif.Props
open Spec

/-- C63: reduction is the identity, and the ring operations return the word of the result in `Z/2^w`. -/
theorem C63_ring (w a b : Nat) (ha : a < 2 ^ w) (hb : b < 2 ^ w) :
    Native.reduce a = a % 2 ^ w ∧
    (Native.add w a b < 2 ^ w ∧ (Native.add w a b : ZMod (2 ^ w)) = (a : ZMod (2 ^ w)) + b) ∧
    (Native.sub w a b < 2 ^ w ∧ (Native.sub w a b : ZMod (2 ^ w)) = (a : ZMod (2 ^ w)) - b) ∧
    (Native.neg w a < 2 ^ w ∧ (Native.neg w a : ZMod (2 ^ w)) = -(a : ZMod (2 ^ w))) ∧
    (Native.mul w a b < 2 ^ w ∧ (Native.mul w a b : ZMod (2 ^ w)) = (a : ZMod (2 ^ w)) * b) := by
  have hp := Nat.two_pow_pos w
  refine ⟨(Nat.mod_eq_of_lt ha).symm, ⟨Nat.mod_lt _ hp, ?_⟩, ⟨Nat.mod_lt _ hp, PowOf2.cast_wrappingSub le_rfl a b hb⟩,
    ⟨Nat.mod_lt _ hp, PowOf2.cast_wrappingNeg le_rfl a ha⟩, ⟨Nat.mod_lt _ hp, ?_⟩⟩
  · rw [Native.add, wrappingAdd, ZMod.natCast_mod, Nat.cast_add]
  · rw [Native.mul, wrappingMul, ZMod.natCast_mod, Nat.cast_mul]

theorem powLoop_eq (w : Nat) : ∀ e acc base : Nat, 0 < e →
    Native.powLoop w acc base e = acc * base ^ e % 2 ^ w := by
  intro e
  induction e using Nat.strong_induction_on with
  | _ e ih =>
    intro acc base he
    rw [Native.powLoop]
    by_cases h1 : e ≤ 1
    · obtain rfl : e = 1 := by omega
      simp [wrappingMul]
    · rw [dif_neg h1, ih (e / 2) (by omega) _ _ (by omega)]
      have hsq : (wrappingMul w base base) ^ (e / 2) % 2 ^ w = base ^ (2 * (e / 2)) % 2 ^ w := by
        rw [wrappingMul, ← Nat.pow_mod, pow_mul, pow_two]
      rw [Nat.mul_mod, hsq]
      split
      · next h =>
        rw [wrappingMul, Nat.mod_mod, ← Nat.mul_mod, mul_assoc, ← pow_succ']
        congr 3; omega
      · next h =>
        rw [← Nat.mul_mod]
        congr 3; omega

/-- C63: exponentiation is the power modulo `2^w`, for every exponent. -/
theorem C63_exp (w a e : Nat) (hw : 0 < w) : Native.exp w a e = a ^ e % 2 ^ w := by
  unfold Native.exp
  split
  · next h =>
    subst h
    rw [pow_zero, Nat.mod_eq_of_lt (Nat.one_lt_two_pow (by omega))]
  · next h => rw [powLoop_eq w e 1 a (by omega), one_mul]

/-- C63: division panics exactly for the divisor 0; a quotient that it returns is the modular quotient if the division
leaves no remainder. Missing: other operands, for which the full property fails (next theorem). -/
theorem C63_div_partial (w a b : Nat) : (Native.div a b = none ↔ b = 0) ∧
    ∀ r, Native.div a b = some r → b ∣ a → ((r : ZMod (2 ^ w)) * b = a) := by
  unfold Native.div
  refine ⟨by split <;> simp_all, fun r h hd => ?_⟩
  split at h
  · simp at h
  · obtain rfl := Option.some.inj h
    rw [← Nat.cast_mul, Nat.div_mul_cancel hd]

/-- C63: `div_reduce` is documented as `self / rhs (mod modulus)`, but for the modulus `()` it is the quotient of
the integers: 1 / 3 gives 0 although 3 is invertible modulo 256. -/
theorem C63_div_violation : ¬ ∀ w a b r : Nat, a < 2 ^ w → b < 2 ^ w → b % 2 = 1 → Native.div a b = some r →
    ((r : ZMod (2 ^ w)) * b = a) := by
  intro h
  exact absurd (h 8 1 3 0 (by decide) (by decide) (by decide) (by decide)) (by decide)

/-- The generic LWE code can be used with the modulus `()`. -/
theorem native_isModOps (w : Nat) : IsModOps (2 ^ w) (Native.ops w) := by
  have key := fun a b (ha : a < 2 ^ w) (hb : b < 2 ^ w) => C63_ring w a b ha hb
  exact ⟨fun a b ha hb => ⟨_, rfl, (key a b ha hb).2.1⟩, fun a b ha hb => ⟨_, rfl, (key a b ha hb).2.2.1⟩,
    fun a b ha hb => ⟨_, rfl, (key a b ha hb).2.2.2.2⟩, fun a ha => ⟨_, rfl, (key a a ha ha).2.2.2.1⟩⟩

/-- C63: with the modulus `()` sums and differences of LWE ciphertexts of arbitrary words act on the phases. -/
theorem C63_lwe (w n : Nat) (x y : LWE) (hx : LWEReduced (2 ^ w) n x) (hy : LWEReduced (2 ^ w) n y) :
    (∃ r, LWE.addRef (Native.ops w) x y = some r ∧ LWE.addInplace (Native.ops w) x y = some r ∧
      ∀ s, lwePhase (2 ^ w) s r.a r.b = lwePhase (2 ^ w) s x.a x.b + lwePhase (2 ^ w) s y.a y.b) ∧
    (∃ r, LWE.subRef (Native.ops w) x y = some r ∧ LWE.subInplace (Native.ops w) x y = some r ∧
      ∀ s, lwePhase (2 ^ w) s r.a r.b = lwePhase (2 ^ w) s x.a x.b - lwePhase (2 ^ w) s y.a y.b) := by
  obtain ⟨r, h1, h2, -, h3⟩ := C33_add _ n _ (native_isModOps w) x y hx hy
  obtain ⟨t, h4, h5, -, h6⟩ := C33_sub _ n _ (native_isModOps w) x y hx hy
  exact ⟨⟨r, h1, h2, h3⟩, ⟨t, h4, h5, h6⟩⟩

example : Native.add 8 200 100 = 44 ∧ Native.sub 8 3 5 = 254 ∧ Native.neg 8 1 = 255 ∧ Native.mul 8 17 16 = 16 ∧
    Native.div 7 2 = some 3 ∧ Native.div 7 0 = none := by decide
example : Native.exp 8 3 5 = 243 := by rw [C63_exp 8 3 5 (by decide)]; decide
example : LWEReduced (2 ^ 8) 2 ⟨[255, 3], 200⟩ := ⟨⟨rfl, by decide⟩, by decide⟩

end Verif.Props
