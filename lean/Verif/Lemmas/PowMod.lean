import Mathlib.NumberTheory.LucasPrimality
import Mathlib.Tactic.Ring
import Mathlib.Tactic.NormNum.Prime

/-!
Kernel-evaluable modular exponentiation, used to certify that the two special moduli are prime.
Nothing here models code of `/repo`.
-/

namespace Verif

/-- `a ^ n % p` by repeated squaring on `fuel` bits of `n`. -/
def powMod (p : Nat) : Nat → Nat → Nat → Nat
  | 0, _, _ => 1 % p
  | fuel + 1, a, n =>
    let r := powMod p fuel (a * a % p) (n / 2)
    if n % 2 = 1 then a * r % p else r

theorem powMod_eq (p : Nat) : ∀ (fuel a n : Nat), n < 2 ^ fuel → powMod p fuel a n = a ^ n % p := by
  intro fuel
  induction fuel with
  | zero =>
    intro a n h
    have : n = 0 := by simpa using h
    subst this
    simp [powMod]
  | succ f ih =>
    intro a n h
    have hlt : n / 2 < 2 ^ f := by
      rw [Nat.div_lt_iff_lt_mul (by norm_num)]
      rw [pow_succ] at h; exact h
    have hr := ih (a * a % p) (n / 2) hlt
    have hsq : (a * a % p) ^ (n / 2) % p = (a ^ (2 * (n / 2))) % p := by
      rw [← Nat.pow_mod, pow_mul, pow_two]
    simp only [powMod, hr, hsq]
    split
    · rename_i h1
      rw [Nat.mul_mod, Nat.mod_mod, ← Nat.mul_mod]
      have : n = 2 * (n / 2) + 1 := by omega
      conv_rhs => rw [this, pow_succ, mul_comm]
    · have : n = 2 * (n / 2) := by omega
      conv_rhs => rw [this]

theorem zmod_pow_eq_one {p a n : ℕ} (fuel : Nat) (hf : n < 2 ^ fuel)
    (h : powMod p fuel a n = 1) (hp : 1 < p) : ((a : ℕ) : ZMod p) ^ n = 1 := by
  rw [powMod_eq p fuel a n hf] at h
  have : ((a ^ n : ℕ) : ZMod p) = ((1 : ℕ) : ZMod p) := by
    rw [ZMod.natCast_eq_natCast_iff', h, Nat.mod_eq_of_lt hp]
  push_cast at this; exact this

theorem zmod_pow_ne_one {p a n : ℕ} (fuel : Nat) (hf : n < 2 ^ fuel)
    (h : powMod p fuel a n ≠ 1) (hp : 1 < p) : ((a : ℕ) : ZMod p) ^ n ≠ 1 := by
  rw [powMod_eq p fuel a n hf] at h
  intro h1
  have : ((a ^ n : ℕ) : ZMod p) = ((1 : ℕ) : ZMod p) := by push_cast; exact h1
  rw [ZMod.natCast_eq_natCast_iff', Nat.mod_eq_of_lt hp] at this
  exact h this

theorem prime_babyBear : Nat.Prime 2013265921 := by
  apply lucas_primality 2013265921 ((31 : ℕ) : ZMod 2013265921)
  · exact zmod_pow_eq_one 64 (by norm_num) (by decide +kernel) (by norm_num)
  · intro q hq hd
    have hd : q ∣ 2 ^ 27 * 3 * 5 := by norm_num at hd ⊢; exact hd
    rcases (Nat.Prime.dvd_mul hq).1 hd with hd | hd
    · rcases (Nat.Prime.dvd_mul hq).1 hd with hd | hd
      · rw [(Nat.prime_dvd_prime_iff_eq hq Nat.prime_two).1 (hq.dvd_of_dvd_pow hd)]
        exact zmod_pow_ne_one 64 (by norm_num) (by decide +kernel) (by norm_num)
      · rw [(Nat.prime_dvd_prime_iff_eq hq Nat.prime_three).1 hd]
        exact zmod_pow_ne_one 64 (by norm_num) (by decide +kernel) (by norm_num)
    · rw [(Nat.prime_dvd_prime_iff_eq hq Nat.prime_five).1 hd]
      exact zmod_pow_ne_one 64 (by norm_num) (by decide +kernel) (by norm_num)

theorem prime_goldilocks : Nat.Prime 18446744069414584321 := by
  apply lucas_primality 18446744069414584321 ((7 : ℕ) : ZMod 18446744069414584321)
  · exact zmod_pow_eq_one 64 (by norm_num) (by decide +kernel) (by norm_num)
  · intro q hq hd
    have hd : q ∣ 2 ^ 32 * 3 * 5 * 17 * 257 * 65537 := by norm_num at hd ⊢; exact hd
    rcases (Nat.Prime.dvd_mul hq).1 hd with hd | hd
    · rcases (Nat.Prime.dvd_mul hq).1 hd with hd | hd
      · rcases (Nat.Prime.dvd_mul hq).1 hd with hd | hd
        · rcases (Nat.Prime.dvd_mul hq).1 hd with hd | hd
          · rcases (Nat.Prime.dvd_mul hq).1 hd with hd | hd
            · rw [(Nat.prime_dvd_prime_iff_eq hq Nat.prime_two).1 (hq.dvd_of_dvd_pow hd)]
              exact zmod_pow_ne_one 64 (by norm_num) (by decide +kernel) (by norm_num)
            · rw [(Nat.prime_dvd_prime_iff_eq hq Nat.prime_three).1 hd]
              exact zmod_pow_ne_one 64 (by norm_num) (by decide +kernel) (by norm_num)
          · rw [(Nat.prime_dvd_prime_iff_eq hq Nat.prime_five).1 hd]
            exact zmod_pow_ne_one 64 (by norm_num) (by decide +kernel) (by norm_num)
        · rw [(Nat.prime_dvd_prime_iff_eq hq (by norm_num)).1 hd]
          exact zmod_pow_ne_one 64 (by norm_num) (by decide +kernel) (by norm_num)
      · rw [(Nat.prime_dvd_prime_iff_eq hq (by norm_num)).1 hd]
        exact zmod_pow_ne_one 64 (by norm_num) (by decide +kernel) (by norm_num)
    · rw [(Nat.prime_dvd_prime_iff_eq hq (by norm_num)).1 hd]
      exact zmod_pow_ne_one 64 (by norm_num) (by decide +kernel) (by norm_num)

end Verif
