import Verif.Lemmas.SignedExp
import Verif.Props.Barrett
import Verif.Props.PowOf2
import Verif.Props.Goldilocks
import Verif.Props.BabyBear
import Mathlib.FieldTheory.Finite.Basic
import Mathlib.Data.Nat.Totient

/-! # C87: exponentiation with a signed exponent type

`exp_reduce` accepts the signed integer types as exponents. Every integer below zero is `-(2^t k)` for one `t`
and one odd `k`; `E` is the width of the exponent type. -/

namespace Verif.Props
open Spec

/-- Every negative value of a signed type with `E` bits has the form used below. -/
theorem C87_every_negative_exponent (E : Nat) (e : Int) (h0 : e < 0) (h : -(2 ^ (E - 1) : Int) ≤ e) :
    ∃ t k : Nat, k % 2 = 1 ∧ 2 ^ t * k ≤ 2 ^ (E - 1) ∧ e = -((2 ^ t * k : Nat) : Int) := by
  obtain ⟨n, rfl⟩ : ∃ n : Nat, e = -(n : Int) := ⟨e.natAbs, by omega⟩
  have hn : n ≠ 0 := by omega
  obtain ⟨t, k, hk, rfl⟩ := Nat.exists_eq_two_pow_mul_odd hn
  refine ⟨t, k, Nat.odd_iff.1 hk, ?_, rfl⟩
  have : ((2 ^ t * k : Nat) : Int) ≤ 2 ^ (E - 1) := by omega
  exact_mod_cast this

/-- Barrett moduli: a non-negative exponent gives the power; the exponent `-(2^t k)` gives the power
`2^(E+t) - 2^t k`, without a panic. -/
theorem C87_barrett_signed_exp (w E m : Nat) (hw : w % 2 = 0) (hE : 2 ≤ E) (M : Barrett)
    (h : Barrett.new w m = some M) (a : Nat) (ha : a < m) :
    (∀ n : Nat, n < 2 ^ (E - 1) → Barrett.expReduceS w E M a n = some (a ^ n % m)) ∧
    (∀ t k : Nat, k % 2 = 1 → 2 ^ t * k ≤ 2 ^ (E - 1) →
      Barrett.expReduceS w E M a (-((2 ^ t * k : Nat) : Int)) = some (a ^ (2 ^ (E + t) - 2 ^ t * k) % m)) := by
  constructor
  · intro n hn
    rw [Barrett.expReduceS, expReduceSWith_nonneg hE hn]
    exact C06_barrett_exp w E m hw M h a n ha
      (lt_of_lt_of_le hn (Nat.pow_le_pow_right (by decide) (by omega)))
  · intro t k hk hr
    obtain ⟨v, rfl⟩ := Barrett.new_valid hw h
    obtain ⟨c, e1, hc, hφ⟩ := expReduceSWith_neg (one := 1) (ok := fun x => decide (x < M.value))
      (Barrett.refines_mul v) hE hk hr a ha (by simpa using ha)
    rw [Barrett.expReduceS, e1]
    congr 1
    exact Barrett.zmod_cast_eq hc (by simpa using hφ)

/-- What a negative exponent should mean: `r` is a reduced word and `r a^n = 1` modulo `m`. -/
def IsInversePower (m a n r : Nat) : Prop := r < m ∧ r * a ^ n % m = 1 % m

theorem signed_exponent_le {E t k : Nat} (hr : 2 ^ t * k ≤ 2 ^ (E - 1)) : 2 ^ t * k ≤ 2 ^ (E + t) :=
  le_trans hr (Nat.pow_le_pow_right (by decide) (by omega))

theorem inverse_power_iff {m a n N : Nat} (hm : 0 < m) (h : n ≤ N) :
    IsInversePower m a n (a ^ (N - n) % m) ↔ a ^ N % m = 1 % m := by
  unfold IsInversePower
  rw [Nat.mod_mul_mod, ← Nat.pow_add, Nat.sub_add_cancel h]
  exact ⟨fun h => h.2, fun h => ⟨Nat.mod_lt _ hm, h⟩⟩

/-- Barrett moduli: the result for the negative exponent `-(2^t k)` is the inverse power exactly if
`a^(2^(E+t))` is one. -/
theorem C87_barrett_negative_exponent_iff (w E m : Nat) (hw : w % 2 = 0) (hE : 2 ≤ E) (M : Barrett)
    (h : Barrett.new w m = some M) (a : Nat) (ha : a < m) (t k : Nat) (hk : k % 2 = 1)
    (hr : 2 ^ t * k ≤ 2 ^ (E - 1)) :
    ∃ r, Barrett.expReduceS w E M a (-((2 ^ t * k : Nat) : Int)) = some r ∧
      (IsInversePower m a (2 ^ t * k) r ↔ a ^ (2 ^ (E + t)) % m = 1 % m) :=
  ⟨_, (C87_barrett_signed_exp w E m hw hE M h a ha).2 t k hk hr,
    inverse_power_iff (by omega) (signed_exponent_le hr)⟩

/-- The same with the order of the base: it has to be a power of two, at most `2^(E+t)`. -/
theorem C87_barrett_negative_exponent_order (w E m : Nat) (hw : w % 2 = 0) (hE : 2 ≤ E) (M : Barrett)
    (h : Barrett.new w m = some M) (a : Nat) (ha : a < m) (t k : Nat) (hk : k % 2 = 1)
    (hr : 2 ^ t * k ≤ 2 ^ (E - 1)) :
    ∃ r, Barrett.expReduceS w E M a (-((2 ^ t * k : Nat) : Int)) = some r ∧
      (IsInversePower m a (2 ^ t * k) r ↔ orderOf (a : ZMod m) ∣ 2 ^ (E + t)) := by
  obtain ⟨r, e, hiff⟩ := C87_barrett_negative_exponent_iff w E m hw hE M h a ha t k hk hr
  refine ⟨r, e, hiff.trans ?_⟩
  have hz := ZMod.natCast_eq_natCast_iff' (a ^ 2 ^ (E + t)) 1 m
  rw [Nat.cast_pow, Nat.cast_one] at hz
  rw [orderOf_dvd_iff_pow_eq_one, hz]

/-- With modulus 61 and 32-bit exponents, `3^(-1)` comes out as 60, which is no inverse of 3; 41 is. -/
theorem C87_negative_exponent_witness :
    (Barrett.new 8 61).bind (fun M => Barrett.expReduceS 8 32 M 3 (-1)) = some 60 ∧ ¬ IsInversePower 61 3 1 60 ∧
    IsInversePower 61 3 1 41 := by
  refine ⟨by decide +kernel, ?_, ?_⟩ <;> unfold IsInversePower <;> decide

/-- Power-of-two moduli: the same powers, for every base. For an odd base and an exponent type at least as wide
as the modulus, a negative exponent does give the inverse power. -/
theorem C87_powof2_signed_exp (w E j a : Nat) (hj : 1 ≤ j) (hjw : j < w) (hE : 2 ≤ E) (M : PowOf2)
    (h : PowOf2.new (2 ^ j) = some M) (ha : a < 2 ^ j) :
    (∀ n : Nat, n < 2 ^ (E - 1) → PowOf2.expReduceS w E M a n = some (a ^ n % 2 ^ j)) ∧
    (∀ t k : Nat, k % 2 = 1 → 2 ^ t * k ≤ 2 ^ (E - 1) →
      ∃ r, PowOf2.expReduceS w E M a (-((2 ^ t * k : Nat) : Int)) = some r ∧
        r = a ^ (2 ^ (E + t) - 2 ^ t * k) % 2 ^ j ∧
        (IsInversePower (2 ^ j) a (2 ^ t * k) r ↔ a ^ (2 ^ (E + t)) % 2 ^ j = 1 % 2 ^ j) ∧
        (a % 2 = 1 → j ≤ E + 1 → IsInversePower (2 ^ j) a (2 ^ t * k) r)) := by
  constructor
  · intro n hn
    rw [PowOf2.expReduceS, expReduceSWith_nonneg hE hn]
    exact (C10_powof2_exp w E j a n hj hjw M h ha
      (lt_of_lt_of_le hn (Nat.pow_le_pow_right (by decide) (by omega))) 0).1
  · intro t k hk hr
    have hM : M = ⟨2 ^ j - 1⟩ := by
      unfold PowOf2.new at h; split at h <;> simp_all
    subst hM
    obtain ⟨c, e1, hc, hφ⟩ := expReduceSWith_neg (one := 1) (ok := fun x => decide (x ≤ 2 ^ j - 1))
      (PowOf2.refines_mul hjw.le) hE hk hr a ha (by simp; omega)
    have hcv : c = a ^ (2 ^ (E + t) - 2 ^ t * k) % 2 ^ j := Barrett.zmod_cast_eq hc (by simpa using hφ)
    have hiff : IsInversePower (2 ^ j) a (2 ^ t * k) c ↔ a ^ (2 ^ (E + t)) % 2 ^ j = 1 % 2 ^ j := by
      rw [hcv]; exact inverse_power_iff (Nat.two_pow_pos j) (signed_exponent_le hr)
    refine ⟨c, e1, hcv, hiff, fun hodd hjE => hiff.2 ?_⟩
    have hco : Nat.Coprime a (2 ^ j) := Nat.Coprime.pow_right _ (Nat.coprime_two_right.2 (Nat.odd_iff.2 hodd))
    have ht : Nat.totient (2 ^ j) = 2 ^ (j - 1) := by
      rw [Nat.totient_prime_pow Nat.prime_two (by omega)]; simp
    have h1 := Nat.ModEq.pow_totient hco
    rw [ht] at h1
    have h2 := h1.pow (2 ^ (E + t - (j - 1)))
    rw [← pow_mul, ← pow_add, one_pow, show j - 1 + (E + t - (j - 1)) = E + t by omega] at h2
    exact h2

/-- Goldilocks: the same powers, up to the residue. -/
theorem C87_goldilocks_signed_exp (E a : Nat) (hE : 2 ≤ E) (ha : a < Goldilocks.P) :
    (∀ n : Nat, n < 2 ^ (E - 1) →
      ∃ r, Goldilocks.expReduceS E a n = some r ∧ r < 2 ^ 64 ∧ r % Goldilocks.P = a ^ n % Goldilocks.P) ∧
    (∀ t k : Nat, k % 2 = 1 → 2 ^ t * k ≤ 2 ^ (E - 1) →
      ∃ r, Goldilocks.expReduceS E a (-((2 ^ t * k : Nat) : Int)) = some r ∧ r < 2 ^ 64 ∧
        r % Goldilocks.P = a ^ (2 ^ (E + t) - 2 ^ t * k) % Goldilocks.P ∧
        (r * a ^ (2 ^ t * k) % Goldilocks.P = 1 ↔ a ^ (2 ^ (E + t)) % Goldilocks.P = 1)) := by
  constructor
  · intro n hn
    rw [Goldilocks.expReduceS, expReduceSWith_nonneg hE hn]
    exact C12_exp a n E ha (lt_of_lt_of_le hn (Nat.pow_le_pow_right (by decide) (by omega)))
  · intro t k hk hr
    obtain ⟨r, e1, hlt, hd⟩ := expReduceSWith_neg (one := 1) (ok := fun x => decide (x < Goldilocks.P))
      Goldilocks.refines_mul hE hk hr a (Nat.lt_trans ha (by decide)) (decide_eq_true ha)
    have hd : (r : ZMod Goldilocks.P) = (a : ZMod Goldilocks.P) ^ (2 ^ (E + t) - 2 ^ t * k) := hd
    rw [← Nat.cast_pow] at hd
    have hm := (ZMod.natCast_eq_natCast_iff' _ _ _).1 hd
    refine ⟨r, e1, hlt, hm, ?_⟩
    rw [Nat.mul_mod, hm, ← Nat.mul_mod, ← Nat.pow_add, Nat.sub_add_cancel (signed_exponent_le hr)]

/-- Baby Bear: the same powers of the represented residues; exponent zero is C06. -/
theorem C87_babybear_signed_exp (E a x : Nat) (hE : 2 ≤ E) (ha : a < BabyBear.P)
    (hx : BabyBear.fromMonty a = some x) :
    (∀ n : Nat, 0 < n → n < 2 ^ (E - 1) →
      ∃ c, BabyBear.expReduceS E a n = some c ∧ c < BabyBear.P ∧
        BabyBear.fromMonty c = some (x ^ n % BabyBear.P)) ∧
    (∀ t k : Nat, k % 2 = 1 → 2 ^ t * k ≤ 2 ^ (E - 1) →
      ∃ c, BabyBear.expReduceS E a (-((2 ^ t * k : Nat) : Int)) = some c ∧ c < BabyBear.P ∧
        BabyBear.fromMonty c = some (x ^ (2 ^ (E + t) - 2 ^ t * k) % BabyBear.P) ∧
        (IsInversePower BabyBear.P x (2 ^ t * k) (x ^ (2 ^ (E + t) - 2 ^ t * k) % BabyBear.P) ↔
          x ^ (2 ^ (E + t)) % BabyBear.P = 1)) := by
  constructor
  · intro n h0 hn
    rw [BabyBear.expReduceS, expReduceSWith_nonneg hE hn]
    exact (C06_babybear_exp_partial a x ha hx 0 E n
      (lt_of_lt_of_le hn (Nat.pow_le_pow_right (by decide) (by omega))) (by omega)).2
  · intro t k hk hr
    obtain ⟨x', ex, hxl, hxd⟩ := BabyBear.fromMonty_den (Nat.lt_trans ha (by decide))
    obtain rfl : x' = x := Option.some.inj (ex.symm.trans hx)
    obtain ⟨c, e1, hc, hd⟩ := expReduceSWith_neg (one := 1) (ok := fun x => decide (x < BabyBear.P))
      BabyBear.refines_mul hE hk hr a ha (decide_eq_true ha)
    refine ⟨c, e1, hc, ?_, ?_⟩
    · rw [BabyBear.fromMonty_eq (Nat.lt_trans hc (by decide)), hd, ← hxd, ← Nat.cast_pow, ZMod.val_natCast]
    · exact inverse_power_iff (by decide) (signed_exponent_le hr)

/-- Seven to the power minus one, with a 64-bit signed exponent, is no inverse of seven modulo the Goldilocks prime. -/
theorem C87_goldilocks_negative_witness :
    ∃ r, Goldilocks.expReduceS 64 7 (-1) = some r ∧ r * 7 % Goldilocks.P ≠ 1 := by
  refine ⟨(Goldilocks.expReduceS 64 7 (-1)).getD 0, ?_, ?_⟩ <;> decide +kernel

/-- Modulo 2^16 with 32-bit exponents the inverse power does come out: `3^(-2) 9 = 1`. -/
example : (PowOf2.new (2 ^ 16)).bind (fun M => PowOf2.expReduceS 32 32 M 3 (-2)) = some 36409 ∧
    36409 * 9 % 2 ^ 16 = 1 := by decide +kernel

example : (Barrett.new 8 61).bind (fun M => Barrett.expReduceS 8 16 M 7 44) = some (7 ^ 44 % 61) ∧
    (Barrett.new 8 61).bind (fun M => Barrett.expReduceS 8 8 M 7 (-128)) = some (7 ^ (2 ^ 15 - 128) % 61) := by
  decide +kernel

end Verif.Props
