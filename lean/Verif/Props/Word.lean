import Verif.Lemmas.Word

/-! # C01: widening word arithmetic is exact -/

namespace Verif.Props

/-- C01: `widening_mul` never overflows its wide type and `lo + 2^w·hi = a·b`, both words in range. -/
theorem C01_widening_mul (w a b : Nat) (ha : a < 2 ^ w) (hb : b < 2 ^ w) :
    ∃ lo hi, wideningMulC w a b = some (lo, hi) ∧ lo < 2 ^ w ∧ hi < 2 ^ w ∧
      lo + 2 ^ w * hi = a * b ∧ wideningMulHwC w a b = some hi :=
  ⟨_, _, wideningMulC_eq ha hb, Nat.mod_lt _ (Nat.two_pow_pos w),
    Nat.div_lt_of_lt_mul (mul_lt_sq ha hb), Nat.mod_add_div _ _, wideningMulHwC_eq ha hb⟩

/-- C01: `carrying_mul` computes `a·b + c` exactly in two words. -/
theorem C01_carrying_mul (w a b c : Nat) (ha : a < 2 ^ w) (hb : b < 2 ^ w) (hc : c < 2 ^ w) :
    ∃ lo hi, carryingMulC w a b c = some (lo, hi) ∧ lo < 2 ^ w ∧ hi < 2 ^ w ∧
      lo + 2 ^ w * hi = a * b + c ∧ carryingMulHwC w a b c = some hi :=
  ⟨_, _, carryingMulC_eq ha hb hc, Nat.mod_lt _ (Nat.two_pow_pos w),
    Nat.div_lt_of_lt_mul (mul_add_lt_sq ha hb hc), Nat.mod_add_div _ _,
    carryingMulHwC_eq ha hb hc⟩

/-- C01: `carrying_add` returns a word and a carry with `sum + 2^w·carry = a + b + cin`. -/
theorem C01_carrying_add (w a b : Nat) (c : Bool) (ha : a < 2 ^ w) (hb : b < 2 ^ w) :
    (carryingAdd w a b c).1 < 2 ^ w ∧
    (carryingAdd w a b c).1 + 2 ^ w * (carryingAdd w a b c).2.toNat = a + b + c.toNat := by
  obtain ⟨h1, h2⟩ := carryingAdd_spec ha hb c
  have hw := Nat.two_pow_pos w
  have hc : c.toNat ≤ 1 := by cases c <;> simp
  rw [h1, h2]
  refine ⟨Nat.mod_lt _ hw, ?_⟩
  by_cases h : 2 ^ w ≤ a + b + c.toNat
  · have : (a + b + c.toNat) % 2 ^ w = a + b + c.toNat - 2 ^ w := by
      rw [Nat.mod_eq_sub_mod h, Nat.mod_eq_of_lt (by omega)]
    rw [this]; simp only [h, decide_true, Bool.toNat_true]; omega
  · rw [Nat.mod_eq_of_lt (by omega)]; simp [h]

/-- C01: `borrowing_sub` returns a word and a borrow with `a - b - bin = diff - 2^w·borrow`. -/
theorem C01_borrowing_sub (w a b : Nat) (c : Bool) (ha : a < 2 ^ w) (hb : b < 2 ^ w) :
    (borrowingSub w a b c).1 < 2 ^ w ∧
    (a : Int) - b - c.toNat
      = (borrowingSub w a b c).1 - ((2 ^ w : Nat) : Int) * (borrowingSub w a b c).2.toNat := by
  obtain ⟨h1, h2⟩ := borrowingSub_spec ha hb c
  refine ⟨Nat.mod_lt _ (Nat.two_pow_pos w), ?_⟩
  rw [h1]
  cases (borrowingSub w a b c).2 <;> simp

example : wideningMulC 8 255 255 = some (1, 254) ∧ carryingMulC 8 255 255 255 = some (0, 255) ∧
    carryingAdd 8 255 255 true = (255, true) ∧ borrowingSub 8 0 255 true = (0, true) := by decide

end Verif.Props
