import Verif.Model.Reverse
import Mathlib.Tactic.Ring
import Mathlib.Data.Nat.Bitwise

/-! # C17: bit reversal -/

namespace Verif.Props

theorem reverseBits_lt : ∀ (w x : Nat), reverseBits w x < 2 ^ w
  | 0, _ => by simp [reverseBits]
  | w + 1, x => by
    have := reverseBits_lt w (x / 2)
    have h2 : x % 2 < 2 := Nat.mod_lt _ (by decide)
    rw [reverseBits, pow_succ]
    rcases Nat.lt_or_ge (x % 2) 1 with h | h
    · rw [show x % 2 = 0 by omega]; omega
    · rw [show x % 2 = 1 by omega]; omega

theorem reverseBits_testBit : ∀ (w x j : Nat),
    (reverseBits w x).testBit j = (decide (j < w) && x.testBit (w - 1 - j))
  | 0, x, j => by simp [reverseBits]
  | w + 1, x, j => by
    have hlt := reverseBits_lt w (x / 2)
    rw [reverseBits, mul_comm, Nat.testBit_two_pow_mul_add _ hlt, reverseBits_testBit w]
    by_cases h : j < w
    · rw [if_pos h]
      simp only [h, show j < w + 1 by omega, decide_true, Bool.true_and]
      rw [show w + 1 - 1 - j = (w - 1 - j) + 1 by omega, Nat.testBit_succ]
    · rw [if_neg h]
      by_cases h' : j = w
      · subst h'
        simp [Nat.testBit_zero]
      · have : ¬ j < w + 1 := by omega
        simp only [this, decide_false, Bool.false_and]
        rw [show j - w = (j - w - 1) + 1 by omega, Nat.testBit_succ]
        rw [Nat.div_eq_of_lt (Nat.mod_lt _ (by decide)), Nat.zero_testBit]

/-- C17: bit `j` of `reverse_lsbs(x, k)` is bit `k - 1 - j` of `x` for `j < k`, and 0 above; this
holds for every word `x` and every `k` below the word size. -/
theorem C17_reverse_bits (w x k : Nat) (hk : k < w) :
    ∃ y, reverseLsbs w x k = some y ∧ y < 2 ^ k ∧
      ∀ j, y.testBit j = (decide (j < k) && x.testBit (k - 1 - j)) := by
  unfold reverseLsbs
  rw [if_pos hk]
  by_cases h : x = 0 ∨ k = 0
  · rw [if_pos h]
    refine ⟨0, rfl, Nat.two_pow_pos k, fun j => ?_⟩
    rcases h with rfl | rfl <;> simp
  · rw [if_neg h]
    push Not at h
    refine ⟨reverseBits w x / 2 ^ (w - k), ?_, ?_, fun j => ?_⟩
    · simp only [subC, shrC, if_pos (show k ≤ w by omega), Option.bind_eq_bind, Option.bind_some,
        if_pos (show w - k < w by omega)]
    · rw [Nat.div_lt_iff_lt_mul (Nat.two_pow_pos _), ← pow_add, show k + (w - k) = w by omega]
      exact reverseBits_lt w x
    · rw [← Nat.shiftRight_eq_div_pow, Nat.testBit_shiftRight, reverseBits_testBit]
      by_cases hj : j < k
      · simp only [hj, show w - k + j < w by omega, decide_true, Bool.true_and]
        congr 1; omega
      · simp only [hj, show ¬ (w - k + j < w) by omega, decide_false, Bool.false_and]

/-- C17: on `[0, 2^k)` the function is its own inverse, hence a permutation. -/
theorem C17_involutive (w x k : Nat) (hk : k < w) (hx : x < 2 ^ k) :
    ∃ y, reverseLsbs w x k = some y ∧ y < 2 ^ k ∧ reverseLsbs w y k = some x := by
  obtain ⟨y, h1, h2, h3⟩ := C17_reverse_bits w x k hk
  obtain ⟨z, h4, _, h6⟩ := C17_reverse_bits w y k hk
  refine ⟨y, h1, h2, ?_⟩
  rw [h4]
  congr 1
  apply Nat.eq_of_testBit_eq
  intro j
  rw [h6, h3]
  by_cases hj : j < k
  · simp only [hj, show k - 1 - j < k by omega, decide_true, Bool.true_and]
    congr 1; omega
  · simp only [hj, decide_false, Bool.false_and]
    exact (Nat.testBit_lt_two_pow (Nat.lt_of_lt_of_le hx
      (Nat.pow_le_pow_right (by decide) (by omega)))).symm

/-- C17: the full word size is rejected by the debug assertion. -/
theorem C17_full_width (w x k : Nat) (hk : w ≤ k) : reverseLsbs w x k = none := by
  simp [reverseLsbs, Nat.not_lt.2 hk]

-- the documentation examples
example : reverseLsbs 8 0b00001101 4 = some 0b00001011 := by decide
example : reverseLsbs 8 0b01101101 4 = some 0b00001011 := by decide

end Verif.Props
