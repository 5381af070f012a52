import Verif.Model.Word
import Mathlib.Tactic.Ring
import Mathlib.Tactic.Linarith

namespace Verif

/-- Step of an `Option` computation, stated so that the kernel need not unfold `f`. -/
theorem bind_of_eq {α β : Type} {x : Option α} {a : α} (h : x = some a) (f : α → Option β) :
    x.bind f = f a := by rw [h]; rfl

theorem addC_eq {w a b : Nat} (h : a + b < 2 ^ w) : addC w a b = some (a + b) := by
  simp [addC, h]

theorem subC_eq {a b : Nat} (h : b ≤ a) : subC a b = some (a - b) := by simp [subC, h]

theorem mulC_eq {w a b : Nat} (h : a * b < 2 ^ w) : mulC w a b = some (a * b) := by
  simp [mulC, h]

theorem two_pow_pos' (w : Nat) : 0 < 2 ^ w := Nat.two_pow_pos w

theorem two_pow_two_mul (w : Nat) : 2 ^ (2 * w) = 2 ^ w * 2 ^ w := by
  rw [Nat.two_mul, Nat.pow_add]

theorem mul_lt_sq {w a b : Nat} (ha : a < 2 ^ w) (hb : b < 2 ^ w) : a * b < 2 ^ w * 2 ^ w :=
  Nat.mul_lt_mul'' ha hb

theorem mul_add_lt_sq {B a b c : Nat} (ha : a < B) (hb : b < B) (hc : c < B) :
    a * b + c < B * B := by
  have h1 : a * b ≤ (B - 1) * (B - 1) := Nat.mul_le_mul (by omega) (by omega)
  obtain ⟨k, rfl⟩ : ∃ k, B = k + 1 := ⟨B - 1, by omega⟩
  simp at h1
  have : (k + 1) * (k + 1) = k * k + 2 * k + 1 := by ring
  omega

theorem wideningMulC_eq {w a b : Nat} (ha : a < 2 ^ w) (hb : b < 2 ^ w) :
    wideningMulC w a b = some (a * b % 2 ^ w, a * b / 2 ^ w) := by
  have h := mul_lt_sq ha hb
  have h2 : a * b / 2 ^ w < 2 ^ w := Nat.div_lt_of_lt_mul h
  simp [wideningMulC, mulC_eq (w := 2 * w) (by rw [two_pow_two_mul]; exact h), trunc,
    Nat.mod_eq_of_lt h2]

theorem wideningMulHwC_eq {w a b : Nat} (ha : a < 2 ^ w) (hb : b < 2 ^ w) :
    wideningMulHwC w a b = some (a * b / 2 ^ w) := by
  have h := mul_lt_sq ha hb
  have h2 : a * b / 2 ^ w < 2 ^ w := Nat.div_lt_of_lt_mul h
  simp [wideningMulHwC, mulC_eq (w := 2 * w) (by rw [two_pow_two_mul]; exact h), trunc,
    Nat.mod_eq_of_lt h2]

theorem carryingMulC_eq {w a b c : Nat} (ha : a < 2 ^ w) (hb : b < 2 ^ w) (hc : c < 2 ^ w) :
    carryingMulC w a b c = some ((a * b + c) % 2 ^ w, (a * b + c) / 2 ^ w) := by
  have h := mul_lt_sq ha hb
  have h' := mul_add_lt_sq ha hb hc
  have h2 : (a * b + c) / 2 ^ w < 2 ^ w := Nat.div_lt_of_lt_mul h'
  simp [carryingMulC, mulC_eq (w := 2 * w) (by rw [two_pow_two_mul]; exact h),
    addC_eq (w := 2 * w) (a := a * b) (b := c) (by rw [two_pow_two_mul]; exact h'), trunc,
    Nat.mod_eq_of_lt h2]

theorem carryingMulHwC_eq {w a b c : Nat} (ha : a < 2 ^ w) (hb : b < 2 ^ w) (hc : c < 2 ^ w) :
    carryingMulHwC w a b c = some ((a * b + c) / 2 ^ w) := by
  have h := mul_lt_sq ha hb
  have h' := mul_add_lt_sq ha hb hc
  have h2 : (a * b + c) / 2 ^ w < 2 ^ w := Nat.div_lt_of_lt_mul h'
  simp [carryingMulHwC, mulC_eq (w := 2 * w) (by rw [two_pow_two_mul]; exact h),
    addC_eq (w := 2 * w) (a := a * b) (b := c) (by rw [two_pow_two_mul]; exact h'), trunc,
    Nat.mod_eq_of_lt h2]

theorem carryingAdd_spec {w a b : Nat} (ha : a < 2 ^ w) (hb : b < 2 ^ w) (c : Bool) :
    (carryingAdd w a b c).1 = (a + b + c.toNat) % 2 ^ w ∧
    (carryingAdd w a b c).2 = decide (2 ^ w ≤ a + b + c.toNat) := by
  have hw : 1 ≤ 2 ^ w := Nat.two_pow_pos w
  have hc : c.toNat ≤ 1 := by cases c <;> simp
  simp only [carryingAdd, overflowingAdd]
  constructor
  · rw [Nat.mod_add_mod]
  · rcases Nat.lt_or_ge (a + b) (2 ^ w) with h | h
    · rw [decide_eq_false (by omega : ¬ 2 ^ w ≤ a + b), Bool.false_or]
      simp only [Nat.mod_eq_of_lt h]
    · rw [decide_eq_true h, Bool.true_or]
      exact (decide_eq_true (by omega)).symm

theorem wrappingSub_of_le {w a b : Nat} (ha : a < 2 ^ w) (h : b ≤ a) :
    wrappingSub w a b = a - b := by
  unfold wrappingSub
  rw [show a + 2 ^ w - b = (a - b) + 2 ^ w by omega, Nat.add_mod_right]
  exact Nat.mod_eq_of_lt (by omega)

theorem wrappingSub_of_lt {w a b : Nat} (h : a < b) (hb : b ≤ 2 ^ w) :
    wrappingSub w a b = a + 2 ^ w - b := by
  unfold wrappingSub
  exact Nat.mod_eq_of_lt (by omega)

theorem borrowingSub_spec {w a b : Nat} (ha : a < 2 ^ w) (hb : b < 2 ^ w) (c : Bool) :
    ((borrowingSub w a b c).1 : Int)
      = (a : Int) - b - c.toNat + (if (borrowingSub w a b c).2 then ((2 ^ w : Nat) : Int) else 0) ∧
    (borrowingSub w a b c).2 = decide (a < b + c.toNat) := by
  have hw : 1 ≤ 2 ^ w := Nat.two_pow_pos w
  have hc : c.toNat ≤ 1 := by cases c <;> simp
  have main : ∀ B d : Nat, a < B → b < B → 1 ≤ B → d ≤ 1 →
      ((((a + B - b) % B + B - d) % B : Nat) : Int)
        = (a : Int) - b - d + (if a < b + d then (B : Int) else 0) ∧
      ((a < b ∨ (a + B - b) % B < d) ↔ a < b + d) := by
    intro B d ha hb hw hc
    rcases Nat.lt_or_ge a b with h | h
    · have e1 : (a + B - b) % B = a + B - b := Nat.mod_eq_of_lt (by omega)
      have e2 : (a + B - b + B - d) % B = a + B - b - d := by
        rw [show a + B - b + B - d = a + B - b - d + B by omega, Nat.add_mod_right]
        exact Nat.mod_eq_of_lt (by omega)
      rw [e1, e2, if_pos (by omega)]
      omega
    · have e1 : (a + B - b) % B = a - b := by
        rw [show a + B - b = a - b + B by omega, Nat.add_mod_right]
        exact Nat.mod_eq_of_lt (by omega)
      rw [e1]
      rcases Nat.lt_or_ge (a - b) d with h2 | h2
      · have e2 : (a - b + B - d) % B = a - b + B - d := Nat.mod_eq_of_lt (by omega)
        rw [e2, if_pos (by omega)]
        omega
      · have e2 : (a - b + B - d) % B = a - b - d := by
          rw [show a - b + B - d = a - b - d + B by omega, Nat.add_mod_right]
          exact Nat.mod_eq_of_lt (by omega)
        rw [e2, if_neg (by omega)]
        omega
  obtain ⟨h1, h2⟩ := main (2 ^ w) c.toNat ha hb hw hc
  have h3 : (borrowingSub w a b c).2 = decide (a < b + c.toNat) := by
    show (decide (a < b) || decide ((a + 2 ^ w - b) % 2 ^ w < c.toNat)) = _
    rw [Bool.eq_iff_iff]
    simp only [Bool.or_eq_true, decide_eq_true_eq]
    exact h2
  refine ⟨?_, h3⟩
  rw [h3]
  simp only [decide_eq_true_eq]
  exact h1

theorem bitLen_le_iff {x k : Nat} : bitLen x ≤ k ↔ x < 2 ^ k := by
  unfold bitLen
  split
  · next h => subst h; simp
  · next h => rw [Nat.succ_le_iff, Nat.log2_lt h]

theorem bitLen_lt_iff {x k : Nat} : bitLen x < k ↔ 0 < k ∧ x < 2 ^ (k - 1) := by
  rw [← bitLen_le_iff]; omega

end Verif
