import Verif.Model.ModSwitch
import Mathlib.Data.Rat.Floor
import Mathlib.Algebra.Order.Floor.Ring
import Mathlib.Tactic.Linarith
import Mathlib.Tactic.Positivity
import Mathlib.Tactic.FieldSimp
import Mathlib.Tactic.Ring
import Mathlib.Algebra.Order.Field.Power

/-! # The rounding of the `f64` model -/

namespace Verif.F64

theorem p2_eq (e : ℤ) : p2 e = (2 : ℚ) ^ e := by
  unfold p2
  split
  · next h =>
    obtain ⟨n, rfl⟩ := Int.eq_ofNat_of_zero_le h
    simp
  · next h =>
    obtain ⟨n, hn⟩ := Int.eq_ofNat_of_zero_le (show 0 ≤ -e by omega)
    rw [show e = -(n : ℤ) by omega]
    simp

theorem p2_pos (e : ℤ) : 0 < (2 : ℚ) ^ e := zpow_pos (by norm_num) e

theorem exponent_spec {x : ℚ} (hx : 0 < x) :
    (2 : ℚ) ^ exponent x ≤ x ∧ x < (2 : ℚ) ^ (exponent x + 1) := by
  have hnum : 0 < x.num := Rat.num_pos.2 hx
  obtain ⟨a, ha⟩ := Int.eq_ofNat_of_zero_le hnum.le
  have ha0 : a ≠ 0 := by omega
  have hd0 : x.den ≠ 0 := x.den_nz
  have hxe : x = (a : ℚ) / (x.den : ℚ) := by
    conv_lhs => rw [← Rat.num_div_den x, ha]
    simp
  have hA1 : (2 : ℚ) ^ (a.log2 : ℤ) ≤ a := by
    rw [zpow_natCast]; exact_mod_cast Nat.log2_self_le ha0
  have hA2 : (a : ℚ) < (2 : ℚ) ^ ((a.log2 : ℤ) + 1) := by
    rw [← Nat.cast_succ, zpow_natCast]; exact_mod_cast Nat.lt_log2_self
  have hB1 : (2 : ℚ) ^ (x.den.log2 : ℤ) ≤ x.den := by
    rw [zpow_natCast]; exact_mod_cast Nat.log2_self_le hd0
  have hB2 : (x.den : ℚ) < (2 : ℚ) ^ ((x.den.log2 : ℤ) + 1) := by
    rw [← Nat.cast_succ, zpow_natCast]; exact_mod_cast Nat.lt_log2_self
  have hdp : (0 : ℚ) < x.den := by exact_mod_cast Nat.pos_of_ne_zero hd0
  have hap : (0 : ℚ) < a := by exact_mod_cast Nat.pos_of_ne_zero ha0
  have hup : x < (2 : ℚ) ^ ((a.log2 : ℤ) - x.den.log2 + 1) := by
    rw [hxe, div_lt_iff₀ hdp]
    rw [← hxe]
    calc (a : ℚ) < 2 ^ ((a.log2 : ℤ) + 1) := hA2
      _ = 2 ^ ((a.log2 : ℤ) - x.den.log2 + 1) * 2 ^ (x.den.log2 : ℤ) := by
        rw [← zpow_add₀ (by norm_num)]; congr 1; ring
      _ ≤ _ := by gcongr
  have hlo : (2 : ℚ) ^ ((a.log2 : ℤ) - x.den.log2 - 1) < x := by
    conv_rhs => rw [hxe]
    rw [lt_div_iff₀ hdp]
    calc (2 : ℚ) ^ ((a.log2 : ℤ) - x.den.log2 - 1) * x.den
        < 2 ^ ((a.log2 : ℤ) - x.den.log2 - 1) * 2 ^ ((x.den.log2 : ℤ) + 1) := by gcongr
      _ = 2 ^ (a.log2 : ℤ) := by rw [← zpow_add₀ (by norm_num)]; congr 1; ring
      _ ≤ a := hA1
  unfold exponent
  have hnat : x.num.toNat = a := by rw [ha]; rfl
  simp only [hnat, p2_eq]
  split
  · next h => exact ⟨h, hup⟩
  · next h => exact ⟨hlo.le, by rw [sub_add_cancel]; exact not_le.1 h⟩

theorem floor_bounds (x : ℚ) : (x.floor : ℚ) ≤ x ∧ x < x.floor + 1 :=
  ⟨Int.floor_le x, Int.lt_floor_add_one x⟩

theorem le_floor {c : ℤ} {x : ℚ} (h : (c : ℚ) ≤ x) : c ≤ x.floor := Int.le_floor.2 h

theorem nearestEven_spec (x : ℚ) :
    x.floor ≤ nearestEven x ∧ |(nearestEven x : ℚ) - x| ≤ 1 / 2 := by
  obtain ⟨h1, h2⟩ := floor_bounds x
  unfold nearestEven
  simp only []
  split
  · next h => exact ⟨le_rfl, by rw [abs_le]; constructor <;> linarith⟩
  · next h =>
    split
    · next h' => exact ⟨by omega, by push_cast; rw [abs_le]; constructor <;> linarith⟩
    · next h' =>
      split
      · exact ⟨le_rfl, by rw [abs_le]; constructor <;> linarith⟩
      · exact ⟨by omega, by push_cast; rw [abs_le]; constructor <;> linarith⟩

/-- No integer is nearer. -/
theorem nearestEven_nearest (x : ℚ) (c : ℤ) : |(nearestEven x : ℚ) - x| ≤ |(c : ℚ) - x| := by
  by_cases h : c = nearestEven x
  · rw [h]
  · have h1 := (nearestEven_spec x).2
    have h2 : (1 : ℚ) ≤ |(c : ℚ) - nearestEven x| := by
      rw [← Int.cast_sub, ← Int.cast_abs]
      have : (1 : ℤ) ≤ |c - nearestEven x| := Int.one_le_abs (by omega)
      exact_mod_cast this
    have h3 := abs_sub_le (c : ℚ) x (nearestEven x)
    rw [abs_sub_comm x] at h3
    linarith

theorem nearestEven_int (c : ℤ) : nearestEven (c : ℚ) = c := by
  have := nearestEven_nearest (c : ℚ) c
  rw [sub_self, abs_zero] at this
  have := abs_nonpos_iff.1 this
  have : (nearestEven (c : ℚ) : ℚ) = c := by linarith
  exact_mod_cast this

/-- A number with at most 53 significant bits. -/
def Representable (y : ℚ) : Prop := ∃ (m : ℕ) (e : ℤ), m < 2 ^ 53 ∧ y = m * (2 : ℚ) ^ e

section
variable {x : ℚ} (hx : 0 < x)
include hx

theorem scaled : (2 : ℚ) ^ 52 ≤ x / p2 (exponent x - 52) ∧ x / p2 (exponent x - 52) < (2 : ℚ) ^ 53 := by
  obtain ⟨h1, h2⟩ := exponent_spec hx
  rw [p2_eq, le_div_iff₀ (p2_pos _), div_lt_iff₀ (p2_pos _)]
  have e1 : (2 : ℚ) ^ 52 * 2 ^ (exponent x - 52) = 2 ^ exponent x := by
    rw [← zpow_natCast, ← zpow_add₀ (by norm_num)]; congr 1; push_cast; ring
  have e2 : (2 : ℚ) ^ 53 * 2 ^ (exponent x - 52) = 2 ^ (exponent x + 1) := by
    rw [← zpow_natCast, ← zpow_add₀ (by norm_num)]; congr 1; push_cast; ring
  rw [e1, e2]
  exact ⟨h1, h2⟩

theorem rnd_eq : rnd x = nearestEven (x / p2 (exponent x - 52)) * p2 (exponent x - 52) := by
  unfold rnd; rw [if_neg hx.ne']

omit hx in
/-- A representable number is below the binade of `x`, or a multiple of the unit. -/
theorem representable_cases {y : ℚ} (hy : Representable y) :
    y < (2 : ℚ) ^ 52 * p2 (exponent x - 52) ∨ ∃ c : ℤ, y = c * p2 (exponent x - 52) := by
  obtain ⟨m, j, hm, rfl⟩ := hy
  by_cases hj : exponent x - 52 ≤ j
  · right
    obtain ⟨d, hd⟩ := Int.eq_ofNat_of_zero_le (show 0 ≤ j - (exponent x - 52) by omega)
    refine ⟨m * 2 ^ d, ?_⟩
    rw [p2_eq, show j = (d : ℤ) + (exponent x - 52) by omega, zpow_add₀ (by norm_num)]
    push_cast
    rw [zpow_natCast]; ring
  · left
    rw [p2_eq]
    have hm' : (m : ℚ) < (2 : ℚ) ^ (53 : ℤ) := by
      rw [show (53 : ℤ) = ((53 : ℕ) : ℤ) from rfl, zpow_natCast]; exact_mod_cast hm
    calc (m : ℚ) * 2 ^ j < 2 ^ (53 : ℤ) * 2 ^ j := by
          exact mul_lt_mul_of_pos_right hm' (p2_pos j)
      _ ≤ 2 ^ (53 : ℤ) * 2 ^ (exponent x - 53) := by
          refine mul_le_mul_of_nonneg_left ?_ (p2_pos _).le
          exact zpow_le_zpow_right₀ (by norm_num) (by omega)
      _ = _ := by
        rw [← zpow_natCast, ← zpow_add₀ (by norm_num), ← zpow_add₀ (by norm_num)]; congr 1; push_cast; ring

theorem pow52_le_nearest : (2 : ℤ) ^ 52 ≤ nearestEven (x / p2 (exponent x - 52)) := by
  refine le_trans ?_ (nearestEven_spec _).1
  refine le_floor ?_
  have := (scaled hx).1
  push_cast
  exact this

theorem nearest_le_pow53 : nearestEven (x / p2 (exponent x - 52)) ≤ (2 : ℤ) ^ 53 := by
  have h1 := (scaled hx).2
  have h2 := abs_le.1 (nearestEven_spec (x / p2 (exponent x - 52))).2
  have h3 : ((nearestEven (x / p2 (exponent x - 52)) : ℤ) : ℚ) < ((2 ^ 53 + 1 : ℤ) : ℚ) := by
    push_cast; linarith
  have := Int.cast_lt.1 h3
  omega

theorem rnd_representable : Representable (rnd x) := by
  have h1 := pow52_le_nearest hx
  have h2 := nearest_le_pow53 hx
  rw [rnd_eq hx]
  obtain ⟨m, hm⟩ := Int.eq_ofNat_of_zero_le (show 0 ≤ nearestEven (x / p2 (exponent x - 52)) by omega)
  rw [hm] at h1 h2 ⊢
  by_cases h : m = 2 ^ 53
  · refine ⟨2 ^ 52, exponent x - 51, by norm_num, ?_⟩
    rw [h, p2_eq, show exponent x - 51 = 1 + (exponent x - 52) by ring, zpow_add₀ (by norm_num)]
    push_cast
    ring
  · refine ⟨m, exponent x - 52, by omega, by rw [p2_eq]; rfl⟩

/-- No representable number is nearer to `x` than `rnd x`. -/
theorem rnd_nearest {y : ℚ} (hy : Representable y) : |rnd x - x| ≤ |y - x| := by
  have hs : 0 < p2 (exponent x - 52) := by rw [p2_eq]; exact p2_pos _
  have key : ∀ c : ℤ, |rnd x - x| ≤ |c * p2 (exponent x - 52) - x| := by
    intro c
    rw [rnd_eq hx]
    have e : ∀ r : ℚ, r * p2 (exponent x - 52) - x =
        (r - x / p2 (exponent x - 52)) * p2 (exponent x - 52) := fun r => by
      rw [sub_mul, div_mul_cancel₀ _ hs.ne']
    rw [e, e, abs_mul, abs_mul]
    exact mul_le_mul_of_nonneg_right (nearestEven_nearest _ c) (abs_nonneg _)
  rcases representable_cases (x := x) hy with h | ⟨c, rfl⟩
  · refine (key (2 ^ 52)).trans ?_
    have h1 : (2 : ℚ) ^ 52 * p2 (exponent x - 52) ≤ x := by
      have := (scaled hx).1
      rwa [le_div_iff₀ hs] at this
    push_cast
    rw [abs_of_nonpos (by linarith), abs_of_nonpos (by linarith)]
    linarith
  · exact key c

theorem rnd_error : |rnd x - x| ≤ x / 2 ^ 53 := by
  have hs : 0 < p2 (exponent x - 52) := by rw [p2_eq]; exact p2_pos _
  have h1 := (nearestEven_spec (x / p2 (exponent x - 52))).2
  have h2 := (scaled hx).1
  rw [le_div_iff₀ hs] at h2
  have h3 : |rnd x - x| ≤ 1 / 2 * p2 (exponent x - 52) := by
    rw [rnd_eq hx]
    have e : ∀ r : ℚ, r * p2 (exponent x - 52) - x =
        (r - x / p2 (exponent x - 52)) * p2 (exponent x - 52) := fun r => by
      rw [sub_mul, div_mul_cancel₀ _ hs.ne']
    rw [e, abs_mul, abs_of_pos hs]
    exact mul_le_mul_of_nonneg_right h1 hs.le
  refine h3.trans ?_
  rw [le_div_iff₀ (by norm_num)]
  linarith

theorem le_rnd {y : ℚ} (hy : Representable y) (h : y ≤ x) : y ≤ rnd x := by
  have hs : 0 < p2 (exponent x - 52) := by rw [p2_eq]; exact p2_pos _
  rw [rnd_eq hx]
  rcases representable_cases (x := x) hy with h' | ⟨c, rfl⟩
  · refine h'.le.trans (mul_le_mul_of_nonneg_right ?_ hs.le)
    exact_mod_cast pow52_le_nearest hx
  · refine mul_le_mul_of_nonneg_right ?_ hs.le
    have : c ≤ nearestEven (x / p2 (exponent x - 52)) := by
      refine le_trans (le_floor ?_) (nearestEven_spec _).1
      rwa [le_div_iff₀ hs]
    exact_mod_cast this

end

theorem rnd_of_representable {x : ℚ} (h : Representable x) : rnd x = x := by
  obtain ⟨m, e, _, he⟩ := id h
  by_cases h0 : x = 0
  · rw [h0]; rfl
  · have hx : 0 < x := by
      refine lt_of_le_of_ne ?_ (Ne.symm h0)
      rw [he]; positivity
    have := rnd_nearest hx h
    rw [sub_self, abs_zero] at this
    linarith [abs_nonpos_iff.1 this]

theorem representable_nat {v : Nat} (h : v < 2 ^ 53) : Representable (v : ℚ) := ⟨v, 0, h, by simp⟩

end Verif.F64
