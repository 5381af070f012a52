import Verif.Model.Shoup
import Verif.Lemmas.Exp

namespace Verif
namespace Shoup

theorem core {b v m x : Nat} (hx : x < b) (hv : v < m) :
    (v * b / m) * x / b * m ≤ v * x ∧ v * x < (v * b / m) * x / b * m + 2 * m := by
  have hb : 0 < b := by omega
  have hm : 0 < m := by omega
  set q := v * b / m with hq
  set h := q * x / b with hh
  have e1 : q * m ≤ v * b := Nat.div_mul_le_self _ _
  have e2 : h * b ≤ q * x := Nat.div_mul_le_self _ _
  have e3 : v * b < (q + 1) * m := by rw [Nat.mul_comm (q + 1)]; exact Nat.lt_mul_div_succ _ hm
  have e4 : q * x < (h + 1) * b := by rw [Nat.mul_comm (h + 1)]; exact Nat.lt_mul_div_succ _ hb
  constructor
  · by_contra hc
    have : (v * x + 1) * b ≤ h * m * b := Nat.mul_le_mul_right _ (by omega)
    nlinarith [Nat.mul_le_mul_right m e2, Nat.mul_le_mul_right x e1]
  · by_contra hc
    have h1 : (h * m + 2 * m) * b ≤ v * x * b := Nat.mul_le_mul_right _ (by omega)
    have h2 : v * b * x ≤ (q + 1) * m * x := Nat.mul_le_mul_right _ e3.le
    have h3 : q * x * m < (h + 1) * b * m := Nat.mul_lt_mul_of_pos_right e4 hm
    have h4 : m * x ≤ m * b := Nat.mul_le_mul_left _ hx.le
    nlinarith

theorem lazy_eq {w v m x : Nat} (hm : 2 * m ≤ 2 ^ w) (hv : v < m) (hx : x < 2 ^ w) {s : Shoup}
    (hs : Shoup.new w v m = some s) :
    ∃ k, mulReduceLazy w s x m = some (v * x - k * m) ∧ k * m ≤ v * x ∧ v * x < k * m + 2 * m := by
  have hB := Nat.two_pow_pos w
  simp only [new, hv, if_true, Option.some.injEq] at hs
  subst hs
  have hq : v * 2 ^ w / m < 2 ^ w := by
    rw [Nat.div_lt_iff_lt_mul (by omega), Nat.mul_comm]
    exact Nat.mul_lt_mul_of_pos_left hv hB
  have ⟨c1, c2⟩ := core (b := 2 ^ w) hx hv
  simp only [mulReduceLazy, trunc, Nat.mod_eq_of_lt hq, wideningMulHwC_eq hq hx,
    Option.bind_eq_bind, Option.bind_some]
  refine ⟨_, ?_, c1, c2⟩
  generalize v * 2 ^ w / m * x / 2 ^ w = k at *
  congr 1
  unfold wrappingSub wrappingMul
  generalize 2 ^ w = B at *
  have hz : ((v * x % B + B - k * m % B : Nat) : ZMod B) = ((v * x - k * m : Nat) : ZMod B) := by
    have := Nat.mod_lt (k * m) hB
    rw [Nat.cast_sub (by omega), Nat.cast_sub c1]
    push_cast [ZMod.natCast_mod]
    simp
  have := (ZMod.natCast_eq_natCast_iff' _ _ _).1 hz
  rw [this, Nat.mod_eq_of_lt (by omega)]

end Shoup

end Verif
