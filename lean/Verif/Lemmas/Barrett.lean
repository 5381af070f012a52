import Verif.Model.Barrett
import Verif.Lemmas.Word
import Verif.Spec
import Mathlib.Data.Nat.ModEq

namespace Verif.Barrett

theorem divHalf_eq {w h rem m : Nat} (hw : w = 2 * h) (hh : 0 < h) (hm : m < 2 ^ h)
    (hr : rem < m) :
    divHalf w rem m = some (rem * 2 ^ w / m, rem * 2 ^ w % m) := by
  subst hw
  have hB : 2 ^ (2 * h) = 2 ^ h * 2 ^ h := two_pow_two_mul h
  have hpos : 0 < 2 ^ h := Nat.two_pow_pos h
  have hm0 : 0 < m := by omega
  have half : 2 * h / 2 = h := by omega
  have a1 : rem * 2 ^ h < 2 ^ (2 * h) := by
    rw [hB]; exact Nat.mul_lt_mul_of_pos_right (by omega) hpos
  have hmod := Nat.mod_lt (rem * 2 ^ h) hm0
  have a2 : rem * 2 ^ h % m * 2 ^ h < 2 ^ (2 * h) := by
    rw [hB]; exact Nat.mul_lt_mul_of_pos_right (by omega) hpos
  have q1 : rem * 2 ^ h / m < 2 ^ h :=
    Nat.div_lt_of_lt_mul (Nat.mul_lt_mul_of_pos_right hr hpos)
  have q2 : rem * 2 ^ h % m * 2 ^ h / m < 2 ^ h :=
    Nat.div_lt_of_lt_mul (Nat.mul_lt_mul_of_pos_right hmod hpos)
  have a3 : rem * 2 ^ h / m * 2 ^ h < 2 ^ (2 * h) := by
    rw [hB]; exact Nat.mul_lt_mul_of_pos_right q1 hpos
  have e1 := Nat.div_add_mod (rem * 2 ^ h) m
  have e2 := Nat.div_add_mod (rem * 2 ^ h % m * 2 ^ h) m
  have key := (Nat.div_mod_unique (a := rem * 2 ^ (2 * h)) (b := m)
    (c := rem * 2 ^ h % m * 2 ^ h % m)
    (d := rem * 2 ^ h / m * 2 ^ h + rem * 2 ^ h % m * 2 ^ h / m) hm0).2
    ⟨by
      have : rem * 2 ^ (2 * h) = (rem * 2 ^ h) * 2 ^ h := by rw [hB]; ring
      rw [this]
      conv_rhs => rw [← e1]
      rw [Nat.add_mul]
      conv_rhs => rw [← e2]
      ring, Nat.mod_lt _ hm0⟩
  have hlt : h < 2 * h := by omega
  have hor : (rem * 2 ^ h / m * 2 ^ h) ||| (rem * 2 ^ h % m * 2 ^ h / m)
      = rem * 2 ^ h / m * 2 ^ h + rem * 2 ^ h % m * 2 ^ h / m := by
    rw [Nat.mul_comm _ (2 ^ h)]
    exact (Nat.two_pow_add_eq_or_of_lt q2 _).symm
  simp only [divHalf, shlC, half, hlt, if_true, divRem, hm0.ne', if_false, Nat.mod_eq_of_lt a1,
    Nat.mod_eq_of_lt a2, Nat.mod_eq_of_lt a3, Option.bind_eq_bind, Option.bind_some, hor,
    key.1, key.2]
  rfl

theorem divWide_eq {w rem m : Nat} (hw : 0 < w) (hm : m < 2 ^ w) (hr : rem < m) :
    divWide w rem m = some (rem * 2 ^ w / m, rem * 2 ^ w % m) := by
  have hm0 : 0 < m := by omega
  have hpos : 0 < 2 ^ w := Nat.two_pow_pos w
  have a1 : rem * 2 ^ w < 2 ^ (2 * w) := by
    rw [two_pow_two_mul]; exact Nat.mul_lt_mul_of_pos_right (by omega) hpos
  have q1 : rem * 2 ^ w / m < 2 ^ w :=
    Nat.div_lt_of_lt_mul (Nat.mul_lt_mul_of_pos_right hr hpos)
  have hmod := Nat.mod_lt (rem * 2 ^ w) hm0
  simp [divWide, shlC, show w < 2 * w by omega, Nat.mod_eq_of_lt a1, divRem, hm0.ne', trunc,
    Nat.mod_eq_of_lt q1, Nat.mod_eq_of_lt (Nat.lt_trans hmod hm)]

theorem sq_div_split {b m : Nat} (hm : 0 < m) :
    b * b / m = b * (b / m) + (b % m) * b / m ∧ (b % m) * b / m < b ∨ b = 0 := by
  rcases Nat.eq_zero_or_pos b with h | h
  · exact Or.inr h
  · left
    constructor
    · have e := Nat.div_add_mod b m
      calc b * b / m = ((m * (b / m) + b % m) * b) / m := by rw [e]
        _ = (b % m * b + m * (b * (b / m))) / m := by congr 1; ring
        _ = b % m * b / m + b * (b / m) := by rw [Nat.add_mul_div_left _ _ hm]
        _ = _ := by ring
    · exact Nat.div_lt_of_lt_mul (Nat.mul_lt_mul_of_pos_right (Nat.mod_lt _ hm) h)

theorem new_eq {w m : Nat} (hw : w % 2 = 0) (h2 : 2 ≤ m) (hm : m < 2 ^ (w - 2)) :
    new w m = some ⟨m, 2 ^ w * 2 ^ w / m % 2 ^ w, 2 ^ w * 2 ^ w / m / 2 ^ w⟩ := by
  have hw4 : 4 ≤ w := by
    rcases Nat.lt_or_ge w 4 with h | h
    · have : w - 2 ≤ 1 := by omega
      have := Nat.pow_le_pow_right (n := 2) (by omega) this
      omega
    · exact h
  obtain ⟨h, rfl⟩ : ∃ h, w = 2 * h := ⟨w / 2, by omega⟩
  have hpos : 0 < 2 ^ (2 * h) := Nat.two_pow_pos _
  have hlt : m < 2 ^ (2 * h) :=
    Nat.lt_of_lt_of_le hm (Nat.pow_le_pow_right (by omega) (by omega))
  have hbl : bitLen m < 2 * h - 1 := bitLen_lt_iff.2 ⟨by omega, by
    rw [show 2 * h - 1 - 1 = 2 * h - 2 by omega]; exact hm⟩
  have hcond : ¬ (m = 0 ∨ m = 1) := by omega
  have half : (2 ^ (2 * h) - 1) / 2 ^ (2 * h / 2) = 2 ^ h - 1 := by
    rw [show 2 * h / 2 = h by omega, two_pow_two_mul]
    have hp : 0 < 2 ^ h := Nat.two_pow_pos _
    generalize 2 ^ h = B at hp
    obtain ⟨k, rfl⟩ : ∃ k, B = k + 1 := ⟨B - 1, by omega⟩
    rw [show (k + 1) * (k + 1) - 1 = k + (k + 1) * k by
      have : (k + 1) * (k + 1) = k + (k + 1) * k + 1 := by ring
      omega]
    rw [Nat.add_mul_div_left _ _ (by omega), Nat.div_eq_of_lt (by omega)]
    omega
  have hdiv : divInplace (2 * h) m = some (2 ^ (2 * h) % m * 2 ^ (2 * h) / m,
      2 ^ (2 * h) / m, 2 ^ (2 * h) % m * 2 ^ (2 * h) % m) := by
    unfold divInplace
    rw [half]
    have hp : 0 < 2 ^ h := Nat.two_pow_pos _
    split
    · next hle =>
      rw [divHalf_eq (h := h) rfl (by omega) (by omega) (by omega : 1 < m)]
      simp only [Nat.one_mul, Option.bind_eq_bind, Option.bind_some]
      rw [divHalf_eq (h := h) rfl (by omega) (by omega) (Nat.mod_lt _ (by omega))]
      rfl
    · rw [divWide_eq (by omega) hlt (by omega : 1 < m)]
      simp only [Nat.one_mul, Option.bind_eq_bind, Option.bind_some]
      rw [divWide_eq (by omega) hlt (Nat.mod_lt _ (by omega))]
      rfl
  rcases sq_div_split (b := 2 ^ (2 * h)) (m := m) (by omega) with ⟨e1, e2⟩ | h0
  · simp only [new, hcond, if_false, hbl, if_true, hdiv, Option.bind_eq_bind, Option.bind_some]
    rw [e1, Nat.mul_add_mod, Nat.mod_eq_of_lt e2, Nat.add_comm, Nat.add_mul_div_left _ _ hpos,
      Nat.div_eq_of_lt e2, Nat.zero_add]
    rfl
  · omega

theorem new_none {w m : Nat} (h : m < 2 ∨ 2 ^ (w - 2) ≤ m) : new w m = none := by
  unfold new
  split
  · rfl
  · next h1 =>
    have hm : ¬ bitLen m < w - 1 := by
      rw [bitLen_lt_iff]
      rintro ⟨h2, h3⟩
      rw [show w - 1 - 1 = w - 2 by omega] at h3
      omega
    rw [if_neg hm]

/-- The arithmetic invariant of a constructed modulus. -/
structure Valid (w : Nat) (M : Barrett) : Prop where
  two_le : 2 ≤ M.value
  lt : M.value < 2 ^ (w - 2)
  w2 : 4 ≤ w
  r0 : M.r0 = 2 ^ w * 2 ^ w / M.value % 2 ^ w
  r1 : M.r1 = 2 ^ w * 2 ^ w / M.value / 2 ^ w

theorem new_cond {w m : Nat} {M : Barrett} (h : new w m = some M) : 2 ≤ m ∧ m < 2 ^ (w - 2) := by
  by_contra hc
  rw [new_none (w := w) (m := m) (by omega)] at h
  exact absurd h (by simp)

theorem new_valid {w m : Nat} {M : Barrett} (hw : w % 2 = 0) (h : new w m = some M) :
    Valid w M ∧ M.value = m := by
  obtain ⟨h1, h2⟩ := new_cond h
  rw [new_eq hw h1 h2] at h
  obtain rfl := Option.some.inj h
  have hw4 : 4 ≤ w := by
    rcases Nat.lt_or_ge w 4 with h | h
    · have : w - 2 ≤ 1 := by omega
      have := Nat.pow_le_pow_right (n := 2) (by omega) this
      omega
    · exact h
  exact ⟨⟨h1, h2, hw4, rfl, rfl⟩, rfl⟩

theorem Valid.four_mul_lt {w : Nat} {M : Barrett} (v : Valid w M) : 4 * M.value < 2 ^ w := by
  have h := v.lt
  have hw := v.w2
  have : 2 ^ w = 4 * 2 ^ (w - 2) := by
    conv_lhs => rw [show w = 2 + (w - 2) by omega, Nat.pow_add]
  omega

theorem Valid.lt_word' {w : Nat} {M : Barrett} (v : Valid w M) : M.value < 2 ^ w := by
  have := v.four_mul_lt; omega

/-- `⌊x·r/b²⌋` underestimates `x/m` by at most one, for `x ≤ b²`. -/
theorem quot_bounds {b2 m x : Nat} (hm : 0 < m) (hb : 0 < b2) (hx : x ≤ b2) :
    x * (b2 / m) / b2 * m ≤ x ∧ x < (x * (b2 / m) / b2) * m + 2 * m := by
  set r := b2 / m with hr
  set q := x * r / b2 with hq
  have h1 : r * m ≤ b2 := Nat.div_mul_le_self b2 m
  have h2 : b2 < m * r + m := by
    have := Nat.lt_mul_div_succ b2 hm
    rw [← hr] at this
    calc b2 < m * (r + 1) := this
      _ = m * r + m := by ring
  have h3 : q * b2 ≤ x * r := Nat.div_mul_le_self (x * r) b2
  have h4 : x * r < b2 * q + b2 := by
    have := Nat.lt_mul_div_succ (x * r) hb
    rw [← hq] at this
    calc x * r < b2 * (q + 1) := this
      _ = b2 * q + b2 := by ring
  constructor
  · have : q * m * b2 ≤ x * b2 := by
      calc q * m * b2 = q * b2 * m := by ring
        _ ≤ x * r * m := Nat.mul_le_mul_right m h3
        _ = x * (r * m) := by ring
        _ ≤ x * b2 := Nat.mul_le_mul_left x h1
    exact Nat.le_of_mul_le_mul_right this hb
  · have h5 : x * b2 ≤ x * (m * r + m) := Nat.mul_le_mul_left x (by omega)
    have h6 : x * r * m < (b2 * q + b2) * m := Nat.mul_lt_mul_of_pos_right h4 hm
    have h7 : x * m ≤ b2 * m := Nat.mul_le_mul_right m hx
    have : x * b2 < (q * m + 2 * m) * b2 := by
      have e1 : x * (m * r + m) = x * r * m + x * m := by ring
      have e2 : (q * m + 2 * m) * b2 = (b2 * q + b2) * m + b2 * m := by ring
      omega
    exact Nat.lt_of_mul_lt_mul_right this

theorem r_split {w : Nat} {M : Barrett} (v : Valid w M) :
    2 ^ w * 2 ^ w / M.value = M.r0 + 2 ^ w * M.r1 := by
  rw [v.r0, v.r1, Nat.mod_add_div]

theorem r0_lt {w : Nat} {M : Barrett} (v : Valid w M) : M.r0 < 2 ^ w := by
  rw [v.r0]; exact Nat.mod_lt _ (Nat.two_pow_pos w)

theorem r1_lt {w : Nat} {M : Barrett} (v : Valid w M) : M.r1 < 2 ^ w := by
  rw [v.r1]
  have h2 := v.two_le
  apply Nat.div_lt_of_lt_mul
  apply Nat.div_lt_of_lt_mul
  have := Nat.two_pow_pos w
  have : 0 < 2 ^ w * 2 ^ w := Nat.mul_pos this this
  calc 2 ^ w * 2 ^ w < 2 * (2 ^ w * 2 ^ w) := by omega
    _ ≤ M.value * (2 ^ w * 2 ^ w) := Nat.mul_le_mul_right _ h2

theorem r_sum_lt {w : Nat} {M : Barrett} (v : Valid w M) : M.r0 + M.r1 < 2 ^ w := by
  have hm := v.two_le
  set m := M.value with hmdef
  have hB := Nat.two_pow_pos w
  have e := r_split v
  have h0 := r0_lt v
  generalize hBw : 2 ^ w = B at *
  have hle : (M.r0 + B * M.r1) * m ≤ B * B := by rw [← e]; exact Nat.div_mul_le_self _ _
  have hlt : B * B < (M.r0 + B * M.r1) * m + m := by
    rw [← e]
    have := Nat.lt_mul_div_succ (B * B) (show 0 < m by omega)
    calc B * B < m * (B * B / m + 1) := this
      _ = B * B / m * m + m := by ring
  -- s = B - r1 * m
  have hs1 : M.r1 * m ≤ B := by
    have : B * (M.r1 * m) ≤ B * B := by
      calc B * (M.r1 * m) ≤ M.r0 * m + B * (M.r1 * m) := by omega
        _ = (M.r0 + B * M.r1) * m := by ring
        _ ≤ _ := hle
    exact Nat.le_of_mul_le_mul_left this hB
  obtain ⟨s, hs⟩ : ∃ s, B = M.r1 * m + s := ⟨B - M.r1 * m, by omega⟩
  have hr0 : M.r0 * m ≤ B * s := by
    have : B * B = B * (M.r1 * m) + B * s := by conv_lhs => rw [hs, Nat.mul_add, ← hs]
    have : (M.r0 + B * M.r1) * m = M.r0 * m + B * (M.r1 * m) := by ring
    omega
  have hr0' : B * s < M.r0 * m + m := by
    have : B * B = B * (M.r1 * m) + B * s := by conv_lhs => rw [hs, Nat.mul_add, ← hs]
    have : (M.r0 + B * M.r1) * m = M.r0 * m + B * (M.r1 * m) := by ring
    omega
  have hsm : s < m := by
    by_contra hc
    have : B * m ≤ B * s := Nat.mul_le_mul_left _ (by omega)
    have : (M.r0 + 1) * m ≤ B * m := Nat.mul_le_mul_right _ (by omega)
    have : (M.r0 + 1) * m = M.r0 * m + m := by ring
    omega
  by_contra hc
  -- (r0 + r1) * m ≤ B*s + B - s
  have h1 : B * m ≤ (M.r0 + M.r1) * m := Nat.mul_le_mul_right _ (by omega)
  have h2 : (M.r0 + M.r1) * m = M.r0 * m + M.r1 * m := by ring
  have h3 : B * (s + 1) ≤ B * m := Nat.mul_le_mul_left _ (by omega)
  have h4 : B * (s + 1) = B * s + B := by ring
  -- so s = 0 and equality
  have hs0 : s = 0 := by omega
  subst hs0
  have : M.r0 * m = 0 := by omega
  have : B * 2 ≤ B * m := Nat.mul_le_mul_left _ hm
  omega

theorem wrap_sub_mul {w X x0 q m : Nat} (hX : X % 2 ^ w = x0) (h1 : q * m ≤ X)
    (h2 : X - q * m < 2 ^ w) :
    wrappingSub w x0 (wrappingMul w (q % 2 ^ w) m) = X - q * m := by
  unfold wrappingSub wrappingMul
  rw [Nat.mod_mul_mod]
  have hB := Nat.two_pow_pos w
  have hlt := Nat.mod_lt (q * m) hB
  rw [← Nat.mod_eq_of_lt h2]
  apply Nat.ModEq.add_right_cancel' (q * m % 2 ^ w)
  show (_ + _) % _ = (_ + _) % _
  rw [Nat.sub_add_cancel (by omega), Nat.add_mod_right, ← hX, Nat.mod_mod, Nat.add_mod_mod,
    Nat.sub_add_cancel h1]

theorem lazyReduce1_eq {w x : Nat} {M : Barrett} (v : Valid w M) (hx : x < 2 ^ w) :
    ∃ q, lazyReduce1 w M x = some (x - q * M.value) ∧ q * M.value ≤ x ∧
      x < q * M.value + 2 * M.value := by
  have hB := Nat.two_pow_pos w
  have h0 := r0_lt v
  have h1 := r1_lt v
  have ht : x * M.r0 / 2 ^ w < 2 ^ w := Nat.div_lt_of_lt_mul (mul_lt_sq hx h0)
  have hq : (x * M.r1 + x * M.r0 / 2 ^ w) / 2 ^ w
      = x * (2 ^ w * 2 ^ w / M.value) / (2 ^ w * 2 ^ w) := by
    rw [r_split v, ← Nat.div_div_eq_div_mul]
    congr 1
    rw [show x * (M.r0 + 2 ^ w * M.r1) = x * M.r0 + 2 ^ w * (x * M.r1) by ring,
      Nat.add_mul_div_left _ _ hB, Nat.add_comm]
  have hm : 0 < M.value := by have := v.two_le; omega
  obtain ⟨b1, b2⟩ := quot_bounds (b2 := 2 ^ w * 2 ^ w) (m := M.value) (x := x) hm
    (Nat.mul_pos hB hB) (Nat.le_trans hx.le (Nat.le_mul_of_pos_left _ hB))
  have h4 := v.four_mul_lt
  refine ⟨x * (2 ^ w * 2 ^ w / M.value) / (2 ^ w * 2 ^ w), ?_, b1, b2⟩
  have hqlt : (x * M.r1 + x * M.r0 / 2 ^ w) / 2 ^ w < 2 ^ w :=
    Nat.div_lt_of_lt_mul (mul_add_lt_sq hx h1 ht)
  simp only [lazyReduce1, wideningMulHwC_eq hx h0, carryingMulHwC_eq hx h1 ht,
    Option.bind_eq_bind, Option.bind_some]
  rw [← Nat.mod_eq_of_lt hqlt, hq]
  rw [wrap_sub_mul (X := x) (Nat.mod_eq_of_lt hx) b1 (by omega)]
  rfl

theorem cond_sub {r m x q : Nat} (h : r = x - q * m) (h1 : q * m ≤ x) (h2 : x < q * m + 2 * m)
    : (if m ≤ r then subC r m else some r) = some (x % m) := by
  have e : x = q * m + r := by omega
  split
  · next hle =>
    rw [subC_eq hle]
    congr 1
    rw [e, Nat.mul_add_mod_self_right]
    rw [Nat.mod_eq_sub_mod hle, Nat.mod_eq_of_lt (by omega)]
  · next hle =>
    rw [e, Nat.mul_add_mod_self_right, Nat.mod_eq_of_lt (by omega)]

theorem reduce1_eq {w x : Nat} {M : Barrett} (v : Valid w M) (hx : x < 2 ^ w) :
    reduce1 w M x = some (x % M.value) := by
  obtain ⟨q, e, h1, h2⟩ := lazyReduce1_eq v hx
  simp only [reduce1, e, Option.bind_eq_bind, Option.bind_some]
  exact cond_sub rfl h1 h2

theorem carry_split {B : Nat} (hB : 0 < B) (S C : Nat) :
    S / B + C / B + (decide (B ≤ S % B + C % B)).toNat = (S + C) / B := by
  have e1 := Nat.div_add_mod S B
  have e2 := Nat.div_add_mod C B
  have : (S + C) / B = (S % B + C % B + B * (S / B + C / B)) / B := by
    congr 1
    rw [Nat.mul_add]; omega
  rw [this, Nat.add_mul_div_left _ _ hB]
  have l1 := Nat.mod_lt S hB
  have l2 := Nat.mod_lt C hB
  by_cases hc : B ≤ S % B + C % B
  · simp only [hc, decide_true, Bool.toNat_true]
    have : (S % B + C % B) / B = 1 := Nat.div_eq_of_lt_le (by omega) (by omega)
    omega
  · simp only [hc, decide_false, Bool.toNat_false]
    have : (S % B + C % B) / B = 0 := Nat.div_eq_of_lt (by omega)
    omega

theorem lazyReduce2_eq {w x0 x1 : Nat} {M : Barrett} (v : Valid w M) (hx0 : x0 < 2 ^ w)
    (hx1 : x1 < 2 ^ w) :
    ∃ q, lazyReduce2 w M x0 x1 = some (x0 + 2 ^ w * x1 - q * M.value) ∧
      q * M.value ≤ x0 + 2 ^ w * x1 ∧ x0 + 2 ^ w * x1 < q * M.value + 2 * M.value := by
  have hB := Nat.two_pow_pos w
  have h0 := r0_lt v
  have h1 := r1_lt v
  have hs := r_sum_lt v
  have ht : x0 * M.r0 / 2 ^ w < 2 ^ w := Nat.div_lt_of_lt_mul (mul_lt_sq hx0 h0)
  have hm : 0 < M.value := by have := v.two_le; omega
  have hXlt : x0 + 2 ^ w * x1 < 2 ^ w * 2 ^ w := by
    have : 2 ^ w * (x1 + 1) ≤ 2 ^ w * 2 ^ w := Nat.mul_le_mul_left _ hx1
    have : 2 ^ w * (x1 + 1) = 2 ^ w * x1 + 2 ^ w := by ring
    omega
  obtain ⟨b1, b2⟩ := quot_bounds (b2 := 2 ^ w * 2 ^ w) (m := M.value) (x := x0 + 2 ^ w * x1) hm
    (Nat.mul_pos hB hB) hXlt.le
  have h4 := v.four_mul_lt
  refine ⟨(x0 + 2 ^ w * x1) * (2 ^ w * 2 ^ w / M.value) / (2 ^ w * 2 ^ w), ?_, b1, b2⟩
  -- split of the high word
  set S := x0 * M.r1 + x0 * M.r0 / 2 ^ w with hS
  set C := x1 * M.r0 with hC
  have hq : (x0 + 2 ^ w * x1) * (2 ^ w * 2 ^ w / M.value) / (2 ^ w * 2 ^ w)
      = x1 * M.r1 + (S + C) / 2 ^ w := by
    rw [r_split v, ← Nat.div_div_eq_div_mul]
    have : (x0 + 2 ^ w * x1) * (M.r0 + 2 ^ w * M.r1)
        = x0 * M.r0 + 2 ^ w * (x0 * M.r1 + C + 2 ^ w * (x1 * M.r1)) := by rw [hC]; ring
    rw [this, Nat.add_mul_div_left _ _ hB,
      show x0 * M.r0 / 2 ^ w + (x0 * M.r1 + C + 2 ^ w * (x1 * M.r1))
        = (S + C) + 2 ^ w * (x1 * M.r1) by rw [hS]; ring,
      Nat.add_mul_div_left _ _ hB, Nat.add_comm]
  have hSC : S + C < 2 ^ w * 2 ^ w := by
    have t1 : x0 * M.r0 / 2 ^ w ≤ M.r0 := by
      apply Nat.div_le_of_le_mul
      exact Nat.mul_le_mul_right _ hx0.le
    obtain ⟨k, hk⟩ : ∃ k, 2 ^ w = k + 1 := ⟨2 ^ w - 1, by omega⟩
    have t2 : x0 * M.r1 ≤ k * M.r1 := Nat.mul_le_mul_right _ (by omega)
    have t3 : C ≤ k * M.r0 := Nat.mul_le_mul_right _ (by omega)
    have t4 : k * M.r1 + k * M.r0 ≤ k * k := by
      rw [← Nat.mul_add]; exact Nat.mul_le_mul_left _ (by omega)
    rw [hk]
    have : (k + 1) * (k + 1) = k * k + 2 * k + 1 := by ring
    omega
  have hcarry : S / 2 ^ w + C / 2 ^ w + (overflowingAdd w (S % 2 ^ w) (C % 2 ^ w)).2.toNat
      = (S + C) / 2 ^ w := by
    exact carry_split hB S C
  have hbch : (S + C) / 2 ^ w < 2 ^ w := Nat.div_lt_of_lt_mul hSC
  simp only [lazyReduce2, wideningMulHwC_eq hx0 h0, carryingMulC_eq hx0 h1 ht,
    wideningMulC_eq hx1 h0, Option.bind_eq_bind, Option.bind_some]
  rw [← hS, ← hC]
  rw [addC_eq (by omega), Option.bind_some, addC_eq (by omega), Option.bind_some, hcarry]
  have hqq : wrappingAdd w (wrappingMul w x1 M.r1) ((S + C) / 2 ^ w)
      = (x1 * M.r1 + (S + C) / 2 ^ w) % 2 ^ w := by
    unfold wrappingAdd wrappingMul
    rw [Nat.mod_add_mod]
  rw [hqq, ← hq]
  rw [wrap_sub_mul (X := x0 + 2 ^ w * x1)
    (by rw [Nat.add_mul_mod_self_left, Nat.mod_eq_of_lt hx0]) b1 (by omega)]
  rfl

theorem reduce2_eq {w x0 x1 : Nat} {M : Barrett} (v : Valid w M) (hx0 : x0 < 2 ^ w)
    (hx1 : x1 < 2 ^ w) :
    reduce2 w M x0 x1 = some ((x0 + 2 ^ w * x1) % M.value) := by
  obtain ⟨q, e, h1, h2⟩ := lazyReduce2_eq v hx0 hx1
  simp only [reduce2, e, Option.bind_eq_bind, Option.bind_some]
  exact cond_sub rfl h1 h2

theorem sub_mul_mod_eq {x q m : Nat} (h : q * m ≤ x) : (x - q * m) % m = x % m := by
  conv_rhs => rw [show x = (x - q * m) + q * m by omega, Nat.add_mul_mod_self_right]

open Verif.Spec

theorem rfoldWords_lazy {w : Nat} {M : Barrett} (v : Valid w M) :
    ∀ (xs : List Nat), xs ≠ [] → (∀ x ∈ xs, x < 2 ^ w) →
      ∃ r, rfoldWords (lazyReduce2 w M) xs = some r ∧ r % M.value = wordsValue w xs % M.value ∧
        r < 2 ^ w ∧ (2 ≤ xs.length → r < 2 * M.value)
  | [], h, _ => absurd rfl h
  | [x], _, hx => ⟨x, rfl, by simp [wordsValue], by simpa using hx, by simp⟩
  | x :: y :: xs, _, hx => by
    obtain ⟨r, e, hmod, hlt, _⟩ := rfoldWords_lazy v (y :: xs) (by simp)
      (fun z hz => hx z (List.mem_cons_of_mem _ hz))
    obtain ⟨q, e2, h1, h2⟩ := lazyReduce2_eq v (hx x (by simp)) hlt
    have h4 := v.four_mul_lt
    refine ⟨_, by simp only [rfoldWords, e, Option.bind_eq_bind, Option.bind_some]; exact e2,
      ?_, by omega, by intro _; omega⟩
    rw [sub_mul_mod_eq h1, wordsValue, Nat.add_mod, Nat.mul_mod, hmod, ← Nat.mul_mod,
      ← Nat.add_mod]

theorem rfoldWords_reduce {w : Nat} {M : Barrett} (v : Valid w M) :
    ∀ (xs : List Nat), xs ≠ [] → (∀ x ∈ xs, x < 2 ^ w) →
      ∃ r, rfoldWords (reduce2 w M) xs = some r ∧ r % M.value = wordsValue w xs % M.value ∧
        r < 2 ^ w ∧ (2 ≤ xs.length → r < M.value)
  | [], h, _ => absurd rfl h
  | [x], _, hx => ⟨x, rfl, by simp [wordsValue], by simpa using hx, by simp⟩
  | x :: y :: xs, _, hx => by
    obtain ⟨r, e, hmod, hlt, _⟩ := rfoldWords_reduce v (y :: xs) (by simp)
      (fun z hz => hx z (List.mem_cons_of_mem _ hz))
    have e2 := reduce2_eq v (hx x (by simp)) hlt
    have h4 := v.four_mul_lt
    have hm : 0 < M.value := by have := v.two_le; omega
    have hl := Nat.mod_lt (x + 2 ^ w * r) hm
    refine ⟨_, by simp only [rfoldWords, e, Option.bind_eq_bind, Option.bind_some]; exact e2,
      ?_, by omega, by intro _; omega⟩
    rw [Nat.mod_mod, wordsValue, Nat.add_mod, Nat.mul_mod, hmod, ← Nat.mul_mod,
      ← Nat.add_mod]

theorem reduceSlice_eq {w : Nat} {M : Barrett} (v : Valid w M) (xs : List Nat) (h : xs ≠ [])
    (hx : ∀ x ∈ xs, x < 2 ^ w) :
    reduceSlice w M xs = some (wordsValue w xs % M.value) := by
  match xs, h, hx with
  | [x], _, hx =>
    simp only [reduceSlice, wordsValue, Nat.mul_zero, Nat.add_zero]
    split
    · next h => rw [Nat.mod_eq_of_lt h]
    · exact reduce1_eq v (by simpa using hx)
  | x :: y :: xs, h, hx =>
    obtain ⟨r, e, hmod, _, hlt⟩ := rfoldWords_reduce v (x :: y :: xs) h hx
    simp only [reduceSlice]
    rw [e, ← hmod, Nat.mod_eq_of_lt (hlt (by simp))]

theorem lazyReduceSlice_eq {w : Nat} {M : Barrett} (v : Valid w M) (xs : List Nat) (h : xs ≠ [])
    (hx : ∀ x ∈ xs, x < 2 ^ w) :
    ∃ r, lazyReduceSlice w M xs = some r ∧ r < 2 * M.value ∧
      r % M.value = wordsValue w xs % M.value := by
  match xs, h, hx with
  | [x], _, hx =>
    simp only [lazyReduceSlice, wordsValue, Nat.mul_zero, Nat.add_zero]
    split
    · next h => exact ⟨x, rfl, by omega, rfl⟩
    · obtain ⟨q, e, h1, h2⟩ := lazyReduce1_eq v (x := x) (by simpa using hx)
      exact ⟨_, e, by omega, sub_mul_mod_eq h1⟩
  | x :: y :: xs, h, hx =>
    obtain ⟨r, e, hmod, _, hlt⟩ := rfoldWords_lazy v (x :: y :: xs) h hx
    exact ⟨r, e, hlt (by simp), hmod⟩

/-! ### Dot product -/

/-- Sum of the products of a list of pairs. -/
def pairSum : List (Nat × Nat) → Nat
  | [] => 0
  | p :: ps => p.1 * p.2 + pairSum ps

theorem pairSum_zip (a b : List Nat) : pairSum (a.zip b) = dot a b := by
  induction a generalizing b with
  | nil => simp [pairSum, dot]
  | cons x xs ih => cases b with
    | nil => simp [pairSum, dot]
    | cons y ys => simp [pairSum, dot, ih]

theorem pairSum_append (a b : List (Nat × Nat)) : pairSum (a ++ b) = pairSum a + pairSum b := by
  induction a with
  | nil => simp [pairSum]
  | cons x xs ih => simp [pairSum, ih, Nat.add_assoc]

theorem add_two_word {B t p : Nat} (hB : 0 < B) (h : t + p < B * B) :
    (t % B + p % B) % B = (t + p) % B ∧
    (t / B + p / B + (decide (B ≤ t % B + p % B)).toNat) % B = (t + p) / B := by
  refine ⟨(Nat.add_mod t p B).symm, ?_⟩
  rw [carry_split hB, Nat.mod_eq_of_lt (Nat.div_lt_of_lt_mul h)]

theorem accumulate_eq {w : Nat} : ∀ (ps : List (Nat × Nat)) (t : Nat),
    (∀ p ∈ ps, p.1 < 2 ^ w ∧ p.2 < 2 ^ w) → t + pairSum ps < 2 ^ w * 2 ^ w →
    accumulate w (t % 2 ^ w, t / 2 ^ w) ps
      = some ((t + pairSum ps) % 2 ^ w, (t + pairSum ps) / 2 ^ w)
  | [], t, _, _ => by simp [accumulate, pairSum]
  | (a, b) :: ps, t, hp, hlt => by
    have hB := Nat.two_pow_pos w
    obtain ⟨ha, hb⟩ := hp (a, b) (by simp)
    simp only [pairSum] at hlt
    have h1 : t + a * b < 2 ^ w * 2 ^ w := by omega
    obtain ⟨e1, e2⟩ := add_two_word hB h1
    have hm : multiplyAdd w (t % 2 ^ w, t / 2 ^ w) a b
        = some ((t + a * b) % 2 ^ w, (t + a * b) / 2 ^ w) := by
      simp only [multiplyAdd, wideningMulC_eq ha hb, Option.bind_eq_bind, Option.bind_some]
      have ht : t / 2 ^ w < 2 ^ w := Nat.div_lt_of_lt_mul (by omega)
      have hab : a * b / 2 ^ w < 2 ^ w := Nat.div_lt_of_lt_mul (by omega)
      have hc := (carryingAdd_spec ht hab (decide (2 ^ w ≤ t % 2 ^ w + a * b % 2 ^ w))).1
      rw [e2] at hc
      rw [← e1, ← hc]
      rfl
    simp only [accumulate, hm, Option.bind_eq_bind, Option.bind_some]
    rw [accumulate_eq ps _ (fun p h => hp p (List.mem_cons_of_mem _ h)) (by omega)]
    simp only [pairSum, Nat.add_assoc]

theorem pairSum_le {m : Nat} : ∀ (ps : List (Nat × Nat)), (∀ p ∈ ps, p.1 < m ∧ p.2 < m) →
    pairSum ps ≤ ps.length * (m * m)
  | [], _ => by simp [pairSum]
  | (a, b) :: ps, h => by
    have ih := pairSum_le ps (fun p hp => h p (List.mem_cons_of_mem _ hp))
    obtain ⟨h1, h2⟩ := h (a, b) (by simp)
    have : a * b ≤ m * m := Nat.mul_le_mul h1.le h2.le
    have e : ((a, b) :: ps).length * (m * m) = m * m + ps.length * (m * m) := by
      simp; ring
    rw [e]; simp only [pairSum]; omega

theorem addReduce_mod {w m a b : Nat} (h2 : 2 * m ≤ 2 ^ w) (ha : a < m) (hb : b < m) :
    addReduce w m a b = some ((a + b) % m) := by
  simp only [addReduce, addC_eq (show a + b < 2 ^ w by omega), Option.bind_eq_bind,
    Option.bind_some]
  split
  · next h =>
    rw [subC_eq h, Nat.mod_eq_sub_mod h, Nat.mod_eq_of_lt (by omega)]
  · next h => rw [Nat.mod_eq_of_lt (by omega)]; rfl

theorem foldChunks_eq {w : Nat} {M : Barrett} (v : Valid w M) :
    ∀ (chs : List (List (Nat × Nat))) (acc : Nat), acc < M.value →
      (∀ ch ∈ chs, ch.length ≤ 16 ∧ ∀ p ∈ ch, p.1 < M.value ∧ p.2 < M.value) →
      foldChunks w M acc chs = some ((acc + pairSum chs.flatten) % M.value)
  | [], acc, hacc, _ => by simp [foldChunks, pairSum, Nat.mod_eq_of_lt hacc]
  | ch :: chs, acc, hacc, hch => by
    obtain ⟨hlen, hp⟩ := hch ch (by simp)
    have h4 := v.four_mul_lt
    have hl := v.lt_word'
    have hm : 0 < M.value := by omega
    have hsum : pairSum ch < 2 ^ w * 2 ^ w := by
      have h1 := pairSum_le ch hp
      have h2 : ch.length * (M.value * M.value) ≤ 16 * (M.value * M.value) :=
        Nat.mul_le_mul_right _ hlen
      have h3 : (4 * M.value) * (4 * M.value) < 2 ^ w * 2 ^ w := Nat.mul_lt_mul'' h4 h4
      have h5 : (4 * M.value) * (4 * M.value) = 16 * (M.value * M.value) := by ring
      omega
    have e1 := accumulate_eq (w := w) ch 0
      (fun p h => ⟨by have := (hp p h).1; omega, by have := (hp p h).2; omega⟩) (by omega)
    simp only [Nat.zero_mod, Nat.zero_div, Nat.zero_add] at e1
    have hB := Nat.two_pow_pos w
    have e2 := reduce2_eq v (Nat.mod_lt (pairSum ch) hB) (Nat.div_lt_of_lt_mul hsum)
    rw [Nat.mod_add_div] at e2
    have e3 := addReduce_mod (w := w) (m := M.value) (by omega) hacc (Nat.mod_lt (pairSum ch) hm)
    simp only [foldChunks, e1, e2, e3, Option.bind_eq_bind, Option.bind_some]
    rw [foldChunks_eq v chs _ (Nat.mod_lt _ hm) (fun c h => hch c (List.mem_cons_of_mem _ h))]
    rw [List.flatten_cons, pairSum_append, Nat.add_mod_mod, Nat.mod_add_mod, Nat.add_assoc]

theorem chunksExact16_spec {α : Type} : ∀ (fuel : Nat) (xs : List α), xs.length ≤ fuel →
    (chunksExact16 fuel xs).flatten = xs.take (16 * (xs.length / 16)) ∧
    ∀ ch ∈ chunksExact16 fuel xs, ch.length ≤ 16 ∧ ∀ p ∈ ch, p ∈ xs
  | 0, xs, h => by simp [chunksExact16]; left; omega
  | fuel + 1, xs, h => by
    unfold chunksExact16
    split
    · next h16 =>
      obtain ⟨h1, h2⟩ := chunksExact16_spec fuel (xs.drop 16) (by simp; omega)
      constructor
      · rw [List.flatten_cons, h1, List.length_drop,
          show xs.length / 16 = (xs.length - 16) / 16 + 1 by omega, Nat.mul_add, Nat.mul_one,
          Nat.add_comm, List.take_add]
      · intro ch hch
        rcases List.mem_cons.1 hch with h | h
        · subst h
          exact ⟨by simp, fun p hp => List.mem_of_mem_take hp⟩
        · exact ⟨(h2 ch h).1, fun p hp => List.mem_of_mem_drop ((h2 ch h).2 p hp)⟩
    · next h16 =>
      have : xs.length / 16 = 0 := by omega
      simp [this]

theorem dotProduct_eq {w : Nat} {M : Barrett} (v : Valid w M) (a b : List Nat)
    (hlen : a.length = b.length) (ha : ∀ x ∈ a, x < M.value) (hb : ∀ x ∈ b, x < M.value) :
    dotProduct w M a b = some
      (dot (a.take (16 * (a.length / 16))) (b.take (16 * (a.length / 16))) % M.value) := by
  have h2 := v.two_le
  have hl : (a.zip b).length = a.length := by simp [hlen]
  obtain ⟨h1, hch⟩ := chunksExact16_spec a.length (a.zip b) (by omega)
  simp only [dotProduct, hlen, if_true]
  rw [hlen] at h1 hch
  rw [foldChunks_eq v _ 0 (by omega) (fun ch h => ⟨(hch ch h).1, fun p hp => by
    have := (hch ch h).2 p hp
    obtain ⟨hp1, hp2⟩ := List.of_mem_zip (a := p.1) (b := p.2) this
    exact ⟨ha _ hp1, hb _ hp2⟩⟩), h1, Nat.zero_add, hl, List.zip, List.take_zipWith, hlen]
  rw [← List.zip, pairSum_zip]

end Verif.Barrett
