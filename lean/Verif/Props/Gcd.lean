import Verif.Lemmas.Gcd

/-! # C14, C07: gcd, Bezout coefficients, modular inverse -/

namespace Verif.Props

/-- C14: `gcd` of any two words is the greatest common divisor. -/
theorem C14_gcd (w m n : Nat) (hm : m < 2 ^ w) (hn : n < 2 ^ w) :
    Gcd.gcd w m n = some (Nat.gcd m n) := Gcd.gcd_eq hm hn

/-- C14: `coprime` and `not_coprime` decide coprimality (two zeros, whose gcd the code takes to
be 0, count as coprime). -/
theorem C14_coprime (w m n : Nat) (hm : m < 2 ^ w) (hn : n < 2 ^ w) (h0 : m ≠ 0 ∨ n ≠ 0) :
    Gcd.coprime w m n = some (decide (Nat.Coprime m n)) ∧
    Gcd.notCoprime w m n = some (decide (¬ Nat.Coprime m n)) := by
  have hg : Nat.gcd m n ≠ 0 := by rw [Ne, Nat.gcd_eq_zero_iff]; tauto
  simp only [Gcd.coprime, Gcd.notCoprime, Gcd.gcd_eq hm hn, Option.bind_eq_bind, Option.bind_some]
  have e1 : (Nat.gcd m n ≤ 1) ↔ Nat.Coprime m n := by unfold Nat.Coprime; omega
  have e2 : (1 < Nat.gcd m n) ↔ ¬ Nat.Coprime m n := by unfold Nat.Coprime; omega
  exact ⟨congrArg some (decide_eq_decide.2 e1), congrArg some (decide_eq_decide.2 e2)⟩

/-- C14: `extended_gcd` of two positive words below a quarter of the word range returns Bezout
coefficients and the gcd; no signed intermediate value overflows. Missing: words in
`[2^(w-2), 2^(w-1))`, which the signed type represents but on which the code can overflow
(next theorem). -/
theorem C14_extended_gcd_partial (w x y : Nat) (hx : x < 2 ^ (w - 2)) (hy : y < 2 ^ (w - 2))
    (hx0 : 0 < x) (hy0 : 0 < y) :
    ∃ a b, Gcd.extendedGcd w x y = some (a, b, Nat.gcd x y) ∧
      a * x + b * y = (Nat.gcd x y : Int) ∧ |a| ≤ y ∧ |b| ≤ x :=
  Gcd.extendedGcd_eq hx hy (by omega) (by omega)

/-- C14 is false of the code without the quarter-range bound: on `u8`, `extended_gcd(65, 64)`
overflows `i8` although both operands fit it. The same operands one bit further up overflow
the wider types. -/
theorem C14_extended_gcd_overflow :
    Gcd.extendedGcd 8 65 64 = none ∧ Gcd.extendedGcd 16 (2 ^ 14 + 1) (2 ^ 14) = none ∧
    Gcd.extendedGcd 32 (2 ^ 30 + 1) (2 ^ 30) = none ∧
    Gcd.extendedGcd 64 (2 ^ 62 + 1) (2 ^ 62) = none := by decide +kernel

/-- C14, what holds for all operands that the signed type represents: whatever is returned is right. The only failure is
the overflow panic. -/
theorem C14_extended_gcd_sound (w x y : Nat) (hx : x < 2 ^ (w - 1)) (hy : y < 2 ^ (w - 1)) (hx0 : 0 < x) (hy0 : 0 < y)
    (a b : Int) (g : Nat) (h : Gcd.extendedGcd w x y = some (a, b, g)) :
    g = Nat.gcd x y ∧ a * x + b * y = (Nat.gcd x y : Int) ∧ |a| ≤ y ∧ |b| ≤ x :=
  Gcd.extendedGcd_of_some hx hy (by omega) (by omega) h

-- above the quarter range, with an answer
example : Gcd.extendedGcd 8 97 35 = some (-22, 61, 1) ∧ 2 ^ 6 ≤ 97 ∧ 97 < 2 ^ 7 := by decide +kernel

/-- C14: with a zero operand the code returns zeros, not the gcd. -/
theorem C14_extended_gcd_zero (w x : Nat) :
    Gcd.extendedGcd w 0 x = some (0, 0, 0) ∧ Gcd.extendedGcd w x 0 = some (0, 0, 0) := by
  simp [Gcd.extendedGcd]

example : Gcd.extendedGcd 8 63 48 = some (-3, 4, 3) ∧ (-3 : Int) * 63 + 4 * 48 = 3 ∧
    Nat.gcd 63 48 = 3 := by decide +kernel

theorem inv_value {w m a : Nat} (hm : m < 2 ^ (w - 1)) (hm1 : 1 < m) {i j : Int}
    (hrel : j * m + i * a = 1) (h : |i| ≤ m) :
    ∃ x : Nat, 1 ≤ x ∧ x < m ∧ a * x % m = 1 ∧
      (if 0 < i then some (ofSigned w i)
        else (chkS w (i + toSigned w m)).bind (fun s => some (ofSigned w s))) = some x := by
  have p1 : 2 ^ (w - 1) ≤ 2 ^ w := Nat.pow_le_pow_right (by norm_num) (Nat.sub_le _ _)
  have c1 : (2 ^ (w - 1) : Int) = ((2 ^ (w - 1) : Nat) : Int) := by push_cast; rfl
  have c2 : (2 ^ w : Int) = ((2 ^ w : Nat) : Int) := by push_cast; rfl
  rw [abs_le] at h
  have hmod : ∀ (z : Nat) (t : Int), (z : Int) = i + t * m → a * z % m = 1 := by
    intro z t hz
    have : ((a * z : Nat) : Int) % m = 1 % m := by
      push_cast
      rw [hz, show (a : Int) * (i + t * m) = 1 + m * (a * t - j) by linarith]
      exact Int.add_mul_emod_self_left _ _ _
    have h1 : (1 : Int) % m = 1 := Int.emod_eq_of_lt (by omega) (by omega)
    rw [h1] at this
    exact_mod_cast this
  have hpos : ∀ (z : Nat), z % m = 0 → a * z % m ≠ 1 := by
    intro z hz he
    rw [Nat.mul_mod, hz, Nat.mul_zero, Nat.zero_mod] at he
    omega
  by_cases hi : 0 < i
  · obtain ⟨x, rfl⟩ : ∃ x : Nat, i = x := ⟨i.toNat, by omega⟩
    have hx := hmod x 0 (by simp)
    have hne : x ≠ m := fun he => hpos x (by rw [he]; exact Nat.mod_self m) hx
    refine ⟨x, by omega, by omega, hx, ?_⟩
    rw [if_pos hi, ofSigned, Int.emod_eq_of_lt (by omega) (by omega)]
    rfl
  · obtain ⟨x, hx'⟩ : ∃ x : Nat, i + m = x := ⟨(i + m).toNat, by omega⟩
    have hx := hmod x 1 (by omega)
    have hne : x ≠ m := fun he => hpos x (by rw [he]; exact Nat.mod_self m) hx
    have hne0 : x ≠ 0 := fun he => hpos x (by rw [he]; exact Nat.zero_mod m) hx
    refine ⟨x, by omega, by omega, hx, ?_⟩
    rw [if_neg hi, toSigned_eq (by omega), hx', chkS_eq (by omega) (by omega)]
    simp only [Option.bind_some]
    rw [ofSigned, Int.emod_eq_of_lt (by omega) (by omega)]
    rfl

/-- C07: for `a` in `[1, m)` with `m` below a quarter of the word range, `try_inv_reduce`
returns the inverse in `[1, m)` when `gcd(a, m) = 1` and an error otherwise, and `inv_reduce`
returns the same inverse and panics otherwise. Missing: larger moduli, where the code is wrong
(next theorem). -/
theorem C07_inverse_partial (w a m : Nat) (hm : m < 2 ^ (w - 2)) (ha0 : 1 ≤ a) (ha : a < m) :
    (Nat.gcd a m = 1 → ∃ x, 1 ≤ x ∧ x < m ∧ a * x % m = 1 ∧
      Gcd.tryInvReduce w a m = some (some x) ∧ Gcd.invReduce w a m = some x) ∧
    (Nat.gcd a m ≠ 1 → Gcd.tryInvReduce w a m = some none ∧ Gcd.invReduce w a m = none) := by
  obtain ⟨j, i, e, hrel, _, hi⟩ := Gcd.extendedGcd_eq (w := w) (x := m) (y := a) hm (by omega)
    (by omega) (by omega)
  rw [Nat.gcd_comm m a] at e hrel
  constructor
  · intro hg
    rw [hg] at e hrel
    obtain ⟨x, h1, h2, h3, h4⟩ := inv_value (w := w)
      (lt_of_lt_of_le hm (Nat.pow_le_pow_right (by norm_num) (by omega))) (by omega) hrel hi
    refine ⟨x, h1, h2, h3, ?_, ?_⟩
    · simp only [Gcd.tryInvReduce, ha, if_true, e, Option.bind_eq_bind, Option.bind_some]
      by_cases hp : 0 < i
      · rw [if_pos hp] at h4 ⊢; exact congrArg (Option.map some) h4
      · rw [if_neg hp] at h4 ⊢
        revert h4
        cases chkS w (i + toSigned w m) with
        | none => simp
        | some s => simp
    · simp only [Gcd.invReduce, ha, if_true, e, Option.bind_eq_bind, Option.bind_some]
      exact h4
  · intro hg
    simp [Gcd.tryInvReduce, Gcd.invReduce, ha, e, hg]

/-- C07, what holds for all moduli that the signed type represents: whatever is returned is right. The only failure is the
overflow panic. -/
theorem C07_inverse_sound (w a m : Nat) (hm : m < 2 ^ (w - 1)) (ha0 : 1 ≤ a) (ha : a < m) :
    (∀ x, Gcd.tryInvReduce w a m = some (some x) → 1 ≤ x ∧ x < m ∧ a * x % m = 1) ∧
    (Gcd.tryInvReduce w a m = some none → Nat.gcd a m ≠ 1) ∧
    (∀ x, Gcd.invReduce w a m = some x → 1 ≤ x ∧ x < m ∧ a * x % m = 1) := by
  cases e : Gcd.extendedGcd w m a with
  | none => simp [Gcd.tryInvReduce, Gcd.invReduce, ha, e]
  | some r =>
    obtain ⟨j, i, g⟩ := r
    obtain ⟨hg, hrel, _, hi⟩ := Gcd.extendedGcd_of_some hm (by omega) (by omega) (by omega) e
    dsimp only at hg hrel hi
    by_cases h1 : g = 1
    · rw [← hg, h1] at hrel
      obtain ⟨x, h2, h3, h4, h5⟩ := inv_value hm (by omega) hrel hi
      have ht : Gcd.invReduce w a m = some x := by
        simp only [Gcd.invReduce, ha, if_true, e, Option.bind_eq_bind, Option.bind_some, h1]
        exact h5
      have hs : Gcd.tryInvReduce w a m = some (some x) := by
        simp only [Gcd.tryInvReduce, ha, if_true, e, Option.bind_eq_bind, Option.bind_some, h1]
        by_cases hp : 0 < i
        · rw [if_pos hp] at h5 ⊢; exact congrArg (Option.map some) h5
        · rw [if_neg hp] at h5 ⊢
          revert h5
          cases chkS w (i + toSigned w m) with
          | none => simp
          | some s => simp
      rw [hs, ht]
      refine ⟨fun z hz => ?_, by simp, fun z hz => ?_⟩
      · cases hz; exact ⟨h2, h3, h4⟩
      · cases hz; exact ⟨h2, h3, h4⟩
    · rw [Nat.gcd_comm] at hg
      simp [Gcd.tryInvReduce, Gcd.invReduce, ha, e, h1, ← hg]

example : Gcd.tryInvReduce 8 35 97 = some (some 61) ∧ 35 * 61 % 97 = 1 ∧ Gcd.tryInvReduce 8 64 65 = none ∧
    Gcd.tryInvReduce 8 64 96 = some none := by decide +kernel

/-- C07: the inverse is unique in `[1, m)`. -/
theorem C07_inverse_unique (a m x y : Nat) (hx : x < m) (hy : y < m) (h1 : a * x % m = 1)
    (h2 : a * y % m = 1) : x = y := by
  have key : ∀ z : Nat, z * (a * x) % m = z % m ∧ z * (a * y) % m = z % m := by
    intro z
    rw [Nat.mul_mod, h1, Nat.mul_one, Nat.mod_mod]
    rw [Nat.mul_mod, h2, Nat.mul_one, Nat.mod_mod]
    exact ⟨rfl, rfl⟩
  have e1 := (key y).1
  have e2 := (key x).2
  rw [show y * (a * x) = x * (a * y) by ring, e2, Nat.mod_eq_of_lt hx, Nat.mod_eq_of_lt hy] at e1
  exact e1

/-- C07: zero has no inverse: `try_inv_reduce` returns the error and `inv_reduce` panics. -/
theorem C07_inverse_zero (w m : Nat) (hm : 0 < m) :
    Gcd.tryInvReduce w 0 m = some none ∧ Gcd.invReduce w 0 m = none := by
  simp [Gcd.tryInvReduce, Gcd.invReduce, Gcd.extendedGcd, hm]

/-- C07 is false of the code for larger moduli: on `u8`, inverting 64 modulo 65 panics although
65 fits `i8`, and modulo 129 the code returns 19 as the inverse of 95, which is wrong. -/
theorem C07_inverse_violations :
    (Gcd.tryInvReduce 8 64 65 = none ∧ Nat.gcd 64 65 = 1) ∧
    (Gcd.tryInvReduce 8 95 129 = some (some 19) ∧ Nat.gcd 95 129 = 1 ∧ 95 * 19 % 129 = 128) := by
  decide +kernel

example : Gcd.tryInvReduce 8 17 61 = some (some 18) ∧ 17 * 18 % 61 = 1 ∧
    Gcd.tryInvReduce 8 6 63 = some none := by decide +kernel

end Verif.Props
