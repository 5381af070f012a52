import Verif.Model.Exp
import Verif.Lemmas.Barrett
import Mathlib.Data.ZMod.Basic

namespace Verif

theorem trailingZeros_spec : ∀ {w x : Nat}, x ≠ 0 → x < 2 ^ w →
    trailingZeros w x < w ∧ x = 2 ^ trailingZeros w x * (x / 2 ^ trailingZeros w x) ∧
      x / 2 ^ trailingZeros w x % 2 = 1
  | 0, x, h0, h => by simp at h; omega
  | w + 1, x, h0, h => by
    unfold trailingZeros
    split
    · next hodd => simp [hodd]
    · next hev =>
      have hx : x / 2 < 2 ^ w := by rw [Nat.pow_succ] at h; omega
      obtain ⟨h1, h2, h3⟩ := trailingZeros_spec (w := w) (x := x / 2) (by omega) hx
      generalize trailingZeros w (x / 2) = t at *
      have e : x / 2 ^ (1 + t) = x / 2 / 2 ^ t := by
        rw [Nat.pow_add, Nat.pow_one, Nat.div_div_eq_div_mul]
      refine ⟨by omega, ?_, by rw [e]; exact h3⟩
      rw [e, Nat.pow_add, Nat.pow_one, Nat.mul_assoc, ← h2]
      omega

/-- A model multiplication refines the multiplication of a monoid on the valid set `P`. -/
def Refines {α R : Type} [Mul R] (P : α → Prop) (φ : α → R) (mul : α → α → Option α) : Prop :=
  ∀ a b, P a → P b → ∃ c, mul a b = some c ∧ P c ∧ φ c = φ a * φ b

theorem sqTimes_spec {α R : Type} [Monoid R] {P : α → Prop} {φ : α → R}
    {mul : α → α → Option α} (h : Refines P φ mul) :
    ∀ (k : Nat) (a : α), P a → ∃ c, sqTimes mul k a = some c ∧ P c ∧ φ c = φ a ^ (2 ^ k)
  | 0, a, ha => ⟨a, rfl, ha, by simp⟩
  | k + 1, a, ha => by
    obtain ⟨c, e, hc, hφ⟩ := h a a ha ha
    obtain ⟨d, e', hd, hφ'⟩ := sqTimes_spec h k c hc
    refine ⟨d, by simp [sqTimes, e, e'], hd, ?_⟩
    rw [hφ', hφ, ← pow_two, ← pow_mul, Nat.pow_succ, Nat.mul_comm]

theorem expLoop_spec {α R : Type} [CommMonoid R] {P : α → Prop} {φ : α → R}
    {mul : α → α → Option α} (h : Refines P φ mul) :
    ∀ (n exp : Nat) (p i : α), P p → P i → exp / 2 < 2 ^ n →
      ∃ c, expLoop mul n exp p i = some c ∧ P c ∧ φ c = φ i * φ p ^ (2 * (exp / 2))
  | 0, exp, p, i, hp, hi, he => by
    have : exp / 2 = 0 := by simpa using he
    exact ⟨i, rfl, hi, by simp [this]⟩
  | n + 1, exp, p, i, hp, hi, he => by
    obtain ⟨c, e, hc, hφ⟩ := h p p hp hp
    have he' : exp / 2 / 2 < 2 ^ n := by rw [Nat.pow_succ] at he; omega
    by_cases hodd : exp / 2 % 2 = 1
    · obtain ⟨d, e2, hd, hφ2⟩ := h i c hi hc
      obtain ⟨r, e3, hr, hφ3⟩ := expLoop_spec h n (exp / 2) c d hc hd he'
      refine ⟨r, by simp [expLoop, e, hodd, e2, e3], hr, ?_⟩
      rw [hφ3, hφ2, hφ, mul_assoc, ← pow_succ', ← pow_two, ← pow_mul]
      congr 2; omega
    · obtain ⟨r, e3, hr, hφ3⟩ := expLoop_spec h n (exp / 2) c i hc hi he'
      refine ⟨r, by simp [expLoop, e, hodd, e3], hr, ?_⟩
      rw [hφ3, hφ, ← pow_two, ← pow_mul]
      congr 2; omega

theorem expReduceWith_spec' {α R : Type} [CommMonoid R] {P : α → Prop} {φ : α → R}
    {mul : α → α → Option α} {one : α} {ok : α → Bool} (h : Refines P φ mul)
    {E exp : Nat} (hexp : exp < 2 ^ E) (h0 : exp ≠ 0)
    (a : α) (ha : P a) (hok : ok a = true) :
    ∃ c, expReduceWith E mul one ok a exp = some c ∧ P c ∧ φ c = φ a ^ exp := by
  obtain ⟨t1, t2, t3⟩ := trailingZeros_spec h0 hexp
  obtain ⟨p, e, hp, hφ⟩ := sqTimes_spec h (trailingZeros E exp) a ha
  simp only [expReduceWith, h0, if_false, hok, if_true, e, shrC, t1, Option.bind_eq_bind,
    Option.bind_some]
  set tz := trailingZeros E exp
  set x := exp / 2 ^ tz with hx
  split
  · next h1 =>
    refine ⟨p, rfl, hp, ?_⟩
    rw [hφ, t2, h1, Nat.mul_one]
  · next h1 =>
    have hb : x / 2 < 2 ^ (bitLen x - 1) := by
      have := (bitLen_le_iff (x := x) (k := bitLen x)).1 (le_refl _)
      have h2 : 1 ≤ bitLen x := by
        unfold bitLen; split
        · omega
        · omega
      rw [show bitLen x = bitLen x - 1 + 1 by omega, Nat.pow_succ] at this
      omega
    obtain ⟨c, e', hc, hφ'⟩ := expLoop_spec h (bitLen x - 1) x p p hp hp hb
    refine ⟨c, e', hc, ?_⟩
    rw [hφ', ← pow_succ', hφ, ← pow_mul]
    congr 1
    rw [show 2 * (x / 2) + 1 = x by omega]
    exact t2.symm

theorem expReduceWith_spec {α R : Type} [CommMonoid R] {P : α → Prop} {φ : α → R}
    {mul : α → α → Option α} {one : α} {ok : α → Bool} (h : Refines P φ mul)
    (hok : ∀ a, P a → ok a = true) {E exp : Nat} (hexp : exp < 2 ^ E) (h0 : exp ≠ 0)
    (a : α) (ha : P a) :
    ∃ c, expReduceWith E mul one ok a exp = some c ∧ P c ∧ φ c = φ a ^ exp :=
  expReduceWith_spec' h hexp h0 a ha (hok a ha)

namespace Barrett

theorem mulReduce_eq {w a b : Nat} {M : Barrett} (v : Valid w M) (ha : a < 2 ^ w)
    (hb : b < 2 ^ w) : mulReduce w M a b = some (a * b % M.value) := by
  have hB := Nat.two_pow_pos w
  have h := mul_lt_sq ha hb
  simp only [mulReduce, wideningMulC_eq ha hb, Option.bind_eq_bind, Option.bind_some]
  rw [reduce2_eq v (Nat.mod_lt _ hB) (Nat.div_lt_of_lt_mul h), Nat.mod_add_div]

theorem Valid.lt_word {w : Nat} {M : Barrett} (v : Valid w M) : M.value < 2 ^ w := by
  have := v.four_mul_lt; omega

theorem refines_mul {w : Nat} {M : Barrett} (v : Valid w M) :
    Refines (fun x => x < M.value) (fun x : Nat => (x : ZMod M.value)) (mulReduce w M) := by
  intro a b ha hb
  have hl := v.lt_word
  have h2 := v.two_le
  refine ⟨a * b % M.value, mulReduce_eq v (by omega) (by omega), Nat.mod_lt _ (by omega), ?_⟩
  simp

theorem zmod_cast_eq {m a b : Nat} (ha : a < m) (h : (a : ZMod m) = (b : ZMod m)) :
    a = b % m := by
  rw [ZMod.natCast_eq_natCast_iff] at h
  rw [← Nat.mod_eq_of_lt ha]; exact h

theorem expReduce_eq {w E a e : Nat} {M : Barrett} (v : Valid w M) (ha : a < M.value)
    (he : e < 2 ^ E) : expReduce w E M a e = some (a ^ e % M.value) := by
  by_cases h0 : e = 0
  · subst h0
    have := v.two_le
    simp [expReduce, expReduceWith, Nat.mod_eq_of_lt (show 1 < M.value by omega)]
  · obtain ⟨c, e1, hc, hφ⟩ := expReduceWith_spec (one := 1)
      (ok := fun x => decide (x < M.value)) (refines_mul v)
      (by intro x hx; simpa using hx) he h0 a ha
    rw [expReduce, e1]
    congr 1
    exact zmod_cast_eq hc (by simpa using hφ)

theorem expPowOf2Reduce_eq {w a k : Nat} {M : Barrett} (v : Valid w M) (ha : a < M.value) :
    expPowOf2Reduce w M a k = some (a ^ (2 ^ k) % M.value) := by
  obtain ⟨c, e1, hc, hφ⟩ := sqTimes_spec (refines_mul v) k a ha
  rw [expPowOf2Reduce, e1]
  congr 1
  exact zmod_cast_eq hc (by simpa using hφ)

end Barrett
end Verif
