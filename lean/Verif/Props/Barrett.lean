import Verif.Lemmas.Exp

/-! # C02-C06, C08: Barrett modulus and native-word modular arithmetic -/

namespace Verif.Props
open Verif.Spec Verif.Barrett

/-- C02: the constructor panics exactly for 0, 1 and values of `BITS-1` or more bits. -/
theorem C02_barrett_new_panics (w m : Nat) (hw : w % 2 = 0) :
    Barrett.new w m = none ↔ m = 0 ∨ m = 1 ∨ 2 ^ (w - 2) ≤ m := by
  constructor
  · intro h
    by_contra hc
    rw [new_eq hw (by omega) (by omega)] at h
    exact absurd h (by simp)
  · intro h; exact new_none (by omega)

/-- C02: otherwise it stores the modulus and exactly `⌊2^(2w) / m⌋` as two words. -/
theorem C02_barrett_new_ratio (w m : Nat) (hw : w % 2 = 0) (M : Barrett)
    (h : Barrett.new w m = some M) :
    M.value = m ∧ M.r0 < 2 ^ w ∧ M.r1 < 2 ^ w ∧ M.r0 + 2 ^ w * M.r1 = 2 ^ (2 * w) / m := by
  obtain ⟨v, rfl⟩ := new_valid hw h
  exact ⟨rfl, r0_lt v, r1_lt v, by rw [two_pow_two_mul, r_split v]⟩

example : Barrett.new 8 61 = some ⟨61, 50, 4⟩ ∧ Barrett.new 32 132120577 ≠ none ∧
    Barrett.new 8 64 = none := by decide

/-- C03: one-word reduction is the residue and never panics. -/
theorem C03_reduce_one_word (w m x : Nat) (hw : w % 2 = 0) (M : Barrett)
    (h : Barrett.new w m = some M) (hx : x < 2 ^ w) :
    reduce1 w M x = some (x % m) := by
  obtain ⟨v, rfl⟩ := new_valid hw h
  exact reduce1_eq v hx

/-- C03: two-word reduction (array and tuple form) is the residue and never panics. -/
theorem C03_reduce_two_words (w m x0 x1 : Nat) (hw : w % 2 = 0) (M : Barrett)
    (h : Barrett.new w m = some M) (hx0 : x0 < 2 ^ w) (hx1 : x1 < 2 ^ w) :
    reduce2 w M x0 x1 = some ((x0 + 2 ^ w * x1) % m) := by
  obtain ⟨v, rfl⟩ := new_valid hw h
  exact reduce2_eq v hx0 hx1

/-- C03: the lazy one-word form returns a congruent value below `2m`. -/
theorem C03_lazy_reduce_one_word (w m x : Nat) (hw : w % 2 = 0) (M : Barrett)
    (h : Barrett.new w m = some M) (hx : x < 2 ^ w) :
    ∃ r, lazyReduce1 w M x = some r ∧ r < 2 * m ∧ r % m = x % m := by
  obtain ⟨v, rfl⟩ := new_valid hw h
  obtain ⟨q, e, h1, h2⟩ := lazyReduce1_eq v hx
  exact ⟨_, e, by omega, sub_mul_mod_eq h1⟩

/-- C03: the lazy two-word form returns a congruent value below `2m`. -/
theorem C03_lazy_reduce_two_words (w m x0 x1 : Nat) (hw : w % 2 = 0) (M : Barrett)
    (h : Barrett.new w m = some M) (hx0 : x0 < 2 ^ w) (hx1 : x1 < 2 ^ w) :
    ∃ r, lazyReduce2 w M x0 x1 = some r ∧ r < 2 * m ∧ r % m = (x0 + 2 ^ w * x1) % m := by
  obtain ⟨v, rfl⟩ := new_valid hw h
  obtain ⟨q, e, h1, h2⟩ := lazyReduce2_eq v hx0 hx1
  exact ⟨_, e, by omega, sub_mul_mod_eq h1⟩

example : (Barrett.new 8 61).bind (fun M => reduce2 8 M 255 255) = some (65535 % 61) := by decide

/-- C04: reducing a non-empty slice gives the residue of the big integer it represents. -/
theorem C04_reduce_slice (w m : Nat) (hw : w % 2 = 0) (M : Barrett)
    (h : Barrett.new w m = some M) (xs : List Nat) (hne : xs ≠ [])
    (hx : ∀ x ∈ xs, x < 2 ^ w) :
    reduceSlice w M xs = some (wordsValue w xs % m) := by
  obtain ⟨v, rfl⟩ := new_valid hw h
  exact reduceSlice_eq v xs hne hx

/-- C04: the lazy form gives a congruent value below `2m`. -/
theorem C04_lazy_reduce_slice (w m : Nat) (hw : w % 2 = 0) (M : Barrett)
    (h : Barrett.new w m = some M) (xs : List Nat) (hne : xs ≠ [])
    (hx : ∀ x ∈ xs, x < 2 ^ w) :
    ∃ r, lazyReduceSlice w M xs = some r ∧ r < 2 * m ∧ r % m = wordsValue w xs % m := by
  obtain ⟨v, rfl⟩ := new_valid hw h
  exact lazyReduceSlice_eq v xs hne hx

/-- C04: the empty slice is the `unreachable!` panic. -/
theorem C04_reduce_slice_empty (w : Nat) (M : Barrett) :
    reduceSlice w M [] = none ∧ lazyReduceSlice w M [] = none := ⟨rfl, rfl⟩

example : (Barrett.new 8 61).bind (fun M => reduceSlice 8 M [1, 2, 3, 4, 5])
    = some (wordsValue 8 [1, 2, 3, 4, 5] % 61) := by decide

/-- C05: native-word `add_reduce` is addition in `Z/m` with a canonical result, when `2m`
fits the word. -/
theorem C05_add_reduce_partial (w m a b : Nat) (hm : 2 * m ≤ 2 ^ w) (ha : a < m) (hb : b < m) :
    addReduce w m a b = some ((a + b) % m) := addReduce_mod hm ha hb

/-- C05: the documentation of `AddReduce` only asks for operands below the modulus, but
for a modulus above half of the word range the plain addition overflows: the full
property is false of the code (u8, modulus 251, 200 + 200). -/
theorem C05_add_reduce_overflow_witness :
    ¬ ∀ w m a b : Nat, m < 2 ^ w → a < m → b < m → addReduce w m a b = some ((a + b) % m) := by
  intro h
  exact absurd (h 8 251 200 200 (by decide) (by decide) (by decide)) (by decide)

/-- C05: native-word `add_reduce` on any operands below any modulus: the sum in `Z/m` when `a + b` fits the word, a panic
when it does not. -/
theorem C05_add_reduce_exact (w m a b : Nat) (ha : a < m) (hb : b < m) :
    addReduce w m a b = if a + b < 2 ^ w then some ((a + b) % m) else none := by
  unfold addReduce
  by_cases h : a + b < 2 ^ w
  · rw [if_pos h, addC_eq h]
    simp only [Option.bind_eq_bind, Option.bind_some]
    by_cases hle : m ≤ a + b
    · rw [if_pos hle, subC_eq hle, Nat.mod_eq_sub_mod hle, Nat.mod_eq_of_lt (by omega)]
    · rw [if_neg hle, Nat.mod_eq_of_lt (by omega)]; rfl
  · rw [if_neg h]
    simp [addC, h]

/-- C05: native-word `sub_reduce` is subtraction in `Z/m`, for every modulus. -/
theorem C05_sub_reduce (w m a b : Nat) (hm : m < 2 ^ w) (ha : a < m) (hb : b < m) :
    subReduce w m a b = some ((a + (m - b)) % m) ∧
    subReduceAssign w m a b = some ((a + (m - b)) % m) := by
  unfold subReduce subReduceAssign
  by_cases h : b ≤ a
  · have e : (a + (m - b)) % m = a - b := by
      rw [show a + (m - b) = a - b + m by omega, Nat.add_mod_right, Nat.mod_eq_of_lt (by omega)]
    simp [h, subC_eq h, e]
  · have e : (a + (m - b)) % m = a + (m - b) := Nat.mod_eq_of_lt (by omega)
    simp only [h, if_false, subC_eq hb.le, Option.bind_eq_bind, Option.bind_some]
    rw [addC_eq (by omega), addC_eq (by omega), e, Nat.add_comm]
    exact ⟨rfl, rfl⟩

/-- C05: native-word `neg_reduce` is negation in `Z/m`. -/
theorem C05_neg_reduce (m a : Nat) (ha : a < m) :
    negReduce m a = some ((m - a) % m) := by
  unfold negReduce
  split
  · next h => subst h; simp
  · next h => rw [subC_eq ha.le, Nat.mod_eq_of_lt (by omega)]

/-- C05: with a Barrett modulus all four operations are the ring operations of `ZMod m`
on canonical representatives, and never panic. -/
theorem C05_barrett_ring_ops (w m : Nat) (hw : w % 2 = 0) (M : Barrett)
    (h : Barrett.new w m = some M) (a b : Nat) (ha : a < m) (hb : b < m) :
    (∃ r, addReduceB w M a b = some r ∧ r < m ∧ (r : ZMod m) = (a : ZMod m) + b) ∧
    (∃ r, subReduceB w M a b = some r ∧ r < m ∧ (r : ZMod m) = (a : ZMod m) - b) ∧
    (∃ r, negReduceB M a = some r ∧ r < m ∧ (r : ZMod m) = -(a : ZMod m)) ∧
    (∃ r, Barrett.mulReduce w M a b = some r ∧ r < m ∧ (r : ZMod m) = (a : ZMod m) * b) := by
  obtain ⟨v, rfl⟩ := new_valid hw h
  have h4 := v.four_mul_lt
  have hm : 0 < M.value := by omega
  refine ⟨⟨_, addReduce_mod (by omega) ha hb, Nat.mod_lt _ hm, by simp⟩,
    ⟨_, (C05_sub_reduce w _ a b (by omega) ha hb).1, Nat.mod_lt _ hm, ?_⟩,
    ⟨_, C05_neg_reduce _ a ha, Nat.mod_lt _ hm, ?_⟩,
    ⟨_, mulReduce_eq v (by omega) (by omega), Nat.mod_lt _ hm, by simp⟩⟩
  · simp [Nat.cast_sub hb.le, sub_eq_add_neg]
  · simp [Nat.cast_sub ha.le]

example : ∃ M, Barrett.new 32 132120577 = some M ∧ 132120576 < 132120577 :=
  ⟨_, new_eq (by decide) (by decide) (by decide), by decide⟩

/-- C05: `mul_reduce` accepts any two words, and its lazy form stays below `2m`. -/
theorem C05_barrett_mul_any_words (w m : Nat) (hw : w % 2 = 0) (M : Barrett)
    (h : Barrett.new w m = some M) (a b : Nat) (ha : a < 2 ^ w) (hb : b < 2 ^ w) :
    Barrett.mulReduce w M a b = some (a * b % m) ∧
    ∃ r, Barrett.lazyMulReduce w M a b = some r ∧ r < 2 * m ∧ r % m = a * b % m := by
  obtain ⟨v, rfl⟩ := new_valid hw h
  refine ⟨mulReduce_eq v ha hb, ?_⟩
  have hB := Nat.two_pow_pos w
  obtain ⟨q, e, h1, h2⟩ := lazyReduce2_eq v (Nat.mod_lt (a * b) hB)
    (Nat.div_lt_of_lt_mul (mul_lt_sq ha hb))
  rw [Nat.mod_add_div] at e h1 h2
  refine ⟨_, by simp only [lazyMulReduce, wideningMulC_eq ha hb, Option.bind_eq_bind,
    Option.bind_some]; exact e, by omega, sub_mul_mod_eq h1⟩

/-- C06 (Barrett): `exp_reduce` returns `a^e mod m` for every exponent of the exponent type. -/
theorem C06_barrett_exp (w E m : Nat) (hw : w % 2 = 0) (M : Barrett)
    (h : Barrett.new w m = some M) (a e : Nat) (ha : a < m) (he : e < 2 ^ E) :
    Barrett.expReduce w E M a e = some (a ^ e % m) := by
  obtain ⟨v, rfl⟩ := new_valid hw h
  exact expReduce_eq v ha he

/-- C06 (Barrett): `exp_power_of_2_reduce` returns `a^(2^k) mod m`. -/
theorem C06_barrett_exp_pow_of_2 (w m : Nat) (hw : w % 2 = 0) (M : Barrett)
    (h : Barrett.new w m = some M) (a k : Nat) (ha : a < m) :
    Barrett.expPowOf2Reduce w M a k = some (a ^ (2 ^ k) % m) := by
  obtain ⟨v, rfl⟩ := new_valid hw h
  exact expPowOf2Reduce_eq v ha

example : (Barrett.new 8 61).bind (fun M => Barrett.expReduce 8 64 M 7 44) = some (7 ^ 44 % 61) ∧
    (Barrett.new 8 61).bind (fun M => Barrett.expReduce 8 64 M 7 0) = some 1 := by decide

/-- C08 (Barrett), what holds for every length: only the longest prefix whose length is a
multiple of 16 contributes. -/
theorem C08_barrett_dot_prefix (w m : Nat) (hw : w % 2 = 0) (M : Barrett)
    (h : Barrett.new w m = some M) (a b : List Nat) (hlen : a.length = b.length)
    (ha : ∀ x ∈ a, x < m) (hb : ∀ x ∈ b, x < m) :
    dotProduct w M a b = some
      (dot (a.take (16 * (a.length / 16))) (b.take (16 * (a.length / 16))) % m) := by
  obtain ⟨v, rfl⟩ := new_valid hw h
  exact dotProduct_eq v a b hlen ha hb

/-- C08 (Barrett): the dot product is right when the length is a multiple of 16. Missing:
every other length, where the code drops the remainder. -/
theorem C08_barrett_dot_partial (w m : Nat) (hw : w % 2 = 0) (M : Barrett)
    (h : Barrett.new w m = some M) (a b : List Nat) (hlen : a.length = b.length)
    (h16 : a.length % 16 = 0)
    (ha : ∀ x ∈ a, x < m) (hb : ∀ x ∈ b, x < m) :
    dotProduct w M a b = some (dot a b % m) := by
  rw [C08_barrett_dot_prefix w m hw M h a b hlen ha hb,
    show 16 * (a.length / 16) = a.length by omega, List.take_length, hlen, List.take_length]

/-- C08 (Barrett): the full property is false of the code; `[3]·[5]` modulo 61 gives 0. -/
theorem C08_barrett_dot_drops_remainder :
    (Barrett.new 8 61).bind (fun M => dotProduct 8 M [3] [5]) = some 0 ∧
    dot [3] [5] % 61 = 15 := by decide

example : (Barrett.new 8 61).bind (fun M => dotProduct 8 M (List.replicate 16 60)
    (List.replicate 16 60)) = some (16 * 60 * 60 % 61) := by decide

end Verif.Props
