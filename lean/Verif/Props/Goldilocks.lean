import Verif.Lemmas.Goldilocks

/-! # C12, C13: Goldilocks arithmetic (with its parts of C06 and C08) -/

namespace Verif.Props
open Spec Goldilocks

/-- C12: on any two 64-bit words, canonical or not, addition, subtraction and multiplication
never panic and return a 64-bit word congruent to the exact result. -/
theorem C12_ring_ops (a b : Nat) (ha : a < 2 ^ 64) (hb : b < 2 ^ 64) :
    (∃ r, Goldilocks.addReduce a b = some r ∧ r < 2 ^ 64 ∧ r % P = (a + b) % P) ∧
    (∃ r, Goldilocks.subReduce a b = some r ∧ r < 2 ^ 64 ∧ (r + b) % P = a % P) ∧
    (∃ r, Goldilocks.mulReduce a b = some r ∧ r < 2 ^ 64 ∧ r % P = a * b % P) :=
  ⟨addReduce_eq ha hb, subReduce_eq ha hb, mulReduce_eq ha hb⟩

/-- C12: reduction of a 96-bit and of a 128-bit integer. -/
theorem C12_wide_reduction (x lo hi : Nat) (hx : x < 2 ^ 128) (hlo : lo < 2 ^ 64)
    (hhi : hi < 2 ^ 32) :
    (∃ r, reduce128 x = some r ∧ r < 2 ^ 64 ∧ r % P = x % P) ∧
    (∃ r, reduce96 lo hi = some r ∧ r < 2 ^ 64 ∧ r % P = (lo + 2 ^ 64 * hi) % P) :=
  ⟨reduce128_eq hx, reduce96_eq hlo hhi⟩

/-- C12: inversion of any word not congruent to zero gives a word whose product with it is
congruent to one, and `inv_reduce` returns the same word. -/
theorem C12_inverse (a : Nat) (ha : a < 2 ^ 64) (h0 : a % P ≠ 0) :
    ∃ r, tryInverse a = some (some r) ∧ Goldilocks.invReduce a = some r ∧ r < 2 ^ 64 ∧
      a * r % P = 1 := by
  have hz : a ≠ 0 := by rintro rfl; exact h0 rfl
  obtain ⟨r, e, h1, h2⟩ := tryInverse_pow ha hz
  refine ⟨r, e, bind_of_eq e (fun r => r), h1, ?_⟩
  have hne : (a : ZMod P) ≠ 0 := by
    rw [Ne, ZMod.natCast_eq_zero_iff]
    exact fun hd => h0 (Nat.mod_eq_zero_of_dvd hd)
  have : ((a * r : Nat) : ZMod P) = ((1 : Nat) : ZMod P) := by
    rw [Nat.cast_mul, h2, mul_comm, ← pow_succ, Nat.cast_one]
    exact ZMod.pow_card_sub_one_eq_one hne
  exact (ZMod.natCast_eq_natCast_iff' _ _ _).1 this

/-- C12: division by any word not congruent to zero. -/
theorem C12_division (a b : Nat) (ha : a < 2 ^ 64) (hb : b < 2 ^ 64) (h0 : b % P ≠ 0) :
    ∃ r, Goldilocks.divReduce a b = some r ∧ r < 2 ^ 64 ∧ r * b % P = a % P := by
  obtain ⟨i, _, e, hi, hinv⟩ := C12_inverse b hb h0
  obtain ⟨r, e2, hr, h2⟩ := mulReduce_eq ha hi
  refine ⟨r, (bind_of_eq e _).trans e2, hr, ?_⟩
  rw [Nat.mul_mod, h2, ← Nat.mul_mod, Nat.mul_assoc, Nat.mul_comm i, Nat.mul_mod, hinv,
    Nat.mul_one, Nat.mod_mod]

/-- C12, C06: exponentiation of a canonical word by any exponent (zero included), and of any
word by a power of two. -/
theorem C12_exp (a e E : Nat) (ha : a < P) (he : e < 2 ^ E) :
    ∃ r, Goldilocks.expReduce E a e = some r ∧ r < 2 ^ 64 ∧ r % P = a ^ e % P := by
  by_cases h0 : e = 0
  · subst h0
    refine ⟨1, ?_, by decide, by rw [pow_zero]⟩
    rw [Goldilocks.expReduce, expReduceWith, if_pos rfl]
  · have href : Refines (fun x => x < 2 ^ 64) (fun x : Nat => (x : ZMod P)) Goldilocks.mulReduce :=
      Goldilocks.refines_mul
    obtain ⟨r, e1, hr, hd⟩ := expReduceWith_spec' (one := 1) (ok := fun x => decide (x < P)) href
      he h0 a (Nat.lt_trans ha (by decide)) (decide_eq_true ha)
    refine ⟨r, e1, hr, ?_⟩
    have hd : (r : ZMod P) = (a : ZMod P) ^ e := hd
    rw [← Nat.cast_pow] at hd
    exact (ZMod.natCast_eq_natCast_iff' _ _ _).1 hd

@[inherit_doc C12_exp]
theorem C12_exp_pow_of_2 (a k : Nat) (ha : a < 2 ^ 64) :
    ∃ r, Goldilocks.expPowOf2Reduce a k = some r ∧ r < 2 ^ 64 ∧ r % P = a ^ (2 ^ k) % P := by
  obtain ⟨r, e1, hr, hd⟩ := sqTimes_spec Goldilocks.refines_mul k a ha
  refine ⟨r, e1, hr, ?_⟩
  have hd : (r : ZMod P) = (a : ZMod P) ^ (2 ^ k) := hd
  rw [← Nat.cast_pow] at hd
  exact (ZMod.natCast_eq_natCast_iff' _ _ _).1 hd

/-- C12, C08: the dot product of any two equally long slices of words; other lengths are
rejected. -/
theorem C12_dot_product (a b : List Nat) (ha : ∀ x ∈ a, x < 2 ^ 64) (hb : ∀ x ∈ b, x < 2 ^ 64) :
    (a.length = b.length → ∃ r, Goldilocks.dotProduct a b = some r ∧ r < 2 ^ 64 ∧
      r % P = dot a b % P) ∧
    (a.length ≠ b.length → Goldilocks.dotProduct a b = none) := by
  constructor
  · intro hl
    obtain ⟨c, e, h1, h2⟩ := dot_foldG (ok := fun x => x < 2 ^ 64)
      (fun a b h h' => mulReduce_eq h h') (fun a b h h' => addReduce_eq h h') a b 0 hl ha hb
      (by decide)
    refine ⟨c, ?_, h1, ?_⟩
    · unfold Goldilocks.dotProduct; rw [if_pos hl]; exact e
    · rw [h2, Nat.add_zero]
  · intro hl; simp [Goldilocks.dotProduct, hl]

example : Goldilocks.addReduce (2 ^ 64 - 1) (2 ^ 64 - 1) = some 8589934588 ∧
    8589934588 % P = (2 ^ 64 - 1 + (2 ^ 64 - 1)) % P ∧
    Goldilocks.subReduce 0 (2 ^ 64 - 1) = some 18446744065119617027 := by decide +kernel

/-- C13: `to_canonical_u64` returns the canonical representative of every word. -/
theorem C13_to_canonical (a : Nat) (ha : a < 2 ^ 64) :
    toCanonical a = some (a % P) ∧ a % P < P := by
  refine ⟨?_, Nat.mod_lt _ (by decide)⟩
  unfold toCanonical
  split
  · next h =>
    have hlt : a < P + P := Nat.lt_trans ha (by decide)
    rw [subC_eq h, Nat.mod_eq_sub_mod h, Nat.mod_eq_of_lt]
    exact Nat.sub_lt_left_of_lt_add h hlt
  · next h => rw [Nat.mod_eq_of_lt (Nat.lt_of_not_le h)]

/-- C13: reduction is canonical for every word except the modulus itself; negation is right
for every word up to the modulus. Missing: the words for which the next theorem gives
counterexamples. -/
theorem C13_canonical_partial (a : Nat) (ha : a < 2 ^ 64) :
    (a ≠ P → Goldilocks.reduce a = some (a % P)) ∧
    (a ≤ P → ∃ r, Goldilocks.negReduce a = some r ∧ r < P ∧ (r + a) % P = 0) := by
  constructor
  · intro hne
    unfold Goldilocks.reduce
    split
    · next h =>
      have hlt : a < P + P := Nat.lt_trans ha (by decide)
      rw [subC_eq h.le, Nat.mod_eq_sub_mod h.le, Nat.mod_eq_of_lt]
      exact Nat.sub_lt_left_of_lt_add h.le hlt
    · next h =>
      rw [Nat.mod_eq_of_lt (Nat.lt_of_le_of_ne (Nat.le_of_not_lt h) hne)]
  · intro hle
    unfold Goldilocks.negReduce
    split
    · next h => subst h; exact ⟨0, rfl, by decide, by decide⟩
    · next h =>
      rw [subC_eq hle]
      refine ⟨_, rfl, Nat.sub_lt (by decide) (Nat.pos_of_ne_zero h), ?_⟩
      rw [Nat.sub_add_cancel hle, Nat.mod_self]

/-- C13 is false of the code: `reduce` leaves the modulus itself unreduced; the sum of two
canonical values can be a word whose negation panics; and the sum `(P-1) + 1`, which is zero
modulo `P`, is inverted without an error. -/
theorem C13_violations :
    Goldilocks.reduce P = some P ∧
    (Goldilocks.addReduce (P - 1) 2 = some (P + 1) ∧ Goldilocks.negReduce (P + 1) = none) ∧
    (Goldilocks.addReduce (P - 1) 1 = some P ∧ ∃ r, tryInverse P = some (some r)) := by
  refine ⟨by decide +kernel, ⟨by decide +kernel, by decide +kernel⟩, by decide +kernel, ?_⟩
  obtain ⟨r, e, _⟩ := tryInverse_pow (a := P) (by decide) (by decide)
  exact ⟨r, e⟩

/-- C13, the reachable-value form: for canonical operands the product, made canonical, can be
negated and (when nonzero) inverted correctly. -/
theorem C13_canonicalized (a b : Nat) (ha : a < P) (hb : b < P) :
    ∃ r c n, Goldilocks.mulReduce a b = some r ∧ toCanonical r = some c ∧ c = a * b % P ∧
      Goldilocks.negReduce c = some n ∧ (n + a * b) % P = 0 := by
  obtain ⟨r, e, h1, h2⟩ := mulReduce_eq (Nat.lt_trans ha (by decide)) (Nat.lt_trans hb (by decide))
  obtain ⟨e2, hlt⟩ := C13_to_canonical r h1
  obtain ⟨n, e3, hn, h3⟩ := (C13_canonical_partial (r % P) (Nat.lt_trans hlt (by decide))).2 hlt.le
  refine ⟨r, _, n, e, e2, h2, e3, ?_⟩
  rw [← h3, h2, Nat.add_mod_mod]

example : (P - 1) < P ∧ Goldilocks.negReduce (P - 1) = some 1 := by decide +kernel

end Verif.Props
