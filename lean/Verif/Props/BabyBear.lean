import Verif.Lemmas.BabyBear

/-! # C11: Baby Bear arithmetic (with its parts of C06 and C08) -/

namespace Verif.Props
open Spec BabyBear

/-- The conversions are mutually inverse between residues and canonical words, and
`to_monty` also accepts unreduced 32-bit (and 64-bit) input. -/
theorem C11_conversions (x : Nat) :
    (x < 2 ^ 32 → toMonty x < P ∧ fromMonty (toMonty x) = some (x % P)) ∧
    (x < 2 ^ 64 → toMonty64 x < P ∧ fromMonty (toMonty64 x) = some (x % P)) ∧
    (x < P → ∃ r, fromMonty x = some r ∧ r < P ∧ toMonty r = x) := by
  refine ⟨fun h => ?_, fun h => ?_, fun h => ?_⟩
  · obtain ⟨h1, h2⟩ := toMonty_eq h
    refine ⟨h1, ?_⟩
    rw [fromMonty_eq (Nat.lt_trans h1 (by decide)), h2, ZMod.val_natCast]
  · obtain ⟨h1, h2⟩ := toMonty64_eq h
    refine ⟨h1, ?_⟩
    rw [fromMonty_eq (Nat.lt_trans h1 (by decide)), h2, ZMod.val_natCast]
  · obtain ⟨r, e, h1, h2⟩ := fromMonty_den (Nat.lt_trans h (by decide))
    obtain ⟨h3, h4⟩ := toMonty_eq (Nat.lt_trans h1 (by decide))
    exact ⟨r, e, h1, den_inj h3 h (h4.trans h2)⟩

/-- The published constants are the Montgomery forms of 0, 1, 2 and -1. -/
theorem C11_constants :
    fromMonty MONTY_ZERO = some 0 ∧ fromMonty MONTY_ONE = some 1 ∧ fromMonty MONTY_TWO = some 2 ∧
    fromMonty MONTY_NEG_ONE = some (P - 1) := by
  refine ⟨(((C11_conversions 0).1 (by decide)).2).trans (by decide),
    (((C11_conversions 1).1 (by decide)).2).trans (by decide),
    (((C11_conversions 2).1 (by decide)).2).trans (by decide),
    (((C11_conversions (P - 1)).1 (by decide)).2).trans (by decide)⟩

/-- C11: on canonical words standing for `x` and `y`, the operations succeed, return canonical
words, and these stand for the sum, difference, negation and product modulo `P`. -/
theorem C11_ring_ops (a b x y : Nat) (ha : a < P) (hb : b < P)
    (hx : fromMonty a = some x) (hy : fromMonty b = some y) :
    (∃ c, BabyBear.addReduce a b = some c ∧ c < P ∧ fromMonty c = some ((x + y) % P)) ∧
    (BabyBear.subReduce a b < P ∧ fromMonty (BabyBear.subReduce a b) = some ((x + (P - y)) % P)) ∧
    (BabyBear.negReduce a < P ∧ fromMonty (BabyBear.negReduce a) = some ((P - x) % P)) ∧
    (∃ c, BabyBear.mulReduce a b = some c ∧ c < P ∧ fromMonty c = some (x * y % P)) := by
  have lift : ∀ {c z : Nat}, c < P → den c = (z : ZMod P) → fromMonty c = some (z % P) := by
    intro c z hc h
    rw [fromMonty_eq (Nat.lt_trans hc (by decide)), h, ZMod.val_natCast]
  obtain ⟨x', ex, hxl, hxd⟩ := fromMonty_den (Nat.lt_trans ha (by decide))
  obtain ⟨y', ey, hyl, hyd⟩ := fromMonty_den (Nat.lt_trans hb (by decide))
  obtain rfl : x' = x := Option.some.inj (ex.symm.trans hx)
  obtain rfl : y' = y := Option.some.inj (ey.symm.trans hy)
  refine ⟨?_, ?_, ?_, ?_⟩
  · obtain ⟨c, e, hc, hd⟩ := addReduce_den ha hb
    exact ⟨c, e, hc, lift hc (by rw [hd, ← hxd, ← hyd, Nat.cast_add])⟩
  · obtain ⟨hc, hd⟩ := subReduce_den ha hb
    refine ⟨hc, lift hc ?_⟩
    rw [hd, ← hxd, ← hyd, Nat.cast_add, Nat.cast_sub hyl.le, ZMod.natCast_self, zero_sub,
      sub_eq_add_neg]
  · obtain ⟨hc, hd⟩ := subReduce_den (a := 0) (by decide) ha
    refine ⟨hc, lift hc ?_⟩
    rw [Nat.cast_sub hxl.le, ZMod.natCast_self, hxd]
    have : den 0 = 0 := (den_eq_zero (by decide)).2 rfl
    rw [← this]; exact hd
  · obtain ⟨c, e, hc, hd⟩ := mulReduce_den ha hb
    exact ⟨c, e, hc, lift hc (by rw [hd, ← hxd, ← hyd, Nat.cast_mul])⟩

/-- C11: inversion fails exactly on zero, and otherwise returns the canonical word of the
inverse; `inv_reduce` panics exactly on zero. -/
theorem C11_inverse (a x : Nat) (ha : a < P) (hx : fromMonty a = some x) :
    (a = 0 → tryInverse a = some none ∧ BabyBear.invReduce a = none) ∧
    (a ≠ 0 → ∃ c z, tryInverse a = some (some c) ∧ BabyBear.invReduce a = some c ∧ c < P ∧
      fromMonty c = some z ∧ x * z % P = 1) := by
  refine ⟨?_, ?_⟩
  · rintro rfl; decide
  · intro h0
    obtain ⟨c, e, hc, hd⟩ := tryInverse_den ha h0
    obtain ⟨z, ez, hzl, hzd⟩ := fromMonty_den (Nat.lt_trans hc (by decide))
    obtain ⟨x', ex, hxl, hxd⟩ := fromMonty_den (Nat.lt_trans ha (by decide))
    obtain rfl : x' = x := Option.some.inj (ex.symm.trans hx)
    refine ⟨c, z, e, bind_of_eq e (fun r => r), hc, ez, ?_⟩
    have : ((x' * z : Nat) : ZMod P) = ((1 : Nat) : ZMod P) := by
      rw [Nat.cast_mul, hxd, hzd, hd, mul_inv_cancel₀ (den_ne_zero_of ha h0), Nat.cast_one]
    have := (ZMod.natCast_eq_natCast_iff' _ _ _).1 this
    exact this

/-- C11: division is multiplication by the inverse: the quotient times the divisor is the
dividend; dividing by zero panics. -/
theorem C11_division (a b x y : Nat) (ha : a < P) (hb : b < P)
    (hx : fromMonty a = some x) (hy : fromMonty b = some y) :
    (b = 0 → BabyBear.divReduce a b = none) ∧
    (b ≠ 0 → ∃ c z, BabyBear.divReduce a b = some c ∧ c < P ∧ fromMonty c = some z ∧
      z * y % P = x) := by
  refine ⟨?_, ?_⟩
  · rintro rfl; rfl
  · intro h0
    obtain ⟨i, zi, e, e', hi, ezi, hinv⟩ := (C11_inverse b y hb hy).2 h0
    obtain ⟨c, e2, hc, hcv⟩ := (C11_ring_ops a i x zi ha hi hx ezi).2.2.2
    refine ⟨c, _, (bind_of_eq e' _).trans e2, hc, hcv, ?_⟩
    obtain ⟨x', ex, hxl, hxd⟩ := fromMonty_den (Nat.lt_trans ha (by decide))
    obtain rfl : x' = x := Option.some.inj (ex.symm.trans hx)
    rw [Nat.mod_mul_mod, Nat.mul_assoc, Nat.mul_comm zi, Nat.mul_mod, hinv, Nat.mul_one,
      Nat.mod_mod, Nat.mod_eq_of_lt hxl]

/-- C11, C06: exponentiation by a power of two, and by any nonzero exponent of an `E`-bit
type. Missing from the full claim: exponent zero, see the next theorem. -/
theorem C06_babybear_exp_partial (a x : Nat) (ha : a < P) (hx : fromMonty a = some x) (k E e : Nat)
    (he : e < 2 ^ E) (h0 : e ≠ 0) :
    (∃ c, BabyBear.expPowOf2Reduce a k = some c ∧ c < P ∧ fromMonty c = some (x ^ (2 ^ k) % P)) ∧
    (∃ c, BabyBear.expReduce E a e = some c ∧ c < P ∧ fromMonty c = some (x ^ e % P)) := by
  obtain ⟨x', ex, hxl, hxd⟩ := fromMonty_den (Nat.lt_trans ha (by decide))
  obtain rfl : x' = x := Option.some.inj (ex.symm.trans hx)
  have lift : ∀ {c n : Nat}, c < P → den c = den a ^ n → fromMonty c = some (x' ^ n % P) := by
    intro c n hc h
    rw [fromMonty_eq (Nat.lt_trans hc (by decide)), h, ← hxd, ← Nat.cast_pow, ZMod.val_natCast]
  constructor
  · obtain ⟨c, e1, hc, hd⟩ := sqTimes_spec BabyBear.refines_mul k a ha
    exact ⟨c, e1, hc, lift hc hd⟩
  · obtain ⟨c, e1, hc, hd⟩ := expReduceWith_spec (one := 1)
      (ok := fun x => decide (x < P)) BabyBear.refines_mul
      (by intro x hx; simpa using hx) he h0 a ha
    exact ⟨c, e1, hc, lift hc hd⟩

/-- C06: with exponent zero the code returns the raw word 1, which stands for 943718400, not 1:
the full exponentiation property is false of the Baby Bear code. -/
theorem C06_babybear_exp_zero_witness :
    BabyBear.expReduce 64 MONTY_TWO 0 = some 1 ∧ fromMonty 1 = some 943718400 := by decide

/-- C11, C08: the dot product, for every length and all 32-bit operands. -/
theorem C11_dot_product (xs ys : List Nat) (hl : xs.length = ys.length)
    (hx : ∀ x ∈ xs, x < 2 ^ 32) (hy : ∀ y ∈ ys, y < 2 ^ 32) :
    ∃ c, BabyBear.dotProduct (xs.map toMonty) (ys.map toMonty) = some c ∧ c < P ∧
      fromMonty c = some (dot xs ys % P) := by
  have hm : ∀ zs : List Nat, (∀ x ∈ zs, x < 2 ^ 32) → ∀ x ∈ zs.map toMonty, x < P := by
    intro zs hz x hx
    obtain ⟨z, hzm, rfl⟩ := List.mem_map.1 hx
    exact (toMonty_eq (hz z hzm)).1
  obtain ⟨c, e, hc, hd⟩ := dot_fold (xs.map toMonty) (ys.map toMonty) 0 (by simpa using hl)
    (hm xs hx) (hm ys hy) (by decide)
  refine ⟨c, ?_, hc, ?_⟩
  · unfold BabyBear.dotProduct
    rw [if_pos (by simpa using hl)]
    exact e
  · have h0 : den 0 = 0 := (den_eq_zero (by decide)).2 rfl
    have : ∀ (xs ys : List Nat), (∀ x ∈ xs, x < 2 ^ 32) → (∀ y ∈ ys, y < 2 ^ 32) →
        xs.length = ys.length →
        (((xs.map toMonty).zip (ys.map toMonty)).map (fun xy => den xy.1 * den xy.2)).sum
          = ((dot xs ys : Nat) : ZMod P) := by
      intro xs
      induction xs with
      | nil => intro ys _ _ _; cases ys <;> simp [dot]
      | cons x xs ih =>
        intro ys hx hy hl
        cases ys with
        | nil => simp at hl
        | cons y ys =>
          have := ih ys (fun z hz => hx z (by simp [hz])) (fun z hz => hy z (by simp [hz]))
            (by simpa using hl)
          simp only [List.map_cons, List.zip_cons_cons, List.sum_cons, this, dot,
            (toMonty_eq (hx x (by simp))).2, (toMonty_eq (hy y (by simp))).2, Nat.cast_add,
            Nat.cast_mul]
    rw [this xs ys hx hy hl, h0, add_zero] at hd
    rw [fromMonty_eq (Nat.lt_trans hc (by decide)), hd, ZMod.val_natCast]

/-- C08: slices of different lengths are rejected. -/
theorem C11_dot_product_length (a b : List Nat) (h : a.length ≠ b.length) :
    BabyBear.dotProduct a b = none := by simp [BabyBear.dotProduct, h]

example : toMonty 5 < P ∧ fromMonty (toMonty 5) = some 5 ∧ toMonty 5 ≠ 0 ∧
    (BabyBear.mulReduce (toMonty 5) (toMonty (P - 1))).bind fromMonty = some (P - 5) := by decide

example : (BabyBear.divReduce (toMonty 1) (toMonty 5)).bind fromMonty = some 1610612737 ∧
    5 * 1610612737 % P = 1 := by decide

end Verif.Props
