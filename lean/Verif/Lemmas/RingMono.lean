import Verif.Lemmas.Ring
import Mathlib.Tactic.Linarith

/-! # Monomials, constants, coefficients of products, bounds -/

namespace Verif.Spec

/-- One term per `j`. -/
theorem negacyclicCoeff_eq {R : Type} [CommRing R] (n : Nat) (a b : Nat → R) {i : Nat} (hi : i < n) :
    negacyclicCoeff n a b i = ∑ j ∈ Finset.range n,
      (if j ≤ i then a j * b (i - j) else -(a j * b (n + i - j))) := by
  unfold negacyclicCoeff
  refine Finset.sum_congr rfl fun j hj => ?_
  have hj := Finset.mem_range.1 hj
  by_cases h : j ≤ i
  · rw [if_pos h, Finset.sum_eq_single_of_mem (i - j) (Finset.mem_range.2 (by omega))]
    · rw [if_pos (by omega)]
    · intro l hl hne
      have := Finset.mem_range.1 hl
      rw [if_neg (by omega), if_neg (by omega)]
  · rw [if_neg h, Finset.sum_eq_single_of_mem (n + i - j) (Finset.mem_range.2 (by omega))]
    · rw [if_neg (by omega), if_pos (by omega)]
    · intro l hl hne
      have := Finset.mem_range.1 hl
      rw [if_neg (by omega), if_neg (by omega)]

namespace Rq
open Finset

variable {R : Type} {n : Nat} [CommRing R]

section
variable [NeZero n] [Nontrivial R]

/-- Elements with the same value at every root of `X^n + 1` in every extension are equal. -/
theorem eq_of_evalAt {p r : Rq R n}
    (h : ∀ (A : Type) [CommRing A] (f : R →+* A) (x : A), x ^ n = -1 → evalAt f x p = evalAt f x r) :
    p = r :=
  evalAt_root_injective (h _ _ _ root_pow)

theorem const_mul_co (c : R) (p : Rq R n) (i : Fin n) : (const c * p).co i = c * p.co i := by
  have : const c * p = ⟨fun i => c * p.co i⟩ := eq_of_evalAt fun A _ f x hx => by
    rw [evalAt_mul f hx, evalAt_const]
    unfold evalAt
    rw [mul_sum]
    refine sum_congr rfl fun i hi => ?_
    rw [seq_lt _ (mem_range.1 hi), seq_lt _ (mem_range.1 hi), map_mul, mul_assoc]
  rw [this]

omit [NeZero n] [Nontrivial R] in
theorem const_add (a b : R) : (const (a + b) : Rq R n) = const a + const b := by
  ext i; simp only [const, add_co]; split <;> simp

theorem const_mul (a b : R) : (const (a * b) : Rq R n) = const a * const b := by
  ext i
  rw [const_mul_co]
  simp only [const]; split <;> simp

omit [NeZero n] [Nontrivial R] in
theorem const_neg (a : R) : (const (-a) : Rq R n) = -const a := by
  ext i; simp only [const, neg_co]; split <;> simp

omit [NeZero n] [Nontrivial R] in
theorem const_zero : (const 0 : Rq R n) = 0 := by
  ext i; simp [const]

omit [NeZero n] [Nontrivial R] in
theorem natCast_eq_const (a : Nat) : ((a : Nat) : Rq R n) = const (a : R) := rfl

theorem const_pow (a : R) (k : Nat) : (const (a ^ k) : Rq R n) = const a ^ k := by
  induction k with
  | zero => rw [pow_zero, pow_zero]; rfl
  | succ k ih => rw [pow_succ, pow_succ, const_mul, ih]

omit [Nontrivial R] in
theorem evalAt_mono {A : Type} [CommRing A] (f : R →+* A) {x : A} (hx : x ^ n = -1) (d : Nat) :
    evalAt f x (mono d : Rq R n) = x ^ d := by
  have hn := Nat.pos_of_ne_zero (NeZero.ne n)
  have hd := Nat.mod_lt d hn
  unfold evalAt
  rw [sum_eq_single_of_mem (d % n) (mem_range.2 hd)]
  · rw [seq_lt _ hd]
    simp only [mono]
    rw [if_pos trivial]
    conv_rhs => rw [← Nat.div_add_mod d n, pow_add, pow_mul, hx]
    congr 1
    rcases Nat.mod_two_eq_zero_or_one (d / n) with h | h
    · rw [if_pos h, map_one, Even.neg_one_pow (Nat.even_iff.2 h)]
    · rw [if_neg (by omega), map_neg, map_one, Odd.neg_one_pow (Nat.odd_iff.2 h)]
  · intro i hi hne
    rw [seq_lt _ (mem_range.1 hi)]
    simp only [mono]
    rw [if_neg hne, map_zero, zero_mul]

theorem mono_add (a b : Nat) : (mono (a + b) : Rq R n) = mono a * mono b :=
  eq_of_evalAt fun A _ f x hx => by
    rw [evalAt_mul f hx, evalAt_mono f hx, evalAt_mono f hx, evalAt_mono f hx, pow_add]

theorem mono_zero : (mono 0 : Rq R n) = 1 :=
  eq_of_evalAt fun A _ f x hx => by rw [evalAt_mono f hx, evalAt_one, pow_zero]

theorem mono_n : (mono n : Rq R n) = -1 :=
  eq_of_evalAt fun A _ f x hx => by rw [evalAt_mono f hx, evalAt_neg, evalAt_one, hx]

theorem mono_two_n : (mono (2 * n) : Rq R n) = 1 := by
  rw [two_mul, mono_add, mono_n]; ring

theorem mono_mul (a b : Nat) : (mono (a * b) : Rq R n) = mono a ^ b := by
  induction b with
  | zero => rw [Nat.mul_zero, pow_zero, mono_zero]
  | succ b ih => rw [Nat.mul_succ, mono_add, ih, pow_succ]

theorem mono_mod (d : Nat) : (mono (d % (2 * n)) : Rq R n) = mono d := by
  conv_rhs => rw [← Nat.div_add_mod d (2 * n), mono_add, mono_mul, mono_two_n, one_pow, one_mul]

/-- Multiplying by `X^r`, `r ≤ n`. -/
theorem mono_mul_seq {r : Nat} (hr : r ≤ n) (p : Rq R n) {i : Nat} (hi : i < n) :
    (mono r * p).seq i = if i < r then -p.seq (n - r + i) else p.seq (i - r) := by
  have : mono r * p = ofSeq n (fun i => if i < r then -p.seq (n - r + i) else p.seq (i - r)) :=
    eq_of_evalAt fun A _ f x hx => by
      rw [evalAt_mul f hx, evalAt_mono f hx]
      unfold evalAt
      rw [sum_congr rfl (g := fun i => f (if i < r then -p.seq (n - r + i) else p.seq (i - r)) * x ^ i)
        (s₁ := range n) (f := fun i => f ((ofSeq n _ : Rq R n).seq i) * x ^ i) (fun i hi => by
        rw [seq_lt _ (mem_range.1 hi)]; rfl)]
      obtain ⟨m, hm⟩ : ∃ m, n = r + m := ⟨n - r, by omega⟩
      have e1 : n - r = m := by omega
      rw [e1]
      have hL : ∑ i ∈ range n, f (p.seq i) * x ^ i = ∑ i ∈ range m, f (p.seq i) * x ^ i +
          ∑ i ∈ range r, f (p.seq (m + i)) * x ^ (m + i) := by
        rw [show range n = range (m + r) by rw [hm, Nat.add_comm], sum_range_add]
      have hR : ∑ i ∈ range n, f (if i < r then -p.seq (m + i) else p.seq (i - r)) * x ^ i =
          ∑ i ∈ range r, f (if i < r then -p.seq (m + i) else p.seq (i - r)) * x ^ i +
          ∑ i ∈ range m, f (if r + i < r then -p.seq (m + (r + i)) else p.seq (r + i - r)) *
            x ^ (r + i) := by
        rw [show range n = range (r + m) by rw [hm], sum_range_add]
      rw [hL, hR, mul_add, add_comm]
      congr 1
      · rw [mul_sum]
        refine sum_congr rfl fun i hi => ?_
        rw [if_pos (mem_range.1 hi), map_neg]
        have : x ^ r * x ^ (m + i) = -x ^ i := by
          rw [← pow_add, show r + (m + i) = n + i by omega, pow_add, hx]; ring
        linear_combination f (p.seq (m + i)) * this
      · rw [mul_sum]
        refine sum_congr rfl fun i _ => ?_
        rw [if_neg (by omega), Nat.add_sub_cancel_left, pow_add]; ring
  rw [this, seq_lt _ hi]; rfl

end

theorem mul_co (p r : Rq R n) (i : Fin n) : (p * r).co i = ∑ j ∈ range n,
    (if j ≤ i.val then p.seq j * r.seq (i.val - j) else -(p.seq j * r.seq (n + i.val - j))) :=
  negacyclicCoeff_eq n _ _ i.isLt

/-- The constant coefficient of a product. -/
theorem mul_co_zero (p r : Rq R n) (h : 0 < n) : (p * r).co ⟨0, h⟩ =
    ∑ j ∈ range n, (if j = 0 then p.seq 0 else -p.seq (n - j)) * r.seq j := by
  rw [mul_co]
  obtain ⟨m, rfl⟩ : ∃ m, n = m + 1 := ⟨n - 1, by omega⟩
  rw [sum_range_succ', sum_range_succ', ← sum_range_reflect]
  simp only [Nat.le_zero, if_true, Nat.add_eq_zero_iff, one_ne_zero, and_false, if_false,
    Nat.sub_zero, Nat.add_zero, Nat.sub_self, le_refl]
  congr 1
  refine sum_congr rfl fun j hj => ?_
  have := mem_range.1 hj
  rw [show m - 1 - j + 1 = m + 1 - (j + 1) by omega,
    show m + 1 - (m + 1 - (j + 1)) = j + 1 by omega]
  ring

/-! ## Bounds -/

section
variable {q : Nat} {p r : Rq (ZMod q) n} {a b : Nat}

theorem Bounded.mono (h : Bounded a p) (hab : a ≤ b) : Bounded b p := fun i => by
  obtain ⟨z, hz, e⟩ := h i
  exact ⟨z, hz.trans (by exact_mod_cast hab), e⟩

theorem Bounded.zero : Bounded 0 (0 : Rq (ZMod q) n) := fun _ => ⟨0, by simp, by simp⟩

theorem Bounded.add (h : Bounded a p) (h' : Bounded b r) : Bounded (a + b) (p + r) := fun i => by
  obtain ⟨z, hz, e⟩ := h i
  obtain ⟨z', hz', e'⟩ := h' i
  refine ⟨z + z', (abs_add_le _ _).trans ?_, by push_cast; rw [e, e', add_co]⟩
  push_cast; omega

theorem Bounded.neg (h : Bounded a p) : Bounded a (-p) := fun i => by
  obtain ⟨z, hz, e⟩ := h i
  exact ⟨-z, by rwa [abs_neg], by push_cast; rw [e, neg_co]⟩

theorem Bounded.sub (h : Bounded a p) (h' : Bounded b r) : Bounded (a + b) (p - r) := fun i => by
  obtain ⟨z, hz, e⟩ := h i
  obtain ⟨z', hz', e'⟩ := h' i
  refine ⟨z - z', (abs_sub _ _).trans ?_, by push_cast; rw [e, e', sub_co]⟩
  push_cast; omega

theorem Bounded.seq (h : Bounded a p) (i : Nat) : ∃ z : ℤ, |z| ≤ a ∧ (z : ZMod q) = p.seq i := by
  by_cases hi : i < n
  · rw [seq_lt _ hi]; exact h _
  · exact ⟨0, by simp, by unfold Rq.seq; rw [dif_neg hi]; simp⟩

theorem Bounded.mul (h : Bounded a p) (h' : Bounded b r) : Bounded (n * (a * b)) (p * r) := by
  intro i
  choose P hP eP using h.seq
  choose S hS eS using h'.seq
  refine ⟨∑ j ∈ range n, (if j ≤ i.val then P j * S (i.val - j) else -(P j * S (n + i.val - j))),
    ?_, ?_⟩
  · refine (abs_sum_le_sum_abs _ _).trans ?_
    refine (sum_le_card_nsmul _ _ ((a * b : Nat) : ℤ) fun j _ => ?_).trans ?_
    · have key : ∀ l, |P j * S l| ≤ ((a * b : Nat) : ℤ) := fun l => by
        rw [abs_mul]; push_cast
        exact mul_le_mul (hP j) (hS l) (abs_nonneg _) (by positivity)
      split
      · exact key _
      · rw [abs_neg]; exact key _
    · rw [card_range]; push_cast; simp
  · rw [mul_co, Int.cast_sum]
    refine sum_congr rfl fun j _ => ?_
    split <;> push_cast <;> rw [eP, eS]

/-- Multiplying by a signed monomial permutes the coefficients up to sign. -/
theorem Bounded.mono_mul [NeZero n] [Fact (1 < q)] (h : Bounded a p) (d : Nat) :
    Bounded a (Rq.mono d * p) := by
  have hn := Nat.pos_of_ne_zero (NeZero.ne n)
  have : Fact (1 < q) := inferInstance
  have hle : ∀ r, r ≤ n → ∀ p : Rq (ZMod q) n, Bounded a p → Bounded a (Rq.mono r * p) := by
    intro r hr p hp i
    rw [← seq_val, mono_mul_seq hr p i.isLt]
    split
    · obtain ⟨z, hz, e⟩ := hp.seq (n - r + i.val)
      exact ⟨-z, by rwa [abs_neg], by push_cast; rw [e]⟩
    · exact hp.seq _
  rw [← mono_mod]
  have h2 := Nat.mod_lt d (show 0 < 2 * n by omega)
  by_cases hd : d % (2 * n) ≤ n
  · exact hle _ hd p h
  · rw [show d % (2 * n) = n + (d % (2 * n) - n) by omega, mono_add, mul_assoc]
    exact hle n le_rfl _ (hle _ (by omega) p h)

theorem Bounded.const_mul [NeZero n] [Fact (1 < q)] (h : Bounded a p) (c : ℤ) :
    Bounded (c.natAbs * a) (const (c : ZMod q) * p) := by
  intro i
  obtain ⟨z, hz, e⟩ := h i
  refine ⟨c * z, ?_, by rw [const_mul_co]; push_cast; rw [e]⟩
  rw [abs_mul]; push_cast
  exact mul_le_mul_of_nonneg_left hz (abs_nonneg c)

theorem Bounded.sum {ι : Type} [NeZero n] [Fact (1 < q)] (s : Finset ι) (f : ι → Rq (ZMod q) n)
    (e : ι → Nat) (h : ∀ j ∈ s, Bounded (e j) (f j)) : Bounded (∑ j ∈ s, e j) (∑ j ∈ s, f j) := by
  classical
  induction s using Finset.induction_on with
  | empty => rw [sum_empty, sum_empty]; exact Bounded.zero
  | insert j s hj ih =>
    rw [sum_insert hj, sum_insert hj]
    exact (h j (by simp)).add (ih fun i hi => h i (by simp [hi]))

end
end Rq
end Verif.Spec
