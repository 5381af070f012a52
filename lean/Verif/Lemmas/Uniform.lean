import Verif.SpecSampler
import Verif.Props.SampleLaw
import Mathlib.Analysis.SpecialFunctions.Trigonometric.Series
import Mathlib.Analysis.SpecialFunctions.Trigonometric.DerivHyp

/-! # Uniform residues: exponential moments and invariance -/

namespace Verif.Spec
open Finset
open scoped ENNReal

theorem six_pow_factorial : ∀ n : Nat, 6 ^ n * n.factorial ≤ (2 * n + 1).factorial
  | 0 => by decide
  | n + 1 => by
    have ih := six_pow_factorial n
    rw [show 2 * (n + 1) + 1 = (2 * n + 1) + 1 + 1 by ring, Nat.factorial_succ (2 * n + 1 + 1),
      Nat.factorial_succ (2 * n + 1), Nat.factorial_succ n, pow_succ]
    calc 6 ^ n * 6 * ((n + 1) * n.factorial) = (6 * (n + 1)) * (6 ^ n * n.factorial) := by ring
      _ ≤ ((2 * n + 1 + 1 + 1) * (2 * n + 1 + 1)) * (2 * n + 1).factorial :=
        Nat.mul_le_mul (by nlinarith) ih
      _ = _ := by ring

theorem sinh_le {x : ℝ} (hx : 0 ≤ x) : Real.sinh x ≤ x * Real.exp (x ^ 2 / 6) := by
  have h1 := Real.hasSum_sinh x
  have h2 := (NormedSpace.expSeries_div_hasSum_exp (𝔸 := ℝ) (x ^ 2 / 6)).mul_left x
  rw [← Real.exp_eq_exp_ℝ] at h2
  refine hasSum_le (fun n => ?_) h1 h2
  have hf : (0 : ℝ) < n.factorial := by exact_mod_cast n.factorial_pos
  have hg : (0 : ℝ) < (2 * n + 1).factorial := by exact_mod_cast (2 * n + 1).factorial_pos
  have e : x * ((x ^ 2 / 6) ^ n / n.factorial) = x ^ (2 * n + 1) / (6 ^ n * n.factorial) := by
    rw [div_pow, ← pow_mul, pow_succ]; field_simp
  rw [e]
  have h6 : ((6 : ℝ) ^ n * n.factorial) ≤ (2 * n + 1).factorial := by exact_mod_cast six_pow_factorial n
  exact div_le_div_of_nonneg_left (by positivity) (by positivity) h6

theorem sinh_mul_sum (t : ℝ) : ∀ K : Nat, Real.sinh (t / 2) *
    (1 + 2 * ∑ j ∈ range K, Real.cosh (t * (j + 1))) = Real.sinh ((2 * K + 1) * (t / 2))
  | 0 => by simp
  | K + 1 => by
    have ih := sinh_mul_sum t K
    have e0 : ∀ A B : ℝ, Real.sinh (t / 2) * (1 + 2 * (A + B)) =
        Real.sinh (t / 2) * (1 + 2 * A) + 2 * Real.sinh (t / 2) * B := fun A B => by ring
    rw [sum_range_succ, e0, ih]
    have e1 : (2 * ((K + 1 : Nat) : ℝ) + 1) * (t / 2) = t * (K + 1) + t / 2 := by push_cast; ring
    have e2 : (2 * (K : ℝ) + 1) * (t / 2) = t * (K + 1) - t / 2 := by ring
    rw [e1, e2, Real.sinh_add, Real.sinh_sub]
    ring

theorem cosh_sum_le (K : Nat) (t : ℝ) : 1 + 2 * ∑ j ∈ range K, Real.cosh (t * (j + 1)) ≤
    (2 * K + 1) * Real.exp ((2 * K + 1) ^ 2 * t ^ 2 / 24) := by
  wlog ht : 0 ≤ t generalizing t
  · have := this (-t) (by linarith)
    simp only [neg_mul, Real.cosh_neg, neg_sq] at this
    exact this
  rcases ht.eq_or_lt with rfl | ht
  · simp [mul_comm]; linarith
  have h0 : 0 < t / 2 := by linarith
  have hs : t / 2 ≤ Real.sinh (t / 2) := Real.self_le_sinh_iff.2 h0.le
  have h1 := sinh_mul_sum t K
  have h2 := sinh_le (x := (2 * K + 1) * (t / 2)) (by positivity)
  rw [← h1] at h2
  have hpos : 0 ≤ 1 + 2 * ∑ j ∈ range K, Real.cosh (t * (j + 1)) := by
    have : 0 ≤ ∑ j ∈ range K, Real.cosh (t * (j + 1)) := sum_nonneg fun j _ => (Real.cosh_pos _).le
    linarith
  have h3 := (mul_le_mul_of_nonneg_right hs hpos).trans h2
  have e : ((2 * K + 1) * (t / 2)) ^ 2 / 6 = (2 * (K : ℝ) + 1) ^ 2 * t ^ 2 / 24 := by ring
  rw [e] at h3
  refine le_of_mul_le_mul_left (h3.trans (le_of_eq ?_)) h0
  ring

theorem sum_centred (K : Nat) (t : ℝ) : ∑ x ∈ range (2 * K + 1), Real.exp (t * centred (2 * K + 1) x) =
    1 + 2 * ∑ j ∈ range K, Real.cosh (t * (j + 1)) := by
  rw [show 2 * K + 1 = (K + 1) + K by ring, sum_range_add, sum_range_succ', mul_sum]
  have h0 : Real.exp (t * centred (K + 1 + K) 0) = 1 := by simp [centred]
  rw [h0, ← sum_range_reflect (fun x => Real.exp (t * centred (K + 1 + K) (K + 1 + x))), add_right_comm,
    ← sum_add_distrib, add_comm]
  congr 1
  refine sum_congr rfl fun j hj => ?_
  have hj := mem_range.1 hj
  rw [Real.cosh_eq]
  have e1 : centred (K + 1 + K) (j + 1) = (j : ℤ) + 1 := by
    unfold centred; rw [if_pos (by omega)]; push_cast; rfl
  have e2 : centred (K + 1 + K) (K + 1 + (K - 1 - j)) = -((j : ℤ) + 1) := by
    unfold centred; rw [if_neg (by omega)]; push_cast [Nat.sub_sub, Nat.cast_sub (show 1 + j ≤ K by omega)]; ring
  rw [e1, e2]
  push_cast
  rw [mul_neg]
  ring

/-- The centred representative of a uniform residue modulo an odd number is sub-Gaussian with the parameter of a
continuous uniform variable. -/
theorem uniform_subGaussian {Q : Nat} [NeZero Q] (hQ : Q % 2 = 1) :
    SubGaussian Q (uniformBelow Q) ((Q : ℝ) ^ 2 / 12) := by
  refine ⟨fun x hx => mem_support_uniformBelow hx, fun t => ?_⟩
  obtain ⟨K, rfl⟩ : ∃ K, Q = 2 * K + 1 := ⟨Q / 2, by omega⟩
  have h := mean_uniformBelow (2 * K + 1) fun x => ENNReal.ofReal (Real.exp (t * centred (2 * K + 1) x))
  unfold mean at h
  rw [h, ← ENNReal.ofReal_sum_of_nonneg fun x _ => (Real.exp_pos _).le, sum_centred]
  have hc : ((2 * K + 1 : Nat) : ℝ≥0∞) ≠ 0 := by simp
  have hc' : ((2 * K + 1 : Nat) : ℝ≥0∞) ≠ ⊤ := ENNReal.natCast_ne_top _
  rw [mul_comm, ← div_eq_mul_inv]
  refine ENNReal.div_le_of_le_mul ?_
  rw [← ENNReal.ofReal_natCast, ← ENNReal.ofReal_mul (Real.exp_pos _).le]
  refine ENNReal.ofReal_le_ofReal ((cosh_sum_le K t).trans (le_of_eq ?_))
  push_cast
  rw [mul_comm]
  congr 2
  ring

/-! ## Invariance -/

section
variable {α : Type}

theorem mean_comm {β : Type} (p : PMF α) (r : PMF β) (f : α → β → ℝ≥0∞) :
    (mean p fun a => mean r fun b => f a b) = mean r fun b => mean p fun a => f a b := by
  unfold mean
  simp only [← ENNReal.tsum_mul_left]
  rw [ENNReal.tsum_comm]
  refine tsum_congr fun b => tsum_congr fun a => ?_
  rw [mul_left_comm]

/-- Transformations of the single values that keep their law. -/
theorem mean_draws_mapIdx (p : PMF α) : ∀ (k : Nat) (f : Nat → α → α), (∀ i < k, p.map (f i) = p) →
    ∀ F : List α → ℝ≥0∞, (mean (draws p k) fun l => F (l.mapIdx f)) = mean (draws p k) F
  | 0, f, _, F => by simp [mean_draws_zero]
  | k + 1, f, h, F => by
    rw [mean_draws_succ, mean_draws_succ]
    have ih := mean_draws_mapIdx p k (fun i => f (i + 1)) fun i hi => h (i + 1) (by omega)
    conv_rhs => rw [← h 0 (by omega), mean_map]
    congr 1
    funext x
    simp only [List.mapIdx_cons]
    rw [ih fun l => F (f 0 x :: l), h 0 (by omega)]

theorem draws_map {β : Type} (p : PMF α) (g : α → β) : ∀ k : Nat,
    (draws p k).map (List.map g) = draws (p.map g) k := fun k => by
  refine pmf_ext_mean fun F => ?_
  rw [mean_map]
  induction k generalizing F with
  | zero => simp [mean_draws_zero]
  | succ k ih =>
    rw [mean_draws_succ, mean_draws_succ, mean_map]
    congr 1
    funext x
    simp only [List.map_cons]
    exact ih fun l => F (g x :: l)

theorem mean_draws_snoc (p : PMF α) : ∀ (k : Nat) (F : List α → ℝ≥0∞),
    mean (draws p (k + 1)) F = mean p fun x => mean (draws p k) fun l => F (l ++ [x])
  | 0, F => by simp [mean_draws_succ, mean_draws_zero]
  | k + 1, F => by
    calc mean (draws p (k + 1 + 1)) F
        = mean p fun a => mean (draws p (k + 1)) fun l => F (a :: l) := mean_draws_succ _ _ _
      _ = mean p fun a => mean p fun x => mean (draws p k) fun l => F (a :: (l ++ [x])) := by
        congr 1; funext a; exact mean_draws_snoc p k fun l => F (a :: l)
      _ = mean p fun x => mean p fun a => mean (draws p k) fun l => F (a :: (l ++ [x])) := mean_comm _ _ _
      _ = _ := by
        congr 1; funext x
        exact (mean_draws_succ p k fun l => F (l ++ [x])).symm

theorem draws_reverse (p : PMF α) (k : Nat) : (draws p k).map List.reverse = draws p k := by
  refine pmf_ext_mean fun F => ?_
  rw [mean_map]
  induction k generalizing F with
  | zero => simp [mean_draws_zero]
  | succ k ih =>
    rw [mean_draws_succ, mean_draws_snoc]
    congr 1
    funext x
    simp only [List.reverse_cons]
    exact ih fun l => F (l ++ [x])

theorem draws_take (p : PMF α) : ∀ {n k : Nat}, n ≤ k → (draws p k).map (List.take n) = draws p n
  | 0, k, _ => map_const' (draws p k) []
  | n + 1, 0, h => by omega
  | n + 1, k + 1, h => by
    refine pmf_ext_mean fun F => ?_
    rw [mean_map, mean_draws_succ, mean_draws_succ]
    congr 1
    funext x
    simp only [List.take_succ_cons]
    rw [← draws_take p (show n ≤ k by omega), mean_map]

end

theorem uniformBelow_map {q : Nat} [NeZero q] (f : Nat → Nat) (h1 : ∀ x < q, f x < q)
    (h2 : ∀ x < q, ∀ y < q, f x = f y → x = y) : (uniformBelow q).map f = uniformBelow q := by
  refine pmf_ext_mean fun F => ?_
  rw [mean_map, mean_uniformBelow, mean_uniformBelow]
  congr 1
  have hinj : Set.InjOn f (range q : Set Nat) := fun x hx y hy e =>
    h2 x (by simpa using hx) y (by simpa using hy) e
  have himg : (range q).image f = range q := by
    refine eq_of_subset_of_card_le (fun y hy => ?_) ?_
    · obtain ⟨x, hx, rfl⟩ := mem_image.1 hy
      exact mem_range.2 (h1 x (mem_range.1 hx))
    · rw [card_image_of_injOn hinj]
  conv_rhs => rw [← himg]
  rw [sum_image hinj]

theorem uniformBelow_cast {q : Nat} [NeZero q] (f : Nat → Nat) (g : ZMod q → ZMod q)
    (hg : Function.Injective g) (h1 : ∀ x < q, f x < q) (h : ∀ x < q, (f x : ZMod q) = g x) :
    (uniformBelow q).map f = uniformBelow q := by
  refine uniformBelow_map f h1 fun x hx y hy e => ?_
  have h3 : g x = g y := by rw [← h x hx, ← h y hy, e]
  have h4 := hg h3
  rwa [ZMod.natCast_eq_natCast_iff, Nat.ModEq, Nat.mod_eq_of_lt hx, Nat.mod_eq_of_lt hy] at h4

end Verif.Spec
