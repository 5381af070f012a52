import Mathlib.Probability.Distributions.Gaussian.Real
import Mathlib.MeasureTheory.Function.Floor
import Verif.Lemmas.Rejection

/-!
# Deviates of finite precision from the normal law
-/

namespace Verif.Spec
open scoped ENNReal NNReal
open MeasureTheory ProbabilityTheory

/-- `x` with its magnitude rounded down to a multiple of `2^-k`, at most `(2^53 - 1) 2^-k`. -/
noncomputable def roundDown (k : Nat) (x : ℝ) : ℚ :=
  if x < 0 then -((min ⌊-x * 2 ^ k⌋₊ (2 ^ 53 - 1) : ℕ) / 2 ^ k) else (min ⌊x * 2 ^ k⌋₊ (2 ^ 53 - 1) : ℕ) / 2 ^ k

theorem measurable_roundDown (k : Nat) : Measurable (roundDown k) := by
  unfold roundDown
  refine Measurable.ite measurableSet_Iio ?_ ?_
  · exact (measurable_from_top (f := fun p : ℕ => -(((min p (2 ^ 53 - 1) : ℕ) : ℚ) / 2 ^ k))).comp
      (Nat.measurable_floor.comp (measurable_neg.mul_const _))
  · exact (measurable_from_top (f := fun p : ℕ => ((min p (2 ^ 53 - 1) : ℕ) : ℚ) / 2 ^ k)).comp
      (Nat.measurable_floor.comp (measurable_id.mul_const _))

theorem roundDown_neg (k : Nat) (x : ℝ) : roundDown k (-x) = -roundDown k x := by
  unfold roundDown
  rcases lt_trichotomy x 0 with h | rfl | h
  · rw [if_neg (by linarith), if_pos h, neg_neg]
  · simp
  · rw [if_pos (by linarith), if_neg (by linarith), neg_neg]

theorem roundDown_abs (k : Nat) (x : ℝ) : |(roundDown k x : ℝ)| ≤ |x| := by
  have key : ∀ y : ℝ, 0 ≤ y → (((min ⌊y * 2 ^ k⌋₊ (2 ^ 53 - 1) : ℕ) : ℝ) / 2 ^ k) ≤ y := by
    intro y hy
    rw [div_le_iff₀ (by positivity)]
    refine le_trans ?_ (Nat.floor_le (by positivity : 0 ≤ y * 2 ^ k))
    exact_mod_cast min_le_left _ _
  unfold roundDown
  split_ifs with h
  · rw [abs_of_neg h, Rat.cast_neg, abs_neg]
    push_cast [-Nat.cast_min]
    rw [abs_of_nonneg (by positivity)]
    exact key _ (by linarith)
  · rw [abs_of_nonneg (not_lt.1 h)]
    push_cast [-Nat.cast_min]
    rw [abs_of_nonneg (by positivity)]
    exact key _ (not_lt.1 h)

theorem roundDown_f64 (k : Nat) (x : ℝ) : F64.Representable |roundDown k x| := by
  have key : ∀ m : ℕ, F64.Representable |((min m (2 ^ 53 - 1) : ℕ) : ℚ) / 2 ^ k| := by
    intro m
    refine ⟨min m (2 ^ 53 - 1), -(k : ℤ), lt_of_le_of_lt (min_le_right _ _) (by norm_num), ?_⟩
    rw [abs_of_nonneg (by positivity), zpow_neg, zpow_natCast, div_eq_mul_inv]
  unfold roundDown
  split_ifs
  · rw [abs_neg]; exact key _
  · exact key _

instance (σ : ℝ≥0) (k : Nat) : IsProbabilityMeasure ((gaussianReal 0 (σ ^ 2)).map (roundDown k)) :=
  Measure.isProbabilityMeasure_map (measurable_roundDown k).aemeasurable

/-- A normal variable of mean 0 and standard deviation `σ`, its magnitude rounded down to a multiple of `2^-k`. -/
noncomputable def normalDeviates (σ : ℝ≥0) (k : Nat) : PMF ℚ :=
  ((gaussianReal 0 (σ ^ 2)).map (roundDown k)).toPMF

theorem mean_normalDeviates (σ : ℝ≥0) (k : Nat) (f : ℚ → ℝ≥0∞) :
    mean (normalDeviates σ k) f = ∫⁻ x, f (roundDown k x) ∂gaussianReal 0 (σ ^ 2) := by
  unfold mean normalDeviates
  rw [← lintegral_map (measurable_from_top (f := f)) (measurable_roundDown k), lintegral_countable']
  refine tsum_congr fun a => ?_
  rw [Measure.toPMF_apply, mul_comm]

theorem normalDeviates_symm (σ : ℝ≥0) (k : Nat) (y : ℚ) : normalDeviates σ k (-y) = normalDeviates σ k y := by
  unfold normalDeviates
  rw [Measure.toPMF_apply, Measure.toPMF_apply, Measure.map_apply (measurable_roundDown k) (.singleton _),
    Measure.map_apply (measurable_roundDown k) (.singleton _)]
  have hs : gaussianReal 0 (σ ^ 2) = (gaussianReal 0 (σ ^ 2)).map (fun x => -x) := by
    rw [gaussianReal_map_neg, neg_zero]
  conv_lhs => rw [hs]
  rw [Measure.map_apply measurable_neg (measurable_roundDown k (.singleton _))]
  congr 1
  ext x
  simp [roundDown_neg]

/-- Normal deviates of finite precision meet the assumptions on deviates. -/
theorem normalDeviates_ok (σ : ℝ≥0) (k : Nat) : Deviates (normalDeviates σ k) σ := by
  refine ⟨fun x hx => ?_, normalDeviates_symm σ k, fun t => ?_⟩
  · by_contra hc
    rw [PMF.mem_support_iff] at hx
    refine hx ?_
    unfold normalDeviates
    rw [Measure.toPMF_apply, Measure.map_apply (measurable_roundDown k) (.singleton _)]
    have he : roundDown k ⁻¹' {x} = ∅ := by
      ext y
      simp only [Set.mem_preimage, Set.mem_singleton_iff, Set.mem_empty_iff_false, iff_false]
      rintro rfl
      exact hc (roundDown_f64 k y)
    rw [he, measure_empty]
  · change mean (normalDeviates σ k) (fun x => eexp (t * x)) ≤ _
    rw [mean_odd (normalDeviates_symm σ k) _ (fun x => by push_cast; ring), mean_normalDeviates]
    have h1 : ∫⁻ x, ENNReal.ofReal (Real.cosh (t * roundDown k x)) ∂gaussianReal 0 (σ ^ 2) ≤
        ∫⁻ x, ENNReal.ofReal (Real.cosh (t * x)) ∂gaussianReal 0 (σ ^ 2) := by
      refine lintegral_mono fun x => ENNReal.ofReal_le_ofReal ?_
      rw [Real.cosh_le_cosh, abs_mul, abs_mul]
      exact mul_le_mul_of_nonneg_left (roundDown_abs k x) (abs_nonneg t)
    refine h1.trans ?_
    have hi : ∀ s : ℝ, Integrable (fun x => Real.exp (s * x)) (gaussianReal 0 (σ ^ 2)) :=
      fun s => integrable_exp_mul_gaussianReal s
    have hm : ∀ s : ℝ, ∫ x, Real.exp (s * x) ∂gaussianReal 0 (σ ^ 2) = Real.exp (σ ^ 2 * s ^ 2 / 2) := by
      intro s
      have := congrFun (mgf_fun_id_gaussianReal (μ := 0) (v := σ ^ 2)) s
      unfold mgf at this
      rw [this]
      congr 1
      push_cast
      ring
    have hc : ∀ x : ℝ, Real.cosh (t * x) = 1 / 2 * Real.exp (t * x) + 1 / 2 * Real.exp (-t * x) := by
      intro x; rw [Real.cosh_eq, neg_mul]; ring
    simp only [hc]
    have hint : Integrable (fun x => 1 / 2 * Real.exp (t * x) + 1 / 2 * Real.exp (-t * x)) (gaussianReal 0 (σ ^ 2)) :=
      ((hi t).const_mul _).add ((hi (-t)).const_mul _)
    rw [← ofReal_integral_eq_lintegral_ofReal hint (ae_of_all _ fun x => by dsimp only [Pi.zero_apply]; positivity)]
    refine ENNReal.ofReal_le_ofReal (le_of_eq ?_)
    rw [integral_add ((hi t).const_mul _) ((hi (-t)).const_mul _), integral_const_mul, integral_const_mul, hm, hm]
    rw [neg_sq]
    ring

end Verif.Spec
