import Verif.SpecRandom

/-!
# Means and tails of random draws
-/

namespace Verif.Spec
open scoped ENNReal
open Finset

variable {α β : Type}

/-- The mean of a non-negative function. -/
noncomputable def mean (p : PMF α) (f : α → ℝ≥0∞) : ℝ≥0∞ := ∑' a, p a * f a

theorem mean_pure (a : α) (f : α → ℝ≥0∞) : mean (PMF.pure a) f = f a := by
  unfold mean
  rw [tsum_eq_single a]
  · simp
  · intro b hb; simp [hb]

theorem mean_bind (p : PMF α) (r : α → PMF β) (f : β → ℝ≥0∞) :
    mean (p.bind r) f = mean p fun a => mean (r a) f := by
  unfold mean
  simp only [PMF.bind_apply, ← ENNReal.tsum_mul_right, ← ENNReal.tsum_mul_left]
  rw [ENNReal.tsum_comm]
  simp only [mul_assoc]

theorem mean_pair (p : PMF α) (r : PMF β) (f : α × β → ℝ≥0∞) :
    mean (pair p r) f = mean p fun a => mean r fun b => f (a, b) := by
  unfold pair
  simp only [mean_bind, mean_pure]

theorem mean_draws_zero (p : PMF α) (f : List α → ℝ≥0∞) : mean (draws p 0) f = f [] := mean_pure _ _

theorem mean_draws_succ (p : PMF α) (k : Nat) (f : List α → ℝ≥0∞) :
    mean (draws p (k + 1)) f = mean p fun x => mean (draws p k) fun l => f (x :: l) := by
  rw [draws]
  simp only [mean_bind, mean_pure]

theorem mean_mono {p : PMF α} {f g : α → ℝ≥0∞} (h : ∀ a ∈ p.support, f a ≤ g a) :
    mean p f ≤ mean p g := by
  refine ENNReal.tsum_le_tsum fun a => ?_
  by_cases ha : p a = 0
  · simp [ha]
  · exact mul_le_mul_right (h a ((PMF.mem_support_iff p a).2 ha)) _

theorem mean_congr {p : PMF α} {f g : α → ℝ≥0∞} (h : ∀ a ∈ p.support, f a = g a) :
    mean p f = mean p g :=
  le_antisymm (mean_mono fun a ha => (h a ha).le) (mean_mono fun a ha => (h a ha).ge)

theorem mean_mul_right (p : PMF α) (f : α → ℝ≥0∞) (c : ℝ≥0∞) :
    (mean p fun a => f a * c) = mean p f * c := by
  unfold mean
  rw [← ENNReal.tsum_mul_right]
  simp only [mul_assoc]

theorem mean_mul_left (p : PMF α) (f : α → ℝ≥0∞) (c : ℝ≥0∞) :
    (mean p fun a => c * f a) = c * mean p f := by
  simp only [mul_comm c]
  exact mean_mul_right p f c

theorem mean_const (p : PMF α) (c : ℝ≥0∞) : (mean p fun _ => c) = c := by
  unfold mean
  rw [ENNReal.tsum_mul_right, p.tsum_coe, one_mul]

theorem mean_add (p : PMF α) (f g : α → ℝ≥0∞) : (mean p fun a => f a + g a) = mean p f + mean p g := by
  unfold mean
  rw [← ENNReal.tsum_add]
  simp only [mul_add]

open Classical in
theorem prob_eq (p : PMF α) (A : Set α) :
    p.toOuterMeasure A = mean p fun a => if a ∈ A then 1 else 0 := by
  rw [PMF.toOuterMeasure_apply]
  unfold mean
  refine tsum_congr fun a => ?_
  by_cases h : a ∈ A <;> simp [h]

theorem mem_support_pair {p : PMF α} {r : PMF β} {x : α × β} (h : x ∈ (pair p r).support) :
    x.1 ∈ p.support ∧ x.2 ∈ r.support := by
  unfold pair at h
  simp only [PMF.mem_support_bind_iff, PMF.mem_support_pure_iff] at h
  obtain ⟨a, ha, b, hb, rfl⟩ := h
  exact ⟨ha, hb⟩

theorem mem_support_draws {p : PMF α} : ∀ {k : Nat} {l : List α}, l ∈ (draws p k).support →
    l.length = k ∧ ∀ x ∈ l, x ∈ p.support
  | 0, l, h => by
    rw [draws, PMF.mem_support_pure_iff] at h
    simp [h]
  | k + 1, l, h => by
    rw [draws] at h
    simp only [PMF.mem_support_bind_iff, PMF.mem_support_pure_iff] at h
    obtain ⟨a, ha, b, hb, rfl⟩ := h
    obtain ⟨h1, h2⟩ := mem_support_draws hb
    refine ⟨by simp [h1], fun x hx => ?_⟩
    rcases List.mem_cons.1 hx with rfl | hx
    · exact ha
    · exact h2 x hx

/-- `exp x` as an extended non-negative number. -/
noncomputable def eexp (x : ℝ) : ℝ≥0∞ := ENNReal.ofReal (Real.exp x)

theorem eexp_add (x y : ℝ) : eexp (x + y) = eexp x * eexp y := by
  unfold eexp
  rw [Real.exp_add, ENNReal.ofReal_mul (Real.exp_nonneg _)]

theorem eexp_zero : eexp 0 = 1 := by simp [eexp]

theorem eexp_mono {x y : ℝ} (h : x ≤ y) : eexp x ≤ eexp y :=
  ENNReal.ofReal_le_ofReal (Real.exp_le_exp.2 h)

/-- The sum of functions of independent values. -/
theorem mean_eexp_draws (p : PMF α) (d : α) : ∀ (k : Nat) (F : Nat → α → ℝ) (c : Nat → ℝ),
    (∀ i < k, (mean p fun x => eexp (F i x)) ≤ eexp (c i)) →
    (mean (draws p k) fun l => eexp (∑ i ∈ range k, F i (l.getD i d))) ≤ eexp (∑ i ∈ range k, c i)
  | 0, F, c, _ => by simp [mean_draws_zero]
  | k + 1, F, c, h => by
    rw [mean_draws_succ]
    have ih := mean_eexp_draws p d k (fun i => F (i + 1)) (fun i => c (i + 1))
      fun i hi => h (i + 1) (by omega)
    have e : ∀ (x : α) (l : List α), eexp (∑ i ∈ range (k + 1), F i ((x :: l).getD i d)) =
        eexp (F 0 x) * eexp (∑ i ∈ range k, F (i + 1) (l.getD i d)) := by
      intro x l
      rw [← eexp_add, sum_range_succ', add_comm]
      simp
    simp only [e, mean_mul_left, mean_mul_right]
    rw [sum_range_succ', add_comm, eexp_add]
    exact mul_le_mul' (h 0 (by omega)) ih

theorem mean_eexp_pair (p : PMF α) (r : PMF β) (f : α → ℝ) (g : β → ℝ) {c c' : ℝ}
    (hf : (mean p fun x => eexp (f x)) ≤ eexp c) (hg : (mean r fun y => eexp (g y)) ≤ eexp c') :
    (mean (pair p r) fun z => eexp (f z.1 + g z.2)) ≤ eexp (c + c') := by
  rw [mean_pair]
  simp only [eexp_add, mean_mul_left, mean_mul_right]
  exact mul_le_mul' hf hg

/-- Chernoff's bound for one side. -/
theorem one_sided (p : PMF α) (X : α → ℝ) {V T : ℝ} (hV : 0 < V)
    (h : ∀ t : ℝ, (mean p fun a => eexp (t * X a)) ≤ eexp (V * t ^ 2 / 2)) (hT : 0 ≤ T) :
    p.toOuterMeasure {a | T < X a} ≤ eexp (-(T ^ 2 / (2 * V))) := by
  classical
  rw [prob_eq]
  have ht : 0 ≤ T / V := div_nonneg hT hV.le
  calc (mean p fun a => if a ∈ {a | T < X a} then 1 else 0)
      ≤ mean p fun a => eexp (T / V * X a) * eexp (-(T / V * T)) := by
        refine mean_mono fun a _ => ?_
        rw [← eexp_add]
        split_ifs with ha
        · rw [← eexp_zero]
          refine eexp_mono ?_
          have : T / V * T ≤ T / V * X a := mul_le_mul_of_nonneg_left (le_of_lt ha) ht
          linarith
        · exact zero_le
    _ = (mean p fun a => eexp (T / V * X a)) * eexp (-(T / V * T)) := mean_mul_right _ _ _
    _ ≤ eexp (V * (T / V) ^ 2 / 2) * eexp (-(T / V * T)) := mul_le_mul' (h _) le_rfl
    _ = eexp (-(T ^ 2 / (2 * V))) := by
        rw [← eexp_add]
        congr 1
        field_simp
        ring

/-- Chernoff's bound for both sides. -/
theorem two_sided (p : PMF α) (X : α → ℝ) {V T : ℝ} (hV : 0 ≤ V)
    (h : ∀ t : ℝ, (mean p fun a => eexp (t * X a)) ≤ eexp (V * t ^ 2 / 2)) (hT : 0 ≤ T) :
    p.toOuterMeasure {a | T < |X a|} ≤ gaussTail V T := by
  rcases hV.eq_or_lt with rfl | hV
  · unfold gaussTail
    rw [prob_eq]
    calc _ ≤ mean p fun _ => 1 := mean_mono fun a _ => by split_ifs <;> simp
      _ = 1 := mean_const _ _
      _ ≤ _ := by simp
  have h1 := one_sided p X hV h hT
  have h2 := one_sided p (fun a => -X a) hV (fun t => by
    have := h (-t)
    simpa using this) hT
  have hsub : {a | T < |X a|} ⊆ {a | T < X a} ∪ {a | T < -X a} := by
    intro a ha
    rcases lt_abs.1 (show T < |X a| from ha) with h | h
    · exact Or.inl h
    · exact Or.inr h
  calc p.toOuterMeasure {a | T < |X a|} ≤ p.toOuterMeasure ({a | T < X a} ∪ {a | T < -X a}) :=
        p.toOuterMeasure.mono hsub
    _ ≤ _ := MeasureTheory.measure_union_le _ _
    _ ≤ eexp (-(T ^ 2 / (2 * V))) + eexp (-(T ^ 2 / (2 * V))) := add_le_add h1 h2
    _ = _ := by
        rw [gaussTail, eexp, ← ENNReal.ofReal_add (Real.exp_nonneg _) (Real.exp_nonneg _)]
        congr 1
        ring

/-- Events that agree on the support, monotone. -/
theorem prob_mono {p : PMF α} {A B : Set α} (h : ∀ a ∈ p.support, a ∈ A → a ∈ B) :
    p.toOuterMeasure A ≤ p.toOuterMeasure B := by
  classical
  rw [prob_eq, prob_eq]
  refine mean_mono fun a ha => ?_
  by_cases hA : a ∈ A
  · simp [hA, h a ha hA]
  · simp [hA]

end Verif.Spec
