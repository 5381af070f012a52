import Verif.Props.SampleLaw
import Verif.SpecGaussianLaw
import Mathlib.Analysis.SpecialFunctions.Trigonometric.DerivHyp

/-!
# Rejection sampling, and truncation and rounding of symmetric laws
-/

namespace Verif.Spec
open scoped ENNReal
open Props

variable {α β : Type}

/-- The values of the first `n` accepted draws, or `none` if fewer are accepted. -/
def takeMap (acc : α → Bool) (val : α → β) (n : Nat) (xs : List α) : Option (List β) :=
  if (xs.filter acc).length < n then none else some (((xs.filter acc).take n).map val)

theorem takeMap_zero (acc : α → Bool) (val : α → β) (xs : List α) : takeMap acc val 0 xs = some [] := by
  simp [takeMap]

theorem takeMap_nil (acc : α → Bool) (val : α → β) (n : Nat) : takeMap acc val (n + 1) [] = none := by
  simp [takeMap]

theorem takeMap_cons (acc : α → Bool) (val : α → β) (n : Nat) (x : α) (xs : List α) :
    takeMap acc val (n + 1) (x :: xs) =
      if acc x then (takeMap acc val n xs).map (val x :: ·) else takeMap acc val (n + 1) xs := by
  unfold takeMap
  by_cases h : acc x <;> simp [h]
  split_ifs <;> simp

section
variable [DecidableEq β] {δ : PMF α} {acc : α → Bool} {val : α → β} {χ : PMF β}

/-- The law of `n` values by rejection from `k` draws: up to the probability that `k` draws do not suffice they are
independent, and each has the law of the value given that the draw is accepted. -/
theorem takeMap_law
    (hχ : ∀ e, (mean δ fun x => if acc x ∧ val x = e then 1 else 0) = (mean δ fun x => if acc x then 1 else 0) * χ e) :
    ∀ (k n : Nat) (v : List β), ((draws δ k).map (takeMap acc val n)) (some v) =
      vecProb (mean δ fun x => if acc x then 1 else 0) (mean δ fun x => if acc x then 0 else 1) n k * draws χ n v := by
  intro k
  induction k with
  | zero =>
    intro n v
    rw [apply_eq_mean, mean_draws_zero]
    cases n with
    | zero =>
      rw [takeMap_zero, vecProb, one_mul, draws, PMF.pure_apply]
      by_cases h : v = [] <;> simp [h, eq_comm]
    | succ n => simp [takeMap_nil, vecProb]
  | succ k ih =>
    intro n v
    rw [apply_eq_mean, mean_draws_succ]
    cases n with
    | zero =>
      simp only [takeMap_zero, vecProb, one_mul, draws, mean_const]
      rw [PMF.pure_apply]
      by_cases h : v = [] <;> simp [h, eq_comm]
    | succ n =>
      have hd : draws χ (n + 1) v = match v with
          | [] => 0
          | e :: v' => χ e * draws χ n v' := by
        have := apply_eq_mean (draws χ (n + 1)) id v
        rw [PMF.map_id] at this
        rw [this, mean_draws_succ]
        cases v with
        | nil => simp [mean_const]
        | cons e v' =>
          have h2 := apply_eq_mean (draws χ n) id v'
          have h3 := apply_eq_mean χ id e
          rw [PMF.map_id] at h2 h3
          simp only [id_eq, List.cons.injEq] at *
          rw [h3, h2, ← mean_mul_right]
          congr 1; funext x
          by_cases hx : x = e <;> simp [hx, mean_const]
      have hI := ih (n + 1) v
      rw [apply_eq_mean] at hI
      have key : ∀ x, (mean (draws δ k) fun l => if takeMap acc val (n + 1) (x :: l) = some v then (1 : ℝ≥0∞) else 0) =
          (match v with
            | [] => 0
            | e :: v' => (if acc x ∧ val x = e then 1 else 0) *
                ((draws δ k).map (takeMap acc val n)) (some v')) +
          (if acc x then 0 else 1) * (mean (draws δ k) fun l => if takeMap acc val (n + 1) l = some v then 1 else 0) := by
        intro x
        simp only [takeMap_cons]
        by_cases hx : acc x
        · simp only [hx, if_true, true_and, zero_mul, add_zero]
          cases v with
          | nil =>
            refine (mean_congr (g := fun _ => 0) fun l _ => ?_).trans (mean_const _ _)
            rw [if_neg]
            cases takeMap acc val n l <;> simp
          | cons e v' =>
            dsimp only
            rw [apply_eq_mean, ← mean_mul_left]
            congr 1; funext l
            by_cases he : val x = e
            · cases h : takeMap acc val n l <;> simp [he]
            · cases h : takeMap acc val n l <;> simp [he]
        · simp only [hx, Bool.false_eq_true, false_and, if_false, zero_mul, one_mul]
          cases v <;> simp
      simp only [key, mean_add, mean_mul_right]
      rw [hI, vecProb, hd]
      cases v with
      | nil => simp [mean_const]
      | cons e v' =>
        dsimp only
        rw [mean_mul_right, hχ e, ih n v']
        ring

/-- The probability that `k` draws do not suffice. -/
theorem takeMap_none : ∀ k n : Nat, ((draws δ k).map (takeMap acc val n)) none =
      failProb (mean δ fun x => if acc x then 1 else 0) (mean δ fun x => if acc x then 0 else 1) n k := by
  intro k
  induction k with
  | zero =>
    intro n
    rw [apply_eq_mean, mean_draws_zero]
    cases n with
    | zero => simp [takeMap_zero, failProb]
    | succ n => simp [takeMap_nil, failProb]
  | succ k ih =>
    intro n
    rw [apply_eq_mean, mean_draws_succ]
    cases n with
    | zero => simp [takeMap_zero, failProb, mean_const]
    | succ n =>
      have h1 := ih (n + 1)
      have h2 := ih n
      rw [apply_eq_mean] at h1 h2
      rw [failProb, ← h1, ← h2, ← mean_mul_right, ← mean_mul_right, ← mean_add]
      congr 1; funext x
      simp only [takeMap_cons]
      by_cases hx : acc x <;> simp [hx]

end

/-! ## Symmetric laws -/

variable {ρ : PMF ℚ}

theorem mean_neg (h : ∀ x, ρ (-x) = ρ x) (f : ℚ → ℝ≥0∞) : (mean ρ fun x => f (-x)) = mean ρ f := by
  unfold mean
  rw [← Equiv.tsum_eq (Equiv.neg ℚ)]
  simp [h]

theorem mean_odd (h : ∀ x, ρ (-x) = ρ x) (g : ℚ → ℝ) (hg : ∀ x, g (-x) = -g x) :
    (mean ρ fun x => eexp (g x)) = mean ρ fun x => ENNReal.ofReal (Real.cosh (g x)) := by
  have e : ∀ x, ENNReal.ofReal (Real.cosh (g x)) = eexp (g x) * 2⁻¹ + eexp (g (-x)) * 2⁻¹ := by
    intro x
    rw [Real.cosh_eq, hg, ← add_mul, eexp, eexp, ← ENNReal.ofReal_add (Real.exp_nonneg _) (Real.exp_nonneg _),
      ENNReal.ofReal_div_of_pos (by norm_num), ENNReal.div_eq_inv_mul, mul_comm]
    norm_num
  simp only [e, mean_add, mean_mul_right]
  rw [mean_neg h fun x => eexp (g x), ← mul_add, ENNReal.inv_two_add_inv_two, mul_one]

section
variable {δ : PMF ℚ} {D : ℚ} (hD : ∃ x ∈ {x : ℚ | |x| < D}, x ∈ δ.support)
include hD

/-- Means under the truncated law. -/
theorem mean_within (f : ℚ → ℝ≥0∞) : (mean δ fun x => if |x| < D then 1 else 0) * mean (within δ D) f =
    mean δ fun x => if |x| < D then f x else 0 := by
  unfold within
  rw [dif_pos hD]
  have hp : (∑' x, ({x : ℚ | |x| < D} : Set ℚ).indicator δ x) = mean δ fun x => if |x| < D then 1 else 0 := by
    unfold mean
    refine tsum_congr fun x => ?_
    by_cases hx : |x| < D <;> simp [Set.indicator, hx]
  have h0 : (mean δ fun x => if |x| < D then (1 : ℝ≥0∞) else 0) ≠ 0 := by
    obtain ⟨x, hx, hs⟩ := hD
    unfold mean
    rw [Ne, ENNReal.tsum_eq_zero]
    intro hc
    have := hc x
    dsimp only at this
    rw [if_pos (by simpa using hx), mul_one] at this
    exact (PMF.mem_support_iff _ _).1 hs this
  have ht : (mean δ fun x => if |x| < D then (1 : ℝ≥0∞) else 0) ≠ ⊤ := by
    have : (mean δ fun x => if |x| < D then (1 : ℝ≥0∞) else 0) ≤ mean δ fun _ => 1 :=
      mean_mono fun x _ => by split_ifs <;> simp
    rw [mean_const] at this
    exact ne_top_of_le_ne_top ENNReal.one_ne_top this
  generalize (mean δ fun x => if |x| < D then (1 : ℝ≥0∞) else 0) = S at *
  unfold mean
  rw [← ENNReal.tsum_mul_left]
  refine tsum_congr fun x => ?_
  rw [PMF.filter_apply, hp]
  dsimp only
  by_cases hx : |x| < D
  · rw [if_pos hx, Set.indicator_of_mem (by simpa using hx)]
    rw [mul_comm (δ x) (_⁻¹), mul_assoc, ← mul_assoc, ENNReal.mul_inv_cancel h0 ht, one_mul]
  · rw [if_neg hx, Set.indicator_of_notMem (by simpa using hx)]
    simp

theorem within_symm (h : ∀ x, δ (-x) = δ x) (x : ℚ) : within δ D (-x) = within δ D x := by
  unfold within
  rw [dif_pos hD, PMF.filter_apply, PMF.filter_apply]
  by_cases hx : |x| < D
  · rw [Set.indicator_of_mem (by simpa using hx), Set.indicator_of_mem (by simpa using hx), h]
  · rw [Set.indicator_of_notMem (by simpa using hx), Set.indicator_of_notMem (by simpa using hx)]

theorem within_support {x : ℚ} (h : x ∈ (within δ D).support) : |x| < D ∧ x ∈ δ.support := by
  unfold within at h
  rw [dif_pos hD, PMF.support_filter] at h
  exact ⟨by simpa using h.1, h.2⟩

/-- Truncation does not increase the mean of a function that grows with the magnitude. -/
theorem mean_within_le (f : ℚ → ℝ≥0∞) (hf : ∀ x y, |x| ≤ |y| → f x ≤ f y) :
    mean (within δ D) f ≤ mean δ f := by
  have h1 := mean_within hD f
  set a := mean δ fun x => if |x| < D then (1 : ℝ≥0∞) else 0 with ha
  set r := mean δ fun x => if |x| < D then (0 : ℝ≥0∞) else 1 with hr
  have har : a + r = 1 := by
    rw [ha, hr, ← mean_add]
    refine (mean_congr fun x _ => ?_).trans (mean_const δ 1)
    split_ifs <;> simp
  let c : ℝ≥0∞ := ⨆ x : {x : ℚ // |x| < D}, f x
  have hc1 : mean (within δ D) f ≤ c := by
    rw [← mean_const (within δ D) c]
    exact mean_mono fun x hx => le_iSup (fun x : {x : ℚ // |x| < D} => f x) ⟨x, (within_support hD hx).1⟩
  have hc2 : r * c ≤ mean δ fun x => if |x| < D then 0 else f x := by
    rw [hr, ← mean_mul_right]
    refine mean_mono fun x _ => ?_
    split_ifs with hx
    · simp
    · rw [one_mul]
      exact iSup_le fun y => hf _ _ (y.2.le.trans (not_lt.1 hx))
  calc mean (within δ D) f = a * mean (within δ D) f + r * mean (within δ D) f := by rw [← add_mul, har, one_mul]
    _ ≤ (mean δ fun x => if |x| < D then f x else 0) + mean δ fun x => if |x| < D then 0 else f x := by
      rw [h1]
      exact add_le_add le_rfl ((mul_le_mul' le_rfl hc1).trans hc2)
    _ = mean δ f := by
      rw [← mean_add]
      congr 1; funext x
      split_ifs <;> simp

end
end Verif.Spec
