import Verif.Lemmas.Rejection
import Mathlib.Analysis.Complex.ExponentialBounds
import Verif.Props.Gaussian

/-!
# C71: the law of Gaussian errors

Concrete cases that meet the hypotheses are in `Props/GaussianDefaults.lean`.
-/

namespace Verif.Props
open Spec Gaussian F64
open scoped ENNReal

theorem nearestAway_eq (x : ℚ) : roundAway x = nearestAway x := rfl

/-- A residue is the sample of a number exactly if it is that of the nearest integer. -/
theorem isSample_iff {q : Nat} (hq : 0 < q) (x : ℚ) (e : Nat) : IsSample q x e ↔ e = nearestMod q x := by
  have hlt : nearestAway x % (q : ℤ) < q := Int.emod_lt_of_pos _ (by omega)
  have hnn : 0 ≤ nearestAway x % (q : ℤ) := Int.emod_nonneg _ (by omega)
  have hr : IsRounded x (nearestAway x) := by rw [← nearestAway_eq]; exact roundAway_spec x
  have hc : ((nearestMod q x : Nat) : ZMod q) = (nearestAway x : ZMod q) := by
    unfold nearestMod
    have h1 : (((nearestAway x % q).toNat : ℤ) : ZMod q) = ((nearestAway x % q : ℤ) : ZMod q) := by
      rw [Int.toNat_of_nonneg hnn]
    rw [Int.cast_natCast] at h1
    rw [h1, ZMod.intCast_eq_intCast_iff]
    exact Int.mod_modEq _ _
  have hl : nearestMod q x < q := by unfold nearestMod; omega
  constructor
  · rintro ⟨he, z, hz, e1⟩
    rw [isRounded_unique hz hr, ← hc, ZMod.natCast_eq_natCast_iff] at e1
    exact Nat.ModEq.eq_of_lt_of_lt e1 he hl
  · rintro rfl
    exact ⟨hl, _, hr, hc⟩

/-- The magnitude of the nearest integer. -/
theorem nearestAway_abs (x : ℚ) : |(nearestAway x : ℝ)| ≤ |(x : ℝ) + (SignType.sign x : ℝ) / 2| := by
  unfold nearestAway
  split_ifs with h
  · have h1 := Int.floor_le (-x + 1 / 2)
    have h2 : (0 : ℤ) ≤ ⌊-x + 1 / 2⌋ := Int.floor_nonneg.2 (by linarith)
    have h1' := (Rat.cast_le (K := ℝ)).2 h1
    push_cast at h1'
    have h2' : (0 : ℝ) ≤ (⌊-x + 1 / 2⌋ : ℤ) := by exact_mod_cast h2
    have hx : (x : ℝ) < 0 := by exact_mod_cast h
    rw [sign_neg h, SignType.coe_neg_one]
    push_cast
    rw [abs_neg, abs_of_nonneg h2', abs_of_neg (by linarith)]
    linarith
  · rcases (not_lt.1 h).eq_or_lt with rfl | h0
    · norm_num
    · have h1 := Int.floor_le (x + 1 / 2)
      have h2 : (0 : ℤ) ≤ ⌊x + 1 / 2⌋ := Int.floor_nonneg.2 (by linarith)
      have h1' := (Rat.cast_le (K := ℝ)).2 h1
      push_cast at h1'
      have h2' : (0 : ℝ) ≤ (⌊x + 1 / 2⌋ : ℤ) := by exact_mod_cast h2
      have hx : (0 : ℝ) < x := by exact_mod_cast h0
      rw [sign_pos h0, SignType.coe_one]
      rw [abs_of_nonneg h2', abs_of_nonneg (by linarith)]
      linarith

theorem nearestAway_neg (x : ℚ) : nearestAway (-x) = -nearestAway x := by
  have h1 : IsRounded x (nearestAway x) := by rw [← nearestAway_eq]; exact roundAway_spec x
  have h2 : IsRounded (-x) (nearestAway (-x)) := by rw [← nearestAway_eq]; exact roundAway_spec _
  exact isRounded_unique h2 (isRounded_neg h1)

section
variable {δ : PMF ℚ} {τ : ℝ} (hδ : Deviates δ τ) {D : ℚ}
include hδ

/-- A deviate is rejected with probability at most one half. -/
theorem reject_le (hτ : 0 < τ) (hD : 2 * τ < D) : (mean δ fun x => if |x| < D then (0 : ℝ≥0∞) else 1) ≤ 1 / 2 := by
  classical
  have h := two_sided δ (fun x => (x : ℝ)) (V := τ ^ 2) (T := 2 * τ) (by positivity) hδ.mgf (by positivity)
  rw [prob_eq] at h
  refine le_trans (mean_mono fun x _ => ?_) (h.trans ?_)
  · split_ifs with h1 h2 h3
    · simp
    · simp
    · exact le_rfl
    · refine absurd ?_ h3
      have : (D : ℝ) ≤ |(x : ℝ)| := by exact_mod_cast not_lt.1 h1
      exact lt_of_lt_of_le hD this
  · unfold gaussTail
    rw [show (2 * τ) ^ 2 / (2 * τ ^ 2) = 2 by field_simp]
    rw [show (1 / 2 : ℝ≥0∞) = ENNReal.ofReal (1 / 2) by
      rw [ENNReal.ofReal_div_of_pos (by norm_num)]; norm_num]
    refine ENNReal.ofReal_le_ofReal ?_
    rw [Real.exp_neg, show (2 : ℝ) = 1 + 1 by norm_num, Real.exp_add]
    have h1 := Real.exp_one_gt_d9
    have h4 : (4 : ℝ) ≤ Real.exp 1 * Real.exp 1 := by nlinarith
    have : (Real.exp 1 * Real.exp 1)⁻¹ ≤ 4⁻¹ := inv_anti₀ (by norm_num) h4
    linarith

omit hδ in
theorem accept_add_reject : (mean δ fun x => if |x| < D then (1 : ℝ≥0∞) else 0) +
    (mean δ fun x => if |x| < D then (0 : ℝ≥0∞) else 1) = 1 := by
  rw [← mean_add]
  refine (mean_congr fun x _ => ?_).trans (mean_const δ 1)
  split_ifs <;> simp

theorem exists_accepted (hτ : 0 < τ) (hD : 2 * τ < D) : ∃ x ∈ {x : ℚ | |x| < D}, x ∈ δ.support := by
  by_contra hc
  have h1 := reject_le hδ hτ hD
  have : (mean δ fun x => if |x| < D then (0 : ℝ≥0∞) else 1) = 1 := by
    refine (mean_congr fun x hx => ?_).trans (mean_const δ 1)
    rw [if_neg]
    intro hx'
    exact hc ⟨x, hx', hx⟩
  rw [this, ENNReal.le_div_iff_mul_le (by simp) (by simp)] at h1
  norm_num at h1

/-- C71: rounded deviates of a symmetric law whose exponential moments are at most those of a normal law of standard
deviation `τ`, truncated at `D`, are sub-Gaussian errors with parameter `(τ + 1/2)²`: truncation does not add to the
parameter and rounding adds one half to the deviation. -/
theorem C71_subgaussian (hτ : 0 < τ) (hD : 2 * τ < D) (q : Nat) (hq : 2 * D + 1 < q) :
    SubGaussian q (gaussLaw q δ D) ((τ + 1 / 2) ^ 2) := by
  have hex := exists_accepted hδ hτ hD
  have hD0 : 0 < D := by
    have : (0 : ℝ) < D := by linarith
    exact_mod_cast this
  have hq0 : 0 < q := by
    have : (0 : ℚ) < q := by linarith
    exact_mod_cast this
  have hsy := within_symm hex hδ.symm
  refine ⟨fun e he => ?_, fun t => ?_⟩
  · unfold gaussLaw at he
    rw [PMF.support_map] at he
    obtain ⟨x, -, rfl⟩ := he
    exact ((isSample_iff hq0 x _).2 rfl).1
  · change mean (gaussLaw q δ D) (fun x => eexp (t * centred q x)) ≤ eexp ((τ + 1 / 2) ^ 2 * t ^ 2 / 2)
    unfold gaussLaw
    rw [mean_map]
    -- the centred residue is the nearest integer
    have e1 : (mean (within δ D) fun x => eexp (t * centred q (nearestMod q x))) =
        mean (within δ D) fun x => eexp (t * nearestAway x) := by
      refine mean_congr fun x hx => ?_
      obtain ⟨hx1, -⟩ := within_support hex hx
      obtain ⟨h1, z, hz, h2⟩ := (isSample_iff hq0 x _).2 rfl
      have hr : IsRounded x (nearestAway x) := by rw [← nearestAway_eq]; exact roundAway_spec x
      rw [isRounded_unique hz hr] at h2
      rw [centred_eq h1 _ h2]
      have h3 := hr.1
      have h4 : |(nearestAway x : ℚ)| ≤ |x| + 1 / 2 := by
        have := abs_add_le ((nearestAway x : ℚ) - x) x
        rw [sub_add_cancel] at this
        linarith
      have h5 : 2 * |(nearestAway x : ℚ)| < q := by linarith
      exact_mod_cast h5
    -- it is at most the number itself with one half added to its magnitude
    let h : ℚ → ℝ := fun x => x + (SignType.sign x : ℝ) / 2
    have hodd : ∀ x, h (-x) = -h x := fun x => by
      simp only [h, Left.sign_neg]
      push_cast
      ring
    have e2 : (mean (within δ D) fun x => eexp (t * nearestAway x)) ≤ mean (within δ D) fun x => eexp (t * h x) := by
      rw [mean_odd hsy _ (fun x => by rw [nearestAway_neg]; push_cast; ring),
        mean_odd hsy _ (fun x => by rw [hodd]; ring)]
      refine mean_mono fun x _ => ENNReal.ofReal_le_ofReal ?_
      rw [Real.cosh_le_cosh, abs_mul, abs_mul]
      exact mul_le_mul_of_nonneg_left (nearestAway_abs x) (abs_nonneg t)
    -- the two summands, by convexity
    let p : ℝ := (τ + 1 / 2) / τ
    let p' : ℝ := (τ + 1 / 2) / (1 / 2)
    let c : ℝ := p ^ 2 * τ ^ 2 * t ^ 2 / 2
    let c' : ℝ := p' ^ 2 * t ^ 2 / 8
    have hp : 0 < p := by positivity
    have hp' : 0 < p' := by positivity
    have hsum : p⁻¹ + p'⁻¹ = 1 := by simp only [p, p']; field_simp
    have hc : p⁻¹ * c + p'⁻¹ * c' = (τ + 1 / 2) ^ 2 * t ^ 2 / 2 := by simp only [p, p', c, c']; field_simp; ring
    have e3 : ∀ x : ℚ, eexp (t * h x) ≤ eexp ((τ + 1 / 2) ^ 2 * t ^ 2 / 2) *
        (ENNReal.ofReal p⁻¹ * (eexp (-c) * eexp (p * t * x)) +
          ENNReal.ofReal p'⁻¹ * (eexp (-c') * eexp (p' * t * ((SignType.sign x : ℝ) / 2)))) := by
      intro x
      have hconv := convexOn_exp.2 (Set.mem_univ (-c + p * t * x))
        (Set.mem_univ (-c' + p' * t * ((SignType.sign x : ℝ) / 2))) (inv_pos.2 hp).le (inv_pos.2 hp').le hsum
      simp only [smul_eq_mul] at hconv
      have e4 : t * h x = (τ + 1 / 2) ^ 2 * t ^ 2 / 2 +
          (p⁻¹ * (-c + p * t * x) + p'⁻¹ * (-c' + p' * t * ((SignType.sign x : ℝ) / 2))) := by
        have h1 : p⁻¹ * (p * t * x) = t * x := by field_simp
        have h2 : p'⁻¹ * (p' * t * ((SignType.sign x : ℝ) / 2)) = t * ((SignType.sign x : ℝ) / 2) := by field_simp
        rw [mul_add p⁻¹, mul_add p'⁻¹, h1, h2, ← hc]
        simp only [h]
        ring
      rw [e4, eexp_add]
      refine mul_le_mul' le_rfl ?_
      rw [← eexp_add, ← eexp_add]
      unfold eexp
      rw [← ENNReal.ofReal_mul (inv_pos.2 hp).le, ← ENNReal.ofReal_mul (inv_pos.2 hp').le,
        ← ENNReal.ofReal_add (by positivity) (by positivity)]
      exact ENNReal.ofReal_le_ofReal hconv
    have e5 : (mean (within δ D) fun x => eexp (p * t * x)) ≤ eexp c := by
      rw [mean_odd hsy _ (fun x => by push_cast; ring)]
      refine (mean_within_le hex _ fun x y hxy => ENNReal.ofReal_le_ofReal ?_).trans ?_
      · rw [Real.cosh_le_cosh, abs_mul (p * t), abs_mul (p * t)]
        have : |(x : ℝ)| ≤ |(y : ℝ)| := by exact_mod_cast hxy
        exact mul_le_mul_of_nonneg_left this (abs_nonneg _)
      · rw [← mean_odd hδ.symm (fun x => p * t * x) (fun x => by push_cast; ring)]
        refine (hδ.mgf (p * t)).trans (eexp_mono (le_of_eq ?_))
        simp only [c]; ring
    have e6 : (mean (within δ D) fun x => eexp (p' * t * ((SignType.sign x : ℝ) / 2))) ≤ eexp c' := by
      rw [mean_odd hsy _ (fun x => by rw [Left.sign_neg]; push_cast; ring)]
      rw [← mean_const (within δ D) (eexp c')]
      refine mean_mono fun x _ => ENNReal.ofReal_le_ofReal ((Real.cosh_le_exp_half_sq _).trans
        (Real.exp_le_exp.2 ?_))
      have hs : ((SignType.sign x : ℝ)) ^ 2 ≤ 1 := by
        rcases SignType.trichotomy (SignType.sign x) with h | h | h <;> rw [h] <;> norm_num
      have : (p' * t * ((SignType.sign x : ℝ) / 2)) ^ 2 = p' ^ 2 * t ^ 2 / 4 * (SignType.sign x : ℝ) ^ 2 := by ring
      rw [this]
      have h0 : 0 ≤ p' ^ 2 * t ^ 2 / 4 := by positivity
      have := mul_le_mul_of_nonneg_left hs h0
      simp only [c']
      linarith
    rw [e1]
    refine e2.trans ((mean_mono fun x _ => e3 x).trans ?_)
    simp only [mean_mul_left, mean_add]
    have hone : ∀ y : ℝ, eexp (-y) * eexp y = 1 := fun y => by rw [← eexp_add, neg_add_cancel, eexp_zero]
    calc _ ≤ eexp ((τ + 1 / 2) ^ 2 * t ^ 2 / 2) * (ENNReal.ofReal p⁻¹ * (eexp (-c) * eexp c) +
          ENNReal.ofReal p'⁻¹ * (eexp (-c') * eexp c')) := by gcongr
      _ = eexp ((τ + 1 / 2) ^ 2 * t ^ 2 / 2) := by
        rw [hone, hone, mul_one, mul_one, ← ENNReal.ofReal_add (inv_pos.2 hp).le (inv_pos.2 hp').le, hsum]
        simp

end

section
variable {δ : PMF ℚ} {τ : ℝ} (hδ : Deviates δ τ)
include hδ

theorem rnd_abs {x : ℚ} (hx : x ∈ δ.support) : rnd |x| = |x| := rnd_of_representable (hδ.f64 x hx)

theorem passing_eq {s : Sampler} (hm : s.mean = 0) {xs : List ℚ} (hxs : ∀ x ∈ xs, x ∈ δ.support) :
    passing s xs = xs.filter fun x => decide (|x| < s.maxDev) := by
  unfold passing
  refine List.filter_congr fun x hx => ?_
  rw [hm, sub_zero, rnd_abs hδ (hxs x hx)]

omit hδ in
theorem map_nearestMod {q : Nat} (hq : 0 < q) : ∀ {xs : List ℚ} {v : List Nat}, List.Forall₂ (IsSample q) xs v →
    v = xs.map (nearestMod q)
  | _, _, .nil => rfl
  | _, _, .cons h t => by rw [List.map_cons, ← map_nearestMod hq t, (isSample_iff hq _ _).1 h]

/-- The samplers take the first accepted deviates. -/
theorem fieldVec_eq {w q : ℕ} (hw : w % 2 = 0) {M : Barrett} (hM : Fp.config w q = some M) {s : Sampler}
    (hm : s.mean = 0) (hs : Representable s.maxDev) (hr : s.maxDev ≤ q) (n : Nat) {xs : List ℚ}
    (hxs : ∀ x ∈ xs, x ∈ δ.support) : fieldVec w M s n xs =
      some (takeMap (fun x => decide (|x| < s.maxDev)) (nearestMod q) n xs) := by
  have hq : 0 < q := by
    have := (Barrett.new_cond (config_new hM)).1; omega
  obtain ⟨h1, h2⟩ := C53_field_vec w q hw M hM s hs (by rw [hm, abs_zero, zero_add]; exact hr) n xs
  rw [passing_eq hδ hm hxs] at h1 h2
  unfold takeMap
  split_ifs with h
  · exact h1 h
  · obtain ⟨v, e, hv⟩ := h2 (not_lt.1 h)
    rw [e, map_nearestMod hq hv]

theorem lwe_eq {w q : ℕ} (hq : q < 2 ^ w) {s : Sampler} (hm : s.mean = 0) (hs : Representable s.maxDev)
    (hr : s.maxDev ≤ q - 1 / 2) {xs : List ℚ} (hxs : ∀ x ∈ xs, x ∈ δ.support) :
    (lwe w q s xs).map (fun o => o.map fun r => [r.1]) =
      some (takeMap (fun x => decide (|x| < s.maxDev)) (nearestMod q) 1 xs) := by
  have hp := passing_eq hδ hm hxs
  rcases passing_split s xs with ⟨h1, h2⟩ | ⟨pre, x, post, h1, h2, h3, h4⟩
  · rw [(C53_lwe w q hq s hs (by rw [hm, abs_zero, zero_add]; exact hr) xs h2).1]
    unfold takeMap
    rw [← hp, h1]
    rfl
  · obtain ⟨-, e, h5, h6⟩ := (C53_lwe w q hq s hs (by rw [hm, abs_zero, zero_add]; exact hr) pre h2).2 x post h3
    have hq0 : 0 < q := by have := h6.1; omega
    unfold takeMap
    rw [← hp, h4, h1, h5, (isSample_iff hq0 x e).1 h6]
    simp

theorem acceptLaw (hτ : 0 < τ) {D : ℚ} (hD : 2 * τ < D) (q e : Nat) :
    (mean δ fun x => if decide (|x| < D) = true ∧ nearestMod q x = e then (1 : ℝ≥0∞) else 0) =
      (mean δ fun x => if decide (|x| < D) = true then 1 else 0) * gaussLaw q δ D e := by
  have hex := exists_accepted hδ hτ hD
  unfold gaussLaw
  rw [apply_eq_mean]
  simp only [decide_eq_true_eq]
  rw [mean_within hex]
  congr 1; funext x
  by_cases h : |x| < D <;> simp [h]

end

theorem map_some_apply {α : Type} [DecidableEq α] (p : PMF α) (a : α) : (p.map some) (some a) = p a := by
  rw [apply_eq_mean]
  have := apply_eq_mean p id a
  rw [PMF.map_id] at this
  rw [this]
  simp

/-- The law of `n` samples that a sampler takes by rejection from `k` deviates. -/
theorem rejection_law {δ : PMF ℚ} {τ : ℝ} (hδ : Deviates δ τ) (hτ : 0 < τ) {D : ℚ} (hD : 2 * τ < D) {q : Nat}
    (hq : 0 < q) (n k : Nat) (f : List ℚ → Option (Option (List Nat)))
    (hf : ∀ xs, (∀ x ∈ xs, x ∈ δ.support) → f xs =
      some (takeMap (fun x => decide (|x| < D)) (nearestMod q) n xs)) :
    (∀ o ∈ ((draws δ k).map f).support, o = some none ∨ ∃ v, o = some (some v) ∧ Reduced q n v) ∧
    (∀ v, ((draws δ k).map f) (some (some v)) =
      (1 - ((draws δ k).map f) (some none)) * draws (gaussLaw q δ D) n v) ∧
    ((draws δ k).map f) (some none) ≤ 2 ^ n * (3 / 4) ^ k := by
  have e : (draws δ k).map f =
      ((draws δ k).map (takeMap (fun x => decide (|x| < D)) (nearestMod q) n)).map some := by
    rw [PMF.map_comp]
    exact map_congr_support fun xs hxs => hf xs (mem_support_draws hxs).2
  have h1 := takeMap_law (k := k) (n := n) (acceptLaw hδ hτ hD q)
  have h2 := takeMap_none (δ := δ) (acc := fun x => decide (|x| < D)) (val := nearestMod q) k n
  have hsum := accept_add_reject (δ := δ) (D := D)
  simp only [decide_eq_true_eq] at h1 h2
  have hv := vecProb_add_failProb (q := 1) (by rw [one_mul]; exact hsum) k n
  rw [one_pow, one_mul, one_mul] at hv
  refine ⟨fun o ho => ?_, fun v => ?_, ?_⟩
  · rw [PMF.support_map] at ho
    obtain ⟨xs, hxs, rfl⟩ := ho
    rw [hf xs (mem_support_draws hxs).2]
    unfold takeMap
    split_ifs with h
    · exact Or.inl rfl
    · refine Or.inr ⟨_, rfl, ?_, ?_⟩
      · rw [List.length_map, List.length_take]; omega
      · intro x hx
        obtain ⟨y, -, rfl⟩ := List.mem_map.1 hx
        exact ((isSample_iff hq y _).2 rfl).1
  · rw [e, map_some_apply, map_some_apply, h1, h2]
    congr 1
    refine ENNReal.eq_sub_of_add_eq ?_ hv
    have : failProb (mean δ fun x => if |x| < D then 1 else 0) (mean δ fun x => if |x| < D then 0 else 1) n k ≤ 1 := by
      exact le_of_le_of_eq le_add_self hv
    exact ne_top_of_le_ne_top ENNReal.one_ne_top this
  · rw [e, map_some_apply, h2]
    exact failProb_le hsum (reject_le hδ hτ hD) k n

theorem noise_sampler {stdDev : ℚ} (h0 : 0 < stdDev) {s : Sampler} (hs : noise stdDev = some s) :
    s.mean = 0 ∧ Representable s.maxDev ∧ |s.maxDev - 6 * stdDev| ≤ 6 * stdDev / 2 ^ 53 ∧
      s.cbd = cbdEnable 0 stdDev := by
  obtain ⟨-, hnew, -, -⟩ := C53_new 0 stdDev 0
  obtain ⟨hm, -, h1, -⟩ := hnew s hs
  obtain ⟨h2, h3⟩ := h1 h0
  refine ⟨hm, h2, h3, ?_⟩
  unfold noise Gaussian.new at hs
  dsimp only at hs
  rw [if_neg (by linarith)] at hs
  rw [← Option.some.inj hs]

/-- C71: an error polynomial drawn with a standard deviation other than 3.2, from a generator that delivers `k` independent
deviates. No outcome is a panic. Given that the deviates suffice, the coefficients are independent and each is a deviate
below six standard deviations, rounded. The probability that the deviates do not suffice is at most `2^n (3/4)^k`. -/
theorem C71_polynomial (w q : ℕ) (hw : w % 2 = 0) (M : Barrett) (hM : Fp.config w q = some M) (stdDev : ℚ)
    (h0 : 0 < stdDev) (hne : stdDev ≠ rnd (16 / 5)) (s : Sampler) (hs : noise stdDev = some s) (hr : s.maxDev ≤ q)
    (δ : PMF ℚ) (τ : ℝ) (hδ : Deviates δ τ) (hτ : 0 < τ) (hD : 2 * τ < s.maxDev) (n k : Nat) (bytes : ℕ → ℕ) :
    let law := (draws δ k).map (polynomial w M s n bytes)
    (∀ o ∈ law.support, o = some none ∨ ∃ v, o = some (some v) ∧ Reduced q n v) ∧
    (∀ v, law (some (some v)) = (1 - law (some none)) * draws (gaussLaw q δ s.maxDev) n v) ∧
    law (some none) ≤ 2 ^ n * (3 / 4) ^ k := by
  obtain ⟨hm, hrep, -, hc⟩ := noise_sampler h0 hs
  have hcbd : s.cbd = false := by rw [hc]; unfold cbdEnable; simp [hne]
  refine rejection_law hδ hτ hD ?_ n k _ fun xs hxs => ?_
  · have := (Barrett.new_cond (config_new hM)).1; omega
  · unfold polynomial
    rw [if_neg (by rw [hcbd]; simp)]
    exact fieldVec_eq hδ hw hM hm hrep hr n hxs

/-- C71: the same for one error of an LWE ciphertext or of an LWE switching key, for every standard deviation. -/
theorem C71_lwe (w q : ℕ) (hq : q < 2 ^ w) (stdDev : ℚ) (h0 : 0 < stdDev) (s : Sampler) (hs : noise stdDev = some s)
    (hr : s.maxDev ≤ q - 1 / 2) (δ : PMF ℚ) (τ : ℝ) (hδ : Deviates δ τ) (hτ : 0 < τ) (hD : 2 * τ < s.maxDev) (k : Nat) :
    let law := (draws δ k).map fun xs => (lwe w q s xs).map fun o => o.map Prod.fst
    (∀ o ∈ law.support, o = some none ∨ ∃ e < q, o = some (some e)) ∧
    (∀ e, law (some (some e)) = (1 - law (some none)) * gaussLaw q δ s.maxDev e) ∧
    law (some none) ≤ 2 * (3 / 4) ^ k := by
  obtain ⟨hm, hrep, -, -⟩ := noise_sampler h0 hs
  have hq0 : 0 < q := by
    by_contra hc
    have : q = 0 := by omega
    subst this
    have h1 : (0 : ℝ) < s.maxDev := by linarith
    have h2 : (0 : ℚ) < s.maxDev := by exact_mod_cast h1
    push_cast at hr
    linarith
  have h := rejection_law hδ hτ hD hq0 1 k (fun xs => (lwe w q s xs).map fun o => o.map fun r => [r.1])
    fun xs hxs => lwe_eq hδ hq hm hrep hr hxs
  have hcomp : (draws δ k).map (fun xs => (lwe w q s xs).map fun o => o.map fun r => [r.1]) =
      ((draws δ k).map fun xs => (lwe w q s xs).map fun o => o.map Prod.fst).map
        fun o => o.map fun o => o.map fun e => [e] := by
    rw [PMF.map_comp]
    congr 1; funext xs
    simp only [Function.comp]
    cases lwe w q s xs with
    | none => rfl
    | some o => cases o <;> rfl
  rw [hcomp] at h
  intro law
  have hn : ∀ p : PMF (Option (Option Nat)),
      p.map (fun o => o.map fun o => o.map fun e => [e]) (some none) = p (some none) := by
    intro p
    have := apply_eq_mean p id (some none)
    rw [PMF.map_id] at this
    rw [apply_eq_mean, this]
    congr 1; funext o
    rcases o with _ | _ | e <;> simp
  have hv : ∀ (p : PMF (Option (Option Nat))) (e : Nat),
      p.map (fun o => o.map fun o => o.map fun e => [e]) (some (some [e])) = p (some (some e)) := by
    intro p e
    have := apply_eq_mean p id (some (some e))
    rw [PMF.map_id] at this
    rw [apply_eq_mean, this]
    congr 1; funext o
    rcases o with _ | _ | e <;> simp
  have hd : ∀ e, draws (gaussLaw q δ s.maxDev) 1 [e] = gaussLaw q δ s.maxDev e := by
    intro e
    have h1 := apply_eq_mean (draws (gaussLaw q δ s.maxDev) 1) id [e]
    have h2 := apply_eq_mean (gaussLaw q δ s.maxDev) id e
    rw [PMF.map_id] at h1 h2
    rw [h1, h2, mean_draws_succ]
    simp [mean_draws_zero]
  obtain ⟨h1, h2, h3⟩ := h
  rw [hn] at h3
  refine ⟨fun o ho => ?_, fun e => ?_, by rw [pow_one] at h3; exact h3⟩
  · have := h1 (o.map fun o => o.map fun e => [e]) (by rw [PMF.support_map]; exact ⟨o, ho, rfl⟩)
    rcases o with _ | _ | e
    · simp at this
    · exact Or.inl rfl
    · rcases this with h | ⟨v, h, hl, hr⟩
      · simp at h
      · simp only [Option.map_some, Option.some.injEq] at h
        subst h
        exact Or.inr ⟨e, hr e (by simp), rfl⟩
  · have := h2 [e]
    rw [hn, hv, hd] at this
    exact this

end Verif.Props
