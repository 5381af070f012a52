import Verif.Lemmas.Random
import Verif.Props.Sample
import Verif.Lemmas.NTT
import Mathlib.Analysis.SpecialFunctions.Trigonometric.Series

namespace Verif
open Spec Props Finset
open scoped ENNReal

namespace Spec
variable {α β : Type}

theorem mean_map (p : PMF α) (g : α → β) (f : β → ℝ≥0∞) : mean (p.map g) f = mean p fun a => f (g a) := by
  unfold PMF.map
  rw [mean_bind]
  simp only [Function.comp, mean_pure]

theorem mean_uniformByte (f : Nat → ℝ) (hf : ∀ x, 0 ≤ f x) :
    (mean uniformByte fun x => ENNReal.ofReal (f x)) =
      ENNReal.ofReal ((∑ x ∈ range (2 ^ 8), f x) / 2 ^ 8) := by
  unfold uniformByte
  rw [mean_map]
  unfold mean
  rw [tsum_fintype]
  simp only [PMF.uniformOfFintype_apply, Fintype.card_fin]
  rw [← mul_sum, ← ENNReal.ofReal_sum_of_nonneg fun i _ => hf _, Fin.sum_univ_eq_sum_range (fun x => f x),
    ENNReal.ofReal_div_of_pos (by positivity), ENNReal.div_eq_inv_mul]
  congr 2
  norm_num

/-- The sum over the `k`-bit numbers of the exponentials of the centred number of ones. -/
theorem sum_exp_ones (t : ℝ) : ∀ k : Nat, ∑ x ∈ range (2 ^ k),
    Real.exp (t * (Sample.countOnes k x - k / 2)) = 2 ^ k * Real.cosh (t / 2) ^ k
  | 0 => by simp [Sample.countOnes]
  | k + 1 => by
    have hsplit : ∀ (m : Nat) (g : Nat → ℝ), ∑ x ∈ range (2 * m), g x =
        ∑ y ∈ range m, (g (2 * y) + g (2 * y + 1)) := by
      intro m g
      induction m with
      | zero => rfl
      | succ m ih => rw [show 2 * (m + 1) = 2 * m + 1 + 1 by ring, sum_range_succ, sum_range_succ, ih,
          sum_range_succ, add_assoc]
    rw [pow_succ', hsplit]
    have e : ∀ y ∈ range (2 ^ k), Real.exp (t * (Sample.countOnes (k + 1) (2 * y) - (k + 1 : ℕ) / 2)) +
        Real.exp (t * (Sample.countOnes (k + 1) (2 * y + 1) - (k + 1 : ℕ) / 2)) =
        Real.exp (t * (Sample.countOnes k y - k / 2)) * (2 * Real.cosh (t / 2)) := by
      intro y _
      rw [Real.cosh_eq]
      have h0 : Sample.countOnes (k + 1) (2 * y) = Sample.countOnes k y := by
        simp [Sample.countOnes]
      have h1 : Sample.countOnes (k + 1) (2 * y + 1) = 1 + Sample.countOnes k y := by
        rw [Sample.countOnes, show (2 * y + 1) % 2 = 1 by omega, show (2 * y + 1) / 2 = y by omega]
      rw [h0, h1, mul_div_cancel₀ _ (by norm_num : (2 : ℝ) ≠ 0), mul_add, ← Real.exp_add, ← Real.exp_add,
        add_comm]
      congr 2
      · push_cast; ring
      · push_cast; ring
    rw [sum_congr rfl e, ← sum_mul, sum_exp_ones t k]
    ring

theorem sum_range_mul_mod (m b : Nat) (g : Nat → ℝ) :
    ∑ x ∈ range (m * b), g (x % b) = m * ∑ y ∈ range b, g y := by
  induction m with
  | zero => simp
  | succ m ih =>
    have e : ∀ y ∈ range b, g ((m * b + y) % b) = g y := fun y hy => by
      rw [Nat.mul_add_mod_self_right, Nat.mod_eq_of_lt (mem_range.1 hy)]
    rw [Nat.succ_mul, sum_range_add, ih, sum_congr rfl e]
    push_cast; ring

theorem cosh_pow_le (t : ℝ) (k : Nat) : Real.cosh (t / 2) ^ k ≤ Real.exp (k * t ^ 2 / 8) := by
  calc Real.cosh (t / 2) ^ k ≤ Real.exp ((t / 2) ^ 2 / 2) ^ k :=
        pow_le_pow_left₀ (Real.cosh_pos _).le (Real.cosh_le_exp_half_sq _) _
    _ = _ := by rw [← Real.exp_nat_mul]; congr 1; ring

/-- The ones of a whole byte. -/
theorem mean_ones (t : ℝ) : (mean uniformByte fun x => eexp (t * (Sample.countOnes 8 x - 4))) ≤
    eexp (8 * t ^ 2 / 8) := by
  unfold eexp
  rw [mean_uniformByte _ fun x => (Real.exp_nonneg _)]
  refine ENNReal.ofReal_le_ofReal ?_
  have h := sum_exp_ones t 8
  have h' := cosh_pow_le t 8
  norm_num at h h' ⊢
  rw [h]
  linarith

/-- The ones of the low five bits of a byte. -/
theorem mean_ones_masked (t : ℝ) :
    (mean uniformByte fun x => eexp (t * (Sample.countOnes 8 (x &&& 0x1F) - 5 / 2))) ≤
    eexp (5 * t ^ 2 / 8) := by
  unfold eexp
  rw [mean_uniformByte _ fun x => (Real.exp_nonneg _)]
  refine ENNReal.ofReal_le_ofReal ?_
  have e : ∀ x : Nat, Sample.countOnes 8 (x &&& 0x1F) = Sample.countOnes 5 (x % 2 ^ 5) := fun x => by
    rw [show (0x1F : Nat) = 2 ^ 5 - 1 by norm_num, Nat.and_two_pow_sub_one_eq_mod]
    exact countOnes_small 3 5 _ (Nat.mod_lt _ (by decide))
  simp only [e]
  rw [show (2 : Nat) ^ 8 = 8 * 2 ^ 5 by norm_num,
    sum_range_mul_mod 8 (2 ^ 5) fun y => Real.exp (t * (Sample.countOnes 5 y - 5 / 2))]
  have h := sum_exp_ones t 5
  have h' := cosh_pow_le t 5
  norm_num at h h' ⊢
  rw [h]
  linarith

theorem mem_support_uniformByte {x : Nat} (h : x ∈ uniformByte.support) : x < 2 ^ 8 := by
  unfold uniformByte at h
  rw [PMF.support_map] at h
  obtain ⟨y, -, rfl⟩ := h
  exact y.isLt

theorem draws_add (p : PMF α) (b : Nat) : ∀ a : Nat,
    draws p (a + b) = (draws p a).bind fun l => (draws p b).map fun l' => l ++ l'
  | 0 => by
    rw [Nat.zero_add, draws, PMF.pure_bind]
    simp only [List.nil_append]
    exact (PMF.map_id _).symm
  | a + 1 => by
    rw [show a + 1 + b = a + b + 1 by omega, draws, draws, PMF.bind_bind]
    congr 1
    funext x
    rw [draws_add p b a]
    simp only [PMF.bind_bind, PMF.pure_bind, PMF.map, Function.comp]
    rfl

theorem bind_congr_support {p : PMF α} {f g : α → PMF β} (h : ∀ a ∈ p.support, f a = g a) :
    p.bind f = p.bind g := by
  ext b
  rw [PMF.bind_apply, PMF.bind_apply]
  refine tsum_congr fun a => ?_
  by_cases ha : p a = 0
  · rw [ha, zero_mul, zero_mul]
  · rw [h a ((PMF.mem_support_iff _ _).2 ha)]

/-- The integer of least magnitude of a residue whose small representative is known. -/
theorem centred_eq {q e : Nat} {d : ℤ} (he : e < q) (hd : 2 * |d| < q) (h : (e : ZMod q) = (d : ZMod q)) :
    centred q e = d := by
  have h1 : (e : ℤ) ≡ d [ZMOD q] := by
    rw [← ZMod.intCast_eq_intCast_iff]
    push_cast
    exact h
  obtain ⟨k, hk⟩ := h1.dvd
  have hk' : d - e = q * k := hk
  have := abs_lt.1 (show |d| < q by have := abs_nonneg d; omega)
  unfold centred
  rcases abs_cases d with ⟨h2, h3⟩ | ⟨h2, h3⟩
  · have : k = 0 := by
      rcases lt_trichotomy k 0 with hk0 | hk0 | hk0
      · have : (q : ℤ) * k ≤ -q := by nlinarith
        omega
      · exact hk0
      · have : (q : ℤ) * k ≥ q := by nlinarith
        omega
    subst this
    rw [if_pos (by omega)]
    omega
  · have : k = -1 := by
      rcases lt_trichotomy k (-1) with hk0 | hk0 | hk0
      · have : (q : ℤ) * k ≤ -(2 * q) := by nlinarith
        omega
      · exact hk0
      · have : (q : ℤ) * k ≥ 0 := by nlinarith
        omega
    subst this
    rw [if_neg (by omega)]
    omega

end Spec
end Verif

namespace Verif.Props
open Spec Finset

/-- C59: on uniform bytes the centred binomial sampler of errors never panics and its errors are sub-Gaussian
with parameter `21/2`, the variance of the distribution. -/
theorem C59_cbd_law (w q : Nat) (hw : w % 2 = 0) (M : Barrett) (h : Fp.config w q = some M) (hq : 42 < q) :
    SubGaussian q (cbdLaw w M) (21 / 2) ∧
    ∀ l ∈ (draws uniformByte 6).support, (Sample.cbd w M (l.getD 0 0) (l.getD 1 0) (l.getD 2 0) (l.getD 3 0)
      (l.getD 4 0) (l.getD 5 0)).isSome := by
  have key : ∀ l ∈ (draws uniformByte 6).support, ∃ e, Sample.cbd w M (l.getD 0 0) (l.getD 1 0) (l.getD 2 0)
      (l.getD 3 0) (l.getD 4 0) (l.getD 5 0) = some e ∧ e < q ∧ centred q e =
        (Sample.countOnes 8 (l.getD 0 0) + Sample.countOnes 8 (l.getD 1 0) +
          Sample.countOnes 8 (l.getD 2 0 &&& 0x1F) : ℤ) -
        (Sample.countOnes 8 (l.getD 3 0) + Sample.countOnes 8 (l.getD 4 0) +
          Sample.countOnes 8 (l.getD 5 0 &&& 0x1F)) := by
    intro l hl
    obtain ⟨hlen, hmem⟩ := mem_support_draws hl
    have hlt : ∀ i, l.getD i 0 < 2 ^ 8 := fun i => by
      by_cases hi : i < l.length
      · rw [List.getD_eq_getElem _ _ hi]
        exact mem_support_uniformByte (hmem _ (List.getElem_mem hi))
      · rw [List.getD_eq_default _ _ (by omega)]; norm_num
    obtain ⟨e, he, hlt', d, hd, hd21, hed⟩ := C19_cbd_partial w q hw M h (by omega) _ _ (l.getD 2 0) _ _ (l.getD 5 0)
      (hlt 0) (hlt 1) (hlt 3) (hlt 4)
    refine ⟨e, he, hlt', ?_⟩
    rw [centred_eq hlt' (by omega) hed, hd]
    have hpop : ∀ u v z, u < 2 ^ 8 → v < 2 ^ 8 →
        Sample.countOnes 8 u + Sample.countOnes 8 v + Sample.countOnes 8 (z &&& 0x1F) =
        Sample.countOnes 21 (u + 2 ^ 8 * (v + 2 ^ 8 * (z % 32))) := by
      intro u v z hu hv
      rw [show (21 : Nat) = 8 + 13 by norm_num, countOnes_append 8 13 _ _ hu,
        show (13 : Nat) = 8 + 5 by norm_num, countOnes_append 8 5 _ _ hv]
      rw [show (0x1F : Nat) = 2 ^ 5 - 1 by norm_num, Nat.and_two_pow_sub_one_eq_mod]
      rw [show Sample.countOnes 8 (z % 2 ^ 5) = Sample.countOnes 5 (z % 2 ^ 5) from
        countOnes_small 3 5 _ (Nat.mod_lt _ (by decide)), show (2 : Nat) ^ 5 = 32 by norm_num]
      omega
    rw [← hpop _ _ _ (hlt 0) (hlt 1), ← hpop _ _ _ (hlt 3) (hlt 4)]
    push_cast
    ring
  refine ⟨⟨fun x hx => ?_, fun t => ?_⟩, fun l hl => ?_⟩
  · unfold cbdLaw at hx
    rw [PMF.support_map] at hx
    obtain ⟨l, hl, rfl⟩ := hx
    obtain ⟨e, he, hlt, -⟩ := key l hl
    dsimp only
    rw [he]
    exact hlt
  · change mean (cbdLaw w M) (fun x => eexp (t * centred q x)) ≤ eexp (21 / 2 * t ^ 2 / 2)
    unfold cbdLaw
    rw [mean_map]
    -- the six bytes contribute independently
    let F : Nat → Nat → ℝ := fun i x =>
      if i = 0 ∨ i = 1 then t * (Sample.countOnes 8 x - 4)
      else if i = 2 then t * (Sample.countOnes 8 (x &&& 0x1F) - 5 / 2)
      else if i = 3 ∨ i = 4 then -t * (Sample.countOnes 8 x - 4)
      else -t * (Sample.countOnes 8 (x &&& 0x1F) - 5 / 2)
    let c : Nat → ℝ := fun i => if i = 2 ∨ i = 5 then 5 * t ^ 2 / 8 else 8 * t ^ 2 / 8
    have hF := mean_eexp_draws uniformByte 0 6 F c (fun i hi => by
      have hsq : (-t) ^ 2 = t ^ 2 := by ring
      have h8 := mean_ones (-t)
      have h5 := mean_ones_masked (-t)
      rw [hsq] at h8 h5
      have : i = 0 ∨ i = 1 ∨ i = 2 ∨ i = 3 ∨ i = 4 ∨ i = 5 := by omega
      rcases this with rfl | rfl | rfl | rfl | rfl | rfl
      · simpa [F, c] using mean_ones t
      · simpa [F, c] using mean_ones t
      · simpa [F, c] using mean_ones_masked t
      · simpa [F, c] using h8
      · simpa [F, c] using h8
      · simpa [F, c] using h5)
    refine le_trans (mean_mono fun l hl => ?_) (hF.trans (eexp_mono ?_))
    · obtain ⟨e, he, -, hc⟩ := key l hl
      rw [he, Option.getD_some, hc]
      refine eexp_mono (le_of_eq ?_)
      simp only [sum_range_succ, range_zero, sum_empty, F]
      norm_num
      ring
    · simp only [sum_range_succ, range_zero, sum_empty, c]
      norm_num
      exact le_of_eq (by ring)
  · obtain ⟨e, he, -⟩ := key l hl
    rw [he]; rfl

theorem cbdVec_shift (w : Nat) (M : Barrett) (bytes : Nat → Nat) : ∀ k i : Nat,
    Sample.cbdVec w M bytes k (i + 1) = Sample.cbdVec w M (fun j => bytes (j + 6)) k i
  | 0, _ => rfl
  | k + 1, i => by
    simp only [Sample.cbdVec, cbdVec_shift w M bytes k (i + 1)]
    rfl

/-- C59: the error polynomials that the sampler takes from a stream of uniform bytes have independent
coefficients of that law. -/
theorem C59_cbd_polynomial (w q : Nat) (hw : w % 2 = 0) (M : Barrett) (h : Fp.config w q = some M)
    (hq : 42 < q) : ∀ n : Nat,
    ((draws uniformByte (6 * n)).map fun l => Sample.cbdVec w M (fun i => l.getD i 0) n 0) =
      (draws (cbdLaw w M) n).map some
  | 0 => by simp [draws, Sample.cbdVec, PMF.pure_map]
  | n + 1 => by
    have ih := C59_cbd_polynomial w q hw M h hq n
    rw [show 6 * (n + 1) = 6 + 6 * n by ring, draws_add, PMF.map_bind]
    conv_rhs => rw [draws, PMF.map_bind, cbdLaw, PMF.bind_map]
    refine bind_congr_support fun a ha => ?_
    obtain ⟨hlen, -⟩ := mem_support_draws ha
    obtain ⟨x, hx⟩ := Option.isSome_iff_exists.1 ((C59_cbd_law w q hw M h hq).2 a ha)
    rw [PMF.map_comp]
    have e : (fun l => Sample.cbdVec w M (fun i => l.getD i 0) (n + 1) 0) ∘ (fun l' => a ++ l') =
        Option.map (x :: ·) ∘ fun l => Sample.cbdVec w M (fun i => l.getD i 0) n 0 := by
      funext l
      have hl : ∀ i < 6, (a ++ l).getD i 0 = a.getD i 0 := fun i hi => by
        rw [List.getD_append _ _ _ _ (by omega)]
      have hr : (fun j => (a ++ l).getD (j + 6) 0) = fun j => l.getD j 0 := by
        funext j
        rw [List.getD_append_right _ _ _ _ (by omega), hlen, Nat.add_sub_cancel]
      simp only [Function.comp, Sample.cbdVec]
      rw [cbdVec_shift, hr, hl _ (by omega), hl _ (by omega), hl _ (by omega), hl _ (by omega),
        hl _ (by omega), hl _ (by omega), mbind hx]
      cases Sample.cbdVec w M (fun i => l.getD i 0) n 0 <;> rfl
    rw [e, ← PMF.map_comp, ih, PMF.map_comp]
    simp only [Function.comp, hx, Option.getD_some]
    unfold cbdLaw PMF.map
    rw [PMF.bind_bind]
    congr 1
    funext l
    rw [PMF.pure_bind]
    rfl

-- with the default modulus
example : SubGaussian 132120577 (cbdLaw 32 ⟨132120577, 2 ^ 64 / 132120577 % 2 ^ 32,
    2 ^ 64 / 132120577 / 2 ^ 32⟩) (21 / 2) :=
  (C59_cbd_law 32 132120577 rfl _ (by decide +kernel) (by norm_num)).1

end Verif.Props
