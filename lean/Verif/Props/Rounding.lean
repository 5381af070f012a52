import Verif.Lemmas.Uniform
import Verif.Props.ModSwitch
import Verif.Props.KeySwitchLWE
import Verif.SpecBootstrap

/-! # C66: the rounding of the modulus switch for a uniform mask -/

namespace Verif
open Spec Props Finset
open scoped ENNReal

namespace Spec

theorem nearest_centred {Q : Nat} (hQ : Q % 2 = 1) (x : Nat) :
    (Q : ℤ) * nearest x Q = x - centred Q (x % Q) := by
  obtain ⟨h1, h2⟩ := nearest_bounds (show 0 < Q by omega) x
  have h3 := Nat.div_add_mod x Q
  have h4 := Nat.mod_lt x (show 0 < Q by omega)
  rw [Nat.mul_assoc] at h1 h2
  generalize nearest x Q = m at *
  generalize x % Q = r at *
  generalize x / Q = k at *
  have hk : ∀ a b : Nat, Q * a < Q * b → a < b := fun a b h => lt_of_mul_lt_mul_left h (Nat.zero_le _)
  unfold centred
  split
  · next h =>
    have e1 : m < k + 1 := hk _ _ (by rw [Nat.mul_succ]; omega)
    have e2 : k < m + 1 := hk _ _ (by rw [Nat.mul_succ]; omega)
    obtain rfl : m = k := by omega
    push_cast [← h3]; ring
  · next h =>
    have e1 : m < k + 2 := hk _ _ (by rw [show k + 2 = k + 1 + 1 by rfl, Nat.mul_succ, Nat.mul_succ]; omega)
    have e2 : k < m := hk _ _ (by omega)
    obtain rfl : m = k + 1 := by omega
    push_cast [← h3]; ring

/-- `Q` times the rounding error of the mask. -/
def maskError (Q q' : Nat) (S : List ℤ) (a : List Nat) : ℤ :=
  (List.zipWith (fun (x : Nat) z => centred Q (x * q' % Q) * z) a S).sum

theorem mask_phase {Q q' : Nat} (hQ : Q % 2 = 1) : ∀ (S : List ℤ) (a : List Nat),
    ∃ σ : ℤ, σ ≡ (List.zipWith (fun (x : Nat) z => (x : ℤ) * z)
        (a.map fun v => nearest (v * q') Q % q') S).sum [ZMOD q'] ∧
      Q * σ = q' * (List.zipWith (fun (x : Nat) z => (x : ℤ) * z) a S).sum - maskError Q q' S a
  | [], a => ⟨0, by simp, by simp [maskError]⟩
  | z :: S, [] => ⟨0, by simp, by simp [maskError]⟩
  | z :: S, v :: a => by
    obtain ⟨σ, h1, h2⟩ := mask_phase hQ S a
    have h3 := nearest_centred hQ (v * q')
    refine ⟨nearest (v * q') Q * z + σ, ?_, ?_⟩
    · simp only [List.map_cons, List.zipWith_cons_cons, List.sum_cons]
      refine Int.ModEq.add (Int.ModEq.mul_right _ ?_) h1
      push_cast
      exact (Int.mod_modEq _ _).symm
    · unfold maskError at h2 ⊢
      simp only [List.zipWith_cons_cons, List.sum_cons]
      push_cast at h3 ⊢
      linear_combination h2 + z * h3

theorem roundedBy_of {Q q' : Nat} (hQ : Q % 2 = 1) (S : List ℤ) (x : LWE) (T : Nat)
    (h : |maskError Q q' S x.a| ≤ Q * T) : RoundedBy Q q' S (1 + 2 * T) x
      ⟨x.a.map fun v => nearest (v * q') Q % q', nearest (x.b * q') Q % q'⟩ := by
  obtain ⟨σ, h1, h2⟩ := mask_phase (q' := q') hQ S x.a
  obtain ⟨u, h3, h4⟩ := switch_error (q' := q') (show 0 < Q by omega) x.b
  refine ⟨u - σ, h3.sub h1, ?_⟩
  unfold intPhase
  generalize (List.zipWith (fun (x : Nat) z => (x : ℤ) * z) x.a S).sum = σ0 at *
  have e : 2 * ((Q : ℤ) * (u - σ) - q' * (x.b - σ0)) =
      2 * (Q * u - q' * x.b) + 2 * maskError Q q' S x.a := by linear_combination -2 * h2
  rw [e]
  refine (abs_add_le _ _).trans ?_
  rw [abs_mul 2 (maskError Q q' S x.a), abs_two]
  linarith

theorem maskError_eq (Q q' : Nat) : ∀ (S : List ℤ) (a : List Nat), maskError Q q' S a =
    ∑ i ∈ range S.length, S.getD i 0 * centred Q (a.getD i 0 * q' % Q)
  | [], a => by simp [maskError]
  | z :: S, [] => by simp [maskError, centred]
  | z :: S, v :: a => by
    have ih := maskError_eq Q q' S a
    unfold maskError at ih ⊢
    rw [List.zipWith_cons_cons, List.sum_cons, List.length_cons, sum_range_succ', ih]
    simp [mul_comm, add_comm]

theorem sum_sq (S : List ℤ) : (((S.map fun z => z ^ 2).sum : ℤ) : ℝ) =
    ∑ i ∈ range S.length, ((S.getD i 0 : ℤ) : ℝ) ^ 2 := by
  induction S with
  | nil => simp
  | cons z S ih =>
    rw [List.map_cons, List.sum_cons, List.length_cons, sum_range_succ', Int.cast_add, ih]
    simp [add_comm]

/-- The rounding error of a uniform mask. -/
theorem maskError_mgf {Q q' : Nat} [NeZero Q] (hQ : Q % 2 = 1) (hc : Nat.Coprime q' Q) (S : List ℤ) (t : ℝ) :
    (mean (draws (uniformBelow Q) S.length) fun l => eexp (t * maskError Q q' S l)) ≤
      eexp ((Q : ℝ) ^ 2 / 12 * ((S.map fun z => z ^ 2).sum : ℤ) * t ^ 2 / 2) := by
  have hmul : (uniformBelow Q).map (fun x => x * q' % Q) = uniformBelow Q := by
    have hu : IsUnit (q' : ZMod Q) := (ZMod.isUnit_iff_coprime q' Q).2 hc
    refine uniformBelow_cast _ (fun z => z * q') hu.mul_left_injective (fun x _ => Nat.mod_lt _ (by omega))
      fun x _ => ?_
    rw [ZMod.natCast_mod]; push_cast; rfl
  have h := mean_eexp_draws (uniformBelow Q) 0 S.length
    (fun i x => t * S.getD i 0 * centred Q (x * q' % Q))
    (fun i => (Q : ℝ) ^ 2 / 12 * (t * S.getD i 0) ^ 2 / 2) (fun i _ => by
      have := (uniform_subGaussian hQ).mgf (t * S.getD i 0)
      rw [← hmul] at this
      change mean _ _ ≤ _ at this
      rwa [mean_map] at this)
  refine le_trans (le_of_eq ?_) (h.trans (eexp_mono (le_of_eq ?_)))
  · congr 1
    funext l
    rw [maskError_eq, Int.cast_sum, mul_sum]
    congr 1
    refine sum_congr rfl fun i _ => ?_
    push_cast; ring
  · rw [sum_sq, mul_sum, sum_mul, sum_div]
    refine sum_congr rfl fun i _ => ?_
    ring

theorem gaussTail_scale {Q : ℝ} (hQ : 0 < Q) (V T : ℝ) : gaussTail (Q ^ 2 * V) (Q * T) = gaussTail V T := by
  unfold gaussTail
  congr 4
  rw [mul_pow, ← mul_assoc, mul_comm 2 (Q ^ 2), mul_assoc, mul_div_mul_left _ _ (by positivity)]

theorem maskError_tail {Q q' : Nat} [NeZero Q] (hQ : Q % 2 = 1) (hc : Nat.Coprime q' Q) (S : List ℤ) (V : ℝ)
    (hV : ((S.map fun z => z ^ 2).sum : ℤ) ≤ 12 * V) (T : Nat) :
    (draws (uniformBelow Q) S.length).toOuterMeasure {l | |maskError Q q' S l| ≤ Q * T}ᶜ ≤ gaussTail V T := by
  have hpos : (0 : ℝ) < Q := by exact_mod_cast (show 0 < Q by omega)
  have hn : (0 : ℝ) ≤ ((S.map fun z => z ^ 2).sum : ℤ) := by
    rw [sum_sq]; exact sum_nonneg fun i _ => sq_nonneg _
  have := two_sided (draws (uniformBelow Q) S.length) (fun l => ((maskError Q q' S l : ℤ) : ℝ))
    (V := (Q : ℝ) ^ 2 * V) (T := Q * T) (mul_nonneg (by positivity) (by linarith))
    (fun t => (maskError_mgf hQ hc S t).trans (eexp_mono (by
      have := mul_le_mul_of_nonneg_left hV (show (0 : ℝ) ≤ Q ^ 2 * t ^ 2 by positivity)
      linarith))) (by positivity)
  rw [gaussTail_scale hpos] at this
  refine le_trans (prob_mono ?_) this
  intro l _ h
  simp only [Set.mem_compl_iff, Set.mem_ofPred_eq, not_le] at h ⊢
  rw [← Int.cast_abs]
  exact_mod_cast h

end Spec
end Verif

namespace Verif.Props
open Spec

/-- C66: switching a ciphertext with a uniform mask from `Q` to `q'` scales the phase under `S` up to
`1/2 + T`, except with probability `2 exp(-T² / 2V)`, where `V` is at least `Σ s_i² / 12`. The body `b l` may depend on the mask `l`. -/
theorem C66_rounding (w Q q' : Nat) [NeZero Q] (hQ : Q % 2 = 1) (hc : Nat.Coprime q' Q) (hQ53 : Q < 2 ^ 53)
    (hq0 : 0 < q') (hw : q' < 2 ^ w) (hm : 2 * ((Q - 1) * q') < 2 ^ 53) (S : List ℤ) (b : List Nat → Nat)
    (hb : ∀ l, b l < Q) (V : ℝ) (hV : ((S.map fun z => z ^ 2).sum : ℤ) ≤ 12 * V) (T : Nat) :
    (draws (uniformBelow Q) S.length).toOuterMeasure
      {l | ∃ y, ModSwitch.lwe w Q q' ⟨l, b l⟩ = some y ∧ RoundedBy Q q' S (1 + 2 * T) ⟨l, b l⟩ y}ᶜ ≤
    gaussTail V T := by
  refine le_trans (prob_mono ?_) (maskError_tail hQ hc S V hV T)
  intro l hl hbad hgood
  refine hbad ?_
  obtain ⟨h1, h2⟩ := mem_support_draws hl
  obtain ⟨out, eo, -, rfl, -⟩ := C41_lwe w Q q' hQ53 hq0 hw hm S.length ⟨l, b l⟩
    ⟨⟨h1, fun x hx => mem_support_uniformBelow (h2 x hx)⟩, hb l⟩
  exact ⟨_, eo, roundedBy_of hQ S ⟨l, b l⟩ T hgood⟩

-- with the modulus 2^10, Q = 132120577 and a ternary key of length 1024 the rounding error is at most 100.5, except
-- with probability 2 exp(-58); the worst case is 512.5
example (S : List ℤ) (hl : S.length = 1024) (hS : ∀ z ∈ S, z ^ 2 ≤ 1) :
    (draws (uniformBelow 132120577) 1024).toOuterMeasure {l | ∃ y, ModSwitch.lwe 16 132120577 1024 ⟨l, 5⟩ = some y ∧
      RoundedBy 132120577 1024 S 201 ⟨l, 5⟩ y}ᶜ ≤ ENNReal.ofReal (2 * Real.exp (-58)) := by
  have hsum : (((S.map fun z => z ^ 2).sum : ℤ) : ℝ) ≤ 12 * (1024 / 12) := by
    have := List.sum_le_card_nsmul (S.map fun z => z ^ 2) 1 (by simpa using hS)
    rw [List.length_map, hl] at this
    rw [show (12 * (1024 / 12) : ℝ) = ((1024 : ℤ) : ℝ) by norm_num]
    exact_mod_cast this
  have := C66_rounding 16 132120577 1024 (by decide) (by decide +kernel) (by decide) (by decide) (by decide)
    (by decide) S (fun _ => 5) (fun _ => by decide) (1024 / 12) hsum 100
  rw [hl] at this
  refine this.trans ?_
  unfold gaussTail
  refine ENNReal.ofReal_le_ofReal (mul_le_mul_of_nonneg_left (Real.exp_le_exp.2 ?_) (by norm_num))
  norm_num

end Verif.Props
