import Verif.Lemmas.Uniform
import Verif.Props.Secrecy
import Mathlib.Logic.Equiv.Fintype

/-! # Values of a random permutation against independent uniform values -/

namespace Verif.Props
open Spec Finset
open scoped ENNReal

variable {X : Type} [Fintype X] [DecidableEq X] [Nonempty X]

omit [DecidableEq X] in
theorem uniform_list : ∀ n : Nat, (PMF.uniformOfFintype (Fin n → X)).map (fun a => List.ofFn a) =
    draws (PMF.uniformOfFintype X) n
  | 0 => by
    rw [draws]
    have : (fun a : Fin 0 → X => List.ofFn a) = Function.const _ [] := by
      funext a; simp
    rw [this, PMF.map_const]
  | n + 1 => by
    have e2 := uniform_equiv (Fin.consEquiv fun _ : Fin (n + 1) => X)
    rw [← e2, ← uniform_pair, PMF.map_comp, draws]
    unfold pair
    rw [PMF.map_bind]
    congr 1
    funext x
    rw [PMF.map_bind]
    rw [← uniform_list n, PMF.bind_map]
    congr 1
    funext y
    rw [PMF.pure_map]
    simp [Fin.consEquiv, List.ofFn_succ]

omit [Nonempty X] in
/-- Two injective families are related by a permutation. -/
theorem exists_perm {n : Nat} {f g : Fin n → X} (hf : Function.Injective f) (hg : Function.Injective g) :
    ∃ σ : Equiv.Perm X, ∀ i, σ (f i) = g i := by
  let e : {x // x ∈ Set.range f} ≃ {x // x ∈ Set.range g} := (Equiv.ofInjective f hf).symm.trans (Equiv.ofInjective g hg)
  refine ⟨e.extendSubtype, fun i => ?_⟩
  rw [Equiv.extendSubtype_apply_of_mem e _ ⟨i, rfl⟩]
  show ((Equiv.ofInjective g hg) ((Equiv.ofInjective f hf).symm ⟨f i, i, rfl⟩)).1 = g i
  rw [Equiv.ofInjective_symm_apply hf]
  rfl

omit [Nonempty X] in
/-- All injective families are equally likely as values of a uniform permutation. -/
theorem perm_values {n : Nat} (x f g : Fin n → X)
    (hf : Function.Injective f) (hg : Function.Injective g) :
    ((PMF.uniformOfFintype (Equiv.Perm X)).map fun π i => π (x i)) f =
    ((PMF.uniformOfFintype (Equiv.Perm X)).map fun π i => π (x i)) g := by
  obtain ⟨σ, hσ⟩ := exists_perm hf hg
  conv_rhs => rw [← uniform_equiv (Equiv.mulLeft σ), PMF.map_comp]
  rw [PMF.map_apply, PMF.map_apply]
  refine tsum_congr fun π => ?_
  have : (f = fun i => π (x i)) ↔ (g = fun i => (Equiv.mulLeft σ π) (x i)) := by
    simp only [funext_iff, ← hσ, Equiv.coe_mulLeft, Equiv.Perm.coe_mul, Function.comp_apply, EmbeddingLike.apply_eq_iff_eq]
  by_cases h : f = fun i => π (x i)
  · rw [if_pos h]; exact (if_pos (this.1 h)).symm
  · rw [if_neg h]; exact (if_neg fun h' => h (this.2 h')).symm

/-- An injective family is at least as likely as for independent uniform values. -/
theorem perm_ge {n : Nat} (x : Fin n → X) (hx : Function.Injective x) (f : Fin n → X)
    (hf : Function.Injective f) :
    PMF.uniformOfFintype (Fin n → X) f ≤ ((PMF.uniformOfFintype (Equiv.Perm X)).map fun π i => π (x i)) f := by
  classical
  set p := (PMF.uniformOfFintype (Equiv.Perm X)).map fun π i => π (x i) with hp
  have h0 : ∀ g, p g ≤ p f := fun g => by
    by_cases hg : Function.Injective g
    · exact (perm_values x g f hg hf).le
    · refine le_trans (le_of_eq ?_) zero_le
      rw [PMF.apply_eq_zero_iff, hp, PMF.mem_support_map_iff]
      rintro ⟨π, -, rfl⟩
      exact hg (π.injective.comp hx)
  have h1 := p.tsum_coe
  rw [tsum_fintype] at h1
  have h2 : 1 ≤ (Fintype.card (Fin n → X) : ℝ≥0∞) * p f := by
    rw [← h1]
    refine (Finset.sum_le_sum fun g _ => h0 g).trans (le_of_eq ?_)
    rw [Finset.sum_const, Finset.card_univ, nsmul_eq_mul]
  rw [PMF.uniformOfFintype_apply]
  rw [ENNReal.inv_le_iff_le_mul, mul_comm]
  · rwa [mul_comm]
  · simp
  · simp

/-- The lists with a collision. -/
def collisions (X : Type) : Set (List X) := {l | ¬ l.Nodup}

/-- The birthday bound. -/
theorem birthday : ∀ n : Nat, (draws (PMF.uniformOfFintype X) n).toOuterMeasure (collisions X) ≤
    ((n * (n - 1) / 2 : Nat) : ℝ≥0∞) / Fintype.card X
  | 0 => by
    rw [draws, PMF.toOuterMeasure_pure_apply]
    simp [collisions]
  | n + 1 => by
    classical
    have ih := birthday n
    rw [prob_eq] at ih ⊢
    rw [draws, mean_bind]
    have h : ∀ x : X, (mean ((draws (PMF.uniformOfFintype X) n).bind fun l => PMF.pure (x :: l))
        fun l => if l ∈ collisions X then (1 : ℝ≥0∞) else 0) ≤
        (mean (draws (PMF.uniformOfFintype X) n) fun l => if x ∈ l then (1 : ℝ≥0∞) else 0) +
        mean (draws (PMF.uniformOfFintype X) n) fun l => if l ∈ collisions X then (1 : ℝ≥0∞) else 0 := by
      intro x
      rw [mean_bind, ← mean_add]
      refine mean_mono fun l _ => ?_
      rw [mean_pure]
      simp only [collisions, Set.mem_ofPred_eq, List.nodup_cons]
      split_ifs <;> simp_all
    refine (mean_mono fun x _ => h x).trans ?_
    rw [mean_add, mean_const, mean_comm]
    have h2 : ∀ l ∈ (draws (PMF.uniformOfFintype X) n).support,
        (mean (PMF.uniformOfFintype X) fun x => if x ∈ l then (1 : ℝ≥0∞) else 0) ≤ (n : ℝ≥0∞) / Fintype.card X := by
      intro l hl
      unfold mean
      simp only [PMF.uniformOfFintype_apply, mul_ite, mul_one, mul_zero]
      rw [tsum_fintype, ← Finset.sum_filter, Finset.sum_const, nsmul_eq_mul, div_eq_mul_inv]
      gcongr
      have : (univ.filter (· ∈ l)) ⊆ l.toFinset := fun x hx => by simpa using hx
      exact (Finset.card_le_card this).trans ((List.toFinset_card_le l).trans (mem_support_draws hl).1.le)
    refine (add_le_add ((mean_mono h2).trans (mean_const _ _).le) ih).trans ?_
    rw [← ENNReal.add_div, ← Nat.cast_add]
    gcongr
    rw [show (n + 1) * (n + 1 - 1) = n * (n - 1) + 2 * n from by cases n <;> simp; ring]
    omega

/-- The values of a uniform permutation at different places, and as many independent uniform values: the probabilities of an
event differ by at most the probability of a collision. -/
theorem switching (xs : List X) (hx : xs.Nodup) (D : Set (List X)) :
    ((PMF.uniformOfFintype (Equiv.Perm X)).map fun π : Equiv.Perm X => xs.map π).toOuterMeasure D ≤
      (draws (PMF.uniformOfFintype X) xs.length).toOuterMeasure D +
        ((xs.length * (xs.length - 1) / 2 : Nat) : ℝ≥0∞) / Fintype.card X ∧
    (draws (PMF.uniformOfFintype X) xs.length).toOuterMeasure D ≤
      ((PMF.uniformOfFintype (Equiv.Perm X)).map fun π : Equiv.Perm X => xs.map π).toOuterMeasure D +
        ((xs.length * (xs.length - 1) / 2 : Nat) : ℝ≥0∞) / Fintype.card X := by
  classical
  set u := draws (PMF.uniformOfFintype X) xs.length with hu
  set p := (PMF.uniformOfFintype (Equiv.Perm X)).map fun π : Equiv.Perm X => xs.map π with hp
  set ε := ((xs.length * (xs.length - 1) / 2 : Nat) : ℝ≥0∞) / Fintype.card X with hε
  have hinj : Function.Injective fun i : Fin xs.length => xs.get i := List.nodup_iff_injective_get.1 hx
  have hp' : p = ((PMF.uniformOfFintype (Equiv.Perm X)).map fun π (i : Fin xs.length) => π (xs.get i)).map
      fun a => List.ofFn a := by
    rw [PMF.map_comp, hp]
    congr 1
    funext π
    simp only [Function.comp_apply, List.get_eq_getElem]
    conv_lhs => rw [← List.ofFn_getElem (xs := xs), List.map_ofFn]
    rfl
  have hge : ∀ D : Set (List X), u.toOuterMeasure D ≤ p.toOuterMeasure D + ε := fun D => by
    have h1 : u.toOuterMeasure D ≤ u.toOuterMeasure (D ∩ {l | l.Nodup}) + u.toOuterMeasure (collisions X) := by
      refine le_trans (u.toOuterMeasure.mono ?_) (MeasureTheory.measure_union_le _ _)
      intro l hl
      by_cases h : l.Nodup
      · exact .inl ⟨hl, h⟩
      · exact .inr h
    refine h1.trans (add_le_add ?_ (birthday _))
    refine le_trans ?_ (p.toOuterMeasure.mono (Set.inter_subset_left (t := {l | l.Nodup})))
    change _ ≤ p.toOuterMeasure (D ∩ {l | l.Nodup})
    rw [hp', hu, ← uniform_list, PMF.toOuterMeasure_map_apply, PMF.toOuterMeasure_map_apply,
      PMF.toOuterMeasure_apply, PMF.toOuterMeasure_apply]
    refine ENNReal.tsum_le_tsum fun f => ?_
    rw [Set.indicator_apply, Set.indicator_apply]
    split_ifs with hf
    · exact perm_ge _ hinj f (List.nodup_ofFn.1 hf.2)
    · exact le_rfl
  refine ⟨?_, hge D⟩
  have hc : ∀ r : PMF (List X), r.toOuterMeasure D + r.toOuterMeasure Dᶜ = 1 := fun r => by
    rw [prob_eq, prob_eq, ← mean_add]
    refine Eq.trans ?_ (mean_const r 1)
    congr 1
    funext l
    by_cases h : l ∈ D <;> simp [h]
  have h := hge Dᶜ
  have hne : p.toOuterMeasure Dᶜ ≠ ⊤ := ne_top_of_le_ne_top ENNReal.one_ne_top (by rw [← hc p]; exact le_add_self)
  have h3 : p.toOuterMeasure D + p.toOuterMeasure Dᶜ ≤ u.toOuterMeasure D + ε + p.toOuterMeasure Dᶜ := by
    rw [hc p, ← hc u, add_assoc]
    refine add_le_add le_rfl ?_
    rw [add_comm]; exact h
  exact (ENNReal.add_le_add_iff_right hne).1 h3

end Verif.Props
