import Mathlib.RingTheory.Polynomial.Resultant.Basic
import Mathlib.RingTheory.Polynomial.Cyclotomic.Roots
import Mathlib.RingTheory.Polynomial.Cyclotomic.Basic
import Mathlib.Analysis.Complex.Polynomial.Basic
import Mathlib.Data.ZMod.Basic

/-! # Small integers with a small relation between powers of a root of unity -/

namespace Verif
open Polynomial Finset

/-- `X^s + 1` is irreducible for a power `s` of two. -/
theorem irreducible_pow_add_one (t : Nat) : Irreducible (X ^ 2 ^ t + 1 : ℚ[X]) := by
  have h : cyclotomic (2 ^ (t + 1)) ℚ = X ^ 2 ^ t + 1 := by
    rw [cyclotomic_prime_pow_eq_geom_sum Nat.prime_two]
    simp [sum_range_succ, add_comm]
  rw [← h]
  exact cyclotomic.irreducible_rat (by positivity)

theorem small_relation {q : Nat} [Fact q.Prime] (t b : Nat) (hq : (2 ^ t * b) ^ 2 ^ t < q) (z : ZMod q)
    (hz : z ^ 2 ^ t = -1) (c : Nat → ℤ) (hc : ∀ i < 2 ^ t, |c i| ≤ b)
    (h : ∑ i ∈ range (2 ^ t), (c i : ZMod q) * z ^ i = 0) : ∀ i < 2 ^ t, c i = 0 := by
  obtain ⟨s, hs⟩ : ∃ s, s = 2 ^ t := ⟨_, rfl⟩
  have hs0 : 0 < s := by rw [hs]; positivity
  obtain ⟨f, hf⟩ : ∃ f : ℤ[X], f = ∑ i ∈ range s, C (c i) * X ^ i := ⟨_, rfl⟩
  obtain ⟨g, hg⟩ : ∃ g : ℤ[X], g = X ^ s + C 1 := ⟨_, rfl⟩
  have hcoef : ∀ i < s, f.coeff i = c i := fun i hi => by
    rw [hf, finsetSum_coeff]
    simp [coeff_X_pow, hi]
  suffices h0 : f = 0 by
    intro i hi
    rw [← hcoef i (hs ▸ hi), h0, coeff_zero]
  have hfd : f.degree < s := by
    rw [hf]
    refine (degree_sum_le _ _).trans_lt ((Finset.sup_lt_iff (by exact_mod_cast WithBot.bot_lt_coe s)).2 fun i hi => ?_)
    exact (degree_C_mul_X_pow_le _ _).trans_lt (by exact_mod_cast mem_range.1 hi)
  have hgm : g.Monic := hg ▸ monic_X_pow_add_C 1 (by omega)
  have hgd : g.natDegree = s := hg ▸ natDegree_X_pow_add_C
  obtain ⟨res, hres⟩ : ∃ r, r = resultant g f g.natDegree f.natDegree := ⟨_, rfl⟩
  -- `q` divides the resultant
  have hdvd : (q : ℤ) ∣ res := by
    obtain ⟨p, p', -, -, e⟩ := exists_mul_add_mul_eq_C_resultant g f le_rfl le_rfl (by rw [hgd]; left; omega)
    have := congrArg (eval₂ (Int.castRingHom (ZMod q)) z) e
    rw [← hres, eval₂_add, eval₂_mul, eval₂_mul, eval₂_C, hg, hf, eval₂_add, eval₂_pow, eval₂_X, eval₂_C,
      eval₂_finsetSum] at this
    simp only [eval₂_mul, eval₂_C, eval₂_pow, eval₂_X] at this
    simp only [eq_intCast] at this
    rw [hs, hz, h] at this
    simp only [Int.cast_one, neg_add_cancel, zero_mul, add_zero] at this
    exact (ZMod.intCast_zmod_eq_zero_iff_dvd _ _).1 this.symm
  -- the resultant is small
  have hsmall : |res| < q := by
    have hm : (res : ℂ) = ((g.map (Int.castRingHom ℂ)).roots.map (f.map (Int.castRingHom ℂ)).eval).prod := by
      have e := resultant_eq_prod_eval (g.map (Int.castRingHom ℂ)) (f.map (Int.castRingHom ℂ)) f.natDegree
        natDegree_map_le (IsAlgClosed.splits _)
      rw [hgm.natDegree_map, resultant_map_map, ← hres, (hgm.map _).leadingCoeff, one_pow, one_mul] at e
      exact e
    have hcard : (g.map (Int.castRingHom ℂ)).roots.card = s := by
      rw [← (IsAlgClosed.splits _).natDegree_eq_card_roots, hgm.natDegree_map, hgd]
    have hroot : ∀ α ∈ (g.map (Int.castRingHom ℂ)).roots, ‖(f.map (Int.castRingHom ℂ)).eval α‖ ≤ s * b := by
      intro α hα
      have h1 := (mem_roots'.1 hα).2
      rw [IsRoot, hg, Polynomial.map_add, Polynomial.map_pow, map_X, map_C, eval_add, eval_pow, eval_X, eval_C] at h1
      have h2 : ‖α‖ = 1 := by
        have : ‖α‖ ^ s = 1 := by
          rw [← norm_pow, eq_neg_of_add_eq_zero_left h1]; simp
        exact (pow_eq_one_iff_of_nonneg (norm_nonneg _) (by omega)).1 this
      rw [hf, Polynomial.map_sum, eval_finsetSum]
      refine (norm_sum_le _ _).trans ?_
      have : ∀ i ∈ range s, ‖((C (c i) * X ^ i).map (Int.castRingHom ℂ)).eval α‖ ≤ b := by
        intro i hi
        simp only [Polynomial.map_mul, map_C, Polynomial.map_pow, map_X, eval_mul, eval_C, eval_pow, eval_X,
          norm_mul, norm_pow, h2, one_pow, mul_one]
        rw [eq_intCast, Complex.norm_intCast]
        exact_mod_cast hc i (hs ▸ mem_range.1 hi)
      refine (sum_le_sum this).trans ?_
      simp
    have hprod : ∀ m : Multiset ℂ, (∀ α ∈ m, ‖(f.map (Int.castRingHom ℂ)).eval α‖ ≤ s * b) →
        ‖(m.map (f.map (Int.castRingHom ℂ)).eval).prod‖ ≤ ((s : ℝ) * b) ^ m.card := by
      intro m
      induction m using Multiset.induction with
      | empty => simp
      | cons α m ih =>
        intro hm
        rw [Multiset.map_cons, Multiset.prod_cons, norm_mul, Multiset.card_cons, pow_succ, mul_comm]
        exact mul_le_mul (ih fun β hβ => hm β (Multiset.mem_cons_of_mem hβ)) (hm α (Multiset.mem_cons_self _ _))
          (norm_nonneg _) (by positivity)
    have := hprod _ hroot
    rw [hcard, ← hm, Complex.norm_intCast] at this
    have h2 : (|res| : ℤ) ≤ ((s * b) ^ s : Nat) := by
      have : ((|res| : ℤ) : ℝ) ≤ ((s * b) ^ s : Nat) := by push_cast; exact this
      exact_mod_cast this
    rw [hs] at h2
    exact h2.trans_lt (by exact_mod_cast hq)
  have hzero : res = 0 := Int.eq_zero_of_abs_lt_dvd hdvd hsmall
  -- so `f` and `X^s + 1` have a common factor
  by_contra hne
  have hQ : resultant (g.map (Int.castRingHom ℚ)) (f.map (Int.castRingHom ℚ)) = 0 := by
    rw [hgm.natDegree_map, natDegree_map_eq_of_injective (RingHom.injective_int _), resultant_map_map, ← hres, hzero]
    simp
  have hirr : Irreducible (g.map (Int.castRingHom ℚ)) := by
    rw [hg, hs]
    simpa using irreducible_pow_add_one t
  have hd : g.map (Int.castRingHom ℚ) ∣ f.map (Int.castRingHom ℚ) := by
    by_contra hd
    exact (resultant_eq_zero_iff.1 hQ).2 (hirr.coprime_iff_not_dvd.2 hd)
  have h0 := eq_zero_of_dvd_of_degree_lt hd (by
    rw [hgm.degree_map, degree_eq_natDegree hgm.ne_zero, hgd]
    exact degree_map_le.trans_lt hfd)
  exact hne ((Polynomial.map_eq_zero_iff (RingHom.injective_int _)).1 h0)

-- four powers, digits below 8 and the default modulus
example [Fact (Nat.Prime 132120577)] (z : ZMod 132120577) (hz : z ^ 4 = -1) (c : Nat → ℤ) (hc : ∀ i < 4, |c i| ≤ 7)
    (h : ∑ i ∈ range 4, (c i : ZMod 132120577) * z ^ i = 0) : ∀ i < 4, c i = 0 :=
  small_relation 2 7 (by norm_num) z hz c hc h

end Verif
