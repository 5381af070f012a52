import Verif.SpecRing
import Verif.Lemmas.Poly
import Mathlib.RingTheory.AdjoinRoot
import Mathlib.Algebra.Ring.InjSurj

/-! # `Rq R n` is a commutative ring -/

namespace Verif.Spec.Rq
open Finset Polynomial

variable {R : Type} {n : Nat}

@[simp] theorem zero_co [Zero R] (i : Fin n) : (0 : Rq R n).co i = 0 := rfl
@[simp] theorem add_co [Add R] (p r : Rq R n) (i : Fin n) : (p + r).co i = p.co i + r.co i := rfl
@[simp] theorem sub_co [Sub R] (p r : Rq R n) (i : Fin n) : (p - r).co i = p.co i - r.co i := rfl
@[simp] theorem neg_co [Neg R] (p : Rq R n) (i : Fin n) : (-p).co i = -p.co i := rfl

instance [AddMonoid R] : SMul ℕ (Rq R n) := ⟨fun k p => ⟨fun i => k • p.co i⟩⟩
instance [AddGroup R] : SMul ℤ (Rq R n) := ⟨fun k p => ⟨fun i => k • p.co i⟩⟩
instance [CommRing R] : NatCast (Rq R n) := ⟨fun k => const (k : R)⟩
instance [CommRing R] : IntCast (Rq R n) := ⟨fun k => const (k : R)⟩
instance [CommRing R] : Pow (Rq R n) ℕ := ⟨fun p k => npowRec k p⟩

/-- The value at `x`. -/
def evalAt {A : Type} [CommRing R] [CommRing A] (f : R →+* A) (x : A) (p : Rq R n) : A :=
  ∑ i ∈ range n, f (p.seq i) * x ^ i

section
variable [CommRing R] {A : Type} [CommRing A] (f : R →+* A) (x : A)

theorem seq_lt (p : Rq R n) {i : Nat} (h : i < n) : p.seq i = p.co ⟨i, h⟩ := by
  unfold seq; rw [dif_pos h]

@[simp] theorem seq_val (p : Rq R n) (i : Fin n) : p.seq i.val = p.co i := seq_lt p i.isLt

theorem evalAt_add (p r : Rq R n) : evalAt f x (p + r) = evalAt f x p + evalAt f x r := by
  unfold evalAt
  rw [← sum_add_distrib]
  refine sum_congr rfl fun i hi => ?_
  rw [seq_lt _ (mem_range.1 hi), seq_lt _ (mem_range.1 hi), seq_lt _ (mem_range.1 hi), add_co,
    map_add, add_mul]

theorem evalAt_sub (p r : Rq R n) : evalAt f x (p - r) = evalAt f x p - evalAt f x r := by
  unfold evalAt
  rw [← sum_sub_distrib]
  refine sum_congr rfl fun i hi => ?_
  rw [seq_lt _ (mem_range.1 hi), seq_lt _ (mem_range.1 hi), seq_lt _ (mem_range.1 hi), sub_co,
    map_sub, sub_mul]

theorem evalAt_neg (p : Rq R n) : evalAt f x (-p) = -evalAt f x p := by
  unfold evalAt
  rw [← sum_neg_distrib]
  refine sum_congr rfl fun i hi => ?_
  rw [seq_lt _ (mem_range.1 hi), seq_lt _ (mem_range.1 hi), neg_co, map_neg, neg_mul]

theorem evalAt_zero : evalAt f x (0 : Rq R n) = 0 := by
  unfold evalAt
  refine sum_eq_zero fun i hi => ?_
  rw [seq_lt _ (mem_range.1 hi), zero_co, map_zero, zero_mul]

theorem evalAt_nsmul (k : ℕ) (p : Rq R n) : evalAt f x (k • p) = k • evalAt f x p := by
  unfold evalAt
  rw [smul_sum]
  refine sum_congr rfl fun i hi => ?_
  rw [seq_lt _ (mem_range.1 hi), seq_lt _ (mem_range.1 hi)]
  show f (k • p.co _) * _ = _
  rw [map_nsmul, smul_mul_assoc]

theorem evalAt_zsmul (k : ℤ) (p : Rq R n) : evalAt f x (k • p) = k • evalAt f x p := by
  unfold evalAt
  rw [smul_sum]
  refine sum_congr rfl fun i hi => ?_
  rw [seq_lt _ (mem_range.1 hi), seq_lt _ (mem_range.1 hi)]
  show f (k • p.co _) * _ = _
  rw [map_zsmul, smul_mul_assoc]

theorem evalAt_const [NeZero n] (c : R) : evalAt f x (const c : Rq R n) = f c := by
  unfold evalAt
  rw [sum_eq_single_of_mem 0 (mem_range.2 (Nat.pos_of_ne_zero (NeZero.ne n)))]
  · rw [seq_lt _ (Nat.pos_of_ne_zero (NeZero.ne n))]; simp [const]
  · intro i hi h0
    rw [seq_lt _ (mem_range.1 hi)]
    simp [const, h0]

theorem evalAt_one [NeZero n] : evalAt f x (1 : Rq R n) = 1 := by
  have : (1 : Rq R n) = const 1 := rfl
  rw [this, evalAt_const, map_one]

variable {x} in
theorem evalAt_mul (hx : x ^ n = -1) (p r : Rq R n) :
    evalAt f x (p * r) = evalAt f x p * evalAt f x r := by
  unfold evalAt
  rw [← negacyclic_eval f _ _ hx]
  refine sum_congr rfl fun i hi => ?_
  rw [seq_lt _ (mem_range.1 hi)]
  rfl

variable {x} in
theorem evalAt_pow [NeZero n] (hx : x ^ n = -1) (p : Rq R n) (k : ℕ) :
    evalAt f x (p ^ k) = evalAt f x p ^ k := by
  induction k with
  | zero => rw [pow_zero]; exact evalAt_one f x
  | succ k ih =>
    rw [pow_succ, ← ih, ← evalAt_mul f hx]
    rfl

end

section
variable [CommRing R] [NeZero n]

omit [NeZero n] in
theorem root_pow : (AdjoinRoot.root (X ^ n + 1 : R[X])) ^ n = -1 := by
  have h := AdjoinRoot.eval₂_root (X ^ n + 1 : R[X])
  rw [eval₂_add, eval₂_X_pow, eval₂_one] at h
  exact eq_neg_of_add_eq_zero_left h

omit [NeZero n] in
theorem evalAt_root (p : Rq R n) : evalAt (AdjoinRoot.of (X ^ n + 1 : R[X]))
    (AdjoinRoot.root (X ^ n + 1 : R[X])) p =
      AdjoinRoot.mk _ (∑ i ∈ range n, C (p.seq i) * X ^ i) := by
  unfold evalAt
  rw [map_sum]
  refine sum_congr rfl fun i _ => ?_
  rw [map_mul, map_pow, AdjoinRoot.mk_X, AdjoinRoot.mk_C]

theorem evalAt_root_injective [Nontrivial R] : Function.Injective fun p : Rq R n =>
    evalAt (AdjoinRoot.of (X ^ n + 1 : R[X])) (AdjoinRoot.root (X ^ n + 1 : R[X])) p := by
  intro p r h
  have h1 : evalAt (AdjoinRoot.of (X ^ n + 1 : R[X])) (AdjoinRoot.root (X ^ n + 1 : R[X]))
      (p - r) = 0 := by rw [evalAt_sub]; exact sub_eq_zero.2 h
  rw [evalAt_root, AdjoinRoot.mk_eq_zero] at h1
  have hd : degree (∑ i ∈ range n, C ((p - r).seq i) * X ^ i : R[X]) < n := by
    rw [degree_lt_iff_coeff_zero]
    intro m hm
    rw [finsetSum_coeff]
    refine sum_eq_zero fun i hi => ?_
    have := mem_range.1 hi
    rw [coeff_C_mul, coeff_X_pow, if_neg (by omega), mul_zero]
  have hm : (X ^ n + 1 : R[X]).Monic := by
    simpa using monic_X_pow_add_C (1 : R) (NeZero.ne n)
  have hdeg : degree (X ^ n + 1 : R[X]) = n := by
    simpa using degree_X_pow_add_C (Nat.pos_of_ne_zero (NeZero.ne n)) (1 : R)
  by_cases h0 : (∑ i ∈ range n, C ((p - r).seq i) * X ^ i : R[X]) = 0
  · ext i
    have := congrArg (fun P => Polynomial.coeff P i.val) h0
    simp only [finsetSum_coeff, coeff_C_mul, coeff_X_pow, coeff_zero, mul_ite, mul_one,
      mul_zero] at this
    rw [sum_ite_eq] at this
    rw [if_pos (mem_range.2 i.isLt), seq_val, sub_co] at this
    exact sub_eq_zero.1 this
  · exact absurd h1 (hm.not_dvd_of_degree_lt h0 (by rw [hdeg]; exact hd))

noncomputable instance [Nontrivial R] : CommRing (Rq R n) :=
  evalAt_root_injective.commRing _
    (evalAt_zero _ _) (evalAt_one _ _) (evalAt_add _ _) (evalAt_mul _ root_pow) (evalAt_neg _ _)
    (evalAt_sub _ _) (evalAt_nsmul _ _) (evalAt_zsmul _ _)
    (fun p k => evalAt_pow _ root_pow p k)
    (fun k => (evalAt_const _ _ _).trans (by simp))
    (fun k => (evalAt_const _ _ _).trans (by simp))

end
end Verif.Spec.Rq
