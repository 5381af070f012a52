import Verif.Model.Poly
import Verif.Props.NTT
import Mathlib.Algebra.BigOperators.Ring.Finset

/-! # Pointwise loops and the negacyclic product -/

namespace Verif
open Finset Fp

theorem zipAssign_spec {f : Nat → Nat → Option Nat} {P Q : Nat → Prop} {R : Nat → Nat → Nat → Prop}
    (hf : ∀ a b, P a → Q b → ∃ r, f a b = some r ∧ R a b r) :
    ∀ l m : List Nat, l.length = m.length → (∀ a ∈ l, P a) → (∀ b ∈ m, Q b) →
    ∃ out, Poly.zipAssign f l m = some out ∧ out.length = l.length ∧
      ∀ i, i < l.length → R (l.getD i 0) (m.getD i 0) (out.getD i 0)
  | [], [], _, _, _ => ⟨[], rfl, rfl, by simp⟩
  | [], _ :: _, h, _, _ => by simp at h
  | _ :: _, [], h, _, _ => by simp at h
  | a :: l, b :: m, h, hl, hm => by
    obtain ⟨r, e, hr⟩ := hf a b (hl a (by simp)) (hm b (by simp))
    obtain ⟨out, e', ho, hR⟩ := zipAssign_spec hf l m (by simpa using h)
      (fun x hx => hl x (by simp [hx])) (fun x hx => hm x (by simp [hx]))
    refine ⟨r :: out, by simp [Poly.zipAssign, e, e'], by simp [ho], ?_⟩
    intro i hi
    cases i with
    | zero => simpa using hr
    | succ i => simpa using hR i (by simpa using hi)

theorem zip3Assign_eq {f : Nat → Nat → Option Nat} : ∀ l m d : List Nat, l.length = m.length →
    l.length = d.length → Poly.zip3Assign f l m d = Poly.zipAssign f l m
  | [], [], [], _, _ => rfl
  | [], _, _ :: _, _, h => by simp at h
  | [], _ :: _, _, h, _ => by simp at h
  | _ :: _, [], _, h, _ => by simp at h
  | _ :: _, _, [], _, h => by simp at h
  | a :: l, b :: m, c :: d, h1, h2 => by
    have := zip3Assign_eq (f := f) l m d (by simpa using h1) (by simpa using h2)
    simp [Poly.zip3Assign, Poly.zipAssign, this]

theorem fmaAssign_spec {f : Nat → Nat → Nat → Option Nat} {P Q S : Nat → Prop}
    {R : Nat → Nat → Nat → Nat → Prop}
    (hf : ∀ a b c, P a → Q b → S c → ∃ r, f a b c = some r ∧ R a b c r) :
    ∀ l m n : List Nat, l.length = m.length → l.length = n.length → (∀ a ∈ l, P a) →
    (∀ b ∈ m, Q b) → (∀ c ∈ n, S c) →
    ∃ out, Poly.fmaAssign f l m n = some out ∧ out.length = l.length ∧
      ∀ i, i < l.length → R (l.getD i 0) (m.getD i 0) (n.getD i 0) (out.getD i 0)
  | [], _, _, _, _, _, _, _ => ⟨[], by simp [Poly.fmaAssign], rfl, by simp⟩
  | _ :: _, [], _, h, _, _, _, _ => by simp at h
  | _ :: _, _ :: _, [], _, h, _, _, _ => by simp at h
  | a :: l, b :: m, c :: n, h, h', hl, hm, hn => by
    obtain ⟨r, e, hr⟩ := hf a b c (hl a (by simp)) (hm b (by simp)) (hn c (by simp))
    obtain ⟨out, e', ho, hR⟩ := fmaAssign_spec hf l m n (by simpa using h) (by simpa using h')
      (fun x hx => hl x (by simp [hx])) (fun x hx => hm x (by simp [hx]))
      (fun x hx => hn x (by simp [hx]))
    refine ⟨r :: out, by simp [Poly.fmaAssign, e, e'], by simp [ho], ?_⟩
    intro i hi
    cases i with
    | zero => simpa using hr
    | succ i => simpa using hR i (by simpa using hi)

theorem mem_of_getD {q n : Nat} {l : List Nat} (hl : l.length = n) (h : ∀ i, i < n → l.getD i 0 < q) :
    ∀ x ∈ l, x < q := by
  intro x hx
  obtain ⟨i, hi, rfl⟩ := List.mem_iff_getElem.1 hx
  have := h i (by omega)
  rwa [List.getD_eq_getElem _ _ hi] at this

theorem coeff_of_ge {q : Nat} {l : List Nat} {i : Nat} (h : l.length ≤ i) : Spec.coeff q l i = 0 := by
  unfold Spec.coeff
  rw [List.getD_eq_default _ _ h]; simp

/-- Turning the pointwise result of a loop into the statement about coefficients. -/
theorem reduced_of {q n : Nat} {out : List Nat} {g : Nat → ZMod q} (hl : out.length = n)
    (h : ∀ i, i < n → out.getD i 0 < q ∧ ((out.getD i 0 : Nat) : ZMod q) = g i)
    (hg : ∀ i, n ≤ i → g i = 0) :
    Spec.Reduced q n out ∧ ∀ i, Spec.coeff q out i = g i := by
  refine ⟨⟨hl, mem_of_getD hl fun i hi => (h i hi).1⟩, fun i => ?_⟩
  by_cases hi : i < n
  · exact (h i hi).2
  · rw [coeff_of_ge (by omega), hg i (by omega)]

/-- Substituting an `x` with `x^n = -1` in the negacyclic product gives the product of the values. -/
theorem negacyclic_eval {R A : Type} [CommRing R] [CommRing A] (f : R →+* A) {n : Nat}
    (a b : Nat → R) {x : A} (hx : x ^ n = -1) :
    ∑ i ∈ range n, f (Spec.negacyclicCoeff n a b i) * x ^ i =
      (∑ j ∈ range n, f (a j) * x ^ j) * ∑ l ∈ range n, f (b l) * x ^ l := by
  have e : ∀ i, f (Spec.negacyclicCoeff n a b i) * x ^ i = ∑ j ∈ range n, ∑ l ∈ range n,
      (if j + l = i then f (a j) * f (b l) else if j + l = i + n then -(f (a j) * f (b l)) else 0)
        * x ^ i := by
    intro i
    rw [Spec.negacyclicCoeff, map_sum, sum_mul]
    apply sum_congr rfl; intro j _
    rw [map_sum, sum_mul]
    apply sum_congr rfl; intro l _
    congr 1
    split
    · rw [map_mul]
    · split
      · rw [map_neg, map_mul]
      · rw [map_zero]
  rw [sum_congr rfl (fun i _ => e i), sum_comm, sum_mul]
  apply sum_congr rfl; intro j hj
  rw [sum_comm, mul_sum]
  apply sum_congr rfl; intro l hl
  have hj := mem_range.1 hj
  have hl := mem_range.1 hl
  by_cases h : j + l < n
  · rw [sum_eq_single (j + l)]
    · rw [if_pos rfl, pow_add]; ring
    · intro i hi hne
      rw [if_neg (by omega), if_neg (by omega), zero_mul]
    · intro hi; exact absurd (mem_range.2 h) hi
  · rw [sum_eq_single (j + l - n)]
    · rw [if_neg (by omega), if_pos (by omega)]
      have : x ^ j * x ^ l = x ^ (j + l - n) * x ^ n := by
        rw [← pow_add, ← pow_add]; congr 1; omega
      rw [hx] at this
      linear_combination (-(f (a j) * f (b l))) * this
    · intro i hi hne
      have := mem_range.1 hi
      rw [if_neg (by omega), if_neg (by omega), zero_mul]
    · intro hi; exact absurd (mem_range.2 (by omega)) hi

theorem trailingZeros_two_pow {k : Nat} (hk : k < 64) : trailingZeros 64 (2 ^ k) = k := by
  obtain ⟨h1, h2, h3⟩ := trailingZeros_spec (w := 64) (x := 2 ^ k)
    (Nat.pos_iff_ne_zero.1 (Nat.two_pow_pos k)) (Nat.pow_lt_pow_right (by omega) hk)
  revert h1 h2 h3
  generalize trailingZeros 64 (2 ^ k) = t
  intro h1 h2 h3
  have h4 : t ≤ k := (Nat.pow_dvd_pow_iff_le_right (by decide : 1 < 2)).1 ⟨_, h2⟩
  by_contra hne
  have hlt : t < k := by omega
  rw [Nat.pow_div h4 (by decide)] at h3
  have : 2 ∣ 2 ^ (k - t) := dvd_pow_self 2 (by omega)
  omega

theorem tableFor_eq {tbl : Nat → Option Table} {k : Nat} {t : Table} (hk : k < 64)
    (h : tbl k = some t) : Poly.tableFor tbl (2 ^ k) = some t := by
  unfold Poly.tableFor
  rw [if_pos (isPow2_iff.2 ⟨k, rfl⟩), trailingZeros_two_pow hk, h]

end Verif
