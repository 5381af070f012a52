import Verif.Lemmas.NTTTable
import Verif.SpecPoly

/-! # C23, C24, C26: the transform, its inverse and the monomial shortcut -/

namespace Verif.Props
open Ntt Fp Finset

/-- A generated table is a prepared one. -/
theorem generate_table {w q : Nat} [Fact q.Prime] {M : Barrett} (C : Config w q M) {k : Nat}
    {draws : List Nat} {t : NTTTable} (hd : ∀ x ∈ draws, 2 ≤ x ∧ x < q)
    (ht : generate w M k draws = some (some t)) :
    IsLeast {y : Nat | y < q ∧ orderOf (y : ZMod q) = 2 ^ (k + 1)} t.root ∧
      IsTable w M t (t.root : ZMod M.value) k := by
  have hk : k < 63 ∧ 2 ^ (k + 1) < 2 ^ w := by
    unfold generate at ht
    by_cases h1 : k < 64
    · rw [mbind (shlC_one h1)] at ht
      by_cases h2 : 2 ^ k * 2 < 2 ^ 64
      · rw [mbind (mulC_eq h2), ← pow_succ] at ht
        split at ht
        · next h3 =>
          refine ⟨?_, h3⟩
          rw [← pow_succ] at h2
          have := (Nat.pow_lt_pow_iff_right (by omega : 1 < 2)).1 h2
          omega
        · exact absurd ht (by simp)
      · have : mulC 64 (2 ^ k) 2 = none := by unfold mulC; rw [if_neg h2]
        rw [this] at ht; exact absurd ht (by simp)
    · have : shlC 64 1 k = none := by simp [shlC, h1]
      rw [this] at ht; exact absurd ht (by simp)
  obtain ⟨g1, g2⟩ := generate_spec C hk.1 hk.2 draws hd
  by_cases hc : 2 ^ (k + 1) ∣ q - 1 ∧ ∃ x ∈ draws.take 100, ¬ IsSquare (x : ZMod q)
  · obtain ⟨t', e, hl, T⟩ := g1 hc
    rw [e] at ht
    simp only [Option.some.injEq] at ht
    subst ht
    exact ⟨hl, T⟩
  · rw [g2 hc] at ht; simp at ht

/-- C23: table generation succeeds (for sizes fitting the word) exactly when `2n` divides `q - 1` and
one of the random draws is a non-square; the table is that of the smallest primitive `2n`-th root. -/
theorem C23_generate (w q : Nat) [Fact q.Prime] (hw : w % 2 = 0) (M : Barrett)
    (h : Fp.config w q = some M) (k : Nat) (hk : k < 63) (hkw : 2 ^ (k + 1) < 2 ^ w)
    (draws : List Nat) (hd : ∀ x ∈ draws, 2 ≤ x ∧ x < q) :
    ((2 ^ (k + 1) ∣ q - 1 ∧ ∃ x ∈ draws.take 100, ¬ IsSquare (x : ZMod q)) →
      ∃ t, generate w M k draws = some (some t) ∧
        IsLeast {y : Nat | y < q ∧ orderOf (y : ZMod q) = 2 ^ (k + 1)} t.root) ∧
    (¬ (2 ^ (k + 1) ∣ q - 1 ∧ ∃ x ∈ draws.take 100, ¬ IsSquare (x : ZMod q)) →
      generate w M k draws = some none) := by
  obtain ⟨g1, g2⟩ := generate_spec ⟨hw, h⟩ hk hkw draws hd
  refine ⟨fun hc => ?_, g2⟩
  obtain ⟨t, e, hl, _⟩ := g1 hc
  exact ⟨t, e, hl⟩

/-- C23: for every input with coefficients in `[0, 4q)` the forward transform succeeds (no lazy
value leaves the word) and position `c` of the result is the canonical value of the polynomial at
`root^(2 j + 1)`, where `j` is `c` with its `k` bits reversed and `root` has order `2n`. -/
theorem C23_forward (w q : Nat) [Fact q.Prime] (hw : w % 2 = 0) (M : Barrett)
    (h : Fp.config w q = some M) (k : Nat) (draws : List Nat) (hd : ∀ x ∈ draws, 2 ≤ x ∧ x < q)
    (t : NTTTable) (ht : generate w M k draws = some (some t)) (p : List Nat)
    (hl : p.length = 2 ^ k) (hp : ∀ x ∈ p, x < 4 * q) :
    orderOf (t.root : ZMod q) = 2 ^ (k + 1) ∧
    ∃ out, transform w M t p = some out ∧ out.length = 2 ^ k ∧
      ∀ c, c < 2 ^ k → ∃ j, reverseLsbs 64 c k = some j ∧ out.getD c 0 < q ∧
        ((out.getD c 0 : Nat) : ZMod q) = Spec.evalPoly p ((t.root : ZMod q) ^ (2 * j + 1)) := by
  have C : Config w q M := ⟨hw, h⟩
  obtain ⟨hlst, T⟩ := generate_table C hd ht
  refine ⟨hlst.1.2, ?_⟩
  have hv := C.value
  have h4 := C.four_mul_lt
  have h2 := C.two_le
  subst hv
  obtain ⟨out, e, lo, ho⟩ := transform_spec T (by omega) h4 p hl hp
  refine ⟨out, e, lo, fun c hc => ⟨reverseBits k c, reverseLsbs_eq (by have := T.k_lt; omega), ?_⟩⟩
  obtain ⟨h1, h3⟩ := ho c hc
  refine ⟨h1, ?_⟩
  rw [h3, Spec.evalPoly, hl]

/-- Evaluation of all coefficient vectors at the `n` odd powers. -/
noncomputable def evalMap {q : Nat} (ψ : ZMod q) (k : Nat) (a : Fin (2 ^ k) → ZMod q) :
    Fin (2 ^ k) → ZMod q :=
  fun c => ∑ m : Fin (2 ^ k), a m * (ψ ^ (2 * reverseBits k c + 1)) ^ (m : Nat)

/-- A vector of canonical words as a list. -/
def toList {q k : Nat} (a : Fin (2 ^ k) → ZMod q) : List Nat := List.ofFn fun i => (a i).val

theorem toList_getD {q k : Nat} [NeZero q] (a : Fin (2 ^ k) → ZMod q) (i : Nat) (hi : i < 2 ^ k) :
    (((toList a).getD i 0 : Nat) : ZMod q) = a ⟨i, hi⟩ := by
  rw [toList, List.getD_eq_getElem _ _ (by simpa using hi), List.getElem_ofFn, ZMod.natCast_val]
  simp

theorem list_ext_of_cast {q : Nat} {a b : List Nat} {n : Nat} (ha : a.length = n) (hb : b.length = n)
    (h1 : ∀ i, i < n → a.getD i 0 < q) (h2 : ∀ i, i < n → b.getD i 0 < q)
    (h : ∀ i, i < n → ((a.getD i 0 : Nat) : ZMod q) = (b.getD i 0 : Nat)) : a = b := by
  apply List.ext_getElem (by omega)
  intro i h3 h4
  have := eq_of_cast (h1 i (by omega)) (h2 i (by omega)) (h i (by omega))
  rwa [List.getD_eq_getElem _ _ h3, List.getD_eq_getElem _ _ h4] at this

theorem evalMap_surjective {w : Nat} {M : Barrett} {t : NTTTable} {ψ : ZMod M.value} {k : Nat}
    (T : IsTable w M t ψ k) (h0 : 0 < M.value) (hq : 4 * M.value < 2 ^ w) (hk : 0 < k) :
    Function.Surjective (evalMap ψ k) := by
  have : NeZero M.value := ⟨by omega⟩
  apply Finite.injective_iff_surjective.1
  intro a b hab
  have key : ∀ a : Fin (2 ^ k) → ZMod M.value, ∀ i (hi : i < 2 ^ k), ∃ out,
      inverse w M t (toList (evalMap ψ k a)) = some out ∧
        ((out.getD i 0 : Nat) : ZMod M.value) = a ⟨i, hi⟩ := by
    intro a i hi
    obtain ⟨out, e, _, ho⟩ := inverse_spec T h0 hq hk (toList (evalMap ψ k a))
      (by simp [toList]) (by
        intro v hv
        rw [toList, List.mem_ofFn] at hv
        obtain ⟨j, rfl⟩ := hv
        have := ZMod.val_lt (evalMap ψ k a j)
        omega)
      (fun m => if hm : m < 2 ^ k then a ⟨m, hm⟩ else 0)
      (by
        intro c hc
        rw [toList_getD _ _ hc, evalMap, Finset.sum_range]
        simp)
    refine ⟨out, e, ?_⟩
    rw [(ho i hi).2, dif_pos hi]
  funext ⟨i, hi⟩
  obtain ⟨o1, e1, h1⟩ := key a i hi
  obtain ⟨o2, e2, h2⟩ := key b i hi
  rw [hab, e2] at e1
  simp only [Option.some.injEq] at e1
  rw [← h1, ← h2, e1]

theorem evalPoly_eq {q : Nat} {p : List Nat} {n : Nat} (h : p.length = n) (x : ZMod q) :
    Spec.evalPoly p x = ∑ m ∈ range n, ((p.getD m 0 : Nat) : ZMod q) * x ^ m := by
  rw [Spec.evalPoly, h]

/-- Every list of words is the evaluation of some coefficients, and the inverse transform returns
them. -/
theorem inverse_unique {w : Nat} {M : Barrett} {t : NTTTable} {ψ : ZMod M.value} {k : Nat}
    (T : IsTable w M t ψ k) (h0 : 0 < M.value) (hq : 4 * M.value < 2 ^ w) (hk : 0 < k)
    (v : List Nat) (hl : v.length = 2 ^ k) (hv : ∀ x ∈ v, x < 2 * M.value) :
    ∃ out, inverse w M t v = some out ∧ out.length = 2 ^ k ∧ (∀ x ∈ out, x < M.value) ∧
      ∀ c, c < 2 ^ k → ((v.getD c 0 : Nat) : ZMod M.value) =
        Spec.evalPoly out (ψ ^ (2 * reverseBits k c + 1)) := by
  obtain ⟨a, ha⟩ := evalMap_surjective T h0 hq hk (fun c => ((v.getD c 0 : Nat) : ZMod M.value))
  have ha' : ∀ c, c < 2 ^ k → ((v.getD c 0 : Nat) : ZMod M.value) = ∑ m ∈ range (2 ^ k),
      (fun m => if hm : m < 2 ^ k then a ⟨m, hm⟩ else 0) m * (ψ ^ (2 * reverseBits k c + 1)) ^ m := by
    intro c hc
    have := congrFun ha ⟨c, hc⟩
    simp only at this
    rw [← this, evalMap, Finset.sum_range]
    simp
  obtain ⟨out, e, lo, ho⟩ := inverse_spec T h0 hq hk v hl hv _ ha'
  refine ⟨out, e, lo, ?_, ?_⟩
  · intro x hx
    obtain ⟨i, hi, rfl⟩ := List.mem_iff_getElem.1 hx
    have := (ho i (by omega)).1
    rwa [List.getD_eq_getElem _ _ hi] at this
  · intro c hc
    rw [ha' c hc, evalPoly_eq lo]
    apply sum_congr rfl
    intro m hm
    rw [(ho m (mem_range.1 hm)).2]

/-- C24: for `n ≥ 2`, transforming a canonical polynomial and back returns it. -/
theorem C24_inverse_forward (w q : Nat) [Fact q.Prime] (hw : w % 2 = 0) (M : Barrett)
    (h : Fp.config w q = some M) (k : Nat) (hk : 0 < k) (draws : List Nat)
    (hd : ∀ x ∈ draws, 2 ≤ x ∧ x < q) (t : NTTTable) (ht : generate w M k draws = some (some t))
    (p : List Nat) (hl : p.length = 2 ^ k) (hp : ∀ x ∈ p, x < q) :
    ∃ v, transform w M t p = some v ∧ inverse w M t v = some p := by
  have C : Config w q M := ⟨hw, h⟩
  obtain ⟨_, T⟩ := generate_table C hd ht
  have hv := C.value
  have h4 := C.four_mul_lt
  have h2 := C.two_le
  subst hv
  obtain ⟨v, e, lv, hv⟩ := transform_spec T (by omega) h4 p hl (fun x hx => by have := hp x hx; omega)
  obtain ⟨out, e', lo, ho⟩ := inverse_spec T (by omega) h4 hk v lv
    (by
      intro x hx
      obtain ⟨i, hi, rfl⟩ := List.mem_iff_getElem.1 hx
      have := (hv i (by omega)).1
      rw [List.getD_eq_getElem _ _ hi] at this
      omega) _ (fun c hc => (hv c hc).2)
  refine ⟨v, e, ?_⟩
  rw [e']
  congr 1
  exact list_ext_of_cast lo hl (fun i hi => (ho i hi).1)
    (fun i hi => hp _ (getD_mem _ (by omega))) (fun i hi => (ho i hi).2)

/-- C24: for `n ≥ 2`, every vector with entries in `[0, 2q)` is accepted by the inverse transform,
and transforming the result back gives the entries modulo `q`; for canonical vectors, the vector
itself. -/
theorem C24_forward_inverse (w q : Nat) [Fact q.Prime] (hw : w % 2 = 0) (M : Barrett)
    (h : Fp.config w q = some M) (k : Nat) (hk : 0 < k) (draws : List Nat)
    (hd : ∀ x ∈ draws, 2 ≤ x ∧ x < q) (t : NTTTable) (ht : generate w M k draws = some (some t))
    (v : List Nat) (hl : v.length = 2 ^ k) (hv : ∀ x ∈ v, x < 2 * q) :
    ∃ p, inverse w M t v = some p ∧ p.length = 2 ^ k ∧ (∀ x ∈ p, x < q) ∧
      transform w M t p = some (v.map (· % q)) := by
  have C : Config w q M := ⟨hw, h⟩
  obtain ⟨_, T⟩ := generate_table C hd ht
  have hval := C.value
  have h4 := C.four_mul_lt
  have h2 := C.two_le
  subst hval
  obtain ⟨p, e, lp, bp, hp⟩ := inverse_unique T (by omega) h4 hk v hl hv
  refine ⟨p, e, lp, bp, ?_⟩
  obtain ⟨v', e', lv, hv'⟩ := transform_spec T (by omega) h4 p lp
    (fun x hx => by have := bp x hx; omega)
  rw [e']
  congr 1
  apply list_ext_of_cast (q := M.value) lv (by simpa using hl) (fun i hi => (hv' i hi).1)
  · intro i hi
    rw [List.getD_eq_getElem _ _ (by simpa [hl] using hi), List.getElem_map]
    exact Nat.mod_lt _ (by omega)
  · intro i hi
    rw [(hv' i hi).2, ← evalPoly_eq lp, ← hp i hi,
      List.getD_eq_getElem (v.map _) _ (by simpa [hl] using hi), List.getElem_map, ZMod.natCast_mod,
      List.getD_eq_getElem _ _ (by omega)]

/-- C24: for `n = 1` the inverse transform panics (`0..log_n - 1` underflows), so it undoes the
transform for no input; the hypothesis `0 < k` is needed. -/
theorem C24_size_one_panics (w : Nat) (M : Barrett) (t : NTTTable) (h : t.logN = 0) (v : List Nat) :
    inverse w M t v = none := by
  unfold inverse
  rw [mbind (shlC_one (by omega))]
  split
  · rfl
  · simp [h, subC]

theorem mask_eq {k : Nat} (hk : k < 63) : mask k = some (2 ^ (k + 1) - 1) := by
  unfold mask
  rw [mbind (subC_eq (by omega)), mbind (subC_eq (by omega))]
  unfold shrC
  rw [if_pos (by omega)]
  congr 1
  have e : (2 : Nat) ^ 64 = 2 ^ (k + 1) * 2 ^ (64 - k - 1) := by
    rw [← pow_add]; congr 1; omega
  have h1 := Nat.two_pow_pos (64 - k - 1)
  have h2 := Nat.two_pow_pos (k + 1)
  rw [e]
  apply Nat.div_eq_of_lt_le
  · rw [Nat.sub_mul]; omega
  · rw [show (2 ^ (k + 1) - 1 + 1) = 2 ^ (k + 1) by omega]
    have : 0 < 2 ^ (k + 1) * 2 ^ (64 - k - 1) := Nat.mul_pos h2 h1
    omega

theorem monoIndex_eq {k i d : Nat} (hk : k < 63) (hi : i < 2 ^ k) (hd : 2 * 2 ^ k * d < 2 ^ 64) :
    monoIndex k i d = some ((2 * i + 1) * d % 2 ^ (k + 1)) := by
  have hle : 2 ^ (k + 1) < 2 ^ 64 := Nat.pow_lt_pow_right (by omega) (by omega)
  rw [pow_succ] at hle
  have hm : (2 * i + 1) * d < 2 ^ 64 :=
    Nat.lt_of_le_of_lt (Nat.mul_le_mul_right d (by omega)) hd
  unfold monoIndex
  rw [mbind (mask_eq hk), mbind (mulC_eq (by omega)), mbind (addC_eq (by omega)), mbind (mulC_eq hm),
    Nat.and_two_pow_sub_one_eq_mod]
  rfl

theorem xor_two_pow_of_lt {k a : Nat} (h : a < 2 ^ k) : a ^^^ 2 ^ k = 2 ^ k + a := by
  apply Nat.eq_of_testBit_eq
  intro j
  have := Nat.testBit_two_pow_mul_add 1 h j
  rw [Nat.mul_one] at this
  rw [this, Nat.testBit_xor, Nat.testBit_two_pow]
  by_cases hj : j < k
  · rw [if_pos hj]; simp [show k ≠ j by omega]
  · rw [if_neg hj, Nat.testBit_lt_two_pow (Nat.lt_of_lt_of_le h
      (Nat.pow_le_pow_right (by decide) (by omega)))]
    by_cases hjk : k = j
    · subst hjk; simp
    · have h0 : j - k ≠ 0 := by omega
      obtain ⟨m, hm⟩ := Nat.exists_eq_succ_of_ne_zero h0
      rw [hm]
      simp [hjk, Nat.testBit_succ]

theorem pow_xor {q k a : Nat} {ψ : ZMod q} (hψ : ψ ^ 2 ^ k = -1) (h : a < 2 ^ (k + 1)) :
    a ^^^ 2 ^ k < 2 ^ (k + 1) ∧ ψ ^ (a ^^^ 2 ^ k) = -ψ ^ a := by
  rw [pow_succ] at h ⊢
  by_cases ha : a < 2 ^ k
  · rw [xor_two_pow_of_lt ha]
    refine ⟨by omega, ?_⟩
    rw [pow_add, hψ]; ring
  · obtain ⟨b, rfl⟩ : ∃ b, a = 2 ^ k + b := ⟨a - 2 ^ k, by omega⟩
    have hb : b < 2 ^ k := by omega
    rw [← xor_two_pow_of_lt hb, Nat.xor_assoc, Nat.xor_self, Nat.xor_zero, xor_two_pow_of_lt hb]
    refine ⟨by omega, ?_⟩
    rw [pow_add, hψ]; ring

theorem pow_mod_order {q k e : Nat} {ψ : ZMod q} (hψ : ψ ^ 2 ^ k = -1) :
    ψ ^ (e % 2 ^ (k + 1)) = ψ ^ e := by
  have h1 : ψ ^ 2 ^ (k + 1) = 1 := by rw [pow_succ, pow_mul, hψ]; ring
  conv_rhs => rw [← Nat.mod_add_div e (2 ^ (k + 1)), pow_add ψ, pow_mul, h1]
  simp

theorem evalPoly_monomial {q n c d : Nat} (hc : c < q) (hn : 0 < n) {x : ZMod q} (hx : x ^ n = -1) :
    Spec.evalPoly (Spec.monomialCoeffs q n c d) x = c * x ^ d := by
  have hlen : (Spec.monomialCoeffs q n c d).length = n := by simp [Spec.monomialCoeffs]
  have hget : ∀ i, i < n → (Spec.monomialCoeffs q n c d).getD i 0 =
      if i = d % n then (if d / n % 2 = 0 then c else (q - c) % q) else 0 := by
    intro i hi
    rw [List.getD_eq_getElem _ _ (by omega)]
    simp [Spec.monomialCoeffs]
  rw [evalPoly_eq hlen, sum_eq_single (d % n)]
  · rw [hget _ (Nat.mod_lt _ hn), if_pos rfl]
    have e : x ^ d = x ^ (d % n) * (-1) ^ (d / n) := by
      conv_lhs => rw [← Nat.mod_add_div d n]
      rw [pow_add, pow_mul, hx]
    rw [e]
    split
    · next h => rw [Even.neg_one_pow (Nat.even_iff.2 h)]; ring
    · next h =>
      rw [Odd.neg_one_pow (Nat.odd_iff.2 (by omega)), ZMod.natCast_mod, Nat.cast_sub hc.le,
        ZMod.natCast_self]
      ring
  · intro i hi hne
    rw [hget i (mem_range.1 hi), if_neg hne]; simp
  · intro h
    exact absurd (mem_range.2 (Nat.mod_lt _ hn)) h

theorem getElem?_ord {w : Nat} {M : Barrett} {t : NTTTable} {ψ : ZMod M.value} {k : Nat}
    (T : IsTable w M t ψ k) {i : Nat} (hi : i < 2 ^ (k + 1)) :
    t.ordinal[i]? = some (t.ordinal.getD i defaultRoot) := by
  have := T.ord_len
  rw [pow_succ] at hi
  rw [List.getD_eq_getElem _ _ (by omega), List.getElem?_eq_getElem]

/-- The common shape of the monomial loops: each entry is `g` of the power of the root. -/
theorem mono_loop {w : Nat} {M : Barrett} {t : NTTTable} {ψ : ZMod M.value} {k : Nat}
    (T : IsTable w M t ψ k) (f : Nat → Option Nat) (y : ZMod M.value) (d : Nat)
    (hf : ∀ i, i < 2 ^ k → ∃ r, f i = some r ∧ r < M.value ∧
      (r : ZMod M.value) = y * ψ ^ ((2 * i + 1) * d)) :
    ∃ out, t.rev.mapM f = some out ∧ out.length = 2 ^ k ∧ ∀ c, c < 2 ^ k →
      out.getD c 0 < M.value ∧
        ((out.getD c 0 : Nat) : ZMod M.value) = y * (ψ ^ (2 * reverseBits k c + 1)) ^ d := by
  rw [T.rev]
  obtain ⟨out, e, lo, ho⟩ := mapM_spec (f := f) (P := fun i => i < 2 ^ k) hf
    ((List.range (2 ^ k)).map (reverseBits k)) (by
      intro a ha
      obtain ⟨b, _, rfl⟩ := List.mem_map.1 ha
      exact reverseBits_lt k b)
  refine ⟨out, e, by simpa using lo, fun c hc => ?_⟩
  have := ho c (by simpa using hc)
  rw [rev_getD hc, pow_mul] at this
  exact this

theorem root_pow_n {q k j : Nat} {ψ : ZMod q} (hψ : ψ ^ 2 ^ k = -1) :
    (ψ ^ (2 * j + 1)) ^ 2 ^ k = -1 := by
  rw [← pow_mul, Nat.mul_comm, pow_mul, hψ, Odd.neg_one_pow ⟨j, rfl⟩]

/-- The transform of a monomial, for any way of computing the table index. -/
theorem monomialWith_spec {w q : Nat} [Fact q.Prime] (hw : w % 2 = 0) {M : Barrett}
    (h : Fp.config w q = some M) {k : Nat} {draws : List Nat} (hd : ∀ x ∈ draws, 2 ≤ x ∧ x < q)
    {t : NTTTable} (ht : generate w M k draws = some (some t)) {c d : Nat} (hc : c < q)
    (idx : Nat → Nat → Nat → Option Nat)
    (hov : ∀ i, i < 2 ^ k → idx k i d = some ((2 * i + 1) * d % 2 ^ (k + 1))) :
    ∃ out, monomialWith idx w M t c d (2 ^ k) = some out ∧
      transform w M t (Spec.monomialCoeffs q (2 ^ k) c d) = some out := by
  have C : Config w q M := ⟨hw, h⟩
  obtain ⟨_, T⟩ := generate_table C hd ht
  have hval := C.value
  have h4 := C.four_mul_lt
  have h2 := C.two_le
  have hpos := Nat.two_pow_pos k
  subst hval
  have hlen : (Spec.monomialCoeffs M.value (2 ^ k) c d).length = 2 ^ k := by
    simp [Spec.monomialCoeffs]
  obtain ⟨out, e, lo, ho⟩ := transform_spec T (by omega) h4 (Spec.monomialCoeffs M.value (2 ^ k) c d)
    hlen (by
      intro v hv
      obtain ⟨i, _, rfl⟩ := List.mem_map.1 hv
      have := Nat.mod_lt (M.value - c) (show 0 < M.value by omega)
      split
      · split <;> omega
      · omega)
  have key : ∃ o, monomialWith idx w M t c d (2 ^ k) = some o ∧ o.length = 2 ^ k ∧ ∀ j, j < 2 ^ k →
      o.getD j 0 < M.value ∧ ((o.getD j 0 : Nat) : ZMod M.value)
        = c * ((t.root : ZMod M.value) ^ (2 * reverseBits k j + 1)) ^ d := by
    unfold monomialWith
    have hrep : ∀ (v i : Nat), i < 2 ^ k → (List.replicate (2 ^ k) v).getD i 0 = v := by
      intro v i hi
      rw [List.getD_eq_getElem _ _ (by simpa using hi), List.getElem_replicate]
    split
    · next h0 =>
      refine ⟨_, rfl, by simp, fun j hj => ?_⟩
      rw [hrep _ _ hj, h0]
      simp only [Fp.zero]
      exact ⟨by omega, by simp⟩
    split
    · next h0 =>
      refine ⟨_, rfl, by simp, fun j hj => ?_⟩
      rw [hrep _ _ hj, h0]
      exact ⟨hc, by simp⟩
    rw [if_neg (by rw [T.n, T.rev]; simp)]
    obtain ⟨-, -, ⟨n1, en, ln, cn⟩, -⟩ :=
      C49_field_ops w M.value C.even M C.conf 0 0 0 0 (by omega) (by omega) (by omega) (by positivity)
    have hidx : ∀ i, i < 2 ^ k → (2 * i + 1) * d % 2 ^ (k + 1) < 2 ^ (k + 1) :=
      fun i _ => Nat.mod_lt _ (Nat.two_pow_pos _)
    rw [mbind en]
    split
    · next h1 =>
      obtain ⟨o, eo, l, g⟩ := mono_loop T (y := 1) (d := d) (f := fun i => do
          let k ← idx t.logN i d
          let r ← t.ordinal[k]?
          return Fp.fromRoot r) (by
        intro i hi
        have hf := T.ord ((2 * i + 1) * d % 2 ^ (k + 1))
          (by rw [← pow_succ']; exact hidx i hi)
        refine ⟨(t.ordinal.getD ((2 * i + 1) * d % 2 ^ (k + 1)) defaultRoot).value, ?_, hf.lt, ?_⟩
        · rw [T.logN, mbind (hov i hi), mbind (getElem?_ord T (hidx i hi))]
          rfl
        · rw [hf.cast, pow_mod_order T.neg_one, one_mul])
      refine ⟨o, eo, l, ?_⟩
      rw [h1]
      simpa [Fp.one] using g
    · split
      · next h1 =>
        obtain ⟨o, eo, l, g⟩ := mono_loop T (y := -1) (d := d) (f := fun i => do
            let k ← idx t.logN i d
            let r ← t.ordinal[k ^^^ t.n]?
            return Fp.fromRoot r) (by
          intro i hi
          obtain ⟨hx1, hx2⟩ := pow_xor T.neg_one (hidx i hi)
          have hf := T.ord ((2 * i + 1) * d % 2 ^ (k + 1) ^^^ 2 ^ k)
            (by rw [← pow_succ']; exact hx1)
          refine ⟨(t.ordinal.getD ((2 * i + 1) * d % 2 ^ (k + 1) ^^^ 2 ^ k) defaultRoot).value, ?_,
            hf.lt, ?_⟩
          · rw [T.logN, mbind (hov i hi), T.n, mbind (getElem?_ord T hx1)]
            rfl
          · rw [hf.cast, hx2, pow_mod_order T.neg_one]; ring)
        refine ⟨o, eo, l, ?_⟩
        rw [h1, cn]
        exact g
      · exact mono_loop T _ c d (by
          intro i hi
          have hf := T.ord ((2 * i + 1) * d % 2 ^ (k + 1))
            (by rw [← pow_succ']; exact hidx i hi)
          obtain ⟨r, er, lr, cr⟩ := mulRoot_spec (a := c) (by omega) hf (by omega)
          refine ⟨r, ?_, lr, ?_⟩
          · rw [T.logN, mbind (hov i hi), mbind (getElem?_ord T (hidx i hi))]
            exact er
          · rw [cr, pow_mod_order T.neg_one, mul_comm])
  obtain ⟨o, eo, l, g⟩ := key
  refine ⟨o, eo, ?_⟩
  rw [e]
  congr 1
  apply list_ext_of_cast (q := M.value) lo l (fun i hi => (ho i hi).1) (fun i hi => (g i hi).1)
  intro i hi
  rw [(ho i hi).2, (g i hi).2, ← evalPoly_eq hlen, evalPoly_monomial hc hpos (root_pow_n T.neg_one)]

/-- C26: for every degree `d` with `2n d` below `2^64`, also `d ≥ n`, and every canonical
coefficient, including 0, 1 and -1, `transform_monomial` writes exactly the transform of the
polynomial `c X^d mod X^n + 1`; in particular no table access is out of bounds. -/
theorem C26_monomial_partial (w q : Nat) [Fact q.Prime] (hw : w % 2 = 0) (M : Barrett)
    (h : Fp.config w q = some M) (k : Nat) (draws : List Nat) (hd : ∀ x ∈ draws, 2 ≤ x ∧ x < q)
    (t : NTTTable) (ht : generate w M k draws = some (some t)) (c d : Nat) (hc : c < q)
    (hov : 2 * 2 ^ k * d < 2 ^ 64) :
    ∃ out, monomial w M t c d (2 ^ k) = some out ∧
      transform w M t (Spec.monomialCoeffs q (2 ^ k) c d) = some out := by
  obtain ⟨_, T⟩ := generate_table (⟨hw, h⟩ : Config w q M) hd ht
  exact monomialWith_spec hw h hd ht hc monoIndex fun i hi => monoIndex_eq T.k_lt hi hov

theorem monoIndexRelease_eq {k i d : Nat} (hk : k < 63) (hi : i < 2 ^ k) :
    monoIndexRelease k i d = some ((2 * i + 1) * d % 2 ^ (k + 1)) := by
  have hle : 2 ^ (k + 1) < 2 ^ 64 := Nat.pow_lt_pow_right (by omega) (by omega)
  rw [pow_succ] at hle
  unfold monoIndexRelease
  rw [mbind (mask_eq hk)]
  simp only [Option.pure_def]
  rw [Nat.mod_eq_of_lt (show 2 * i < 2 ^ 64 by omega), Nat.mod_eq_of_lt (show 2 * i + 1 < 2 ^ 64 by omega),
    Nat.and_two_pow_sub_one_eq_mod, Nat.mod_mod_of_dvd _ (pow_dvd_pow 2 (by omega : k + 1 ≤ 64))]

/-- C26 for builds without overflow checks: there the claim holds for every degree, because the wrapped
product is right modulo `2n`. -/
theorem C26_monomial_release (w q : Nat) [Fact q.Prime] (hw : w % 2 = 0) (M : Barrett)
    (h : Fp.config w q = some M) (k : Nat) (draws : List Nat) (hd : ∀ x ∈ draws, 2 ≤ x ∧ x < q)
    (t : NTTTable) (ht : generate w M k draws = some (some t)) (c d : Nat) (hc : c < q) :
    ∃ out, monomialWith monoIndexRelease w M t c d (2 ^ k) = some out ∧
      transform w M t (Spec.monomialCoeffs q (2 ^ k) c d) = some out := by
  obtain ⟨_, T⟩ := generate_table (⟨hw, h⟩ : Config w q M) hd ht
  exact monomialWith_spec hw h hd ht hc monoIndexRelease fun i hi => monoIndexRelease_eq T.k_lt hi

/-- C26: the two dedicated functions give the same result as `transform_monomial` with coefficient
1 and `q - 1`. -/
theorem C26_signed_monomials (w q : Nat) [Fact q.Prime] (hw : w % 2 = 0) (M : Barrett)
    (h : Fp.config w q = some M) (k : Nat) (draws : List Nat) (hd : ∀ x ∈ draws, 2 ≤ x ∧ x < q)
    (t : NTTTable) (ht : generate w M k draws = some (some t)) (d : Nat) :
    oneMonomial t d (2 ^ k) = monomial w M t 1 d (2 ^ k) ∧
    negOneMonomial M t d (2 ^ k) = monomial w M t (q - 1) d (2 ^ k) := by
  have C : Config w q M := ⟨hw, h⟩
  obtain ⟨hl, T⟩ := generate_table C hd ht
  have h2 := C.two_le
  have hq2 : q ≠ 2 := by
    rintro rfl
    have h1 := hl.1.2
    have h1' := Nat.one_lt_two_pow (n := k + 1) (by omega)
    rcases zmod_two_cases (t.root : ZMod 2) with h3 | h3
    · rw [h3, orderOf_zero] at h1; omega
    · rw [h3, orderOf_one] at h1; omega
  have hneg : Fp.negOne M = some (q - 1) := by
    unfold Fp.negOne; rw [C.value]; exact subC_eq (by omega)
  constructor
  · unfold oneMonomial oneMonomialWith monomial monomialWith
    have hz : (1 : Nat) ≠ Fp.zero := by simp [Fp.zero]
    rw [if_neg hz]
    by_cases h0 : d = 0
    · rw [if_pos h0, if_pos h0]; rfl
    · rw [if_neg h0, if_neg h0, T.logN, mbind (shlC_one (by have := T.k_lt; omega)), T.n]
      split
      · rfl
      · rw [mbind hneg, if_pos (show (1 : Nat) = Fp.one from rfl)]
  · unfold negOneMonomial negOneMonomialWith monomial monomialWith
    have hz : q - 1 ≠ Fp.zero := by simp only [Fp.zero]; omega
    rw [if_neg hz]
    by_cases h0 : d = 0
    · rw [if_pos h0, if_pos h0, mbind hneg]; rfl
    · rw [if_neg h0, if_neg h0]
      split
      · rfl
      · rw [mbind hneg, if_neg (by simp only [Fp.one]; omega), if_pos rfl]

/-- The table for `q = 17`, `n = 2^k` when the candidate drawn is 3, a generator. -/
def table17 (k : Nat) (h : (generate 8 barrett17 k [3]).join.isSome = true) : NTTTable :=
  (generate 8 barrett17 k [3]).join.get h

theorem table17_eq (k : Nat) (h : (generate 8 barrett17 k [3]).join.isSome = true) :
    generate 8 barrett17 k [3] = some (some (table17 k h)) := by
  unfold table17
  match h1 : generate 8 barrett17 k [3], h with
  | some (some t), _ => simp
  | some none, h => simp at h
  | none, h => simp at h

/-- C26: without the bound the checked product `(2 i + 1) * degree` overflows and the function panics,
for example for `n = 2` and degree `2^63`, although `X^(2^63) = 1` there. -/
theorem C26_degree_overflow : ∃ t, generate 8 barrett17 1 [3] = some (some t) ∧
    monomial 8 barrett17 t 1 (2 ^ 63) 2 = none :=
  ⟨_, table17_eq 1 (by decide +kernel), by decide +kernel⟩

-- a concrete field: q = 17, n = 4, root 2
example : ∃ t, generate 8 barrett17 2 [3] = some (some t) ∧ t.root = 2 ∧
    transform 8 barrett17 t [1, 2, 3, 67] = some [9, 0, 3, 9] ∧
    inverse 8 barrett17 t [26, 0, 3, 9] = some [1, 2, 3, 16] ∧
    monomial 8 barrett17 t 5 6 4 = transform 8 barrett17 t [0, 0, 12, 0] :=
  ⟨_, table17_eq 2 (by decide +kernel), by decide +kernel, by decide +kernel, by decide +kernel,
    by decide +kernel⟩

end Verif.Props
