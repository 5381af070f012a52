import Verif.SpecTransform
import Verif.Lemmas.Poly
import Mathlib.LinearAlgebra.Lagrange

/-! # A transform table of either back end as evaluation at the roots of `X^n + 1` -/

namespace Verif
open Fp Finset Spec Ntt Props

/-- What the proofs use of a transform table for size `2^k`: the transform evaluates at the points
`pt`, the inverse transform interpolates, the monomial functions give powers of the points. -/
structure Evaluates (w : Nat) (M : Barrett) (t : Table) (pt : Nat → ZMod M.value) (k : Nat) : Prop where
  k_lt : k < 63
  pow : ∀ c, pt c ^ 2 ^ k = -1
  uniq : ∀ a b : Nat → ZMod M.value, (∀ c, c < 2 ^ k →
    ∑ m ∈ range (2 ^ k), a m * pt c ^ m = ∑ m ∈ range (2 ^ k), b m * pt c ^ m) → ∀ i, i < 2 ^ k → a i = b i
  fwd : ∀ a, Reduced M.value (2 ^ k) a → ∃ v, t.transform w M a = some v ∧ Reduced M.value (2 ^ k) v ∧
    ValuesAt M.value (2 ^ k) pt a v
  inv : 0 < k → ∀ v, Reduced (2 * M.value) (2 ^ k) v → ∃ a, t.inverse w M v = some a ∧
    Reduced M.value (2 ^ k) a ∧ ValuesAt M.value (2 ^ k) pt a v
  mono : ∀ d, d < 2 * 2 ^ k → 2 * 2 ^ k * d < 2 ^ 64 →
    (∀ c, c < M.value → ∃ v, t.monomial w M c d (2 ^ k) = some v ∧ Reduced M.value (2 ^ k) v ∧
      ∀ i, i < 2 ^ k → coeff M.value v i = c * pt i ^ d) ∧
    (∃ v, t.oneMonomial d (2 ^ k) = some v ∧ Reduced M.value (2 ^ k) v ∧
      ∀ i, i < 2 ^ k → coeff M.value v i = pt i ^ d) ∧
    ∃ v, t.negOneMonomial M d (2 ^ k) = some v ∧ Reduced M.value (2 ^ k) v ∧
      ∀ i, i < 2 ^ k → coeff M.value v i = -pt i ^ d

/-- Two polynomials of degree below `n` over a field that agree at `n` points are equal. -/
theorem interpolation_unique {K : Type} [Field K] {n : Nat} {pt : Nat → K}
    (hinj : ∀ c c', c < n → c' < n → pt c = pt c' → c = c') (a b : Nat → K)
    (h : ∀ c, c < n → ∑ m ∈ range n, a m * pt c ^ m = ∑ m ∈ range n, b m * pt c ^ m) :
    ∀ i, i < n → a i = b i := by
  intro i hi
  let P : Polynomial K := ∑ m ∈ range n, Polynomial.monomial m (a m - b m)
  have hdeg : P.degree < n := by
    rw [Polynomial.degree_lt_iff_coeff_zero]
    intro m hm
    simp only [P, Polynomial.finsetSum_coeff, Polynomial.coeff_monomial]
    refine sum_eq_zero fun j hj => if_neg ?_
    have := mem_range.1 hj
    omega
  have h0 : P = 0 := by
    refine Polynomial.eq_zero_of_degree_lt_of_eval_index_eq_zero (s := range n) (v := pt) ?_ ?_ ?_
    · intro c hc c' hc' e
      exact hinj c c' (by simpa using hc) (by simpa using hc') e
    · rw [card_range]; exact hdeg
    · intro c hc
      have := h c (mem_range.1 hc)
      simp only [P, Polynomial.eval_finsetSum, Polynomial.eval_monomial, sub_mul, sum_sub_distrib]
      rw [this, sub_self]
  have hc : P.coeff i = a i - b i := by
    simp only [P, Polynomial.finsetSum_coeff, Polynomial.coeff_monomial]
    rw [sum_eq_single i (fun j _ hj => if_neg hj) (fun hn => absurd (mem_range.2 hi) hn), if_pos rfl]
  rw [h0, Polynomial.coeff_zero] at hc
  exact sub_eq_zero.1 hc.symm

theorem native_evaluates {w q : Nat} [Fact q.Prime] {M : Barrett} (C : Config w q M) {k : Nat}
    {draws : List Nat} {t : NTTTable} (hd : ∀ x ∈ draws, 2 ≤ x ∧ x < q)
    (ht : Ntt.generate w M k draws = some (some t)) :
    Evaluates w M (.native t) (fun c => (t.root : ZMod M.value) ^ (2 * reverseBits k c + 1)) k := by
  obtain ⟨_, T⟩ := generate_table C hd ht
  have h4 := C.four_mul_lt
  have h2 := C.two_le
  have hval := C.value
  subst hval
  have hmono : ∀ c d, c < M.value → 2 * 2 ^ k * d < 2 ^ 64 → ∃ v,
      Ntt.monomial w M t c d (2 ^ k) = some v ∧ Reduced M.value (2 ^ k) v ∧ ∀ i, i < 2 ^ k →
        coeff M.value v i = c * ((t.root : ZMod M.value) ^ (2 * reverseBits k i + 1)) ^ d := by
    intro c d hc hov
    obtain ⟨v, e, etr⟩ := C26_monomial_partial w M.value C.even M C.conf k draws hd t ht c d hc hov
    have hlen : (monomialCoeffs M.value (2 ^ k) c d).length = 2 ^ k := by simp [monomialCoeffs]
    obtain ⟨v', e', lv, hv⟩ := transform_spec T (by omega) h4 (monomialCoeffs M.value (2 ^ k) c d) hlen (by
      intro x hx
      obtain ⟨i, _, rfl⟩ := List.mem_map.1 hx
      have := Nat.mod_lt (M.value - c) (show 0 < M.value by omega)
      split
      · split <;> omega
      · omega)
    rw [etr] at e'
    cases e'
    refine ⟨v, e, ⟨lv, mem_of_getD lv fun i hi => (hv i hi).1⟩, fun i hi => (hv i hi).2.trans ?_⟩
    rw [← evalPoly_eq hlen]
    exact evalPoly_monomial hc (Nat.two_pow_pos k) (root_pow_n T.neg_one)
  refine ⟨T.k_lt, fun c => root_pow_n T.neg_one, fun a b hab i hi => ?_, fun a ha => ?_, fun hk v hv => ?_,
    fun d _ hov => ⟨fun c hc => hmono c d hc hov, ?_, ?_⟩⟩
  · rcases Nat.eq_zero_or_pos k with rfl | hk
    · have := hab 0 (by simp)
      simp only [pow_zero, range_one, sum_singleton, mul_one] at this
      have hi0 : i = 0 := by simpa using hi
      rw [hi0]; exact this
    · have : NeZero M.value := ⟨by omega⟩
      let v := (List.range (2 ^ k)).map fun c =>
        (∑ m ∈ range (2 ^ k), a m * ((t.root : ZMod M.value) ^ (2 * reverseBits k c + 1)) ^ m).val
      have hvl : v.length = 2 ^ k := by simp [v]
      have hvv : ∀ c, c < 2 ^ k → ((v.getD c 0 : Nat) : ZMod M.value) =
          ∑ m ∈ range (2 ^ k), a m * ((t.root : ZMod M.value) ^ (2 * reverseBits k c + 1)) ^ m := by
        intro c hc
        rw [List.getD_eq_getElem _ _ (by rw [hvl]; exact hc)]
        simp [v]
      have hvb : ∀ x ∈ v, x < 2 * M.value := by
        intro x hx
        obtain ⟨c, _, rfl⟩ := List.mem_map.1 hx
        exact (ZMod.val_lt _).trans (by omega)
      obtain ⟨o, e, _, ho⟩ := inverse_spec T (by omega) h4 hk v hvl hvb a hvv
      obtain ⟨o', e', _, ho'⟩ := inverse_spec T (by omega) h4 hk v hvl hvb b
        (fun c hc => (hvv c hc).trans (hab c hc))
      rw [e] at e'
      cases e'
      rw [← (ho i hi).2, (ho' i hi).2]
  · obtain ⟨v, e, l, hv⟩ := transform_spec T (by omega) h4 a ha.1 (fun x hx => by have := ha.2 x hx; omega)
    exact ⟨v, e, ⟨l, mem_of_getD l fun i hi => (hv i hi).1⟩, fun c hc => (hv c hc).2⟩
  · obtain ⟨a, e, la, ba, ha⟩ := inverse_unique T (by omega) h4 hk v hv.1 hv.2
    refine ⟨a, e, ⟨la, ba⟩, fun c hc => (ha c hc).trans ?_⟩
    rw [evalPoly_eq la]; rfl
  · obtain ⟨v, e, hv, hc⟩ := hmono 1 d (by omega) hov
    rw [← (C26_signed_monomials w M.value C.even M C.conf k draws hd t ht d).1] at e
    exact ⟨v, e, hv, fun i hi => by rw [hc i hi, Nat.cast_one, one_mul]⟩
  · obtain ⟨v, e, hv, hc⟩ := hmono (M.value - 1) d (by omega) hov
    rw [← (C26_signed_monomials w M.value C.even M C.conf k draws hd t ht d).2] at e
    refine ⟨v, e, hv, fun i hi => ?_⟩
    rw [hc i hi, Nat.cast_sub (by omega), ZMod.natCast_self, zero_sub, Nat.cast_one, neg_one_mul]

theorem concrete_evaluates {w q : Nat} [Fact q.Prime] {M : Barrett} (C : Config w q M) {k : Nat}
    {lib : PlanLibrary} (hl : LibraryOk w q lib) {t : ConcreteTable} (hw : w = 32 ∨ w = 64)
    (ht : Concrete.new w M lib k = some (some t)) : ∃ pt, Evaluates w M (.concrete t) pt k := by
  have hval := C.value
  have h4 := C.four_mul_lt
  subst hval
  have hk : k < 64 := by
    unfold Concrete.new at ht
    by_contra hk
    unfold shlC at ht
    rw [if_neg hk] at ht
    cases ht
  unfold Concrete.new at ht
  rw [mbind (shlC_one hk)] at ht
  obtain ⟨p, hp, htp⟩ : ∃ p, lib (2 ^ k) M.value = some p ∧ t.plan = p := by
    split at ht
    · cases ht
    · next p hp =>
      obtain ⟨r, _, e⟩ := Option.bind_eq_some_iff.1 ht
      cases e
      exact ⟨p, hp, rfl⟩
  obtain ⟨-, pt, hpow, hinj, hfwd, hinv, hmono⟩ := hl _ _ hp
  have hn := Nat.two_pow_pos k
  have hptc : ∀ c, c < 2 ^ k → pt (if c < 2 ^ k then c else 0) = pt c := fun c hc => by rw [if_pos hc]
  refine ⟨fun c => pt (if c < 2 ^ k then c else 0), ?_, fun c => hpow _ (by split <;> omega),
    fun a b hab => interpolation_unique hinj a b fun c hc => by simpa only [hptc c hc] using hab c hc,
    fun a ha => ?_, fun _ v hv => ?_, fun d hd _ => ?_⟩
  · -- the `2^k` points are distinct elements of a field of fewer than `2^62` elements
    have hcard : 2 ^ k ≤ M.value := by
      have : NeZero M.value := ⟨(Fact.out : M.value.Prime).ne_zero⟩
      have := Fintype.card_le_of_injective (fun c : Fin (2 ^ k) => pt c)
        (fun c c' e => Fin.ext (hinj c c' c.isLt c'.isLt e))
      rwa [Fintype.card_fin, ZMod.card] at this
    have : 2 ^ w ≤ 2 ^ 64 := Nat.pow_le_pow_right (by omega) (by omega)
    have : 2 ^ k < 2 ^ 62 := by omega
    have := (Nat.pow_lt_pow_iff_right (by omega)).1 this
    omega
  · obtain ⟨v, e, hv, h⟩ := hfwd a ha
    refine ⟨v, by rw [← htp] at e; exact e, hv, fun c hc => ?_⟩
    simpa only [hptc c hc] using h c hc
  · obtain ⟨u, a, e, e', ha, h⟩ := hinv v hv
    rw [← htp] at e e'
    refine ⟨a, ?_, ha, fun c hc => ?_⟩
    · show Concrete.inverse t v = some a
      unfold Concrete.inverse
      rw [mbind e, e']
    · simpa only [hptc c hc] using h c hc
  · rw [← htp] at hmono
    obtain ⟨h1, ⟨v, e, hv, h2⟩, ⟨v', e', hv', h3⟩⟩ := hmono d hd
    refine ⟨fun c hc => ?_, ⟨v, e, hv, fun i hi => ?_⟩, ⟨v', e', hv', fun i hi => ?_⟩⟩
    · obtain ⟨v, e, hv, h⟩ := h1 c hc
      exact ⟨v, e, hv, fun i hi => by rw [hptc i hi]; exact h i hi⟩
    · rw [hptc i hi]; exact h2 i hi
    · rw [hptc i hi]; exact h3 i hi

/-- A table generated by either build. -/
theorem generate_evaluates {w q : Nat} [Fact q.Prime] {M : Barrett} (C : Config w q M) {k : Nat}
    {feature : Option PlanLibrary} (hl : ∀ lib, feature = some lib → LibraryOk w q lib)
    {draws : List Nat} (hd : ∀ x ∈ draws, 2 ≤ x ∧ x < q) {t : Table}
    (ht : Table.generate w M feature k draws = some (some t)) : ∃ pt, Evaluates w M t pt k := by
  have hnat : (Ntt.generate w M k draws).map (Option.map Table.native) = some (some t) →
      ∃ pt, Evaluates w M t pt k := by
    intro h
    obtain ⟨x, hx, e⟩ := Option.map_eq_some_iff.1 h
    obtain ⟨y, rfl, rfl⟩ := Option.map_eq_some_iff.1 e
    exact ⟨_, native_evaluates C hd hx⟩
  unfold Table.generate at ht
  split at ht
  · next lib =>
    split at ht
    · next hw =>
      obtain ⟨x, hx, e⟩ := Option.map_eq_some_iff.1 ht
      obtain ⟨y, rfl, rfl⟩ := Option.map_eq_some_iff.1 e
      exact concrete_evaluates C (hl lib rfl) hw hx
    · exact hnat ht
  · exact hnat ht

namespace Evaluates
variable {w : Nat} {M : Barrett} {t : Table} {pt : Nat → ZMod M.value} {k : Nat} (T : Evaluates w M t pt k)
include T

/-- The inverse transform returns the coefficients whose values it is given. -/
theorem inv_eq (hk : 0 < k) {v : List Nat} (hv : Reduced (2 * M.value) (2 ^ k) v) (p : Nat → ZMod M.value)
    (hp : ∀ c, c < 2 ^ k → coeff M.value v c = ∑ m ∈ range (2 ^ k), p m * pt c ^ m) :
    ∃ a, t.inverse w M v = some a ∧ Reduced M.value (2 ^ k) a ∧ ∀ i, i < 2 ^ k → coeff M.value a i = p i := by
  obtain ⟨a, e, ha, h⟩ := T.inv hk v hv
  exact ⟨a, e, ha, T.uniq _ _ fun c hc => (h c hc).symm.trans (hp c hc)⟩

/-- A table of size at least 2 needs an odd modulus. -/
theorem ne_two (hk : 0 < k) : M.value ≠ 2 := by
  intro h
  have hall : ∀ x : ZMod M.value, x = 0 ∨ x = 1 := by rw [h]; exact zmod_two_cases
  have hnt : (0 : ZMod M.value) ≠ 1 := by rw [h]; decide
  have hpt : ∀ c, pt c = 1 := fun c => (hall (pt c)).resolve_left fun h0 => by
    have := T.pow c
    rw [h0, zero_pow (Nat.two_pow_pos k).ne'] at this
    exact hnt (by linear_combination -this)
  have h2 : 1 < 2 ^ k := Nat.one_lt_two_pow (by omega)
  refine hnt (T.uniq (fun m => if m = 1 then 1 else 0) (fun m => if m = 0 then 1 else 0) (fun c _ => ?_) 0
    (by omega))
  rw [hpt c]
  simp only [one_pow, mul_one]
  rw [sum_ite_eq' _ 1, sum_ite_eq' _ 0, if_pos (mem_range.2 h2), if_pos (mem_range.2 (by omega))]

end Evaluates
end Verif
