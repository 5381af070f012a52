import Verif.Lemmas.Evaluates
import Verif.Props.Basis

/-! # C22, C25, C50: polynomial arithmetic -/

namespace Verif.Props
open Fp Finset Spec Ntt

theorem pointwise {q n : Nat} {a b : List Nat} (ha : Reduced q n a) {f : Nat → Nat → Option Nat} {g : ZMod q → ZMod q → ZMod q}
    (hb : Reduced q n b)
    (hf : ∀ x y, x < q → y < q → ∃ r, f x y = some r ∧ r < q ∧ (r : ZMod q) = g x y)
    (hg : g 0 0 = 0) :
    ∃ r, Poly.zipAssign f a b = some r ∧ Reduced q n r ∧
      ∀ i, coeff q r i = g (coeff q a i) (coeff q b i) := by
  obtain ⟨out, e, l, ho⟩ := zipAssign_spec hf a b (by rw [ha.1, hb.1]) ha.2 hb.2
  obtain ⟨r1, r2⟩ := reduced_of (g := fun i => g (coeff q a i) (coeff q b i)) (n := n)
    (by rw [l, ha.1]) (fun i hi => ho i (by rw [ha.1]; exact hi)) (by
      intro i hi
      rw [coeff_of_ge (by rw [ha.1]; exact hi), coeff_of_ge (by rw [hb.1]; exact hi), hg])
  exact ⟨out, e, r1, r2⟩

theorem pointwise1 {q n : Nat} {a : List Nat} (ha : Reduced q n a) {f : Nat → Option Nat} {g : ZMod q → ZMod q}
    (hf : ∀ x, x < q → ∃ r, f x = some r ∧ r < q ∧ (r : ZMod q) = g x) (hg : g 0 = 0) :
    ∃ r, a.mapM f = some r ∧ Reduced q n r ∧ ∀ i, coeff q r i = g (coeff q a i) := by
  obtain ⟨out, e, l, ho⟩ := mapM_spec hf a ha.2
  obtain ⟨r1, r2⟩ := reduced_of (g := fun i => g (coeff q a i)) (n := n)
    (by rw [l, ha.1]) (fun i hi => ho i (by rw [ha.1]; exact hi)) (by
      intro i hi
      rw [coeff_of_ge (by rw [ha.1]; exact hi), hg])
  exact ⟨out, e, r1, r2⟩

section C22
variable (w q : Nat) (hw : w % 2 = 0) (M : Barrett) (h : Fp.config w q = some M) (n : Nat)
  (a b : List Nat) (ha : Reduced q n a) (hb : Reduced q n b)
include hw h ha

include hb

/-- C22: the sum has the sums of the coefficients; the in-place form with a destination of the same
length gives the same list, whatever was in the destination. -/
theorem C22_add : ∃ r, Poly.add w M a b = some r ∧ Reduced q n r ∧
    (∀ i, coeff q r i = coeff q a i + coeff q b i) ∧
    ∀ dest, dest.length = n → Poly.addInplace w M a b dest = some r := by
  obtain ⟨r, e, r1, r2⟩ := pointwise ha hb (f := Fp.add w M) (g := (· + ·))
    (fun x y hx hy => (C49_field_ops w q hw M h x y x 0 hx hy hx (by positivity)).2.2.2.1) (by simp)
  refine ⟨r, ?_, r1, r2, fun dest hd => ?_⟩
  · unfold Poly.add; rw [if_pos (by rw [ha.1, hb.1]), e]
  · unfold Poly.addInplace
    rw [zip3Assign_eq _ _ _ (by rw [ha.1, hb.1]) (by rw [ha.1, hd]), e]

/-- C22: the same for the three forms of subtraction. -/
theorem C22_sub : ∃ r, Poly.sub w M a b = some r ∧ Poly.subAssign w M a b = some r ∧
    Reduced q n r ∧ (∀ i, coeff q r i = coeff q a i - coeff q b i) ∧
    ∀ dest, dest.length = n → Poly.subInplace w M a b dest = some r := by
  obtain ⟨r, e, r1, r2⟩ := pointwise ha hb (f := Fp.sub w M) (g := (· - ·))
    (fun x y hx hy => (C49_field_ops w q hw M h x y x 0 hx hy hx (by positivity)).2.2.2.2.1) (by simp)
  obtain ⟨r', e', r1', r2'⟩ := pointwise ha hb (f := Fp.subAssign w M) (g := (· - ·))
    (fun x y hx hy =>
      (C49_field_ops w q hw M h x y x 0 hx hy hx (by positivity)).2.2.2.2.2.1) (by simp)
  have : r' = r := list_ext_of_cast (q := q) r1'.1 r1.1
    (fun i hi => r1'.2 _ (getD_mem _ (by rw [r1'.1]; exact hi)))
    (fun i hi => r1.2 _ (getD_mem _ (by rw [r1.1]; exact hi)))
    (fun i _ => (r2' i).trans (r2 i).symm)
  subst this
  refine ⟨r', ?_, ?_, r1, r2, fun dest hd => ?_⟩
  · unfold Poly.sub; rw [if_pos (by rw [ha.1, hb.1]), e]
  · unfold Poly.subAssign; rw [if_pos (by rw [ha.1, hb.1]), e']
  · unfold Poly.subInplace
    rw [zip3Assign_eq _ _ _ (by rw [ha.1, hb.1]) (by rw [ha.1, hd]), e]

omit hb

/-- C22: negation, scalar multiplication, and Horner evaluation, which is the value of the
polynomial at the point. -/
theorem C22_neg_scalar_evaluate (s : Nat) (hs : s < q) :
    (∃ r, Poly.neg M a = some r ∧ Reduced q n r ∧ ∀ i, coeff q r i = -coeff q a i) ∧
    (∃ r, Poly.mulScalar w M a s = some r ∧ Reduced q n r ∧ ∀ i, coeff q r i = coeff q a i * s) ∧
    (∃ r, Poly.evaluate w M s a = some r ∧ r < q ∧ (r : ZMod q) = evalPoly a (s : ZMod q)) := by
  refine ⟨?_, ?_, ?_⟩
  · exact pointwise1 ha (g := (- ·)) (fun x hx =>
      (C49_field_ops w q hw M h x x x 0 hx hx hx (by positivity)).2.2.2.2.2.2.1) (by simp)
  · exact pointwise1 ha (g := (· * (s : ZMod q))) (fun x hx =>
      (C49_field_ops w q hw M h x s x 0 hx hs hx (by positivity)).2.2.2.2.2.2.2.1) (by simp)
  · have hlt := ha.2
    clear ha
    induction a with
    | nil => exact ⟨0, rfl, by omega, by simp [evalPoly]⟩
    | cons c l ih =>
      obtain ⟨r, e, hr, er⟩ := ih (fun x hx => hlt x (by simp [hx]))
      obtain ⟨p, ep, hp, pc⟩ :=
        (C49_field_ops w q hw M h r s r 0 hr hs hr (by positivity)).2.2.2.2.2.2.2.1
      obtain ⟨o, eo, ho, oc⟩ := (C49_field_ops w q hw M h c p c 0 (hlt c (by simp)) hp
        (hlt c (by simp)) (by positivity)).2.2.2.1
      refine ⟨o, ?_, ho, ?_⟩
      · unfold Poly.evaluate
        rw [mbind e, mbind ep, eo]
      · rw [oc, pc, er, evalPoly, evalPoly, List.length_cons, sum_range_succ', sum_mul]
        simp only [List.getD_cons_succ, List.getD_cons_zero, pow_zero, mul_one]
        rw [add_comm]
        congr 1
        apply sum_congr rfl
        intro i _
        ring

end C22

/-- C22: operands of different lengths are rejected (the assertion of a debug build). -/
theorem C22_length_mismatch (w : Nat) (M : Barrett) (a b : List Nat) (h : a.length ≠ b.length) :
    Poly.add w M a b = none ∧ Poly.sub w M a b = none ∧ Poly.subAssign w M a b = none := by
  simp [Poly.add, Poly.sub, Poly.subAssign, h]

/-- C22: `zero(n)` has only zero coefficients, and `is_zero` recognises exactly the lists with only
zero coefficients. -/
theorem C22_zero (q n : Nat) (a : List Nat) (ha : Reduced q n a) :
    (∀ i, coeff q (Poly.zero n) i = 0) ∧ (Poly.isZero a = true ↔ ∀ i, coeff q a i = 0) ∧
    Poly.setZero a = Poly.zero n := by
  refine ⟨fun i => ?_, ?_, ?_⟩
  · unfold coeff Poly.zero Fp.zero
    by_cases hi : i < n
    · rw [List.getD_eq_getElem _ _ (by simpa using hi)]; simp
    · rw [List.getD_eq_default _ _ (by simp; omega)]; simp
  · unfold Poly.isZero Fp.zero
    rw [Bool.or_eq_true, List.isEmpty_iff, List.all_eq_true]
    constructor
    · intro h i
      unfold coeff
      by_cases hi : i < a.length
      · rcases h with h | h
        · subst h; simp
        · have := h _ (getD_mem 0 hi)
          rw [beq_iff_eq] at this
          rw [this]; simp
      · rw [List.getD_eq_default _ _ (by omega)]; simp
    · intro h
      right
      intro x hx
      obtain ⟨i, hi, rfl⟩ := List.mem_iff_getElem.1 hx
      have h1 := h i
      unfold coeff at h1
      rw [List.getD_eq_getElem _ _ hi, ZMod.natCast_eq_zero_iff] at h1
      have := Nat.eq_zero_of_dvd_of_lt h1 (ha.2 _ hx)
      simp [this]
  · unfold Poly.setZero Poly.zero
    rw [← ha.1, List.map_const']

example : ∃ M, Fp.config 8 61 = some M ∧ Poly.add 8 M [60, 2, 3] [5, 0, 60] = some [4, 2, 2] ∧
    Poly.sub 8 M [60, 2, 3] [5, 0, 60] = some [55, 2, 4] ∧
    Poly.evaluate 8 M 60 [60, 2, 3] = some 0 :=
  ⟨⟨61, 2 ^ 8 * 2 ^ 8 / 61 % 2 ^ 8, 2 ^ 8 * 2 ^ 8 / 61 / 2 ^ 8⟩, by decide +kernel⟩

/-! ## Products -/

/-- The setting of the transform-based operations: a field of width `w` with prime modulus `q` and
Barrett constant `M`, and a table source that holds a generated table for size `2^k`. The build may
or may not use the external transform library; if it does, the library keeps its contract. -/
structure TableField (w q : Nat) (M : Barrett) (tbl : Nat → Option Table) (k : Nat) : Prop where
  even : w % 2 = 0
  conf : Fp.config w q = some M
  table : ∃ feature draws t, (∀ lib, feature = some lib → LibraryOk w q lib) ∧
    (∀ x ∈ draws, 2 ≤ x ∧ x < q) ∧ Table.generate w M feature k draws = some (some t) ∧ tbl k = some t

theorem TableField.evaluates {w q : Nat} [Fact q.Prime] {M : Barrett} {tbl : Nat → Option Table} {k : Nat}
    (F : TableField w q M tbl k) : ∃ t pt, tbl k = some t ∧ Evaluates w M t pt k := by
  obtain ⟨hw, hc, feature, draws, t, hl, hd, hgen, htbl⟩ := F
  obtain ⟨pt, T⟩ := generate_evaluates ⟨hw, hc⟩ hl hd hgen
  exact ⟨t, pt, htbl, T⟩

/-- C25: for `n = 2^k ≥ 2`, multiplying two polynomials through the transform gives the product
modulo `X^n + 1`, reduced; multiplying by the transform form of `b`, or multiplying the two transform
forms and transforming back, gives the same. (For `n = 1` the inverse transform panics, see C24.) -/
theorem C25_mul_partial (w q : Nat) [Fact q.Prime] (M : Barrett) (tbl : Nat → Option Table) (k : Nat)
    (hk : 0 < k) (F : TableField w q M tbl k) (a b : List Nat) (ha : Reduced q (2 ^ k) a)
    (hb : Reduced q (2 ^ k) b) :
    ∃ r, Poly.mul w M tbl a b = some r ∧ Reduced q (2 ^ k) r ∧
      (∀ i, i < 2 ^ k → coeff q r i = negacyclicCoeff (2 ^ k) (coeff q a) (coeff q b) i) ∧
      ∃ va vb p, Poly.toNtt w M tbl a = some va ∧ Poly.toNtt w M tbl b = some vb ∧
        Poly.mulNtt w M tbl a vb = some r ∧
        Poly.nttMul w M va vb = some p ∧ Poly.ofNtt w M tbl p = some r ∧
        Poly.toNtt w M tbl r = some p := by
  obtain ⟨t, pt, htbl, T⟩ := F.evaluates
  have hw := F.even
  have hc := F.conf
  have C : Config w q M := ⟨hw, hc⟩
  have hval := C.value
  have h4 := C.four_mul_lt
  have h2 := C.two_le
  have hk63 := T.k_lt
  subst hval
  have htf := tableFor_eq (by omega) htbl
  obtain ⟨va, ea, ra, ca⟩ := T.fwd _ ha
  obtain ⟨vb, eb, rb, cb⟩ := T.fwd _ hb
  -- the lazy pointwise product
  obtain ⟨p, ep, lp, hp⟩ := zipAssign_spec (f := Fp.mulFast w M) (P := (· < M.value))
    (Q := (· < M.value)) (R := fun x y r => r < 2 * M.value ∧ (r : ZMod M.value) = x * y)
    (by
      intro x y hx hy
      obtain ⟨r, e, hr, hm⟩ := (C49_fast_ops w M.value hw M hc x y x (by omega) (by omega) (by omega)).1
      refine ⟨r, e, hr, ?_⟩
      rw [← Nat.cast_mul, ZMod.natCast_eq_natCast_iff']
      exact hm) va vb (by rw [ra.1, rb.1]) ra.2 rb.2
  rw [ra.1] at lp hp
  -- the canonical one
  obtain ⟨p', ep', rp', cp'⟩ := pointwise ra rb (f := Fp.mul w M)
    (g := (· * ·)) (fun x y hx hy =>
      (C49_field_ops w M.value hw M hc x y x 0 hx hy hx (by positivity)).2.2.2.2.2.2.2.1) (by simp)
  have key : ∀ c, c < 2 ^ k → coeff M.value va c * coeff M.value vb c =
      ∑ m ∈ range (2 ^ k), negacyclicCoeff (2 ^ k) (coeff M.value a) (coeff M.value b) m *
        pt c ^ m := by
    intro c hc
    rw [ca c hc, cb c hc]
    have := negacyclic_eval (RingHom.id (ZMod M.value)) (n := 2 ^ k) (coeff M.value a)
      (coeff M.value b) (T.pow c)
    simp only [RingHom.id_apply] at this
    rw [this]
  obtain ⟨r, er, rr0, hr⟩ := T.inv_eq hk (v := p) ⟨lp, mem_of_getD lp fun i hi => (hp i hi).1⟩ _
    (fun c hc => by unfold coeff; rw [(hp c hc).2]; exact key c hc)
  obtain ⟨r', er', rr, hr'⟩ := T.inv_eq hk (v := p') ⟨rp'.1, fun x hx => by have := rp'.2 x hx; omega⟩ _
    (fun c hc => by have := cp' c; rw [key c hc] at this; exact this)
  have hrr : r' = r := list_ext_of_cast (q := M.value) rr.1 rr0.1
    (fun i hi => rr.2 _ (getD_mem _ (by rw [rr.1]; exact hi)))
    (fun i hi => rr0.2 _ (getD_mem _ (by rw [rr0.1]; exact hi)))
    (fun i hi => (hr' i hi).trans (hr i hi).symm)
  subst hrr
  obtain ⟨vr, evr, rvr, cvr⟩ := T.fwd _ rr
  have hvr : vr = p' := list_ext_of_cast (q := M.value) rvr.1 rp'.1
    (fun i hi => rvr.2 _ (getD_mem _ (by rw [rvr.1]; exact hi)))
    (fun i hi => rp'.2 _ (getD_mem _ (by rw [rp'.1]; exact hi)))
    (fun i hi => by
      have h1 := cvr i hi
      have h3 := cp' i
      rw [key i hi] at h3
      refine h1.trans (Eq.trans ?_ h3.symm)
      exact sum_congr rfl fun m hm => by rw [hr m (mem_range.1 hm)])
  subst hvr
  have hlen : a.length = b.length := by rw [ha.1, hb.1]
  refine ⟨r', ?_, rr, hr, va, vb, vr, ?_, ?_, ?_, ?_, ?_, ?_⟩
  · unfold Poly.mul Poly.mulFastAssign
    rw [if_pos hlen, ha.1, mbind htf, mbind eb, mbind ea, mbind ep, er]
  · unfold Poly.toNtt; rw [ha.1, mbind htf, ea]
  · unfold Poly.toNtt; rw [hb.1, mbind htf, eb]
  · unfold Poly.mulNtt Poly.mulFastAssign
    rw [if_pos (by rw [ha.1, rb.1]), ha.1, mbind htf, mbind ea, mbind ep, er]
  · unfold Poly.nttMul; rw [if_pos (by rw [ra.1, rb.1]), ep']
  · unfold Poly.ofNtt; rw [rp'.1, mbind htf, er']
  · unfold Poly.toNtt; rw [rr.1, mbind htf, evr]

/-- C25: the fused multiply-add on transform forms adds the pointwise product; the lazy version does
so for any words, modulo `q`, with entries below `2q`. -/
theorem C25_add_mul (w q : Nat) (hw : w % 2 = 0) (M : Barrett) (h : Fp.config w q = some M) (n : Nat)
    (a b c : List Nat) :
    (Reduced q n a → Reduced q n b → Reduced q n c → ∃ r, Poly.nttAddMul w M a b c = some r ∧
      Reduced q n r ∧ ∀ i, coeff q r i = coeff q a i + coeff q b i * coeff q c i) ∧
    (Reduced (2 ^ w) n a → Reduced (2 ^ w) n b → Reduced (2 ^ w) n c →
      ∃ r, Poly.nttAddMulFast w M a b c = some r ∧ Reduced (2 * q) n r ∧
        ∀ i, coeff q r i = coeff q a i + coeff q b i * coeff q c i) := by
  constructor
  · intro ha hb hc
    obtain ⟨r, e, l, hr⟩ := fmaAssign_spec (f := Fp.addMul w M) (P := (· < q)) (Q := (· < q))
      (S := (· < q)) (R := fun x y z r => r < q ∧ (r : ZMod q) = (x : ZMod q) + y * z)
      (fun x y z hx hy hz =>
        (C49_field_ops w q hw M h y z x 0 hy hz hx (by positivity)).2.2.2.2.2.2.2.2.2)
      a b c (by rw [ha.1, hb.1]) (by rw [ha.1, hc.1]) ha.2 hb.2 hc.2
    rw [ha.1] at l hr
    obtain ⟨r1, r2⟩ := reduced_of (g := fun i => coeff q a i + coeff q b i * coeff q c i) l hr
      (fun i hi => by
        rw [coeff_of_ge (by rw [ha.1]; exact hi), coeff_of_ge (by rw [hb.1]; exact hi)]; simp)
    exact ⟨r, e, r1, r2⟩
  · intro ha hb hc
    obtain ⟨r, e, l, hr⟩ := fmaAssign_spec (f := Fp.addMulFast w M) (P := (· < 2 ^ w))
      (Q := (· < 2 ^ w)) (S := (· < 2 ^ w))
      (R := fun x y z r => r < 2 * q ∧ (r : ZMod q) = (x : ZMod q) + y * z)
      (fun x y z hx hy hz => by
        obtain ⟨r, e, hr, hm⟩ := (C49_fast_ops w q hw M h y z x hy hz hx).2
        refine ⟨r, e, hr, ?_⟩
        rw [← Nat.cast_mul, ← Nat.cast_add, ZMod.natCast_eq_natCast_iff']
        exact hm)
      a b c (by rw [ha.1, hb.1]) (by rw [ha.1, hc.1]) ha.2 hb.2 hc.2
    rw [ha.1] at l hr
    refine ⟨r, e, ⟨l, mem_of_getD l fun i hi => (hr i hi).1⟩, fun i => ?_⟩
    by_cases hi : i < n
    · exact (hr i hi).2
    · rw [coeff_of_ge (by omega), coeff_of_ge (by rw [ha.1]; omega), coeff_of_ge (by rw [hb.1]; omega)]
      simp

/-! ## Inverse -/

theorem inv_spec {w q : Nat} [hp : Fact q.Prime] {M : Barrett} (hw : w % 2 = 0)
    (h : Fp.config w q = some M) (x : Nat) (hx : x < q) :
    ∃ r, Fp.inv w M x = some r ∧ r < q ∧ (q ≠ 2 → (r : ZMod q) = (x : ZMod q)⁻¹) := by
  by_cases h0 : x = 0
  · subst h0
    have C : Config w q M := ⟨hw, h⟩
    have h4 := C.four_mul_lt
    have h2 := C.two_le
    obtain ⟨r, e1, e2, e3⟩ := (C49_field_ops w q hw M h 0 0 0 (q - 2) hx hx hx
      (by omega)).2.2.2.2.2.2.2.2.1
    refine ⟨r, ?_, e2, fun hq => ?_⟩
    · unfold Fp.inv
      rw [C.value, mbind (subC_eq h2), e1]
    · rw [e3]; simp [show q - 2 ≠ 0 by omega]
  · obtain ⟨r, e1, e2, e3⟩ := (C49_field_division w q hw M h x x hx hx h0).1
    exact ⟨r, e1, e2, fun _ => e3⟩

/-- C50: the polynomial inverse never panics for `n ≥ 2`; its result, multiplied with the polynomial,
is 1 at every evaluation point where the polynomial does not vanish, and 0 at the others. -/
theorem C50_inv_partial (w q : Nat) [Fact q.Prime] (M : Barrett) (tbl : Nat → Option Table) (k : Nat)
    (hk : 0 < k) (F : TableField w q M tbl k) (a : List Nat) (ha : Reduced q (2 ^ k) a) :
    ∃ r p v, Poly.inv w M tbl a = some r ∧ Reduced q (2 ^ k) r ∧ Poly.mul w M tbl a r = some p ∧
      Poly.toNtt w M tbl a = some v ∧
      ((∀ i, i < 2 ^ k → coeff q v i ≠ 0) → p = 1 :: List.replicate (2 ^ k - 1) 0) ∧
      (∃ e, Poly.toNtt w M tbl p = some e ∧ ∀ i, i < 2 ^ k →
        coeff q e i = if coeff q v i = 0 then 0 else 1) := by
  obtain ⟨t, pt, htbl, T⟩ := F.evaluates
  have hw := F.even
  have hc := F.conf
  have C : Config w q M := ⟨hw, hc⟩
  have hval := C.value
  have h4 := C.four_mul_lt
  have h2 := C.two_le
  have hk63 := T.k_lt
  subst hval
  have htf := tableFor_eq (by omega) htbl
  obtain ⟨v, ev, rv, cv⟩ := T.fwd _ ha
  obtain ⟨i, ei, ri, ci⟩ := pointwise1 rv (f := Fp.inv w M) (g := (·⁻¹)) (fun x hx => by
    obtain ⟨r, h1, h2, h3⟩ := inv_spec hw hc x hx
    exact ⟨r, h1, h2, h3 (T.ne_two hk)⟩) (by simp)
  obtain ⟨r, er, rr, hr⟩ := T.inv hk i ⟨ri.1, fun x hx => by have := ri.2 x hx; omega⟩
  obtain ⟨p, ep, rp, cp, va, vr, vp, e1, e2, e3, e4, e5, e6⟩ :=
    C25_mul_partial w M.value M tbl k hk F a r ha rr
  have hva : va = v := by
    unfold Poly.toNtt at e1
    rw [ha.1, mbind htf, ev] at e1
    exact (Option.some.inj e1).symm
  subst hva
  obtain ⟨vr', ev', rv', cv'⟩ := T.fwd _ rr
  have hvr : vr = vr' := by
    unfold Poly.toNtt at e2
    rw [rr.1, mbind htf, ev'] at e2
    exact (Option.some.inj e2).symm
  subst hvr
  have hvp : ∀ c, c < 2 ^ k → coeff M.value vp c =
      if coeff M.value va c = 0 then 0 else 1 := by
    intro c hc'
    obtain ⟨p', ep', _, cp'⟩ := pointwise rv rv' (f := Fp.mul w M)
      (g := (· * ·)) (fun x y hx hy =>
      (C49_field_ops w M.value hw M hc x y x 0 hx hy hx (by positivity)).2.2.2.2.2.2.2.1) (by simp)
    unfold Poly.nttMul at e4
    rw [if_pos (by rw [rv.1, rv'.1]), ep'] at e4
    have := Option.some.inj e4
    subst this
    rw [cp' c]
    have h5 := cv' c hc'
    have h6 := hr c hc'
    have h7 := ci c
    rw [show coeff M.value vr c = (coeff M.value va c)⁻¹ by rw [h5, ← h7, h6]]
    split
    · next hz => rw [hz]; simp
    · next hz => exact mul_inv_cancel₀ hz
  refine ⟨r, p, va, ?_, rr, ep, e1, fun hne => ?_, vp, e6, hvp⟩
  · unfold Poly.inv
    rw [mbind e1]
    unfold Poly.nttInv
    rw [mbind ei]
    unfold Poly.ofNtt
    rw [ri.1, mbind htf, er]
  · -- the constant polynomial 1 has the same values
    have hpos := Nat.two_pow_pos k
    have hlen : (1 :: List.replicate (2 ^ k - 1) 0).length = 2 ^ k := by simp; omega
    have hone : ∀ m, ((((1 :: List.replicate (2 ^ k - 1) 0 : List Nat)).getD m 0 : Nat) : ZMod M.value) =
        if m = 0 then 1 else 0 := by
      intro m
      cases m with
      | zero => simp
      | succ m =>
        rw [List.getD_cons_succ, if_neg (by omega)]
        by_cases hm : m < 2 ^ k - 1
        · rw [List.getD_eq_getElem _ _ (by simpa using hm)]; simp
        · rw [List.getD_eq_default _ _ (by simp; omega)]; simp
    have hvpl : vp.length = 2 ^ k := by
      obtain ⟨v1, h1, h3, _⟩ := T.fwd _ rp
      unfold Poly.toNtt at e6
      rw [rp.1, mbind htf, h1] at e6
      rw [← Option.some.inj e6]; exact h3.1
    have hvpr : ∀ x ∈ vp, x < 2 * M.value := by
      obtain ⟨v1, h1, h3, _⟩ := T.fwd _ rp
      unfold Poly.toNtt at e6
      rw [rp.1, mbind htf, h1] at e6
      rw [← Option.some.inj e6]
      intro x hx; have := h3.2 x hx; omega
    obtain ⟨o, eo, ro, ho⟩ := T.inv_eq hk ⟨hvpl, hvpr⟩
      (fun m => if m = 0 then 1 else 0) (by
        intro c hc'
        have := hvp c hc'
        rw [if_neg (hne c hc')] at this
        rw [this, sum_eq_single 0]
        · simp
        · intro m _ hm; simp [hm]
        · intro hm; exact absurd (mem_range.2 hpos) hm)
    have hop : o = p := by
      unfold Poly.ofNtt at e5
      rw [hvpl, mbind htf, eo] at e5
      -- `ofNtt vp` is `p`, the product
      exact Option.some.inj e5
    subst hop
    apply list_ext_of_cast (q := M.value) ro.1 hlen
      (fun i hi => ro.2 _ (getD_mem _ (by rw [ro.1]; exact hi)))
    · intro i hi
      have : (1 :: List.replicate (2 ^ k - 1) 0).getD i 0 ≤ 1 := by
        cases i with
        | zero => simp
        | succ m =>
          rw [List.getD_cons_succ]
          by_cases hm : m < 2 ^ k - 1
          · rw [List.getD_eq_getElem _ _ (by simpa using hm)]; simp
          · rw [List.getD_eq_default _ _ (by simp; omega)]; simp
      omega
    · intro i hi
      rw [hone]; exact ho i hi

/-- The table source holding the tables for `q = 17`. -/
def tbl17 : Nat → Option Table := fun k => (Table.generate 8 barrett17 none k [3]).join

-- the hypotheses are met with q = 17 on bytes, n = 4
theorem tbl17_field : TableField 8 17 barrett17 tbl17 2 :=
  have h : Table.generate 8 barrett17 none 2 [3] = some (some (.native (table17 2 (by decide +kernel)))) := by
    unfold Table.generate
    rw [table17_eq 2 (by decide +kernel)]; rfl
  ⟨by decide, by decide +kernel, none, [3], _, by simp, by decide, h, by unfold tbl17; rw [h]; rfl⟩

example : Reduced 17 4 [1, 2, 3, 4] ∧
    Poly.mul 8 barrett17 tbl17 [1, 2, 3, 4] [0, 16, 0, 5] = some [11, 1, 12, 2] := by
  refine ⟨⟨rfl, by decide⟩, by decide +kernel⟩
example : Poly.inv 8 barrett17 tbl17 [0, 3, 0, 0] = some [0, 0, 0, 11] ∧
    Poly.mul 8 barrett17 tbl17 [0, 3, 0, 0] [0, 0, 0, 11] = some [1, 0, 0, 0] := by decide +kernel

/-- C50: there is no invertibility check: for `X - 2` modulo 17 and `X^4 + 1`, which is not invertible
(2 is a root of `X^4 + 1`), `inv` silently returns a polynomial that is not an inverse. -/
theorem C50_not_invertible : ∃ r p, Poly.inv 8 barrett17 tbl17 [15, 1, 0, 0] = some r ∧
    Poly.mul 8 barrett17 tbl17 [15, 1, 0, 0] r = some p ∧ p ≠ [1, 0, 0, 0] := by
  have h : (Poly.inv 8 barrett17 tbl17 [15, 1, 0, 0] >>= fun r =>
      Poly.mul 8 barrett17 tbl17 [15, 1, 0, 0] r).any (· ≠ [1, 0, 0, 0]) = true := by decide +kernel
  match h1 : Poly.inv 8 barrett17 tbl17 [15, 1, 0, 0] with
  | none => rw [h1] at h; exact absurd h (by decide)
  | some r =>
    rw [h1] at h
    match h2 : Poly.mul 8 barrett17 tbl17 [15, 1, 0, 0] r with
    | none =>
      rw [Option.bind_eq_bind, Option.bind_some, h2] at h
      exact absurd h (by decide)
    | some p =>
      rw [Option.bind_eq_bind, Option.bind_some, h2] at h
      exact ⟨r, p, rfl, h2, by simpa using h⟩

/-! ## Decomposition of a polynomial -/

/-- The digit `j` of a word. -/
theorem decomposeLsb_spec {w bits : Nat} {B : Basis} (hb : B.bits = bits) (hm : B.mask = 2 ^ bits - 1)
    (hw : bits < w) : ∀ a : List Nat,
    Poly.decomposeLsb w B a = some (a.map (· % 2 ^ bits), a.map (· / 2 ^ bits))
  | [] => rfl
  | x :: xs => by
    unfold Poly.decomposeLsb Basis.decomposeLsb
    rw [mbind (a := (x % 2 ^ bits, x / 2 ^ bits)) (by
      unfold shrC
      rw [hb, hm, if_pos hw, and_mask']; rfl)]
    dsimp only
    rw [mbind (decomposeLsb_spec hb hm hw xs)]
    rfl

theorem decomposeLoop_spec {w bits : Nat} {B : Basis} (hb : B.bits = bits) (hm : B.mask = 2 ^ bits - 1)
    (hw : bits < w) : ∀ (k : Nat) (a : List Nat),
    Poly.decomposeLoop w B k a = some
      ((List.range k).map fun j => a.map fun x => x / 2 ^ (bits * j) % 2 ^ bits,
        a.map (· / 2 ^ (bits * k)))
  | 0, a => by simp [Poly.decomposeLoop]
  | k + 1, a => by
    unfold Poly.decomposeLoop
    rw [mbind (decomposeLsb_spec hb hm hw a)]
    dsimp only
    rw [mbind (decomposeLoop_spec hb hm hw k _)]
    have e : ∀ x j, x / 2 ^ bits / 2 ^ (bits * j) = x / 2 ^ (bits * (j + 1)) := by
      intro x j
      rw [Nat.div_div_eq_div_mul, ← pow_add, Nat.mul_succ, Nat.add_comm]
    simp only [List.map_map, List.range_succ_eq_map, List.map_cons, Nat.mul_zero, pow_zero, Nat.div_one,
      Function.comp_def, e]
    rfl

/-- C20: decomposing a polynomial gives `decompose_len` digit polynomials whose coefficients are below
the basis and whose combination with the powers of the basis is the polynomial, coefficient by
coefficient; what is left in `self` is zero. -/
theorem C20_polynomial (w q bits : Nat) (hq : q < 2 ^ w) (hq2 : 2 ≤ q) (B : Basis)
    (h : Basis.new w q bits = some B) (n : Nat) (a : List Nat) (ha : Reduced q n a) :
    ∃ ds, Poly.decompose w B a = some (ds, Poly.zero n) ∧ ds.length = B.decomposeLen ∧
      (∀ d ∈ ds, Reduced (2 ^ bits) n d) ∧
      ∀ i, i < n → a.getD i 0 = wordsValue bits (ds.map fun d => d.getD i 0) := by
  obtain ⟨_, _, hbits, hmask, hwb, _, _, _⟩ := new_basis hq h
  have hlen := len_bounds hq hq2 h
  refine ⟨(List.range B.decomposeLen).map fun j => a.map fun x => x / 2 ^ (bits * j) % 2 ^ bits,
    ?_, ?_, ?_, ?_⟩
  · unfold Poly.decompose
    rw [decomposeLoop_spec hbits hmask hwb]
    congr 2
    unfold Poly.zero Fp.zero
    rw [← ha.1, ← List.map_const']
    apply List.map_congr_left
    intro x hx
    have := ha.2 x hx
    exact Nat.div_eq_of_lt (by omega)
  · simp
  · intro d hd
    obtain ⟨j, _, rfl⟩ := List.mem_map.1 hd
    refine ⟨by simpa using ha.1, ?_⟩
    intro x hx
    obtain ⟨y, _, rfl⟩ := List.mem_map.1 hx
    exact Nat.mod_lt _ (Nat.two_pow_pos _)
  · intro i hi
    rw [List.map_map]
    have e : ((fun d : List Nat => d.getD i 0) ∘ fun j => a.map fun x => x / 2 ^ (bits * j) % 2 ^ bits) =
        fun j => a.getD i 0 / 2 ^ (bits * j) % 2 ^ bits := by
      funext j
      simp only [Function.comp]
      rw [List.getD_eq_getElem _ _ (by simpa [ha.1] using hi), List.getElem_map,
        List.getD_eq_getElem _ _ (by rw [ha.1]; exact hi)]
    rw [e]
    have hx := ha.2 _ (getD_mem 0 (l := a) (k := i) (by rw [ha.1]; exact hi))
    revert hx
    generalize a.getD i 0 = x
    intro hx
    have hdig : ∀ k x, digits bits k x = (List.range k).map fun j => x / 2 ^ (bits * j) % 2 ^ bits := by
      intro k
      induction k with
      | zero => intro x; rfl
      | succ k ih =>
        intro x
        rw [digits, ih, List.range_succ_eq_map, List.map_cons, List.map_map]
        simp only [Nat.mul_zero, pow_zero, Nat.div_one, Function.comp_def]
        congr 1
        apply List.map_congr_left
        intro j _
        rw [Nat.div_div_eq_div_mul, ← pow_add, Nat.mul_succ, Nat.add_comm]
    rw [← hdig, digits_value _ _ _ (by omega)]

/-- C22: the in-place multiply-accumulate keeps the length and the coefficients beyond the shorter
operand, whatever the operands. -/
theorem C22_update_keeps_rest (f : Nat → Nat → Nat → Option Nat) : ∀ (a b c r : List Nat),
    Poly.fmaAssign f a b c = some r →
    r.length = a.length ∧ ∀ i, min b.length c.length ≤ i → r.getD i 0 = a.getD i 0
  | [], b, c, r, h => by
    have : r = [] := by cases b <;> cases c <;> simpa [Poly.fmaAssign] using h.symm
    subst this; simp
  | x :: a, [], c, r, h => by
    have : x :: a = r := by simpa [Poly.fmaAssign] using h
    subst this; simp
  | x :: a, y :: b, [], r, h => by
    have : x :: a = r := by simpa [Poly.fmaAssign] using h
    subst this; simp
  | x :: a, y :: b, z :: c, r, h => by
    unfold Poly.fmaAssign at h
    match h1 : f x y z with
    | none => rw [h1] at h; simp at h
    | some d =>
      rw [mbind h1] at h
      match h2 : Poly.fmaAssign f a b c with
      | none => rw [h2] at h; simp at h
      | some ds =>
        rw [mbind h2] at h
        cases h
        obtain ⟨hl, hr⟩ := C22_update_keeps_rest f a b c ds h2
        refine ⟨by simp [hl], fun i hi => ?_⟩
        cases i with
        | zero => simp at hi
        | succ i =>
          simp only [List.length_cons] at hi
          simpa using hr i (by omega)

example : Poly.nttAddMul 8 barrett17 [1, 2, 3] [2, 2] [5, 6, 7] = some [11, 14, 3] := by
  decide +kernel

end Verif.Props
