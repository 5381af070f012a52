import Verif.Props.RLWE
import Verif.Model.RGSW

/-! # Refinement of gadget products -/

namespace Verif
open Fp Finset Spec Ntt Props

/-- The pair of transform forms of a pair of ring elements. -/
structure NRep (R : Ctx) (k : Nat) (t : Table) (B : Nat) (x : NTTRLWE)
    (a b : Rq (ZMod R.M.value) (2 ^ k)) : Prop where
  a : NttRep R k t B x.a a
  b : NttRep R k t B x.b b

/-- The pair of coefficient forms. -/
structure CRep (R : Ctx) (k : Nat) (x : RLWE) (a b : Rq (ZMod R.M.value) (2 ^ k)) : Prop where
  a : Rep R.M.value (2 ^ k) x.a a
  b : Rep R.M.value (2 ^ k) x.b b

section
variable {R : Ctx} {k : Nat} {t : Table} (E : Env R k t)
include E

theorem Env.nontrivial : Nontrivial (ZMod R.M.value) := nontrivial_of E.C

theorem Env.fact : Fact (1 < R.M.value) := fact_of E.C

theorem NRep.toCoeff {x : NTTRLWE} {a b : Rq (ZMod R.M.value) (2 ^ k)}
    (h : NRep R k t (2 * R.M.value) x a b) :
    ∃ y, NTTRLWE.toCoeff R x = some y ∧ CRep R k y a b := by
  obtain ⟨va, ea, ha⟩ := E.ofNtt h.a
  obtain ⟨vb, eb, hb⟩ := E.ofNtt h.b
  exact ⟨⟨va, vb⟩, by unfold NTTRLWE.toCoeff; rw [mbind ea, mbind eb]; rfl, ha, hb⟩

omit E in
theorem NRep.lazy {x : NTTRLWE} {a b : Rq (ZMod R.M.value) (2 ^ k)}
    (h : NRep R k t R.M.value x a b) : NRep R k t (2 * R.M.value) x a b := ⟨h.a.lazy, h.b.lazy⟩

theorem CRep.toNtt {x : RLWE} {a b : Rq (ZMod R.M.value) (2 ^ k)} (h : CRep R k x a b) :
    ∃ y, RLWE.toNtt R x = some y ∧ NRep R k t R.M.value y a b := by
  obtain ⟨va, ea, ha⟩ := E.toNtt h.a
  obtain ⟨vb, eb, hb⟩ := E.toNtt h.b
  exact ⟨⟨va, vb⟩, by unfold RLWE.toNtt; rw [mbind ea, mbind eb]; rfl, ha, hb⟩

omit E in
theorem NRep.zero {B : Nat} (hB : 0 < B) : NRep R k t B (NTTRLWE.zero (2 ^ k)) 0 0 :=
  ⟨NttRep.zero hB, NttRep.zero hB⟩

omit E in
theorem setZero_eq {l : List Nat} {n : Nat} (h : l.length = n) : Poly.setZero l = Poly.zero n := by
  unfold Poly.setZero Poly.zero
  rw [List.map_const', h]

omit E in
theorem NTTRLWE.setZero_eq {x : NTTRLWE} {n : Nat} (ha : x.a.length = n) (hb : x.b.length = n) :
    x.setZero = NTTRLWE.zero n := by
  unfold NTTRLWE.setZero NTTRLWE.zero
  rw [Verif.setZero_eq ha, Verif.setZero_eq hb]

theorem NRep.addMul {x g : NTTRLWE} {d : List Nat} {a b ga gb D : Rq (ZMod R.M.value) (2 ^ k)}
    (h : NRep R k t R.M.value x a b) (hg : NRep R k t R.M.value g ga gb)
    (hd : NttRep R k t R.M.value d D) :
    ∃ o, NTTRLWE.addMul R x g d = some o ∧ NRep R k t R.M.value o (a + ga * D) (b + gb * D) := by
  obtain ⟨oa, ea, ha⟩ := h.a.addMul E hg.a hd
  obtain ⟨ob, eb, hb⟩ := h.b.addMul E hg.b hd
  exact ⟨⟨oa, ob⟩, by unfold NTTRLWE.addMul; rw [mbind ea, mbind eb]; rfl, ha, hb⟩

theorem NRep.addMulFast {x g : NTTRLWE} {d : List Nat} {a b ga gb D : Rq (ZMod R.M.value) (2 ^ k)}
    (h : NRep R k t (2 * R.M.value) x a b) (hg : NRep R k t R.M.value g ga gb)
    (hd : NttRep R k t R.M.value d D) :
    ∃ o, NTTRLWE.addMulFast R x g d = some o ∧
      NRep R k t (2 * R.M.value) o (a + ga * D) (b + gb * D) := by
  obtain ⟨oa, ea, ha⟩ := h.a.addMulFast E hg.a hd
  obtain ⟨ob, eb, hb⟩ := h.b.addMulFast E hg.b hd
  exact ⟨⟨oa, ob⟩, by unfold NTTRLWE.addMulFast; rw [mbind ea, mbind eb]; rfl, ha, hb⟩

theorem CRep.accumulate {x : NTTRLWE} {g : RLWE} {d : List Nat}
    {a b ga gb D : Rq (ZMod R.M.value) (2 ^ k)}
    (h : NRep R k t R.M.value x a b) (hg : CRep R k g ga gb) (hd : NttRep R k t R.M.value d D) :
    ∃ o, GadgetRLWE.accumulate R x g d = some o ∧
      NRep R k t R.M.value o (a + ga * D) (b + gb * D) := by
  obtain ⟨va, ea, ha⟩ := E.toNtt hg.a
  obtain ⟨vb, eb, hb⟩ := E.toNtt hg.b
  obtain ⟨ma, ema, hma⟩ := ha.mul E hd
  obtain ⟨mb, emb, hmb⟩ := hb.mul E hd
  obtain ⟨oa, eoa, hoa⟩ := h.a.add E hma
  obtain ⟨ob, eob, hob⟩ := h.b.add E hmb
  refine ⟨⟨oa, ob⟩, ?_, hoa, hob⟩
  have e1 : RLWE.mulNtt R g d = some ⟨ma, mb⟩ := by
    unfold RLWE.mulNtt
    rw [if_pos ⟨by rw [hg.a.len, hd.len], by rw [hg.b.len, hd.len]⟩, mbind ea, mbind eb, mbind ema,
      mbind emb]; rfl
  unfold GadgetRLWE.accumulate
  rw [mbind e1]
  unfold NTTRLWE.add
  rw [mbind eoa, mbind eob]; rfl

/-- The digit polynomials of the quotient are the later digit polynomials. -/
theorem gadgetLoop_spec {bits : Nat} {B : Basis} (hb : B.bits = bits) (hm : B.mask = 2 ^ bits - 1)
    (hw : bits < R.w) {G : Type} {GR : G → Rq (ZMod R.M.value) (2 ^ k) → Rq (ZMod R.M.value) (2 ^ k) → Prop}
    {K : Nat} {acc : NTTRLWE → G → List Nat → Option NTTRLWE}
    (hacc : ∀ x g d a b ga gb D, NRep R k t K x a b → GR g ga gb → NttRep R k t R.M.value d D →
      ∃ o, acc x g d = some o ∧ NRep R k t K o (a + ga * D) (b + gb * D)) (d0 : G) :
    letI := E.nontrivial
    ∀ (gs : List G) (GA GB : Nat → Rq (ZMod R.M.value) (2 ^ k)) (p : List Nat) (x : NTTRLWE)
      (a b : Rq (ZMod R.M.value) (2 ^ k)),
      (∀ j, j < gs.length → GR (gs.getD j d0) (GA j) (GB j)) →
      Reduced R.M.value (2 ^ k) p → NRep R k t K x a b →
      ∃ o, NTTRLWE.gadgetLoop R B acc gs p x = some o ∧ NRep R k t K o
        (a + ∑ j ∈ range gs.length, GA j * digitPoly R.M.value (2 ^ k) bits p j)
        (b + ∑ j ∈ range gs.length, GB j * digitPoly R.M.value (2 ^ k) bits p j) := by
  intro gs
  have := E.nontrivial
  induction gs with
  | nil =>
    intro GA GB p x a b _ _ hx
    exact ⟨x, rfl, by simpa using hx⟩
  | cons g gs ih =>
    intro GA GB p x a b hg hp hx
    have e1 := decomposeLsb_spec hb hm hw p
    have hd : Rep R.M.value (2 ^ k) (p.map (· % 2 ^ bits))
        (digitPoly R.M.value (2 ^ k) bits p 0) := by
      rw [rep_iff]
      refine ⟨⟨by simpa using hp.1, fun y hy => ?_⟩, ?_⟩
      · obtain ⟨z, hz, rfl⟩ := List.mem_map.1 hy
        have := hp.2 z hz
        have := Nat.mod_le z (2 ^ bits)
        omega
      · ext i
        show ((List.getD _ i.val 0 : Nat) : ZMod R.M.value) = _
        rw [List.getD_eq_getElem _ _ (by simp [hp.1]), List.getElem_map]
        simp only [digitPoly, Nat.mul_zero, pow_zero, Nat.div_one]
        rw [List.getD_eq_getElem _ _ (by rw [hp.1]; exact i.isLt)]
    obtain ⟨dv, ed, hdv⟩ := E.toNtt hd
    obtain ⟨o, eo, ho⟩ := hacc x g _ a b (GA 0) (GB 0) _ hx (hg 0 (by simp)) hdv
    have hp' : Reduced R.M.value (2 ^ k) (p.map (· / 2 ^ bits)) := by
      refine ⟨by simpa using hp.1, fun y hy => ?_⟩
      obtain ⟨z, hz, rfl⟩ := List.mem_map.1 hy
      have := hp.2 z hz
      have := Nat.div_le_self z (2 ^ bits)
      omega
    obtain ⟨o', eo', ho'⟩ := ih (fun j => GA (j + 1)) (fun j => GB (j + 1)) _ o _ _
      (fun j hj => by simpa using hg (j + 1) (by simpa using hj)) hp' ho
    refine ⟨o', ?_, ?_⟩
    · rw [NTTRLWE.gadgetLoop, mbind e1]
      dsimp only
      rw [mbind ed, mbind eo, eo']
    · have hdig : ∀ j, digitPoly R.M.value (2 ^ k) bits (p.map (· / 2 ^ bits)) j =
          digitPoly R.M.value (2 ^ k) bits p (j + 1) := by
        intro j
        ext i
        simp only [digitPoly]
        rw [List.getD_eq_getElem _ _ (by simp [hp.1]), List.getElem_map,
          List.getD_eq_getElem _ _ (by rw [hp.1]; exact i.isLt), Nat.div_div_eq_div_mul, ← pow_add,
          Nat.mul_succ, Nat.add_comm]
      simp only [hdig] at ho'
      rw [List.length_cons, sum_range_succ', sum_range_succ',
        add_comm (∑ j ∈ range gs.length, GA (j + 1) * _), add_comm (∑ j ∈ range gs.length, GB (j + 1) * _),
        ← add_assoc, ← add_assoc]
      exact ho'

end

/-- Recombination of digits. -/
theorem digits_sum (bits : Nat) : ∀ (len x : Nat), x < 2 ^ (bits * len) →
    ∑ j ∈ range len, 2 ^ (bits * j) * (x / 2 ^ (bits * j) % 2 ^ bits) = x
  | 0, x, h => by simp at h ⊢; omega
  | len + 1, x, h => by
    rw [sum_range_succ']
    have hx : x / 2 ^ bits < 2 ^ (bits * len) := by
      rw [Nat.div_lt_iff_lt_mul (Nat.two_pow_pos _), ← pow_add]
      rwa [Nat.mul_succ] at h
    have ih := digits_sum bits len (x / 2 ^ bits) hx
    have e : ∀ j, 2 ^ (bits * (j + 1)) * (x / 2 ^ (bits * (j + 1)) % 2 ^ bits) =
        2 ^ bits * (2 ^ (bits * j) * (x / 2 ^ bits / 2 ^ (bits * j) % 2 ^ bits)) := by
      intro j
      rw [Nat.div_div_eq_div_mul, ← pow_add, Nat.mul_succ, Nat.add_comm (bits * j) bits, pow_add]
      ring
    simp only [e, ← mul_sum, ih, Nat.mul_zero, pow_zero, Nat.div_one, one_mul]
    exact Nat.div_add_mod x (2 ^ bits)

theorem digitPoly_recombine {q n bits len : Nat} [NeZero n] [Nontrivial (ZMod q)] {l : List Nat}
    (hl : Reduced q n l) (hq : q ≤ 2 ^ (bits * len)) :
    ∑ j ∈ range len, Rq.const ((2 ^ (bits * j) : Nat) : ZMod q) * digitPoly q n bits l j =
      Rq.ofWords q n l := by
  have hsum : ∀ (s : Finset Nat) (f : Nat → Rq (ZMod q) n) (i : Fin n),
      (∑ j ∈ s, f j).co i = ∑ j ∈ s, (f j).co i := by
    intro s f i
    induction s using Finset.induction_on with
    | empty => simp
    | insert j s hj ih => rw [sum_insert hj, sum_insert hj, Rq.add_co, ih]
  ext i
  rw [hsum]
  simp only [Rq.const_mul_co, digitPoly, Rq.ofWords, coeff]
  rw [← digits_sum bits len (l.getD i.val 0) (lt_of_lt_of_le
    (hl.2 _ (getD_mem _ (by rw [hl.1]; exact i.isLt))) hq)]
  push_cast
  refine sum_congr rfl fun j _ => ?_
  rw [digits_sum bits len _ (lt_of_lt_of_le
    (hl.2 _ (getD_mem _ (by rw [hl.1]; exact i.isLt))) hq)]

theorem digitPoly_bounded (q n bits : Nat) (l : List Nat) (j : Nat) :
    (digitPoly q n bits l j).Bounded (2 ^ bits - 1) := by
  intro i
  refine ⟨((l.getD i.val 0 / 2 ^ (bits * j) % 2 ^ bits : Nat) : ℤ), ?_, by
    simp only [digitPoly]; rw [Int.cast_natCast]⟩
  rw [Nat.abs_cast]
  have := Nat.mod_lt (l.getD i.val 0 / 2 ^ (bits * j)) (Nat.two_pow_pos bits)
  exact_mod_cast (by omega)

/-- The phase of a gadget product, in the ring: if element `j` has phase `m B^j + e_j`, the sum over
the digits has phase `m p + ∑ d_j e_j`. -/
theorem gadget_phase {q n bits len : Nat} [NeZero n] [Nontrivial (ZMod q)] {l : List Nat}
    (hl : Reduced q n l) (hq : q ≤ 2 ^ (bits * len)) (s m : Rq (ZMod q) n)
    (GA GB e : Nat → Rq (ZMod q) n)
    (h : ∀ j, j < len → rlwePhase s (GA j) (GB j) =
      m * Rq.const ((2 ^ (bits * j) : Nat) : ZMod q) + e j) :
    rlwePhase s (∑ j ∈ range len, GA j * digitPoly q n bits l j)
      (∑ j ∈ range len, GB j * digitPoly q n bits l j) =
    m * Rq.ofWords q n l + ∑ j ∈ range len, digitPoly q n bits l j * e j := by
  rw [← digitPoly_recombine hl hq, rlwePhase, sum_mul, ← sum_sub_distrib, mul_sum, ← sum_add_distrib]
  refine sum_congr rfl fun j hj => ?_
  have := h j (mem_range.1 hj)
  unfold rlwePhase at this
  linear_combination (digitPoly q n bits l j) * this

end Verif
