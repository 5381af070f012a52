import Verif.SpecGadgetLen
import Verif.Model.GadgetNew
import Verif.Props.RGSW

/-! # C102: gadget ciphertexts with any number of elements -/

namespace Verif
open Fp Finset Spec Ntt Props

theorem low_digits_sum (bits x : Nat) : ∀ len : Nat,
    ∑ j ∈ range len, 2 ^ (bits * j) * (x / 2 ^ (bits * j) % 2 ^ bits) = x % 2 ^ (bits * len)
  | 0 => by simp [Nat.mod_one]
  | len + 1 => by
    rw [sum_range_succ, low_digits_sum bits x len]
    simp only [pow_mul]
    rw [Nat.mod_pow_succ]

theorem Rq.sum_co {q n : Nat} [NeZero n] [Nontrivial (ZMod q)] {ι : Type} (s : Finset ι) (f : ι → Rq (ZMod q) n) (i : Fin n) :
    (∑ j ∈ s, f j).co i = ∑ j ∈ s, (f j).co i := by
  classical
  induction s using Finset.induction_on with
  | empty => simp
  | insert j s hj ih => rw [sum_insert hj, sum_insert hj, Rq.add_co, ih]

theorem digitPoly_low {q n bits len : Nat} [NeZero n] [Nontrivial (ZMod q)] (l : List Nat) :
    ∑ j ∈ range len, Rq.const ((2 ^ (bits * j) : Nat) : ZMod q) * digitPoly q n bits l j =
      lowPart q n (2 ^ (bits * len)) l := by
  ext i
  rw [Rq.sum_co]
  simp only [Rq.const_mul_co, digitPoly, lowPart]
  rw [← low_digits_sum bits _ len]
  push_cast
  rfl

theorem gadget_low_phase {q n bits len : Nat} [NeZero n] [Nontrivial (ZMod q)] (l : List Nat)
    (s m : Rq (ZMod q) n) (GA GB e : Nat → Rq (ZMod q) n)
    (h : ∀ j, j < len → rlwePhase s (GA j) (GB j) =
      m * Rq.const ((2 ^ (bits * j) : Nat) : ZMod q) + e j) :
    rlwePhase s (∑ j ∈ range len, GA j * digitPoly q n bits l j)
      (∑ j ∈ range len, GB j * digitPoly q n bits l j) =
    m * lowPart q n (2 ^ (bits * len)) l + ∑ j ∈ range len, digitPoly q n bits l j * e j := by
  rw [← digitPoly_low l, rlwePhase, sum_mul, ← sum_sub_distrib, mul_sum, ← sum_add_distrib]
  refine sum_congr rfl fun j hj => ?_
  have := h j (mem_range.1 hj)
  unfold rlwePhase at this
  linear_combination (digitPoly q n bits l j) * this

theorem lowPart_eq {q n B : Nat} {l : List Nat} (hl : Reduced q n l) (hq : q ≤ B) :
    lowPart q n B l = Rq.ofWords q n l := by
  ext i
  simp only [lowPart, Rq.ofWords, coeff]
  rw [Nat.mod_eq_of_lt (lt_of_lt_of_le (hl.2 _ (getD_mem _ (by rw [hl.1]; exact i.isLt))) hq)]

section
variable {R : Ctx} {k : Nat} {t : Table} (E : Env R k t)
include E

omit E in
theorem Multiples.rep {bits : Nat} {s m : Rq (ZMod R.M.value) (2 ^ k)} [Nontrivial (ZMod R.M.value)]
    {e : Nat → Rq (ZMod R.M.value) (2 ^ k)} {l : List RLWE} (h : Multiples R.M.value (2 ^ k) bits s m e l) :
    ∃ GA GB : Nat → Rq (ZMod R.M.value) (2 ^ k),
      ∀ j, j < l.length → CRep R k (l.getD j ⟨[], []⟩) (GA j) (GB j) ∧
        rlwePhase s (GA j) (GB j) = m * Rq.const ((2 ^ (bits * j) : Nat) : ZMod R.M.value) + e j := by
  have : ∀ j, ∃ a b, j < l.length → CRep R k (l.getD j ⟨[], []⟩) a b ∧
      rlwePhase s a b = m * Rq.const ((2 ^ (bits * j) : Nat) : ZMod R.M.value) + e j := by
    intro j
    by_cases hj : j < l.length
    · obtain ⟨a, b, hr, hp⟩ := hasPhase_iff.1 (h j hj)
      refine ⟨a, b, fun _ => ⟨?_, hp⟩⟩
      rwa [List.getD_eq_getElem _ _ hj]
    · exact ⟨0, 0, fun h => absurd h hj⟩
  choose GA GB hG using this
  exact ⟨GA, GB, hG⟩

theorem NttMultiples.rep {bits : Nat} {s m : Rq (ZMod R.M.value) (2 ^ k)}
    {e : Nat → Rq (ZMod R.M.value) (2 ^ k)} {l : List NTTRLWE} (h : NttMultiples R R.M.value (2 ^ k) bits s m e l) :
    letI := E.nontrivial
    ∃ GA GB : Nat → Rq (ZMod R.M.value) (2 ^ k),
      ∀ j, j < l.length → NRep R k t R.M.value (l.getD j ⟨[], []⟩) (GA j) (GB j) ∧
        rlwePhase s (GA j) (GB j) = m * Rq.const ((2 ^ (bits * j) : Nat) : ZMod R.M.value) + e j := by
  have := E.nontrivial
  have : ∀ j, ∃ a b, j < l.length → NRep R k t R.M.value (l.getD j ⟨[], []⟩) a b ∧
      rlwePhase s a b = m * Rq.const ((2 ^ (bits * j) : Nat) : ZMod R.M.value) + e j := by
    intro j
    by_cases hj : j < l.length
    · obtain ⟨a, b, hr, hp⟩ := (nttHasPhase_iff E (Or.inl rfl)).1 (h j hj)
      refine ⟨a, b, fun _ => ⟨?_, hp⟩⟩
      rwa [List.getD_eq_getElem _ _ hj]
    · exact ⟨0, 0, fun h => absurd h hj⟩
  choose GA GB hG using this
  exact ⟨GA, GB, hG⟩

/-- The accumulating loop over any number of elements. -/
theorem gadget_low_spec {bits : Nat} {B : Basis} (hB : Basis.new R.w R.M.value bits = some B)
    [Nontrivial (ZMod R.M.value)] {G : Type}
    {GR : G → Rq (ZMod R.M.value) (2 ^ k) → Rq (ZMod R.M.value) (2 ^ k) → Prop}
    {K : Nat} (hK : K = R.M.value ∨ K = 2 * R.M.value)
    {acc : NTTRLWE → G → List Nat → Option NTTRLWE}
    (hacc : ∀ x g d a b ga gb D, NRep R k t K x a b → GR g ga gb → NttRep R k t R.M.value d D →
      ∃ o, acc x g d = some o ∧ NRep R k t K o (a + ga * D) (b + gb * D)) (d0 : G)
    {s m φ : Rq (ZMod R.M.value) (2 ^ k)} {e : Nat → Rq (ZMod R.M.value) (2 ^ k)} {gs : List G}
    (hg : ∃ GA GB : Nat → Rq (ZMod R.M.value) (2 ^ k), ∀ j, j < gs.length →
      GR (gs.getD j d0) (GA j) (GB j) ∧
        rlwePhase s (GA j) (GB j) = m * Rq.const ((2 ^ (bits * j) : Nat) : ZMod R.M.value) + e j)
    {p : List Nat} (hp : Reduced R.M.value (2 ^ k) p) {x : NTTRLWE}
    (hx : x.HasPhase R K R.M.value (2 ^ k) s φ) :
    ∃ o, NTTRLWE.gadgetLoop R B acc gs p x = some o ∧
      o.HasPhase R K R.M.value (2 ^ k) s
        (φ + (m * lowPart R.M.value (2 ^ k) (2 ^ (bits * gs.length)) p +
          gadgetError R.M.value (2 ^ k) bits gs.length p e)) := by
  have hq : R.M.value < 2 ^ R.w := by have := E.C.four_mul_lt; omega
  obtain ⟨_, _, hb, hm, hw, _⟩ := new_basis hq hB
  obtain ⟨a, b, hr, rfl⟩ := (nttHasPhase_iff E hK).1 hx
  obtain ⟨GA, GB, hG⟩ := hg
  obtain ⟨o, eo, ho⟩ := gadgetLoop_spec E hb hm hw hacc d0 gs GA GB p x a b
    (fun j hj => (hG j hj).1) hp hr
  refine ⟨o, eo, (nttHasPhase_iff E hK).2 ⟨_, _, ho, ?_⟩⟩
  have := gadget_low_phase p s m GA GB e (fun j hj => (hG j hj).2)
  rw [gadgetError, ← this]
  unfold rlwePhase
  ring

omit E in
theorem digitPoly_zero {bits j : Nat} {p : List Nat} (hp : Reduced R.M.value (2 ^ k) p)
    (hq : R.M.value ≤ 2 ^ (bits * j)) : digitPoly R.M.value (2 ^ k) bits p j = 0 := by
  ext i
  simp only [digitPoly, Rq.zero_co]
  rw [Nat.div_eq_of_lt (lt_of_lt_of_le (hp.2 _ (getD_mem _ (by rw [hp.1]; exact i.isLt))) hq)]
  simp

/-- Elements beyond the digits of the modulus do not change a reduced accumulator. -/
theorem gadgetLoop_extra {bits : Nat} {B : Basis} (hB : Basis.new R.w R.M.value bits = some B) {G : Type}
    {GR : G → Rq (ZMod R.M.value) (2 ^ k) → Rq (ZMod R.M.value) (2 ^ k) → Prop}
    {acc : NTTRLWE → G → List Nat → Option NTTRLWE}
    (hacc : ∀ x g d a b ga gb D, NRep R k t R.M.value x a b → GR g ga gb → NttRep R k t R.M.value d D →
      ∃ o, acc x g d = some o ∧ NRep R k t R.M.value o (a + ga * D) (b + gb * D)) (d0 : G)
    {gs hs : List G} {GA GB : Nat → Rq (ZMod R.M.value) (2 ^ k)} (hlen : B.decomposeLen ≤ gs.length)
    (hg : ∀ j, j < (gs ++ hs).length → GR ((gs ++ hs).getD j d0) (GA j) (GB j))
    {p : List Nat} (hp : Reduced R.M.value (2 ^ k) p) {x : NTTRLWE} {a b : Rq (ZMod R.M.value) (2 ^ k)}
    (hx : NRep R k t R.M.value x a b) :
    NTTRLWE.gadgetLoop R B acc (gs ++ hs) p x = NTTRLWE.gadgetLoop R B acc gs p x := by
  have hq : R.M.value < 2 ^ R.w := by have := E.C.four_mul_lt; omega
  have := E.nontrivial
  obtain ⟨_, _, hb, hm, hw, _⟩ := new_basis hq hB
  obtain ⟨hle, _, _⟩ := len_bounds hq E.C.two_le hB
  obtain ⟨o, eo, ho⟩ := gadgetLoop_spec E hb hm hw hacc d0 _ GA GB p x a b hg hp hx
  obtain ⟨o', eo', ho'⟩ := gadgetLoop_spec E hb hm hw hacc d0 gs GA GB p x a b
    (fun j hj => by
      have := hg j (by rw [List.length_append]; omega)
      rwa [List.getD_append _ _ _ _ hj] at this) hp hx
  have hs0 : ∀ F : Nat → Rq (ZMod R.M.value) (2 ^ k),
      ∑ j ∈ range (gs ++ hs).length, F j * digitPoly R.M.value (2 ^ k) bits p j =
        ∑ j ∈ range gs.length, F j * digitPoly R.M.value (2 ^ k) bits p j := fun F => by
    refine (sum_subset (range_subset_range.2 (by rw [List.length_append]; omega)) fun j _ hj => ?_).symm
    rw [mem_range, not_lt] at hj
    rw [digitPoly_zero hp (hle.trans (Nat.pow_le_pow_right (by omega) (Nat.mul_le_mul_left _ (hlen.trans hj)))),
      mul_zero]
  rw [hs0, hs0] at ho
  rw [eo, eo']
  obtain ⟨oa, ob⟩ := o
  obtain ⟨oa', ob'⟩ := o'
  rw [show oa = oa' from Vals.ext ho.a ho'.a, show ob = ob' from Vals.ext ho.b ho'.b]

end

namespace Props
variable {R : Ctx} {q : Nat} [Fact q.Prime] {k : Nat}

/-- C102: with debug assertions a gadget ciphertext with another number of elements than the basis has digits can be built from
a pair in transform form only; without them by every constructor. -/
theorem C102_constructors (data : List RLWE) (ndata : List NTTRLWE) (B : Basis) :
    (GadgetRLWE.new true data B ≠ none ↔ data.length = B.decomposeLen) ∧
    (NTTGadgetRLWE.new true ndata B ≠ none ↔ ndata.length = B.decomposeLen) ∧
    GadgetRLWE.new false data B = some ⟨data, B⟩ ∧ NTTGadgetRLWE.new false ndata B = some ⟨ndata, B⟩ ∧
    NTTGadgetRLWE.ofPair ndata B = some ⟨ndata, B⟩ := by
  refine ⟨?_, ?_, rfl, rfl, rfl⟩
  · unfold GadgetRLWE.new
    by_cases h : data.length = B.decomposeLen <;> simp [h]
  · unfold NTTGadgetRLWE.new
    by_cases h : ndata.length = B.decomposeLen <;> simp [h]

/-- C102: the product of a polynomial with any number `l` of elements of a gadget ciphertext of `m`: the remainders of the
coefficients modulo `2^(bits l)` are multiplied. No product panics. -/
theorem C102_products (hk : 0 < k) (F : TableField R.w q R.M R.tbl k) (bits : Nat) (B : Basis)
    (hB : Basis.new R.w q bits = some B) (s m : Rq (ZMod q) (2 ^ k)) (e : Nat → Rq (ZMod q) (2 ^ k)) (p : List Nat)
    (hp : Reduced q (2 ^ k) p) :
    (∀ l : List RLWE, Multiples q (2 ^ k) bits s m e l →
      ∃ r, GadgetRLWE.mulPolynomial R ⟨l, B⟩ p = some r ∧ r.HasPhase q (2 ^ k) s
        (m * lowPart q (2 ^ k) (2 ^ (bits * l.length)) p + gadgetError q (2 ^ k) bits l.length p e)) ∧
    ∀ l : List NTTRLWE, NttMultiples R q (2 ^ k) bits s m e l →
      (∃ r, NTTGadgetRLWE.mulPolynomial R ⟨l, B⟩ p = some r ∧ r.HasPhase R q q (2 ^ k) s
        (m * lowPart q (2 ^ k) (2 ^ (bits * l.length)) p + gadgetError q (2 ^ k) bits l.length p e)) ∧
      ∀ dest : NTTRLWE, dest.a.length = 2 ^ k → dest.b.length = 2 ^ k →
        (∃ r, NTTGadgetRLWE.mulPolynomialInplace R ⟨l, B⟩ p dest = some r ∧ r.HasPhase R q q (2 ^ k) s
          (m * lowPart q (2 ^ k) (2 ^ (bits * l.length)) p + gadgetError q (2 ^ k) bits l.length p e)) ∧
        ∃ r, NTTGadgetRLWE.mulPolynomialFast R ⟨l, B⟩ p dest = some r ∧ r.HasPhase R (2 * q) q (2 ^ k) s
          (m * lowPart q (2 ^ k) (2 ^ (bits * l.length)) p + gadgetError q (2 ^ k) bits l.length p e) := by
  have hz := fun K hK => zero_hasPhase hk F (K := K) hK s
  obtain ⟨t, rfl, E⟩ := F.env hk
  refine ⟨fun l hl => ?_, fun l hl => ⟨?_, fun dest ha hb => ⟨?_, ?_⟩⟩⟩
  · obtain ⟨o, eo, ho⟩ := gadget_low_spec E hB (Or.inl rfl) (GR := CRep R k)
      (acc := GadgetRLWE.accumulate R) (fun _ _ _ _ _ _ _ _ h1 h2 h3 => CRep.accumulate E h1 h2 h3) ⟨[], []⟩
      (Multiples.rep hl) hp (hz _ (Or.inl rfl))
    obtain ⟨y, ey, hy⟩ := ho.phase
    refine ⟨y, ?_, by simpa using hy⟩
    unfold GadgetRLWE.mulPolynomial
    rw [hp.1, mbind eo, ey]
  · obtain ⟨o, eo, ho⟩ := gadget_low_spec E hB (Or.inl rfl) (GR := NRep R k t R.M.value)
      (acc := NTTRLWE.addMul R) (fun _ _ _ _ _ _ _ _ h1 h2 h3 => h1.addMul E h2 h3) ⟨[], []⟩
      (NttMultiples.rep E hl) hp (hz _ (Or.inl rfl))
    refine ⟨o, ?_, by simpa using ho⟩
    unfold NTTGadgetRLWE.mulPolynomial
    rw [hp.1, eo]
  · obtain ⟨o, eo, ho⟩ := gadget_low_spec E hB (Or.inl rfl) (GR := NRep R k t R.M.value)
      (acc := NTTRLWE.addMul R) (fun _ _ _ _ _ _ _ _ h1 h2 h3 => h1.addMul E h2 h3) ⟨[], []⟩
      (NttMultiples.rep E hl) hp (hz _ (Or.inl rfl))
    refine ⟨o, ?_, by simpa using ho⟩
    unfold NTTGadgetRLWE.mulPolynomialInplace
    rw [NTTRLWE.setZero_eq ha hb, eo]
  · obtain ⟨o, eo, ho⟩ := gadget_low_spec E hB (Or.inr rfl) (GR := NRep R k t R.M.value)
      (acc := NTTRLWE.addMulFast R) (fun _ _ _ _ _ _ _ _ h1 h2 h3 => h1.addMulFast E h2 h3) ⟨[], []⟩
      (NttMultiples.rep E hl) hp (hz _ (Or.inr rfl))
    refine ⟨o, ?_, by simpa using ho⟩
    unfold NTTGadgetRLWE.mulPolynomialFast
    rw [NTTRLWE.setZero_eq ha hb, eo]

/-- C102: the accumulating products; subtraction takes the remainders of the negated polynomial. -/
theorem C102_accumulate (hk : 0 < k) (F : TableField R.w q R.M R.tbl k) (bits : Nat) (B : Basis)
    (hB : Basis.new R.w q bits = some B) (s m φ : Rq (ZMod q) (2 ^ k)) (e : Nat → Rq (ZMod q) (2 ^ k)) (p np : List Nat)
    (hp : Reduced q (2 ^ k) p) (hnp : Reduced q (2 ^ k) np)
    (hneg : Rq.ofWords q (2 ^ k) np = -Rq.ofWords q (2 ^ k) p) :
    (∀ (l : List RLWE) (x : RLWE), Multiples q (2 ^ k) bits s m e l → x.HasPhase q (2 ^ k) s φ →
      ∃ r, GadgetRLWE.mulPolynomialAdd R ⟨l, B⟩ p x = some r ∧ r.HasPhase q (2 ^ k) s
        (φ + m * lowPart q (2 ^ k) (2 ^ (bits * l.length)) p + gadgetError q (2 ^ k) bits l.length p e)) ∧
    ∀ l : List NTTRLWE, NttMultiples R q (2 ^ k) bits s m e l →
      (∀ x : NTTRLWE, x.HasPhase R q q (2 ^ k) s φ →
        (∃ r, NTTRLWE.addGadgetMul R x ⟨l, B⟩ p = some r ∧ r.HasPhase R q q (2 ^ k) s
          (φ + m * lowPart q (2 ^ k) (2 ^ (bits * l.length)) p + gadgetError q (2 ^ k) bits l.length p e)) ∧
        (∃ r, NTTRLWE.subGadgetMul R x ⟨l, B⟩ p = some r ∧ r.HasPhase R q q (2 ^ k) s
          (φ + m * lowPart q (2 ^ k) (2 ^ (bits * l.length)) np + gadgetError q (2 ^ k) bits l.length np e))) ∧
      (∀ x : NTTRLWE, x.HasPhase R (2 * q) q (2 ^ k) s φ →
        (∃ r, NTTRLWE.addGadgetMulFast R x ⟨l, B⟩ p = some r ∧ r.HasPhase R (2 * q) q (2 ^ k) s
          (φ + m * lowPart q (2 ^ k) (2 ^ (bits * l.length)) p + gadgetError q (2 ^ k) bits l.length p e)) ∧
        (∃ r, NTTRLWE.subGadgetMulFast R x ⟨l, B⟩ p = some r ∧ r.HasPhase R (2 * q) q (2 ^ k) s
          (φ + m * lowPart q (2 ^ k) (2 ^ (bits * l.length)) np + gadgetError q (2 ^ k) bits l.length np e))) := by
  obtain ⟨t, rfl, E⟩ := F.env hk
  have hn : Poly.neg R.M p = some np := by
    obtain ⟨o, eo, ho⟩ := (rep_exists hp).neg E
    rw [eo, ho.ext (rep_iff.2 ⟨hnp, hneg⟩)]
  refine ⟨fun l x hl hx => ?_, fun l hl => ⟨fun x hx => ⟨?_, ?_⟩, fun x hx => ⟨?_, ?_⟩⟩⟩
  · obtain ⟨a, b, hab, hφ⟩ := hasPhase_iff.1 hx
    obtain ⟨v, ev, hv⟩ := hab.toNtt E
    have := E.nontrivial
    obtain ⟨o, eo, ho⟩ := gadget_low_spec E hB (Or.inl rfl) (GR := CRep R k)
      (acc := GadgetRLWE.accumulate R) (fun _ _ _ _ _ _ _ _ h1 h2 h3 => CRep.accumulate E h1 h2 h3) ⟨[], []⟩
      (Multiples.rep hl) hp ((nttHasPhase_iff E (Or.inl rfl)).2 ⟨a, b, hv, hφ⟩)
    obtain ⟨y, ey, hy⟩ := ho.phase
    refine ⟨y, ?_, by rwa [add_assoc]⟩
    unfold GadgetRLWE.mulPolynomialAdd
    rw [mbind ev, mbind eo, ey]
  · obtain ⟨o, eo, ho⟩ := gadget_low_spec E hB (Or.inl rfl) (GR := NRep R k t R.M.value)
      (acc := NTTRLWE.addMul R) (fun _ _ _ _ _ _ _ _ h1 h2 h3 => h1.addMul E h2 h3) ⟨[], []⟩ (NttMultiples.rep E hl) hp hx
    exact ⟨o, eo, by rwa [add_assoc]⟩
  · obtain ⟨o, eo, ho⟩ := gadget_low_spec E hB (Or.inl rfl) (GR := NRep R k t R.M.value)
      (acc := NTTRLWE.addMul R) (fun _ _ _ _ _ _ _ _ h1 h2 h3 => h1.addMul E h2 h3) ⟨[], []⟩ (NttMultiples.rep E hl) hnp hx
    refine ⟨o, ?_, by rwa [add_assoc]⟩
    unfold NTTRLWE.subGadgetMul
    rw [mbind hn, eo]
  · obtain ⟨o, eo, ho⟩ := gadget_low_spec E hB (Or.inr rfl) (GR := NRep R k t R.M.value)
      (acc := NTTRLWE.addMulFast R) (fun _ _ _ _ _ _ _ _ h1 h2 h3 => h1.addMulFast E h2 h3) ⟨[], []⟩ (NttMultiples.rep E hl) hp hx
    exact ⟨o, eo, by rwa [add_assoc]⟩
  · obtain ⟨o, eo, ho⟩ := gadget_low_spec E hB (Or.inr rfl) (GR := NRep R k t R.M.value)
      (acc := NTTRLWE.addMulFast R) (fun _ _ _ _ _ _ _ _ h1 h2 h3 => h1.addMulFast E h2 h3) ⟨[], []⟩ (NttMultiples.rep E hl) hnp hx
    refine ⟨o, ?_, by rwa [add_assoc]⟩
    unfold NTTRLWE.subGadgetMulFast
    rw [mbind hn, eo]

/-- C102: with at least as many elements as the basis has digits, the remainders are the coefficients themselves. -/
theorem C102_enough (bits : Nat) (B : Basis) {w : Nat} (hqw : q < 2 ^ w) (hB : Basis.new w q bits = some B) (p : List Nat)
    (hp : Reduced q (2 ^ k) p) (l : Nat) (hl : B.decomposeLen ≤ l) :
    lowPart q (2 ^ k) (2 ^ (bits * l)) p = Rq.ofWords q (2 ^ k) p :=
  lowPart_eq hp ((len_bounds hqw (Fact.out : q.Prime).two_le hB).1.trans
    (Nat.pow_le_pow_right (by omega) (Nat.mul_le_mul_left _ hl)))

/-- C102: with fewer elements than digits there is a polynomial, the constant `2^(bits l)`, of which nothing is
multiplied: its remainders are zero although it is not. -/
theorem C102_too_few (bits : Nat) (B : Basis) {w : Nat} (hqw : q < 2 ^ w) (hB : Basis.new w q bits = some B)
    (l : Nat) (hl : l < B.decomposeLen) :
    ∃ p, Reduced q (2 ^ k) p ∧ lowPart q (2 ^ k) (2 ^ (bits * l)) p = 0 ∧ Rq.ofWords q (2 ^ k) p ≠ 0 := by
  have h2 := (Fact.out : q.Prime).two_le
  obtain ⟨_, _, hlt⟩ := len_bounds hqw h2 hB
  have hlt' : 2 ^ (bits * l) < q := lt_of_le_of_lt
    (Nat.pow_le_pow_right (by omega) (Nat.mul_le_mul_left _ (by omega))) hlt
  have hn := Nat.two_pow_pos k
  refine ⟨2 ^ (bits * l) :: List.replicate (2 ^ k - 1) 0, ⟨by simp; omega, fun y hy => ?_⟩, ?_, fun h => ?_⟩
  · rcases List.mem_cons.1 hy with rfl | hy
    · exact hlt'
    · rw [List.eq_of_mem_replicate hy]; omega
  · ext ⟨i, hi⟩
    simp only [lowPart, Rq.zero_co]
    cases i with
    | zero => simp
    | succ i =>
      rw [List.getD_cons_succ]
      by_cases h : i < 2 ^ k - 1
      · rw [List.getD_replicate _ h]; simp
      · omega
  · have := congrArg (fun r : Rq (ZMod q) (2 ^ k) => r.co ⟨0, hn⟩) h
    simp only [Rq.ofWords, coeff, List.getD_cons_zero, Rq.zero_co] at this
    rw [ZMod.natCast_eq_zero_iff] at this
    exact absurd (Nat.le_of_dvd (Nat.two_pow_pos _) this) (by omega)

/-- C102: elements beyond the digits of the basis do not change the words of a product. -/
theorem C102_extra (hk : 0 < k) (F : TableField R.w q R.M R.tbl k) (bits : Nat) (B : Basis)
    (hB : Basis.new R.w q bits = some B) (p : List Nat) (hp : Reduced q (2 ^ k) p) :
    (∀ l extra : List RLWE, B.decomposeLen ≤ l.length →
      (∀ x ∈ l ++ extra, Reduced q (2 ^ k) x.a ∧ Reduced q (2 ^ k) x.b) →
      GadgetRLWE.mulPolynomial R ⟨l ++ extra, B⟩ p = GadgetRLWE.mulPolynomial R ⟨l, B⟩ p) ∧
    ∀ l extra : List NTTRLWE, B.decomposeLen ≤ l.length →
      (∀ x ∈ l ++ extra, Reduced q (2 ^ k) x.a ∧ Reduced q (2 ^ k) x.b) →
      NTTGadgetRLWE.mulPolynomial R ⟨l ++ extra, B⟩ p = NTTGadgetRLWE.mulPolynomial R ⟨l, B⟩ p := by
  obtain ⟨t, rfl, E⟩ := F.env hk
  have hq := E.q_pos
  refine ⟨fun l extra hl hx => ?_, fun l extra hl hx => ?_⟩
  · have h : ∀ j, ∃ a b, j < (l ++ extra).length → CRep R k ((l ++ extra).getD j ⟨[], []⟩) a b := fun j => by
      by_cases hj : j < (l ++ extra).length
      · obtain ⟨ha, hb⟩ := hx _ (getD_mem ⟨[], []⟩ hj)
        exact ⟨_, _, fun _ => ⟨rep_exists ha, rep_exists hb⟩⟩
      · exact ⟨0, 0, fun h => absurd h hj⟩
    choose GA GB hG using h
    unfold GadgetRLWE.mulPolynomial
    rw [hp.1]
    dsimp only
    rw [gadgetLoop_extra E hB (GR := CRep R k) (fun _ _ _ _ _ _ _ _ h1 h2 h3 => CRep.accumulate E h1 h2 h3) ⟨[], []⟩ hl hG hp
      (NRep.zero hq)]
  · have h : ∀ j, ∃ a b, j < (l ++ extra).length → NRep R k t R.M.value ((l ++ extra).getD j ⟨[], []⟩) a b := fun j => by
      by_cases hj : j < (l ++ extra).length
      · obtain ⟨ha, hb⟩ := hx _ (getD_mem ⟨[], []⟩ hj)
        obtain ⟨a, ha'⟩ := E.exists_ntt ha.1 (fun x hx => by have := ha.2 x hx; omega)
        obtain ⟨b, hb'⟩ := E.exists_ntt hb.1 (fun x hx => by have := hb.2 x hx; omega)
        exact ⟨a, b, fun _ => ⟨⟨ha.1, ha.2, ha'.val⟩, ⟨hb.1, hb.2, hb'.val⟩⟩⟩
      · exact ⟨0, 0, fun h => absurd h hj⟩
    choose GA GB hG using h
    unfold NTTGadgetRLWE.mulPolynomial
    rw [hp.1]
    exact gadgetLoop_extra E hB (GR := NRep R k t R.M.value) (fun _ _ _ _ _ _ _ _ h1 h2 h3 => h1.addMul E h2 h3) ⟨[], []⟩ hl hG hp
      (NRep.zero hq)

/-- The first elements of a gadget ciphertext, such as a generated one (C36), meet the hypothesis. -/
example (bits : Nat) (s m : Rq (ZMod q) (2 ^ k)) (e : Nat → Rq (ZMod q) (2 ^ k)) (g : NTTGadgetRLWE)
    (hg : g.Encrypts R q (2 ^ k) bits s m e) (l : Nat) : NttMultiples R q (2 ^ k) bits s m e (g.data.take l) := by
  intro j hj
  rw [List.getElem_take]
  exact hg.elem j (lt_of_lt_of_le hj (by simp))

-- one of the two elements of a ciphertext of 1 in base 16: the product with [3, 16, 0, 5] is that of the remainders modulo 16
example : Basis.new 8 17 4 = some ⟨16, 2, 15, 4⟩ ∧ (⟨16, 2, 15, 4⟩ : Basis).decomposeLen = 2 ∧
    lowPart 17 4 (2 ^ (4 * 1)) [3, 16, 0, 5] = Rq.ofWords 17 4 [3, 0, 0, 5] ∧
    NTTGadgetRLWE.mulPolynomial ⟨8, barrett17, tbl17⟩ ⟨[⟨[0, 0, 0, 0], [1, 1, 1, 1]⟩], ⟨16, 2, 15, 4⟩⟩ [3, 16, 0, 5] =
      NTTGadgetRLWE.mulPolynomial ⟨8, barrett17, tbl17⟩
        ⟨[⟨[0, 0, 0, 0], [1, 1, 1, 1]⟩, ⟨[0, 0, 0, 0], [16, 16, 16, 16]⟩], ⟨16, 2, 15, 4⟩⟩ [3, 0, 0, 5] := by
  refine ⟨by decide +kernel, rfl, ?_, by decide +kernel⟩
  ext i
  fin_cases i <;> rfl

example : [16, 0, 0, 0].map (· % 2 ^ (4 * 1)) = [0, 0, 0, 0] ∧
    (do
      let sn ← Poly.toNtt 8 barrett17 tbl17 [1, 0, 1, 0]
      let r ← NTTGadgetRLWE.mulPolynomial ⟨8, barrett17, tbl17⟩ ⟨[⟨sn, [1, 1, 1, 1]⟩], ⟨16, 2, 15, 4⟩⟩ [16, 0, 0, 0]
      NTTRLWE.toCoeff ⟨8, barrett17, tbl17⟩ r) = some ⟨[0, 0, 0, 0], [0, 0, 0, 0]⟩ := by
  decide +kernel

end Props
end Verif
