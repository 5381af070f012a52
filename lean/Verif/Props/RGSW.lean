import Verif.SpecRGSW
import Verif.Lemmas.Gadget

/-! # C36, C37: gadget products and external products -/

namespace Verif
open Fp Finset Spec Ntt Props

theorem mapM_getElem {α β : Type} {f : α → Option β} : ∀ {l : List α} {P : Nat → β → Prop},
    (∀ j (h : j < l.length), ∃ r, f l[j] = some r ∧ P j r) →
    ∃ out, l.mapM f = some out ∧ out.length = l.length ∧ ∀ j (h : j < out.length), P j out[j]
  | [], P, _ => ⟨[], rfl, rfl, by simp⟩
  | a :: l, P, h => by
    obtain ⟨r, e, hr⟩ := h 0 (by simp)
    obtain ⟨out, e', hl, ho⟩ := mapM_getElem (l := l) (P := fun j r => P (j + 1) r)
      (fun j hj => h (j + 1) (by simpa using hj))
    refine ⟨r :: out, ?_, by simp [hl], ?_⟩
    · simp only [List.getElem_cons_zero] at e
      rw [List.mapM_cons, mbind e, mbind e']; rfl
    · intro j hj
      cases j with
      | zero => exact hr
      | succ j => exact ho j (by simpa using hj)

/-- The context of the theorems gives the internal setting. -/
theorem Props.TableField.env {R : Ctx} {q : Nat} [Fact q.Prime] {k : Nat}
    (F : Props.TableField R.w q R.M R.tbl k) (hk : 0 < k) : ∃ t, q = R.M.value ∧ Env R k t := by
  obtain ⟨t, pt, htbl, T⟩ := F.evaluates
  have C : Config R.w q R.M := ⟨F.even, F.conf⟩
  have hval := C.value
  subst hval
  exact ⟨t, rfl, C, ⟨pt, T⟩, htbl, hk⟩

section
variable {R : Ctx} {k : Nat} {t : Table} (E : Env R k t)
include E

omit E in
theorem hasPhase_iff {s φ : Rq (ZMod R.M.value) (2 ^ k)} {x : RLWE} :
    x.HasPhase R.M.value (2 ^ k) s φ ↔ ∃ a b, CRep R k x a b ∧ rlwePhase s a b = φ := by
  constructor
  · intro h
    exact ⟨_, _, ⟨rep_exists h.a, rep_exists h.b⟩, h.phase⟩
  · rintro ⟨a, b, ⟨ha, hb⟩, h⟩
    obtain ⟨ra, rfl⟩ := rep_iff.1 ha
    obtain ⟨rb, rfl⟩ := rep_iff.1 hb
    exact ⟨ra, rb, h⟩

omit E in
theorem Rep.unique {l : List Nat} {p r : Rq (ZMod R.M.value) (2 ^ k)}
    (h : Rep R.M.value (2 ^ k) l p) (h' : Rep R.M.value (2 ^ k) l r) : p = r :=
  (rep_iff.1 h).2.symm.trans (rep_iff.1 h').2

theorem nttHasPhase_iff {K : Nat} (hK : K = R.M.value ∨ K = 2 * R.M.value)
    {s φ : Rq (ZMod R.M.value) (2 ^ k)} {x : NTTRLWE} :
    x.HasPhase R K R.M.value (2 ^ k) s φ ↔ ∃ a b, NRep R k t K x a b ∧ rlwePhase s a b = φ := by
  have hq := E.q_pos
  have hKle : K ≤ 2 * R.M.value := by rcases hK with h | h <;> omega
  constructor
  · intro h
    obtain ⟨a, ha⟩ := E.exists_ntt h.a.1 (fun x hx => lt_of_lt_of_le (h.a.2 x hx) hKle)
    obtain ⟨b, hb⟩ := E.exists_ntt h.b.1 (fun x hx => lt_of_lt_of_le (h.b.2 x hx) hKle)
    refine ⟨a, b, ⟨⟨h.a.1, h.a.2, ha.val⟩, ⟨h.b.1, h.b.2, hb.val⟩⟩, ?_⟩
    obtain ⟨y, ey, hy⟩ := h.phase
    obtain ⟨y', ey', hy'⟩ := NRep.toCoeff E (⟨ha, hb⟩ : NRep R k t (2 * R.M.value) x a b)
    rw [ey] at ey'
    cases ey'
    obtain ⟨a', b', hab, hφ⟩ := hasPhase_iff.1 hy
    rw [hy'.a.unique hab.a, hy'.b.unique hab.b, hφ]
  · rintro ⟨a, b, h, hφ⟩
    refine ⟨⟨h.a.len, h.a.lt⟩, ⟨h.b.len, h.b.lt⟩, ?_⟩
    obtain ⟨y, ey, hy⟩ := NRep.toCoeff E (⟨h.a.mono hKle, h.b.mono hKle⟩ : NRep R k t (2 * R.M.value) x a b)
    exact ⟨y, ey, hasPhase_iff.2 ⟨a, b, hy, hφ⟩⟩

omit E in
theorem GadgetRLWE.Encrypts.rep {bits : Nat} {s m : Rq (ZMod R.M.value) (2 ^ k)}
    [Nontrivial (ZMod R.M.value)]
    {e : Nat → Rq (ZMod R.M.value) (2 ^ k)} {g : GadgetRLWE}
    (h : g.Encrypts R.w R.M.value (2 ^ k) bits s m e) :
    ∃ GA GB : Nat → Rq (ZMod R.M.value) (2 ^ k),
      ∀ j, j < g.data.length → CRep R k (g.data.getD j ⟨[], []⟩) (GA j) (GB j) ∧
        rlwePhase s (GA j) (GB j) =
          m * Rq.const ((2 ^ (bits * j) : Nat) : ZMod R.M.value) + e j := by
  have : ∀ j, ∃ a b, j < g.data.length → CRep R k (g.data.getD j ⟨[], []⟩) a b ∧
      rlwePhase s a b = m * Rq.const ((2 ^ (bits * j) : Nat) : ZMod R.M.value) + e j := by
    intro j
    by_cases hj : j < g.data.length
    · obtain ⟨a, b, hr, hp⟩ := hasPhase_iff.1 (h.elem j hj)
      refine ⟨a, b, fun _ => ⟨?_, hp⟩⟩
      rwa [List.getD_eq_getElem _ _ hj]
    · exact ⟨0, 0, fun h => absurd h hj⟩
  choose GA GB hG using this
  exact ⟨GA, GB, hG⟩

theorem NTTGadgetRLWE.Encrypts.rep {bits : Nat} {s m : Rq (ZMod R.M.value) (2 ^ k)}
    {e : Nat → Rq (ZMod R.M.value) (2 ^ k)} {g : NTTGadgetRLWE}
    (h : g.Encrypts R R.M.value (2 ^ k) bits s m e) :
    letI := E.nontrivial
    ∃ GA GB : Nat → Rq (ZMod R.M.value) (2 ^ k),
      ∀ j, j < g.data.length → NRep R k t R.M.value (g.data.getD j ⟨[], []⟩) (GA j) (GB j) ∧
        rlwePhase s (GA j) (GB j) =
          m * Rq.const ((2 ^ (bits * j) : Nat) : ZMod R.M.value) + e j := by
  have := E.nontrivial
  have : ∀ j, ∃ a b, j < g.data.length → NRep R k t R.M.value (g.data.getD j ⟨[], []⟩) a b ∧
      rlwePhase s a b = m * Rq.const ((2 ^ (bits * j) : Nat) : ZMod R.M.value) + e j := by
    intro j
    by_cases hj : j < g.data.length
    · obtain ⟨a, b, hr, hp⟩ := (nttHasPhase_iff E (Or.inl rfl)).1 (h.elem j hj)
      refine ⟨a, b, fun _ => ⟨?_, hp⟩⟩
      rwa [List.getD_eq_getElem _ _ hj]
    · exact ⟨0, 0, fun h => absurd h hj⟩
  choose GA GB hG using this
  exact ⟨GA, GB, hG⟩

/-- The accumulating loop over a gadget ciphertext, phases only. -/
theorem gadget_spec {bits : Nat} {B : Basis} (hB : Basis.new R.w R.M.value bits = some B)
    [Nontrivial (ZMod R.M.value)] {G : Type}
    {GR : G → Rq (ZMod R.M.value) (2 ^ k) → Rq (ZMod R.M.value) (2 ^ k) → Prop}
    {K : Nat} (hK : K = R.M.value ∨ K = 2 * R.M.value)
    {acc : NTTRLWE → G → List Nat → Option NTTRLWE}
    (hacc : ∀ x g d a b ga gb D, NRep R k t K x a b → GR g ga gb → NttRep R k t R.M.value d D →
      ∃ o, acc x g d = some o ∧ NRep R k t K o (a + ga * D) (b + gb * D)) (d0 : G)
    {s m φ : Rq (ZMod R.M.value) (2 ^ k)} {e : Nat → Rq (ZMod R.M.value) (2 ^ k)}
    {gs : List G} (hlen : gs.length = B.decomposeLen)
    (hg : ∃ GA GB : Nat → Rq (ZMod R.M.value) (2 ^ k), ∀ j, j < gs.length →
      GR (gs.getD j d0) (GA j) (GB j) ∧
        rlwePhase s (GA j) (GB j) = m * Rq.const ((2 ^ (bits * j) : Nat) : ZMod R.M.value) + e j)
    {p : List Nat} (hp : Reduced R.M.value (2 ^ k) p) {x : NTTRLWE}
    (hx : x.HasPhase R K R.M.value (2 ^ k) s φ) :
    ∃ o, NTTRLWE.gadgetLoop R B acc gs p x = some o ∧
      o.HasPhase R K R.M.value (2 ^ k) s
        (φ + (m * Rq.ofWords R.M.value (2 ^ k) p +
          gadgetError R.M.value (2 ^ k) bits B.decomposeLen p e)) := by
  have hq : R.M.value < 2 ^ R.w := by have := E.C.four_mul_lt; omega
  obtain ⟨_, _, hb, hm, hw, _⟩ := new_basis hq hB
  obtain ⟨hle, _, _⟩ := len_bounds hq E.C.two_le hB
  obtain ⟨a, b, hr, rfl⟩ := (nttHasPhase_iff E hK).1 hx
  obtain ⟨GA, GB, hG⟩ := hg
  obtain ⟨o, eo, ho⟩ := gadgetLoop_spec E hb hm hw hacc d0 gs GA GB p x a b
    (fun j hj => (hG j hj).1) hp hr
  refine ⟨o, eo, (nttHasPhase_iff E hK).2 ⟨_, _, ho, ?_⟩⟩
  have := gadget_phase hp hle s m GA GB e (fun j hj => (hG j (by omega)).2)
  rw [gadgetError, ← this, hlen]
  unfold rlwePhase
  ring

end

namespace Props

variable {R : Ctx} {q : Nat} [Fact q.Prime] {k : Nat}

/-- The all-zero ciphertext has phase `0`. -/
theorem zero_hasPhase (hk : 0 < k) (F : TableField R.w q R.M R.tbl k) {K : Nat}
    (hK : K = q ∨ K = 2 * q) (s : Rq (ZMod q) (2 ^ k)) :
    (NTTRLWE.zero (2 ^ k)).HasPhase R K q (2 ^ k) s 0 := by
  obtain ⟨t, rfl, E⟩ := F.env hk
  have := E.q_pos
  exact (nttHasPhase_iff E hK).2 ⟨0, 0, NRep.zero (by rcases hK with h | h <;> omega), by
    unfold rlwePhase; ring⟩

/-- C36: multiplying a polynomial with a gadget ciphertext of `m`, in any of the coefficient or
transform forms, with or without lazy reduction and whatever the destination held before, gives a
ciphertext of `m * p` with error `∑ digit_j * e_j`. -/
theorem C36_products (hk : 0 < k) (F : TableField R.w q R.M R.tbl k) (bits : Nat)
    (s m : Rq (ZMod q) (2 ^ k)) (e : Nat → Rq (ZMod q) (2 ^ k)) (p : List Nat)
    (hp : Reduced q (2 ^ k) p) :
    (∀ g : GadgetRLWE, g.Encrypts R.w q (2 ^ k) bits s m e →
      ∃ r, GadgetRLWE.mulPolynomial R g p = some r ∧ r.HasPhase q (2 ^ k) s
        (m * Rq.ofWords q (2 ^ k) p + gadgetError q (2 ^ k) bits g.basis.decomposeLen p e)) ∧
    (∀ g : NTTGadgetRLWE, g.Encrypts R q (2 ^ k) bits s m e →
      (∃ r, NTTGadgetRLWE.mulPolynomial R g p = some r ∧ r.HasPhase R q q (2 ^ k) s
        (m * Rq.ofWords q (2 ^ k) p + gadgetError q (2 ^ k) bits g.basis.decomposeLen p e)) ∧
      ∀ dest : NTTRLWE, dest.a.length = 2 ^ k → dest.b.length = 2 ^ k →
        (∃ r, NTTGadgetRLWE.mulPolynomialInplace R g p dest = some r ∧ r.HasPhase R q q (2 ^ k) s
          (m * Rq.ofWords q (2 ^ k) p + gadgetError q (2 ^ k) bits g.basis.decomposeLen p e)) ∧
        ∃ r, NTTGadgetRLWE.mulPolynomialFast R g p dest = some r ∧ r.HasPhase R (2 * q) q (2 ^ k) s
          (m * Rq.ofWords q (2 ^ k) p + gadgetError q (2 ^ k) bits g.basis.decomposeLen p e)) := by
  have hz := fun K hK => zero_hasPhase hk F (K := K) hK s
  obtain ⟨t, rfl, E⟩ := F.env hk
  refine ⟨fun g hg => ?_, fun g hg => ⟨?_, fun dest ha hb => ⟨?_, ?_⟩⟩⟩
  · obtain ⟨o, eo, ho⟩ := gadget_spec E hg.basis (Or.inl rfl)
      (GR := CRep R k)
      (acc := GadgetRLWE.accumulate R) (fun _ _ _ _ _ _ _ _ h1 h2 h3 => CRep.accumulate E h1 h2 h3) ⟨[], []⟩ hg.len
      hg.rep hp (hz _ (Or.inl rfl))
    obtain ⟨y, ey, hy⟩ := ho.phase
    refine ⟨y, ?_, by simpa using hy⟩
    unfold GadgetRLWE.mulPolynomial
    rw [hp.1, mbind eo, ey]
  · obtain ⟨o, eo, ho⟩ := gadget_spec E hg.basis (Or.inl rfl)
      (GR := NRep R k t R.M.value)
      (acc := NTTRLWE.addMul R) (fun _ _ _ _ _ _ _ _ h1 h2 h3 => h1.addMul E h2 h3) ⟨[], []⟩ hg.len
      (hg.rep E) hp (hz _ (Or.inl rfl))
    refine ⟨o, ?_, by simpa using ho⟩
    unfold NTTGadgetRLWE.mulPolynomial
    rw [hp.1, eo]
  · obtain ⟨o, eo, ho⟩ := gadget_spec E hg.basis (Or.inl rfl)
      (GR := NRep R k t R.M.value)
      (acc := NTTRLWE.addMul R) (fun _ _ _ _ _ _ _ _ h1 h2 h3 => h1.addMul E h2 h3) ⟨[], []⟩ hg.len
      (hg.rep E) hp (hz _ (Or.inl rfl))
    refine ⟨o, ?_, by simpa using ho⟩
    unfold NTTGadgetRLWE.mulPolynomialInplace
    rw [NTTRLWE.setZero_eq ha hb, eo]
  · obtain ⟨o, eo, ho⟩ := gadget_spec E hg.basis (Or.inr rfl)
      (GR := NRep R k t R.M.value)
      (acc := NTTRLWE.addMulFast R) (fun _ _ _ _ _ _ _ _ h1 h2 h3 => h1.addMulFast E h2 h3) ⟨[], []⟩ hg.len
      (hg.rep E) hp (hz _ (Or.inr rfl))
    refine ⟨o, ?_, by simpa using ho⟩
    unfold NTTGadgetRLWE.mulPolynomialFast
    rw [NTTRLWE.setZero_eq ha hb, eo]

/-- C36: the accumulating products add `m * p` to, or subtract it from, the phase of the accumulator.
Subtraction decomposes the negated polynomial, so its digits make the error. -/
theorem C36_accumulate (hk : 0 < k) (F : TableField R.w q R.M R.tbl k) (bits : Nat)
    (s m φ : Rq (ZMod q) (2 ^ k)) (e : Nat → Rq (ZMod q) (2 ^ k)) (p np : List Nat)
    (hp : Reduced q (2 ^ k) p) (hnp : Reduced q (2 ^ k) np)
    (hneg : Rq.ofWords q (2 ^ k) np = -Rq.ofWords q (2 ^ k) p) :
    (∀ (g : GadgetRLWE) (x : RLWE), g.Encrypts R.w q (2 ^ k) bits s m e → x.HasPhase q (2 ^ k) s φ →
      ∃ r, GadgetRLWE.mulPolynomialAdd R g p x = some r ∧ r.HasPhase q (2 ^ k) s
        (φ + m * Rq.ofWords q (2 ^ k) p + gadgetError q (2 ^ k) bits g.basis.decomposeLen p e)) ∧
    ∀ g : NTTGadgetRLWE, g.Encrypts R q (2 ^ k) bits s m e →
      (∀ x : NTTRLWE, x.HasPhase R q q (2 ^ k) s φ →
        (∃ r, NTTRLWE.addGadgetMul R x g p = some r ∧ r.HasPhase R q q (2 ^ k) s
          (φ + m * Rq.ofWords q (2 ^ k) p + gadgetError q (2 ^ k) bits g.basis.decomposeLen p e)) ∧
        (∃ r, NTTRLWE.subGadgetMul R x g p = some r ∧ r.HasPhase R q q (2 ^ k) s
          (φ - m * Rq.ofWords q (2 ^ k) p + gadgetError q (2 ^ k) bits g.basis.decomposeLen np e))) ∧
      (∀ x : NTTRLWE, x.HasPhase R (2 * q) q (2 ^ k) s φ →
        (∃ r, NTTRLWE.addGadgetMulFast R x g p = some r ∧ r.HasPhase R (2 * q) q (2 ^ k) s
          (φ + m * Rq.ofWords q (2 ^ k) p + gadgetError q (2 ^ k) bits g.basis.decomposeLen p e)) ∧
        (∃ r, NTTRLWE.subGadgetMulFast R x g p = some r ∧ r.HasPhase R (2 * q) q (2 ^ k) s
          (φ - m * Rq.ofWords q (2 ^ k) p + gadgetError q (2 ^ k) bits g.basis.decomposeLen np e))) := by
  obtain ⟨t, rfl, E⟩ := F.env hk
  have hn : Poly.neg R.M p = some np := by
    obtain ⟨o, eo, ho⟩ := (rep_exists hp).neg E
    rw [eo, ho.ext (rep_iff.2 ⟨hnp, hneg⟩)]
  refine ⟨fun g x hg hx => ?_, fun g hg => ⟨fun x hx => ⟨?_, ?_⟩, fun x hx => ⟨?_, ?_⟩⟩⟩
  · obtain ⟨a, b, hab, hφ⟩ := hasPhase_iff.1 hx
    obtain ⟨v, ev, hv⟩ := hab.toNtt E
    obtain ⟨o, eo, ho⟩ := gadget_spec E hg.basis (Or.inl rfl)
      (GR := CRep R k)
      (acc := GadgetRLWE.accumulate R) (fun _ _ _ _ _ _ _ _ h1 h2 h3 => CRep.accumulate E h1 h2 h3) ⟨[], []⟩ hg.len
      hg.rep hp ((nttHasPhase_iff E (Or.inl rfl)).2 ⟨a, b, hv, hφ⟩)
    obtain ⟨y, ey, hy⟩ := ho.phase
    refine ⟨y, ?_, by rwa [add_assoc]⟩
    unfold GadgetRLWE.mulPolynomialAdd
    rw [mbind ev, mbind eo, ey]
  · obtain ⟨o, eo, ho⟩ := gadget_spec E hg.basis (Or.inl rfl)
      (GR := NRep R k t R.M.value)
      (acc := NTTRLWE.addMul R) (fun _ _ _ _ _ _ _ _ h1 h2 h3 => h1.addMul E h2 h3) ⟨[], []⟩ hg.len (hg.rep E) hp hx
    exact ⟨o, eo, by rwa [add_assoc]⟩
  · obtain ⟨o, eo, ho⟩ := gadget_spec E hg.basis (Or.inl rfl)
      (GR := NRep R k t R.M.value)
      (acc := NTTRLWE.addMul R) (fun _ _ _ _ _ _ _ _ h1 h2 h3 => h1.addMul E h2 h3) ⟨[], []⟩ hg.len (hg.rep E) hnp hx
    refine ⟨o, ?_, by rwa [hneg, mul_neg, ← add_assoc, ← sub_eq_add_neg] at ho⟩
    unfold NTTRLWE.subGadgetMul
    rw [mbind hn, eo]
  · obtain ⟨o, eo, ho⟩ := gadget_spec E hg.basis (Or.inr rfl)
      (GR := NRep R k t R.M.value)
      (acc := NTTRLWE.addMulFast R) (fun _ _ _ _ _ _ _ _ h1 h2 h3 => h1.addMulFast E h2 h3) ⟨[], []⟩ hg.len (hg.rep E) hp hx
    exact ⟨o, eo, by rwa [add_assoc]⟩
  · obtain ⟨o, eo, ho⟩ := gadget_spec E hg.basis (Or.inr rfl)
      (GR := NRep R k t R.M.value)
      (acc := NTTRLWE.addMulFast R) (fun _ _ _ _ _ _ _ _ h1 h2 h3 => h1.addMulFast E h2 h3) ⟨[], []⟩ hg.len (hg.rep E) hnp hx
    refine ⟨o, ?_, by rwa [hneg, mul_neg, ← add_assoc, ← sub_eq_add_neg] at ho⟩
    unfold NTTRLWE.subGadgetMulFast
    rw [mbind hn, eo]

/-- C36: if every error of the gadget ciphertext is at most `b` in absolute value, the error of the
product is at most `len * n * (2^bits - 1) * b`. -/
theorem C36_error_bound (q n bits len b : Nat) [NeZero n] [Fact (1 < q)] (l : List Nat)
    (e : Nat → Rq (ZMod q) n) (he : ∀ j, j < len → (e j).Bounded b) :
    (gadgetError q n bits len l e).Bounded (len * (n * ((2 ^ bits - 1) * b))) := by
  have := Rq.Bounded.sum (range len) (fun j => digitPoly q n bits l j * e j)
    (fun _ => n * ((2 ^ bits - 1) * b))
    (fun j hj => (digitPoly_bounded q n bits l j).mul (he j (mem_range.1 hj)))
  rw [sum_const, card_range, smul_eq_mul] at this
  exact this

/-- C36: the conversion of a gadget ciphertext to the transform form keeps the message and the
errors. -/
theorem C36_to_ntt (hk : 0 < k) (F : TableField R.w q R.M R.tbl k) (bits : Nat)
    (s m : Rq (ZMod q) (2 ^ k)) (e : Nat → Rq (ZMod q) (2 ^ k)) (g : GadgetRLWE)
    (hg : g.Encrypts R.w q (2 ^ k) bits s m e) :
    ∃ r, NTTGadgetRLWE.ofGadget R g = some r ∧ r.Encrypts R q (2 ^ k) bits s m e := by
  obtain ⟨t, rfl, E⟩ := F.env hk
  obtain ⟨out, eo, hl, ho⟩ := mapM_getElem (f := RLWE.toNtt R) (l := g.data)
    (P := fun j r => r.HasPhase R R.M.value R.M.value (2 ^ k) s
      (m * Rq.const ((2 ^ (bits * j) : Nat) : ZMod R.M.value) + e j)) (by
    intro j hj
    obtain ⟨a, b, hab, hφ⟩ := hasPhase_iff.1 (hg.elem j hj)
    obtain ⟨v, ev, hv⟩ := hab.toNtt E
    exact ⟨v, ev, (nttHasPhase_iff E (Or.inl rfl)).2 ⟨a, b, hv, hφ⟩⟩)
  refine ⟨⟨out, g.basis⟩, ?_, hg.basis, by rw [hl]; exact hg.len, ho⟩
  unfold NTTGadgetRLWE.ofGadget
  rw [mbind eo]; rfl

/-! ## Generated samples -/

/-- The error polynomials of a list of draws. -/
def drawErrors (q n : Nat) (draws : List Draw) (j : Nat) : Rq (ZMod q) n :=
  Rq.ofWords q n (draws.getD j ([], [])).2

/-- The drawn words are polynomials over the field. -/
def DrawsOk (q n : Nat) (draws : List Draw) : Prop :=
  ∀ d ∈ draws, Reduced q n d.1 ∧ Reduced q n d.2

theorem samples_spec (hk : 0 < k) (F : TableField R.w q R.M R.tbl k) (s sn : List Nat)
    (hs : Reduced q (2 ^ k) s) (hsn : Poly.toNtt R.w R.M R.tbl s = some sn) (a e : List Nat)
    (ha : Reduced q (2 ^ k) a) (he : Reduced q (2 ^ k) e) (v : Nat) (hv : v < q) :
    (∃ r, RLWE.zeroSample R sn a e = some r ∧
      r.HasPhase q (2 ^ k) (Rq.ofWords q (2 ^ k) s) (Rq.ofWords q (2 ^ k) e)) ∧
    (∃ r, GadgetRLWE.oneElement R sn v a e = some r ∧
      r.HasPhase q (2 ^ k) (Rq.ofWords q (2 ^ k) s)
        (1 * Rq.const (v : ZMod q) + Rq.ofWords q (2 ^ k) e)) ∧
    (∃ r, GadgetRLWE.negSecretElement R sn v a e = some r ∧
      r.HasPhase q (2 ^ k) (Rq.ofWords q (2 ^ k) s)
        (-Rq.ofWords q (2 ^ k) s * Rq.const (v : ZMod q) + Rq.ofWords q (2 ^ k) e)) ∧
    (∃ r, NTTRLWE.zeroSample R sn a e = some r ∧
      r.HasPhase R q q (2 ^ k) (Rq.ofWords q (2 ^ k) s) (Rq.ofWords q (2 ^ k) e)) ∧
    (∃ r, NTTRLWE.valueSample R sn v a e = some r ∧
      r.HasPhase R q q (2 ^ k) (Rq.ofWords q (2 ^ k) s)
        (1 * Rq.const (v : ZMod q) + Rq.ofWords q (2 ^ k) e)) ∧
    (∃ r, NTTGadgetRLWE.negSecretElement R sn v a e = some r ∧
      r.HasPhase R q q (2 ^ k) (Rq.ofWords q (2 ^ k) s)
        (-Rq.ofWords q (2 ^ k) s * Rq.const (v : ZMod q) + Rq.ofWords q (2 ^ k) e)) := by
  obtain ⟨t, rfl, E⟩ := F.env hk
  obtain ⟨sn', es, hSN⟩ := E.toNtt (rep_exists hs)
  rw [hsn] at es
  cases es
  have RA := rep_exists ha
  have RE := rep_exists he
  obtain ⟨S, hS⟩ : ∃ S, S = Rq.ofWords R.M.value (2 ^ k) s := ⟨_, rfl⟩
  obtain ⟨A, hA⟩ : ∃ A, A = Rq.ofWords R.M.value (2 ^ k) a := ⟨_, rfl⟩
  obtain ⟨X, hX⟩ : ∃ X, X = Rq.ofWords R.M.value (2 ^ k) e := ⟨_, rfl⟩
  rw [← hS] at hSN ⊢
  rw [← hA] at RA
  rw [← hX] at RE ⊢
  have hlen : a.length = sn.length ∧ e.length = sn.length := by
    rw [ha.1, he.1, hSN.len]; exact ⟨rfl, rfl⟩
  -- the coefficient zero sample
  obtain ⟨b, hb, eZ⟩ : ∃ b, Rep R.M.value (2 ^ k) b (X + A * S) ∧
      RLWE.zeroSample R sn a e = some ⟨a, b⟩ := by
    obtain ⟨va, ea, hva⟩ := E.toNtt RA
    obtain ⟨vm, em, hvm⟩ := hva.mul E hSN
    obtain ⟨vp, ep, hvp⟩ := E.ofNtt hvm.lazy
    obtain ⟨b, eb, hb⟩ := RE.add E hvp
    refine ⟨b, hb, ?_⟩
    unfold RLWE.zeroSample
    rw [if_pos hlen, mbind ea, mbind em, mbind ep, mbind eb]; rfl
  -- the transform zero sample
  obtain ⟨A', hA'⟩ := E.exists_ntt' ha
  obtain ⟨ve, ee, hve⟩ := E.toNtt RE
  obtain ⟨vb, evb, hvb⟩ := hve.addMul E hA' hSN
  have eZ' : NTTRLWE.zeroSample R sn a e = some ⟨a, vb⟩ := by
    unfold NTTRLWE.zeroSample
    rw [if_pos hlen, mbind ee, mbind evb]; rfl
  refine ⟨⟨_, eZ, hasPhase_iff.2 ⟨_, _, ⟨RA, hb⟩, by unfold rlwePhase; ring⟩⟩, ?_, ?_,
    ⟨_, eZ', (nttHasPhase_iff E (Or.inl rfl)).2 ⟨_, _, ⟨hA', hvb⟩, by unfold rlwePhase; ring⟩⟩, ?_, ?_⟩
  · obtain ⟨b', eb', hb'⟩ := hb.addHead E hv
    refine ⟨⟨a, b'⟩, ?_, hasPhase_iff.2 ⟨_, _, ⟨RA, hb'⟩, by unfold rlwePhase; ring⟩⟩
    unfold GadgetRLWE.oneElement
    rw [mbind eZ, mbind eb']; rfl
  · obtain ⟨a', ea', ha'⟩ := RA.addHead E hv
    refine ⟨⟨a', b⟩, ?_, hasPhase_iff.2 ⟨_, _, ⟨ha', hb⟩, by unfold rlwePhase; ring⟩⟩
    unfold GadgetRLWE.negSecretElement
    rw [mbind eZ, mbind ea']; rfl
  · obtain ⟨e', eh, he'⟩ := RE.addHead E hv
    obtain ⟨ve', ee', hve'⟩ := E.toNtt he'
    obtain ⟨vb', evb', hvb'⟩ := hve'.addMul E hA' hSN
    refine ⟨⟨a, vb'⟩, ?_, (nttHasPhase_iff E (Or.inl rfl)).2 ⟨_, _, ⟨hA', hvb'⟩, by
      unfold rlwePhase; ring⟩⟩
    unfold NTTRLWE.valueSample
    rw [if_pos hlen, mbind eh, mbind ee', mbind evb']; rfl
  · obtain ⟨a', ea', ha'⟩ := hA'.addConst E hv
    refine ⟨⟨a', vb⟩, ?_, (nttHasPhase_iff E (Or.inl rfl)).2 ⟨_, _, ⟨ha', hvb⟩, by
      unfold rlwePhase; ring⟩⟩
    unfold NTTGadgetRLWE.negSecretElement
    rw [mbind eZ', mbind ea']; rfl

/-- C36: the words of a generated zero sample and value sample: phase equal to the sampled error,
plus the value in the constant coefficient. -/
theorem C36_rlwe_samples (hk : 0 < k) (F : TableField R.w q R.M R.tbl k) (s sn : List Nat)
    (hs : Reduced q (2 ^ k) s) (hsn : Poly.toNtt R.w R.M R.tbl s = some sn) (a e : List Nat)
    (ha : Reduced q (2 ^ k) a) (he : Reduced q (2 ^ k) e) (v : Nat) (hv : v < q) :
    (∃ r, RLWE.zeroSample R sn a e = some r ∧
      r.HasPhase q (2 ^ k) (Rq.ofWords q (2 ^ k) s) (Rq.ofWords q (2 ^ k) e)) ∧
    (∃ r, NTTRLWE.zeroSample R sn a e = some r ∧
      r.HasPhase R q q (2 ^ k) (Rq.ofWords q (2 ^ k) s) (Rq.ofWords q (2 ^ k) e)) ∧
    (∃ r, NTTRLWE.valueSample R sn v a e = some r ∧
      r.HasPhase R q q (2 ^ k) (Rq.ofWords q (2 ^ k) s)
        (Rq.const (v : ZMod q) + Rq.ofWords q (2 ^ k) e)) := by
  obtain ⟨h1, _, _, h2, h3, _⟩ := samples_spec hk F s sn hs hsn a e ha he v hv
  refine ⟨h1, h2, ?_⟩
  simpa only [one_mul] using h3

omit [Fact q.Prime] in
theorem zeroSample_aux {β : Type} {f : Draw → Option β} {P : Draw → β → Prop} {n len : Nat}
    {draws : List Draw} (hd : DrawsOk q n draws) (hlen : len ≤ draws.length)
    (hf : ∀ d : Draw, Reduced q n d.1 → Reduced q n d.2 → ∃ r, f d = some r ∧ P d r) :
    ∃ out, (draws.take len).mapM f = some out ∧ out.length = len ∧
      ∀ j (h : j < out.length), P (draws.getD j ([], [])) out[j] := by
  obtain ⟨out, eo, hl, ho⟩ := mapM_getElem (f := f) (l := draws.take len)
    (P := fun j r => P (draws.getD j ([], [])) r) (by
      intro j hj
      have hj' : j < draws.length := by simp at hj; omega
      obtain ⟨h1, h2⟩ := hd _ (List.getElem_mem hj')
      obtain ⟨r, er, hr⟩ := hf _ h1 h2
      rw [List.getElem_take]
      exact ⟨r, er, by rwa [List.getD_eq_getElem _ _ hj']⟩)
  exact ⟨out, eo, by rw [hl, List.length_take]; omega, ho⟩

omit [Fact q.Prime] in
theorem nttGenerateLoop_spec {sample : Nat → List Nat → List Nat → Option NTTRLWE} {bits n : Nat}
    {P : Nat → List Nat → NTTRLWE → Prop} (hq : q < 2 ^ R.w)
    (hf : ∀ v a e, v < q → Reduced q n a → Reduced q n e → ∃ r, sample v a e = some r ∧ P v e r) :
    ∀ (cnt j0 : Nat) (draws : List Draw), cnt < draws.length → DrawsOk q n draws →
      2 ^ (bits * (j0 + cnt)) < q →
      ∃ out, NTTGadgetRLWE.generateLoop R sample (2 ^ bits) cnt (2 ^ (bits * j0)) draws = some out ∧
        out.length = cnt + 1 ∧
        ∀ j (h : j < out.length), P (2 ^ (bits * (j0 + j))) (draws.getD j ([], [])).2 out[j]
  | _, _, [], h, _, _ => by simp at h
  | 0, j0, (a, e) :: ds, _, hd, hlt => by
    obtain ⟨r, er, hr⟩ := hf (2 ^ (bits * j0)) a e (by simpa using hlt) (hd _ List.mem_cons_self).1
      (hd _ List.mem_cons_self).2
    refine ⟨[r], by unfold NTTGadgetRLWE.generateLoop; rw [mbind er]; rfl, rfl, ?_⟩
    intro j hj
    have : j = 0 := by simp at hj; omega
    subst this
    exact hr
  | cnt + 1, j0, (a, e) :: ds, hlen, hd, hlt => by
    have hmono : ∀ i, i ≤ cnt + 1 → 2 ^ (bits * (j0 + i)) < q := fun i hi =>
      lt_of_le_of_lt (Nat.pow_le_pow_right (by omega) (Nat.mul_le_mul_left _ (by omega))) hlt
    obtain ⟨r, er, hr⟩ := hf (2 ^ (bits * j0)) a e (by simpa using hmono 0 (by omega))
      (hd _ List.mem_cons_self).1 (hd _ List.mem_cons_self).2
    have hm : mulC R.w (2 ^ (bits * j0)) (2 ^ bits) = some (2 ^ (bits * (j0 + 1))) := by
      rw [Nat.mul_succ, pow_add]
      exact mulC_eq (by
        have := hmono 1 (by omega)
        rw [Nat.mul_succ, pow_add] at this
        omega)
    obtain ⟨out, eo, hl, ho⟩ := nttGenerateLoop_spec hq hf cnt (j0 + 1) ds (by simpa using hlen)
      (fun d h => hd d (List.mem_cons_of_mem _ h)) (by
        rw [show j0 + 1 + cnt = j0 + (cnt + 1) by omega]; exact hlt)
    refine ⟨r :: out, ?_, by simp [hl], ?_⟩
    · unfold NTTGadgetRLWE.generateLoop
      rw [mbind er, mbind hm, mbind eo]; rfl
    · intro j hj
      cases j with
      | zero => exact hr
      | succ j =>
        have := ho j (by simpa using hj)
        rw [show j0 + 1 + j = j0 + (j + 1) by omega] at this
        exact this

omit [Fact q.Prime] in
theorem generateLoop_spec {sample : Nat → List Nat → List Nat → Option RLWE} {bits n : Nat}
    {P : Nat → List Nat → RLWE → Prop}
    (hf : ∀ v a e, v < q → Reduced q n a → Reduced q n e → ∃ r, sample v a e = some r ∧ P v e r) :
    ∀ (cnt j0 : Nat) (draws : List Draw), cnt ≤ draws.length → DrawsOk q n draws →
      (cnt ≠ 0 → 2 ^ (bits * (j0 + cnt - 1)) < q) → 2 ^ (bits * (j0 + cnt)) < 2 ^ R.w →
      ∃ out, GadgetRLWE.generateLoop R sample (2 ^ bits) cnt (2 ^ (bits * j0)) draws = some out ∧
        out.length = cnt ∧
        ∀ j (h : j < out.length), P (2 ^ (bits * (j0 + j))) (draws.getD j ([], [])).2 out[j]
  | 0, j0, draws, _, _, _, _ => ⟨[], by unfold GadgetRLWE.generateLoop; rfl, rfl, by simp⟩
  | cnt + 1, _, [], h, _, _, _ => by simp at h
  | cnt + 1, j0, (a, e) :: ds, hlen, hd, hlt, hw => by
    have hmono : ∀ i, i ≤ cnt → 2 ^ (bits * (j0 + i)) < q := fun i hi =>
      lt_of_le_of_lt (Nat.pow_le_pow_right (by omega) (Nat.mul_le_mul_left _ (by omega)))
        (hlt (by omega))
    obtain ⟨r, er, hr⟩ := hf (2 ^ (bits * j0)) a e (by simpa using hmono 0 (by omega))
      (hd _ List.mem_cons_self).1 (hd _ List.mem_cons_self).2
    have hm : mulC R.w (2 ^ (bits * j0)) (2 ^ bits) = some (2 ^ (bits * (j0 + 1))) := by
      rw [Nat.mul_succ, pow_add]
      refine mulC_eq (lt_of_le_of_lt ?_ hw)
      rw [← pow_add, ← Nat.mul_succ]
      exact Nat.pow_le_pow_right (by omega) (Nat.mul_le_mul_left _ (by omega))
    obtain ⟨out, eo, hl, ho⟩ := generateLoop_spec hf cnt (j0 + 1) ds (by simpa using hlen)
      (fun d h => hd d (List.mem_cons_of_mem _ h)) (by
        intro h
        rw [show j0 + 1 + cnt - 1 = j0 + cnt by omega]; exact hmono _ le_rfl) (by
        rw [show j0 + 1 + cnt = j0 + (cnt + 1) by omega]; exact hw)
    refine ⟨r :: out, ?_, by simp [hl], ?_⟩
    · unfold GadgetRLWE.generateLoop
      rw [mbind er, mbind hm, mbind eo]; rfl
    · intro j hj
      cases j with
      | zero => exact hr
      | succ j =>
        have := ho j (by simpa using hj)
        rw [show j0 + 1 + j = j0 + (j + 1) by omega] at this
        exact this

/-- C36: the samples generated in transform form are gadget ciphertexts of `0`, `1` and `-s` whose
errors are the sampled error polynomials. -/
theorem C36_ntt_samples (hk : 0 < k) (F : TableField R.w q R.M R.tbl k) (bits : Nat) (B : Basis)
    (hB : Basis.new R.w q bits = some B) (s sn : List Nat)
    (hs : Reduced q (2 ^ k) s) (hsn : Poly.toNtt R.w R.M R.tbl s = some sn) (draws : List Draw)
    (hd : DrawsOk q (2 ^ k) draws) (hlen : B.decomposeLen ≤ draws.length) :
    (∃ g, NTTGadgetRLWE.zeroSample R sn B draws = some g ∧
      g.Encrypts R q (2 ^ k) bits (Rq.ofWords q (2 ^ k) s) 0 (drawErrors q (2 ^ k) draws)) ∧
    (∃ g, NTTGadgetRLWE.oneSample R sn B draws = some g ∧
      g.Encrypts R q (2 ^ k) bits (Rq.ofWords q (2 ^ k) s) 1 (drawErrors q (2 ^ k) draws)) ∧
    (∃ g, NTTGadgetRLWE.negSecretSample R sn B draws = some g ∧
      g.Encrypts R q (2 ^ k) bits (Rq.ofWords q (2 ^ k) s) (-Rq.ofWords q (2 ^ k) s)
        (drawErrors q (2 ^ k) draws)) := by
  have hsp := fun v hv a e ha he => samples_spec hk F s sn hs hsn a e ha he v hv
  have hq0 : 0 < q := (Fact.out : q.Prime).pos
  obtain ⟨hqw, h2q⟩ : q < 2 ^ R.w ∧ 2 ≤ q := by
    obtain ⟨t, rfl, E⟩ := F.env hk
    have := E.C.four_mul_lt
    exact ⟨by omega, E.C.two_le⟩
  obtain ⟨_, _, _, _, _, hbasis, _⟩ := new_basis hqw hB
  obtain ⟨_, hl1, hlt⟩ := len_bounds hqw h2q hB
  have hsub : subC B.decomposeLen 1 = some (B.decomposeLen - 1) := subC_eq hl1
  refine ⟨?_, ?_, ?_⟩
  · obtain ⟨out, eo, hl, ho⟩ := zeroSample_aux (f := fun d => NTTRLWE.zeroSample R sn d.1 d.2)
      (P := fun d r => r.HasPhase R q q (2 ^ k) (Rq.ofWords q (2 ^ k) s) (Rq.ofWords q (2 ^ k) d.2))
      hd hlen (fun d h1 h2 => (hsp 0 hq0 d.1 d.2 h1 h2).2.2.2.1)
    refine ⟨⟨out, B⟩, ?_, hB, hl, fun j hj => ?_⟩
    · unfold NTTGadgetRLWE.zeroSample
      rw [if_pos hlen, mbind eo]; rfl
    · rw [zero_mul, zero_add]; exact ho j hj
  · obtain ⟨out, eo, hl, ho⟩ := nttGenerateLoop_spec (R := R) (bits := bits)
      (P := fun v e r => r.HasPhase R q q (2 ^ k) (Rq.ofWords q (2 ^ k) s)
        (1 * Rq.const (v : ZMod q) + Rq.ofWords q (2 ^ k) e)) hqw
      (fun v a e hv ha he => (hsp v hv a e ha he).2.2.2.2.1) (B.decomposeLen - 1) 0 draws
      (by omega) hd (by simpa using hlt)
    refine ⟨⟨out, B⟩, ?_, hB, by dsimp only; omega, fun j hj => ?_⟩
    · unfold NTTGadgetRLWE.oneSample
      rw [Nat.mul_zero, pow_zero, ← hbasis] at eo
      rw [mbind hsub, show Fp.one = 1 from rfl, mbind eo]; rfl
    · have := ho j hj
      rwa [Nat.zero_add] at this
  · obtain ⟨out, eo, hl, ho⟩ := nttGenerateLoop_spec (R := R) (bits := bits)
      (P := fun v e r => r.HasPhase R q q (2 ^ k) (Rq.ofWords q (2 ^ k) s)
        (-Rq.ofWords q (2 ^ k) s * Rq.const (v : ZMod q) + Rq.ofWords q (2 ^ k) e)) hqw
      (fun v a e hv ha he => (hsp v hv a e ha he).2.2.2.2.2) (B.decomposeLen - 1) 0 draws
      (by omega) hd (by simpa using hlt)
    refine ⟨⟨out, B⟩, ?_, hB, by dsimp only; omega, fun j hj => ?_⟩
    · unfold NTTGadgetRLWE.negSecretSample
      rw [Nat.mul_zero, pow_zero, ← hbasis] at eo
      rw [mbind hsub, show Fp.one = 1 from rfl, mbind eo]; rfl
    · have := ho j hj
      rwa [Nat.zero_add] at this

/-- C36: the samples generated in coefficient form. The ciphertexts of `1` and of `-s` need
`B^len < 2^w`: the code multiplies the power once more after the last element, see
`C36_sample_overflow`. -/
theorem C36_samples_partial (hk : 0 < k) (F : TableField R.w q R.M R.tbl k) (bits : Nat) (B : Basis)
    (hB : Basis.new R.w q bits = some B) (s sn : List Nat)
    (hs : Reduced q (2 ^ k) s) (hsn : Poly.toNtt R.w R.M R.tbl s = some sn) (draws : List Draw)
    (hd : DrawsOk q (2 ^ k) draws) (hlen : B.decomposeLen ≤ draws.length) :
    (∃ g, GadgetRLWE.zeroSample R sn B draws = some g ∧
      g.Encrypts R.w q (2 ^ k) bits (Rq.ofWords q (2 ^ k) s) 0 (drawErrors q (2 ^ k) draws)) ∧
    (bits * B.decomposeLen < R.w →
      (∃ g, GadgetRLWE.oneSample R sn B draws = some g ∧
        g.Encrypts R.w q (2 ^ k) bits (Rq.ofWords q (2 ^ k) s) 1 (drawErrors q (2 ^ k) draws)) ∧
      (∃ g, GadgetRLWE.negSecretSample R sn B draws = some g ∧
        g.Encrypts R.w q (2 ^ k) bits (Rq.ofWords q (2 ^ k) s) (-Rq.ofWords q (2 ^ k) s)
          (drawErrors q (2 ^ k) draws))) := by
  have hsp := fun v hv a e ha he => samples_spec hk F s sn hs hsn a e ha he v hv
  have hq0 : 0 < q := (Fact.out : q.Prime).pos
  obtain ⟨hqw, h2q⟩ : q < 2 ^ R.w ∧ 2 ≤ q := by
    obtain ⟨t, rfl, E⟩ := F.env hk
    have := E.C.four_mul_lt
    exact ⟨by omega, E.C.two_le⟩
  obtain ⟨_, _, _, _, _, hbasis, _⟩ := new_basis hqw hB
  obtain ⟨_, hl1, hlt⟩ := len_bounds hqw h2q hB
  refine ⟨?_, fun hw => ⟨?_, ?_⟩⟩
  · obtain ⟨out, eo, hl, ho⟩ := zeroSample_aux (f := fun d => RLWE.zeroSample R sn d.1 d.2)
      (P := fun d r => r.HasPhase q (2 ^ k) (Rq.ofWords q (2 ^ k) s) (Rq.ofWords q (2 ^ k) d.2))
      hd hlen (fun d h1 h2 => (hsp 0 hq0 d.1 d.2 h1 h2).1)
    refine ⟨⟨out, B⟩, ?_, hB, hl, fun j hj => ?_⟩
    · unfold GadgetRLWE.zeroSample
      rw [if_pos hlen, mbind eo]; rfl
    · rw [zero_mul, zero_add]; exact ho j hj
  · obtain ⟨out, eo, hl, ho⟩ := generateLoop_spec (R := R) (bits := bits)
      (P := fun v e r => r.HasPhase q (2 ^ k) (Rq.ofWords q (2 ^ k) s)
        (1 * Rq.const (v : ZMod q) + Rq.ofWords q (2 ^ k) e))
      (fun v a e hv ha he => (hsp v hv a e ha he).2.1) B.decomposeLen 0 draws
      hlen hd (fun _ => by simpa using hlt)
      (by rw [Nat.zero_add]; exact Nat.pow_lt_pow_right (by omega) hw)
    refine ⟨⟨out, B⟩, ?_, hB, hl, fun j hj => ?_⟩
    · unfold GadgetRLWE.oneSample
      rw [Nat.mul_zero, pow_zero, ← hbasis] at eo
      rw [show Fp.one = 1 from rfl, mbind eo]; rfl
    · have := ho j hj
      rwa [Nat.zero_add] at this
  · obtain ⟨out, eo, hl, ho⟩ := generateLoop_spec (R := R) (bits := bits)
      (P := fun v e r => r.HasPhase q (2 ^ k) (Rq.ofWords q (2 ^ k) s)
        (-Rq.ofWords q (2 ^ k) s * Rq.const (v : ZMod q) + Rq.ofWords q (2 ^ k) e))
      (fun v a e hv ha he => (hsp v hv a e ha he).2.2.1) B.decomposeLen 0 draws
      hlen hd (fun _ => by simpa using hlt)
      (by rw [Nat.zero_add]; exact Nat.pow_lt_pow_right (by omega) hw)
    refine ⟨⟨out, B⟩, ?_, hB, hl, fun j hj => ?_⟩
    · unfold GadgetRLWE.negSecretSample
      rw [Nat.mul_zero, pow_zero, ← hbasis] at eo
      rw [show Fp.one = 1 from rfl, mbind eo]; rfl
    · have := ho j hj
      rwa [Nat.zero_add] at this

/-- C36: on bytes with `q = 17` and base `2^4` the code generating ciphertexts of `1` and of `-s` in
coefficient form overflows, although every power used fits. -/
theorem C36_sample_overflow : ∃ B sn, Basis.new 8 17 4 = some B ∧ B.decomposeLen = 2 ∧
    Poly.toNtt 8 barrett17 tbl17 [1, 0, 1, 0] = some sn ∧
    GadgetRLWE.oneSample ⟨8, barrett17, tbl17⟩ sn B
      [([1, 2, 3, 4], [0, 1, 0, 16]), ([5, 6, 7, 8], [1, 0, 0, 0])] = none ∧
    GadgetRLWE.negSecretSample ⟨8, barrett17, tbl17⟩ sn B
      [([1, 2, 3, 4], [0, 1, 0, 16]), ([5, 6, 7, 8], [1, 0, 0, 0])] = none :=
  ⟨⟨16, 2, 15, 4⟩, [5, 5, 14, 14], by decide +kernel, rfl, by decide +kernel, by decide +kernel,
    by decide +kernel⟩

-- a gadget ciphertext of 1, the product with a polynomial, in transform form
example : (do
    let B ← Basis.new 8 17 4
    let sn ← Poly.toNtt 8 barrett17 tbl17 [1, 0, 1, 0]
    let g ← NTTGadgetRLWE.oneSample ⟨8, barrett17, tbl17⟩ sn B
      [([1, 2, 3, 4], [0, 1, 0, 16]), ([5, 6, 7, 8], [1, 0, 0, 0])]
    NTTGadgetRLWE.mulPolynomial ⟨8, barrett17, tbl17⟩ g [3, 16, 0, 5]).isSome = true := by
  decide +kernel

example : DrawsOk 17 4 [([1, 2, 3, 4], [0, 1, 0, 16]), ([5, 6, 7, 8], [1, 0, 0, 0])] := by
  intro d hd
  rcases List.mem_cons.1 hd with rfl | hd
  · exact ⟨⟨rfl, by decide⟩, ⟨rfl, by decide⟩⟩
  · rcases List.mem_cons.1 hd with rfl | hd
    · exact ⟨⟨rfl, by decide⟩, ⟨rfl, by decide⟩⟩
    · simp at hd

/-! ## C37: external products -/

/-- C37: the product of a ciphertext with an RGSW ciphertext of `m`, in coefficient form, in transform
form, and with lazy reduction into a reused buffer, has the phase multiplied by `m`, plus the two
gadget errors. -/
theorem C37_external_product (hk : 0 < k) (F : TableField R.w q R.M R.tbl k) (bits : Nat)
    (s m φ : Rq (ZMod q) (2 ^ k)) (e0 e1 : Nat → Rq (ZMod q) (2 ^ k)) (B : Basis)
    (hB : Basis.new R.w q bits = some B) (x : RLWE) (hx : x.HasPhase q (2 ^ k) s φ) :
    (∀ g : RGSW, g.Encrypts R.w q (2 ^ k) bits s m e0 e1 →
      ∃ r, RLWE.mulRgsw R x g = some r ∧ r.HasPhase q (2 ^ k) s
        (m * φ + gadgetError q (2 ^ k) bits B.decomposeLen x.a e0 +
          gadgetError q (2 ^ k) bits B.decomposeLen x.b e1)) ∧
    (∀ g : NTTRGSW, g.Encrypts R q (2 ^ k) bits s m e0 e1 →
      (∃ r, RLWE.mulNttRgsw R x g = some r ∧ r.HasPhase q (2 ^ k) s
        (m * φ + gadgetError q (2 ^ k) bits B.decomposeLen x.a e0 +
          gadgetError q (2 ^ k) bits B.decomposeLen x.b e1)) ∧
      ∀ median : NTTRLWE, median.a.length = 2 ^ k → median.b.length = 2 ^ k →
        ∃ r median', RLWE.mulAssignNttRgsw R x g median = some (r, median') ∧
          RLWE.mulNttRgswInplace R x g median = some r ∧
          median'.a.length = 2 ^ k ∧ median'.b.length = 2 ^ k ∧ r.HasPhase q (2 ^ k) s
          (m * φ + gadgetError q (2 ^ k) bits B.decomposeLen x.a e0 +
            gadgetError q (2 ^ k) bits B.decomposeLen x.b e1)) := by
  have hφ : ∀ E0 E1 : Rq (ZMod q) (2 ^ k),
      -s * m * Rq.ofWords q (2 ^ k) x.a + E0 + m * Rq.ofWords q (2 ^ k) x.b + E1 = m * φ + E0 + E1 := by
    intro E0 E1
    rw [← hx.phase, rlwePhase]; ring
  obtain ⟨nb, hnb⟩ : ∃ nb, Reduced q (2 ^ k) nb ∧
      Rq.ofWords q (2 ^ k) nb = -Rq.ofWords q (2 ^ k) x.b := by
    obtain ⟨t, rfl, E⟩ := F.env hk
    obtain ⟨o, _, ho⟩ := (rep_exists hx.b).neg E
    exact ⟨o, rep_iff.1 ho⟩
  refine ⟨fun g hg => ?_, fun g hg => ⟨?_, fun med h1 h2 => ?_⟩⟩
  · obtain ⟨r, er, hr⟩ := (C36_products hk F bits s _ e0 x.a hx.a).1 _ hg.negSM
    obtain ⟨r', er', hr'⟩ := (C36_accumulate hk F bits s m _ e1 x.b nb hx.b hnb.1 hnb.2).1 _ r hg.m hr
    have hb0 : g.cNegSM.basis = B := Option.some.inj (hg.negSM.basis.symm.trans hB)
    have hb1 : g.cM.basis = B := Option.some.inj (hg.m.basis.symm.trans hB)
    refine ⟨r', ?_, ?_⟩
    · unfold RLWE.mulRgsw
      rw [mbind er, er']
    · rwa [hb0, hb1, hφ] at hr'
  · obtain ⟨r, er, hr⟩ := ((C36_products hk F bits s _ e0 x.a hx.a).2 _ hg.negSM).1
    obtain ⟨r', er', hr'⟩ :=
      (((C36_accumulate hk F bits s m _ e1 x.b nb hx.b hnb.1 hnb.2).2 _ hg.m).1 r hr).1
    have hb0 : g.cNegSM.basis = B := Option.some.inj (hg.negSM.basis.symm.trans hB)
    have hb1 : g.cM.basis = B := Option.some.inj (hg.m.basis.symm.trans hB)
    obtain ⟨y, ey, hy⟩ := hr'.phase
    refine ⟨y, ?_, ?_⟩
    · unfold RLWE.mulNttRgsw
      rw [mbind er, mbind er', ey]
    · rwa [hb0, hb1, hφ] at hy
  · obtain ⟨r, er, hr⟩ := (((C36_products hk F bits s _ e0 x.a hx.a).2 _ hg.negSM).2 med h1 h2).2
    obtain ⟨r', er', hr'⟩ :=
      (((C36_accumulate hk F bits s m _ e1 x.b nb hx.b hnb.1 hnb.2).2 _ hg.m).2 r hr).1
    have hb0 : g.cNegSM.basis = B := Option.some.inj (hg.negSM.basis.symm.trans hB)
    have hb1 : g.cM.basis = B := Option.some.inj (hg.m.basis.symm.trans hB)
    obtain ⟨y, ey, hy⟩ := hr'.phase
    have e1 : RLWE.mulAssignNttRgsw R x g med = some (y, r') := by
      unfold RLWE.mulAssignNttRgsw
      rw [mbind er, mbind er', mbind ey]; rfl
    refine ⟨y, r', e1, ?_, hr'.a.1, hr'.b.1, ?_⟩
    · unfold RLWE.mulNttRgswInplace
      rw [mbind e1]; rfl
    · rwa [hb0, hb1, hφ] at hy

/-- C37: with every error of the RGSW ciphertext at most `b`, the external product adds an error of
at most `2 * len * n * (2^bits - 1) * b`. -/
theorem C37_error_bound (q n bits len b : Nat) [NeZero n] [Fact (1 < q)] (l l' : List Nat)
    (e0 e1 : Nat → Rq (ZMod q) n) (h0 : ∀ j, j < len → (e0 j).Bounded b)
    (h1 : ∀ j, j < len → (e1 j).Bounded b) :
    (gadgetError q n bits len l e0 + gadgetError q n bits len l' e1).Bounded
      (2 * (len * (n * ((2 ^ bits - 1) * b)))) := by
  have := (C36_error_bound q n bits len b l e0 h0).add (C36_error_bound q n bits len b l' e1 h1)
  exact this.mono (by omega)

/-- C37: generated RGSW samples, in transform form, are ciphertexts of `0` and `1` with the sampled
errors. -/
theorem C37_ntt_samples (hk : 0 < k) (F : TableField R.w q R.M R.tbl k) (bits : Nat) (B : Basis)
    (hB : Basis.new R.w q bits = some B) (s sn : List Nat)
    (hs : Reduced q (2 ^ k) s) (hsn : Poly.toNtt R.w R.M R.tbl s = some sn) (d0 d1 : List Draw)
    (h0 : DrawsOk q (2 ^ k) d0) (h1 : DrawsOk q (2 ^ k) d1)
    (hl0 : B.decomposeLen ≤ d0.length) (hl1 : B.decomposeLen ≤ d1.length) :
    (∃ g, NTTRGSW.zeroSample R sn B d0 d1 = some g ∧
      g.Encrypts R q (2 ^ k) bits (Rq.ofWords q (2 ^ k) s) 0 (drawErrors q (2 ^ k) d0)
        (drawErrors q (2 ^ k) d1)) ∧
    (∃ g, NTTRGSW.oneSample R sn B d0 d1 = some g ∧
      g.Encrypts R q (2 ^ k) bits (Rq.ofWords q (2 ^ k) s) 1 (drawErrors q (2 ^ k) d0)
        (drawErrors q (2 ^ k) d1)) := by
  obtain ⟨⟨g0, e0, G0⟩, _, ⟨n0, e0', N0⟩⟩ := C36_ntt_samples hk F bits B hB s sn hs hsn d0 h0 hl0
  obtain ⟨⟨g1, e1, G1⟩, ⟨n1, e1', N1⟩, _⟩ := C36_ntt_samples hk F bits B hB s sn hs hsn d1 h1 hl1
  refine ⟨⟨⟨g0, g1⟩, ?_, by rw [mul_zero]; exact G0, G1⟩, ⟨⟨n0, n1⟩, ?_, by rw [mul_one]; exact N0, N1⟩⟩
  · unfold NTTRGSW.zeroSample; rw [mbind e0, mbind e1]; rfl
  · unfold NTTRGSW.oneSample; rw [mbind e0', mbind e1']; rfl

/-- C37: the samples in coefficient form; the ciphertext of `1` needs `B^len < 2^w`, see
`C36_sample_overflow`. -/
theorem C37_samples_partial (hk : 0 < k) (F : TableField R.w q R.M R.tbl k) (bits : Nat) (B : Basis)
    (hB : Basis.new R.w q bits = some B) (s sn : List Nat)
    (hs : Reduced q (2 ^ k) s) (hsn : Poly.toNtt R.w R.M R.tbl s = some sn) (d0 d1 : List Draw)
    (h0 : DrawsOk q (2 ^ k) d0) (h1 : DrawsOk q (2 ^ k) d1)
    (hl0 : B.decomposeLen ≤ d0.length) (hl1 : B.decomposeLen ≤ d1.length) :
    (∃ g, RGSW.zeroSample R sn B d0 d1 = some g ∧
      g.Encrypts R.w q (2 ^ k) bits (Rq.ofWords q (2 ^ k) s) 0 (drawErrors q (2 ^ k) d0)
        (drawErrors q (2 ^ k) d1)) ∧
    (bits * B.decomposeLen < R.w → ∃ g, RGSW.oneSample R sn B d0 d1 = some g ∧
      g.Encrypts R.w q (2 ^ k) bits (Rq.ofWords q (2 ^ k) s) 1 (drawErrors q (2 ^ k) d0)
        (drawErrors q (2 ^ k) d1)) := by
  obtain ⟨⟨g0, e0, G0⟩, H0⟩ := C36_samples_partial hk F bits B hB s sn hs hsn d0 h0 hl0
  obtain ⟨⟨g1, e1, G1⟩, H1⟩ := C36_samples_partial hk F bits B hB s sn hs hsn d1 h1 hl1
  refine ⟨⟨⟨g0, g1⟩, ?_, by rw [mul_zero]; exact G0, G1⟩, fun hw => ?_⟩
  · unfold RGSW.zeroSample; rw [mbind e0, mbind e1]; rfl
  · obtain ⟨_, n0, e0', N0⟩ := H0 hw
    obtain ⟨⟨n1, e1', N1⟩, _⟩ := H1 hw
    refine ⟨⟨n0, n1⟩, ?_, by rw [mul_one]; exact N0, N1⟩
    unfold RGSW.oneSample; rw [mbind e0', mbind e1']; rfl

/-- C37: conversion to the transform form. -/
theorem C37_to_ntt (hk : 0 < k) (F : TableField R.w q R.M R.tbl k) (bits : Nat)
    (s m : Rq (ZMod q) (2 ^ k)) (e0 e1 : Nat → Rq (ZMod q) (2 ^ k)) (g : RGSW)
    (hg : g.Encrypts R.w q (2 ^ k) bits s m e0 e1) :
    ∃ r, NTTRGSW.ofRgsw R g = some r ∧ r.Encrypts R q (2 ^ k) bits s m e0 e1 := by
  obtain ⟨r0, h0, H0⟩ := C36_to_ntt hk F bits s _ e0 _ hg.negSM
  obtain ⟨r1, h1, H1⟩ := C36_to_ntt hk F bits s _ e1 _ hg.m
  refine ⟨⟨r0, r1⟩, ?_, H0, H1⟩
  unfold NTTRGSW.ofRgsw; rw [mbind h0, mbind h1]; rfl

theorem gadget_addMulNtt (hk : 0 < k) (F : TableField R.w q R.M R.tbl k) (bits : Nat)
    (s m m' : Rq (ZMod q) (2 ^ k)) (e e' : Nat → Rq (ZMod q) (2 ^ k)) (g h : NTTGadgetRLWE)
    (hg : g.Encrypts R q (2 ^ k) bits s m e) (hh : h.Encrypts R q (2 ^ k) bits s m' e')
    (p pn : List Nat) (hp : Reduced q (2 ^ k) p) (hpn : Poly.toNtt R.w R.M R.tbl p = some pn) :
    ∃ r, NTTGadgetRLWE.addMulNtt R g h pn = some r ∧
      r.Encrypts R q (2 ^ k) bits s (m + m' * Rq.ofWords q (2 ^ k) p)
        (fun j => e j + e' j * Rq.ofWords q (2 ^ k) p) := by
  have hbb : g.basis = h.basis := Option.some.inj (hg.basis.symm.trans hh.basis)
  obtain ⟨t, rfl, E⟩ := F.env hk
  obtain ⟨pn', ep, hP⟩ := E.toNtt (rep_exists hp)
  rw [hpn] at ep
  cases ep
  have hl : g.data.length = h.data.length := by rw [hg.len, hh.len, hbb]
  obtain ⟨out, eo, hlo, ho⟩ := mapM_getElem (l := g.data.zip h.data)
    (f := fun x : NTTRLWE × NTTRLWE => NTTRLWE.addMul R x.1 x.2 pn)
    (P := fun j r => r.HasPhase R R.M.value R.M.value (2 ^ k) s
      ((m + m' * Rq.ofWords R.M.value (2 ^ k) p) * Rq.const ((2 ^ (bits * j) : Nat) : ZMod R.M.value) +
        (e j + e' j * Rq.ofWords R.M.value (2 ^ k) p))) (by
    intro j hj
    have hj1 : j < g.data.length := by simp at hj; omega
    have hj2 : j < h.data.length := by omega
    obtain ⟨a, b, hab, hφ⟩ := (nttHasPhase_iff E (Or.inl rfl)).1 (hg.elem j hj1)
    obtain ⟨a', b', hab', hφ'⟩ := (nttHasPhase_iff E (Or.inl rfl)).1 (hh.elem j hj2)
    obtain ⟨o, eo, ho⟩ := hab.addMul E hab' hP
    refine ⟨o, by simpa using eo, (nttHasPhase_iff E (Or.inl rfl)).2 ⟨_, _, ho, ?_⟩⟩
    unfold rlwePhase at hφ hφ' ⊢
    linear_combination hφ + Rq.ofWords R.M.value (2 ^ k) p * hφ')
  refine ⟨⟨out, g.basis⟩, ?_, hg.basis, ?_, ho⟩
  · unfold NTTGadgetRLWE.addMulNtt
    rw [mbind eo]; rfl
  · rw [hlo, List.length_zip, ← hl, Nat.min_self]; exact hg.len

/-- C37: adding an RGSW ciphertext of `m'` times the transform form of a polynomial `p` to an RGSW
ciphertext of `m` gives one of `m + m' * p`. -/
theorem C37_add_mul (hk : 0 < k) (F : TableField R.w q R.M R.tbl k) (bits : Nat)
    (s m m' : Rq (ZMod q) (2 ^ k)) (e0 e1 e0' e1' : Nat → Rq (ZMod q) (2 ^ k)) (g h : NTTRGSW)
    (hg : g.Encrypts R q (2 ^ k) bits s m e0 e1) (hh : h.Encrypts R q (2 ^ k) bits s m' e0' e1')
    (p pn : List Nat) (hp : Reduced q (2 ^ k) p) (hpn : Poly.toNtt R.w R.M R.tbl p = some pn) :
    ∃ r, NTTRGSW.addMulNtt R g h pn = some r ∧
      r.Encrypts R q (2 ^ k) bits s (m + m' * Rq.ofWords q (2 ^ k) p)
        (fun j => e0 j + e0' j * Rq.ofWords q (2 ^ k) p)
        (fun j => e1 j + e1' j * Rq.ofWords q (2 ^ k) p) := by
  obtain ⟨r0, h0, H0⟩ := gadget_addMulNtt hk F bits s _ _ _ _ _ _ hg.negSM hh.negSM p pn hp hpn
  obtain ⟨r1, h1, H1⟩ := gadget_addMulNtt hk F bits s _ _ _ _ _ _ hg.m hh.m p pn hp hpn
  refine ⟨⟨r0, r1⟩, ?_, ?_, H1⟩
  · unfold NTTRGSW.addMulNtt; rw [mbind h0, mbind h1]; rfl
  · rwa [show -s * m + -s * m' * Rq.ofWords q (2 ^ k) p =
      -s * (m + m' * Rq.ofWords q (2 ^ k) p) by ring] at H0

theorem mulSmall_aux (hk : 0 < k) (F : TableField R.w q R.M R.tbl k) (bits : Nat) (B : Basis)
    (hB : Basis.new R.w q bits = some B) (s m m' : Rq (ZMod q) (2 ^ k))
    (e e0' e1' : Nat → Rq (ZMod q) (2 ^ k)) (x : GadgetRLWE) (g : NTTRGSW)
    (hx : x.Encrypts R.w q (2 ^ k) bits s m e) (hg : g.Encrypts R q (2 ^ k) bits s m' e0' e1') :
    ∃ r, (x.data.mapM fun r => RLWE.mulNttRgsw R r g) = some r ∧
      RGSW.mkGadget r B = some ⟨r, B⟩ ∧
      (⟨r, B⟩ : GadgetRLWE).Encrypts R.w q (2 ^ k) bits s (m' * m) (fun j => m' * e j +
        gadgetError q (2 ^ k) bits B.decomposeLen (x.data.getD j ⟨[], []⟩).a e0' +
        gadgetError q (2 ^ k) bits B.decomposeLen (x.data.getD j ⟨[], []⟩).b e1') := by
  have hbb : x.basis = B := Option.some.inj (hx.basis.symm.trans hB)
  obtain ⟨out, eo, hlo, ho⟩ := mapM_getElem (l := x.data)
    (f := fun r => RLWE.mulNttRgsw R r g)
    (P := fun j r => r.HasPhase q (2 ^ k) s
      (m' * m * Rq.const ((2 ^ (bits * j) : Nat) : ZMod q) + (m' * e j +
        gadgetError q (2 ^ k) bits B.decomposeLen (x.data.getD j ⟨[], []⟩).a e0' +
        gadgetError q (2 ^ k) bits B.decomposeLen (x.data.getD j ⟨[], []⟩).b e1'))) (by
    intro j hj
    obtain ⟨r, er, hr⟩ := ((C37_external_product hk F bits s m' _ e0' e1' B hB _ (hx.elem j hj)).2
      g hg).1
    refine ⟨r, er, ?_⟩
    rw [List.getD_eq_getElem _ _ hj]
    rw [mul_add, add_assoc, add_assoc, ← mul_assoc, ← add_assoc (m' * e j)] at hr
    exact hr)
  have hlen : out.length = B.decomposeLen := by rw [hlo, hx.len, hbb]
  exact ⟨out, eo, by unfold RGSW.mkGadget; rw [if_pos hlen], hB, hlen, ho⟩

/-- C37: the product of RGSW ciphertexts of `m` and `m'` is one of `m * m'`, with the transformed or
the coefficient form of the right operand. -/
theorem C37_rgsw_product (hk : 0 < k) (F : TableField R.w q R.M R.tbl k) (bits : Nat) (B : Basis)
    (hB : Basis.new R.w q bits = some B) (s m m' : Rq (ZMod q) (2 ^ k))
    (e0 e1 e0' e1' : Nat → Rq (ZMod q) (2 ^ k)) (x : RGSW)
    (hx : x.Encrypts R.w q (2 ^ k) bits s m e0 e1) :
    let err (d : List RLWE) (e : Nat → Rq (ZMod q) (2 ^ k)) (j : Nat) := m' * e j +
        gadgetError q (2 ^ k) bits B.decomposeLen (d.getD j ⟨[], []⟩).a e0' +
        gadgetError q (2 ^ k) bits B.decomposeLen (d.getD j ⟨[], []⟩).b e1'
    (∀ g : NTTRGSW, g.Encrypts R q (2 ^ k) bits s m' e0' e1' → ∃ r, RGSW.mulSmallNtt R x g = some r ∧
      r.Encrypts R.w q (2 ^ k) bits s (m * m') (err x.cNegSM.data e0) (err x.cM.data e1)) ∧
    (∀ g : RGSW, g.Encrypts R.w q (2 ^ k) bits s m' e0' e1' → ∃ r, RGSW.mulSmall R x g = some r ∧
      r.Encrypts R.w q (2 ^ k) bits s (m * m') (err x.cNegSM.data e0) (err x.cM.data e1)) := by
  intro err
  have hb0 : x.cNegSM.basis = B := Option.some.inj (hx.negSM.basis.symm.trans hB)
  have key : ∀ g : NTTRGSW, g.Encrypts R q (2 ^ k) bits s m' e0' e1' →
      ∃ r, RGSW.mulSmallNtt R x g = some r ∧
      r.Encrypts R.w q (2 ^ k) bits s (m * m') (err x.cNegSM.data e0) (err x.cM.data e1) := by
    intro g hg
    obtain ⟨r0, h0, k0, H0⟩ := mulSmall_aux hk F bits B hB s _ m' e0 e0' e1' _ g hx.negSM hg
    obtain ⟨r1, h1, k1, H1⟩ := mulSmall_aux hk F bits B hB s _ m' e1 e0' e1' _ g hx.m hg
    refine ⟨⟨⟨r0, B⟩, ⟨r1, B⟩⟩, ?_, ?_, ?_⟩
    · unfold RGSW.mulSmallNtt
      rw [mbind h0, hb0, mbind k0, mbind h1, mbind k1]; rfl
    · rwa [show m' * (-s * m) = -s * (m * m') by ring] at H0
    · rwa [mul_comm m' m] at H1
  refine ⟨key, fun g hg => ?_⟩
  obtain ⟨g', eg, hg'⟩ := C37_to_ntt hk F bits s m' e0' e1' g hg
  obtain ⟨r, er, hr⟩ := key g' hg'
  exact ⟨r, by unfold RGSW.mulSmall; rw [mbind eg, er], hr⟩

-- the external product with an RGSW ciphertext of 1 keeps the message: base 2^4, q = 17
example : (do
    let B ← Basis.new 8 17 4
    let sn ← Poly.toNtt 8 barrett17 tbl17 [1, 0, 1, 0]
    let g ← NTTRGSW.oneSample ⟨8, barrett17, tbl17⟩ sn B
      [([1, 2, 3, 4], [0, 0, 0, 0]), ([5, 6, 7, 8], [0, 0, 0, 0])]
      [([1, 2, 13, 4], [0, 0, 0, 0]), ([5, 6, 7, 18], [0, 0, 0, 0])]
    RLWE.mulNttRgswInplace ⟨8, barrett17, tbl17⟩ ⟨[0, 0, 0, 0], [3, 9, 0, 16]⟩ g
      ⟨[1, 2, 3, 4], [5, 6, 7, 8]⟩).isSome = true := by
  decide +kernel

-- RGSW ciphertexts of 1 with non-zero errors exist
example : ∃ (g : NTTRGSW) (s : Rq (ZMod 17) (2 ^ 2)) (e0 e1 : Nat → Rq (ZMod 17) (2 ^ 2)),
    g.Encrypts ⟨8, barrett17, tbl17⟩ 17 (2 ^ 2) 4 s 1 e0 e1 := by
  have : Fact (Nat.Prime 17) := ⟨by decide⟩
  have hd : DrawsOk 17 4 [([1, 2, 3, 4], [0, 1, 0, 16]), ([5, 6, 7, 8], [1, 0, 0, 0])] := by
    intro d hd
    rcases List.mem_cons.1 hd with rfl | hd
    · exact ⟨⟨rfl, by decide⟩, ⟨rfl, by decide⟩⟩
    · rcases List.mem_cons.1 hd with rfl | hd
      · exact ⟨⟨rfl, by decide⟩, ⟨rfl, by decide⟩⟩
      · simp at hd
  obtain ⟨_, g, _, hg⟩ := C37_ntt_samples (R := ⟨8, barrett17, tbl17⟩) (q := 17) (k := 2) (by omega)
    tbl17_field 4 ⟨16, 2, 15, 4⟩ (by decide +kernel) [1, 0, 1, 0] [5, 5, 14, 14] ⟨rfl, by decide⟩
    (by decide +kernel) _ _ hd hd (by decide) (by decide)
  exact ⟨g, _, _, _, hg⟩

end Props
end Verif
