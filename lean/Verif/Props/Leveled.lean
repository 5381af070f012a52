import Verif.Lemmas.Weight
import Verif.Props.Elementwise
import Verif.Props.EvalForm

/-! # C86: programs over ring ciphertexts -/

namespace Verif.Props
open Fp Finset Spec Ntt

section
variable {R : Ctx} {q : Nat} [Fact q.Prime] {k : Nat}

omit [Fact q.Prime] in
theorem rlwe_shaped {s φ : Rq (ZMod q) (2 ^ k)} {x : RLWE} (h : x.HasPhase q (2 ^ k) s φ) :
    x.Shaped (2 ^ k) := ⟨h.a.1, h.b.1⟩

omit [Fact q.Prime] in
theorem ntt_rlwe_shaped {s φ : Rq (ZMod q) (2 ^ k)} {x : NTTRLWE} (h : x.HasPhase R q q (2 ^ k) s φ) :
    x.Shaped (2 ^ k) := ⟨h.a.1, h.b.1⟩

omit [Fact q.Prime] in
theorem gadget_shaped {w bits : Nat} {B : Basis} (hB : Basis.new w q bits = some B)
    {s m : Rq (ZMod q) (2 ^ k)} {e : Nat → Rq (ZMod q) (2 ^ k)} {g : GadgetRLWE}
    (h : g.Encrypts w q (2 ^ k) bits s m e) : g.Shaped (2 ^ k) B := by
  obtain rfl := Option.some.inj (hB.symm.trans h.basis)
  refine ⟨rfl, h.len, fun x hx => ?_⟩
  obtain ⟨j, hj, rfl⟩ := List.getElem_of_mem hx
  exact rlwe_shaped (h.elem j hj)

omit [Fact q.Prime] in
theorem ntt_gadget_shaped {bits : Nat} {B : Basis} (hB : Basis.new R.w q bits = some B)
    {s m : Rq (ZMod q) (2 ^ k)} {e : Nat → Rq (ZMod q) (2 ^ k)} {g : NTTGadgetRLWE}
    (h : g.Encrypts R q (2 ^ k) bits s m e) : g.Shaped (2 ^ k) B := by
  obtain rfl := Option.some.inj (hB.symm.trans h.basis)
  refine ⟨rfl, h.len, fun x hx => ?_⟩
  obtain ⟨j, hj, rfl⟩ := List.getElem_of_mem hx
  exact ntt_rlwe_shaped (h.elem j hj)

/-- The errors that a product of gadget ciphertexts adds. -/
theorem gadget_noise {bits len b : Nat} {l l' : List Nat} {e0 e1 : Nat → Rq (ZMod q) (2 ^ k)}
    (h0 : ∀ j, (e0 j).Bounded b) (h1 : ∀ j, (e1 j).Bounded b) :
    (gadgetError q (2 ^ k) bits len l e0 + gadgetError q (2 ^ k) bits len l' e1).Bounded
      (CtExpr.gadgetNoise (2 ^ k) bits len b) := by
  have : Fact (1 < q) := ⟨(Fact.out : q.Prime).one_lt⟩
  exact C37_error_bound q (2 ^ k) bits len b l l' e0 e1 (fun j _ => h0 j) fun j _ => h1 j

theorem product_noise {bits len N b b' : Nat} {l l' : List Nat} {m e : Rq (ZMod q) (2 ^ k)}
    {e0 e1 : Nat → Rq (ZMod q) (2 ^ k)} (hm : m.Weight N) (he : e.Bounded b)
    (h0 : ∀ j, (e0 j).Bounded b') (h1 : ∀ j, (e1 j).Bounded b') :
    (m * e + gadgetError q (2 ^ k) bits len l e0 + gadgetError q (2 ^ k) bits len l' e1).Bounded
      (N * b + CtExpr.gadgetNoise (2 ^ k) bits len b') := by
  rw [add_assoc]
  exact (hm.mul_bounded he).add (gadget_noise h0 h1)

theorem zero_words : Reduced q (2 ^ k) (Poly.zero (2 ^ k)) := by
  have := (Fact.out : q.Prime).pos
  refine ⟨by simp [Poly.zero], fun x hx => ?_⟩
  rw [List.eq_of_mem_replicate hx]
  exact this

theorem mono_phase (w : Nat) (hw : w % 2 = 0) (M : Barrett) (h : Fp.config w q = some M)
    (tbl : Nat → Option Table) (x y : RLWE) (s φ ψ : Rq (ZMod q) (2 ^ k)) (hx : x.HasPhase q (2 ^ k) s φ)
    (hy : y.HasPhase q (2 ^ k) s ψ) (r : Nat) (hr : r ≤ 2 * 2 ^ k) :
    (∃ o, RLWE.addMulMonomial ⟨w, M, tbl⟩ x y (2 ^ k) r = some o ∧
      o.HasPhase q (2 ^ k) s (φ + Rq.mono r * ψ)) ∧
    ∃ o, RLWE.mulMonomialSubOne ⟨w, M, tbl⟩ x (2 ^ k) r ⟨Poly.zero (2 ^ k), Poly.zero (2 ^ k)⟩ = some o ∧
      o.HasPhase q (2 ^ k) s ((Rq.mono r - 1) * φ) := by
  obtain ⟨o, eo, ha, hb, va, vb⟩ := C35_add_mul_monomial w q hw M h tbl (2 ^ k) (by positivity) x y hx.a hx.b
    hy.a hy.b r hr
  obtain ⟨o', eo', ha', hb', va', vb'⟩ := C35_mul_monomial_sub_one w q hw M h tbl (2 ^ k) (by positivity) x
    ⟨Poly.zero (2 ^ k), Poly.zero (2 ^ k)⟩ hx.a hx.b zero_words zero_words r hr
  refine ⟨⟨o, eo, ha, hb, ?_⟩, o', eo', ha', hb', ?_⟩
  · rw [va, vb, ← hx.phase, ← hy.phase]
    unfold rlwePhase
    ring
  · rw [va', vb', ← hx.phase]
    unfold rlwePhase
    ring

theorem zero_poly (hk : 0 < k) (F : TableField R.w q R.M R.tbl k) :
    ∃ p pn, Reduced q (2 ^ k) p ∧ Poly.toNtt R.w R.M R.tbl p = some pn := by
  obtain ⟨pn, ep, -, -⟩ := (C62_conversions hk F _ zero_words).2
  exact ⟨_, pn, zero_words, ep⟩

theorem toNtt_phase (hk : 0 < k) (F : TableField R.w q R.M R.tbl k) {x : RLWE} {s φ : Rq (ZMod q) (2 ^ k)}
    (hx : x.HasPhase q (2 ^ k) s φ) : ∃ r, RLWE.toNtt R x = some r ∧ r.HasPhase R q q (2 ^ k) s φ := by
  obtain ⟨t, rfl, E⟩ := F.env hk
  obtain ⟨a, b, hab, hφ⟩ := hasPhase_iff.1 hx
  obtain ⟨y, ey, hy⟩ := hab.toNtt E
  exact ⟨y, ey, (nttHasPhase_iff E (Or.inl rfl)).2 ⟨a, b, hy, hφ⟩⟩

variable (hk : 0 < k) (F : TableField R.w q R.M R.tbl k) (bits : Nat) (B : Basis)
  (hB : Basis.new R.w q bits = some B) (s : Rq (ZMod q) (2 ^ k)) (Γ : Known q (2 ^ k))
  (ι : (κ : Kind) → Nat → κ.Ct)
  (hι : ∀ κ i, IsCiphertext R q (2 ^ k) bits s (Γ.message κ i) (Γ.noise κ i) (Γ.weight κ i) κ (ι κ i))
include hk F hB hι

/-- C86: every program over ring ciphertexts runs without panic, whatever ciphertexts it gets, and gives
a ciphertext of the message computed by the same program in the ring, with errors bounded by the noise
computed from the program. -/
theorem C86_run : ∀ {κ : Kind} (c : CtExpr κ), c.Ok q (2 ^ k) →
    ∃ x, c.run R (2 ^ k) ι = some x ∧ IsCiphertext R q (2 ^ k) bits s (c.message Γ)
      (c.noise Γ bits B.decomposeLen) (c.weight Γ) κ x := by
  have hq1 : Fact (1 < q) := ⟨(Fact.out : q.Prime).one_lt⟩
  intro κ c
  induction c with
  | input i => exact fun _ => ⟨_, rfl, hι _ i⟩
  | add a b iha ihb =>
    rintro ⟨ha, hb⟩
    obtain ⟨x, ex, e, he, hx⟩ := iha ha
    obtain ⟨y, ey, e', he', hy⟩ := ihb hb
    obtain ⟨⟨r, er, -, hr⟩, -⟩ := C58_rlwe R.w q F.even R.M F.conf R.tbl (2 ^ k) x y x s _ _ hx hy (rlwe_shaped hx)
    refine ⟨r, by rw [CtExpr.run, mbind ex, mbind ey]; exact er, e + e', he.add he', ?_⟩
    convert hr using 1; rw [CtExpr.message]; ring
  | sub a b iha ihb =>
    rintro ⟨ha, hb⟩
    obtain ⟨x, ex, e, he, hx⟩ := iha ha
    obtain ⟨y, ey, e', he', hy⟩ := ihb hb
    obtain ⟨-, r, er, -, -, hr⟩ := C58_rlwe R.w q F.even R.M F.conf R.tbl (2 ^ k) x y x s _ _ hx hy (rlwe_shaped hx)
    refine ⟨r, by rw [CtExpr.run, mbind ex, mbind ey]; exact er, e - e', he.sub he', ?_⟩
    convert hr using 1; rw [CtExpr.message]; ring
  | addMono a b i iha ihb =>
    rintro ⟨ha, hb, hr0⟩
    obtain ⟨x, ex, e, he, hx⟩ := iha ha
    obtain ⟨y, ey, e', he', hy⟩ := ihb hb
    obtain ⟨⟨r, er, hr⟩, -⟩ := mono_phase R.w F.even R.M F.conf R.tbl x y s _ _ hx hy i hr0
    refine ⟨r, by rw [CtExpr.run, mbind ex, mbind ey]; exact er, e + Rq.mono i * e', he.add (he'.mono_mul i), ?_⟩
    convert hr using 1; rw [CtExpr.message]; ring
  | monoSubOne a i iha =>
    rintro ⟨ha, hr0⟩
    obtain ⟨x, ex, e, he, hx⟩ := iha ha
    obtain ⟨-, r, er, hr⟩ := mono_phase R.w F.even R.M F.conf R.tbl x x s _ _ hx hx i hr0
    refine ⟨r, by rw [CtExpr.run, mbind ex]; exact er, Rq.mono i * e - e, ((he.mono_mul i).sub he).mono (by rw [CtExpr.noise]; omega), ?_⟩
    convert hr using 1; rw [CtExpr.message]; ring
  | toCoeff a iha =>
    intro ha
    obtain ⟨x, ex, e, he, hx⟩ := iha ha
    obtain ⟨r, er, hr⟩ := hx.phase
    exact ⟨r, by rw [CtExpr.run, mbind ex]; exact er, e, he, hr⟩
  | ext a g iha ihg =>
    rintro ⟨ha, hg⟩
    obtain ⟨x, ex, e, he, hx⟩ := iha ha
    obtain ⟨y, ey, hw, e0, e1, h0, h1, hy⟩ := ihg hg
    obtain ⟨r, er, hr⟩ := (C37_external_product hk F bits s _ _ e0 e1 B hB x hx).1 y hy
    refine ⟨r, by rw [CtExpr.run, mbind ex, mbind ey]; exact er, g.message Γ * e + (gadgetError q (2 ^ k) bits B.decomposeLen x.a e0 + gadgetError q (2 ^ k) bits B.decomposeLen x.b e1), (hw.mul_bounded he).add (gadget_noise h0 h1), ?_⟩
    convert hr using 1; rw [CtExpr.message]; ring
  | extNtt a g iha ihg =>
    rintro ⟨ha, hg⟩
    obtain ⟨x, ex, e, he, hx⟩ := iha ha
    obtain ⟨y, ey, hw, e0, e1, h0, h1, hy⟩ := ihg hg
    obtain ⟨r, er, hr⟩ := ((C37_external_product hk F bits s _ _ e0 e1 B hB x hx).2 y hy).1
    refine ⟨r, by rw [CtExpr.run, mbind ex, mbind ey]; exact er, g.message Γ * e + (gadgetError q (2 ^ k) bits B.decomposeLen x.a e0 + gadgetError q (2 ^ k) bits B.decomposeLen x.b e1), (hw.mul_bounded he).add (gadget_noise h0 h1), ?_⟩
    convert hr using 1; rw [CtExpr.message]; ring
  | toNtt a iha =>
    intro ha
    obtain ⟨x, ex, e, he, hx⟩ := iha ha
    obtain ⟨r, er, hr⟩ := toNtt_phase hk F hx
    exact ⟨r, by rw [CtExpr.run, mbind ex]; exact er, e, he, hr⟩
  | addNtt a b iha ihb =>
    rintro ⟨ha, hb⟩
    obtain ⟨x, ex, e, he, hx⟩ := iha ha
    obtain ⟨y, ey, e', he', hy⟩ := ihb hb
    obtain ⟨⟨r, er, -, hr⟩, -⟩ := C58_ntt_rlwe hk F x y x s _ _ hx hy (ntt_rlwe_shaped hx)
    refine ⟨r, by rw [CtExpr.run, mbind ex, mbind ey]; exact er, e + e', he.add he', ?_⟩
    convert hr using 1; rw [CtExpr.message]; ring
  | subNtt a b iha ihb =>
    rintro ⟨ha, hb⟩
    obtain ⟨x, ex, e, he, hx⟩ := iha ha
    obtain ⟨y, ey, e', he', hy⟩ := ihb hb
    obtain ⟨-, r, er, -, -, hr⟩ := C58_ntt_rlwe hk F x y x s _ _ hx hy (ntt_rlwe_shaped hx)
    refine ⟨r, by rw [CtExpr.run, mbind ex, mbind ey]; exact er, e - e', he.sub he', ?_⟩
    convert hr using 1; rw [CtExpr.message]; ring
  | mulPoly a p iha =>
    rintro ⟨ha, hp⟩
    obtain ⟨x, ex, e, he, hx⟩ := iha ha
    obtain ⟨pn, ep, -, -⟩ := (C62_conversions hk F p hp).2
    obtain ⟨r, er, hr⟩ := (C58_scale hk F s _ 0 p pn hp ep).1 x hx
    refine ⟨r, by rw [CtExpr.run, mbind ex, mbind ep]; exact er, Rq.ofWords q (2 ^ k) p * e, (Rq.weight_words hp).mul_bounded he, ?_⟩
    convert hr using 1; rw [CtExpr.message]; ring
  | mulPolyNtt a p iha =>
    rintro ⟨ha, hp⟩
    obtain ⟨x, ex, e, he, hx⟩ := iha ha
    obtain ⟨pn, ep, -, -⟩ := (C62_conversions hk F p hp).2
    obtain ⟨⟨r, er, -, hr⟩, -⟩ := (C58_scale hk F s _ _ p pn hp ep).2 x x x hx hx (ntt_rlwe_shaped hx)
    refine ⟨r, by rw [CtExpr.run, mbind ex, mbind ep]; exact er, Rq.ofWords q (2 ^ k) p * e, (Rq.weight_words hp).mul_bounded he, ?_⟩
    convert hr using 1; rw [CtExpr.message]; ring
  | addMulPoly a b p iha ihb =>
    rintro ⟨ha, hb, hp⟩
    obtain ⟨x, ex, e, he, hx⟩ := iha ha
    obtain ⟨y, ey, e', he', hy⟩ := ihb hb
    obtain ⟨pn, ep, -, -⟩ := (C62_conversions hk F p hp).2
    obtain ⟨-, r, er, -, hr⟩ := (C58_scale hk F s _ _ p pn hp ep).2 y x x hy hx (ntt_rlwe_shaped hx)
    refine ⟨r, by rw [CtExpr.run, mbind ex, mbind ey, mbind ep]; exact er, e + Rq.ofWords q (2 ^ k) p * e', he.add ((Rq.weight_words hp).mul_bounded he'), ?_⟩
    convert hr using 1; rw [CtExpr.message]; ring
  | addG g h ihg ihh =>
    rintro ⟨hg, hh⟩
    obtain ⟨x, ex, hw, e0, e1, h0, h1, hx⟩ := ihg hg
    obtain ⟨y, ey, hw', e0', e1', h0', h1', hy⟩ := ihh hh
    obtain ⟨⟨r, er, hr⟩, -⟩ := C58_rgsw F bits B hB s _ _ e0 e1 e0' e1' x y x hx hy ⟨gadget_shaped hB hx.negSM, gadget_shaped hB hx.m⟩
    exact ⟨r, by rw [CtExpr.run, mbind ex, mbind ey]; exact er, hw.add hw', _, _, fun j => (h0 j).add (h0' j), fun j => (h1 j).add (h1' j), hr⟩
  | subG g h ihg ihh =>
    rintro ⟨hg, hh⟩
    obtain ⟨x, ex, hw, e0, e1, h0, h1, hx⟩ := ihg hg
    obtain ⟨y, ey, hw', e0', e1', h0', h1', hy⟩ := ihh hh
    obtain ⟨-, r, er, hr⟩ := C58_rgsw F bits B hB s _ _ e0 e1 e0' e1' x y x hx hy ⟨gadget_shaped hB hx.negSM, gadget_shaped hB hx.m⟩
    exact ⟨r, by rw [CtExpr.run, mbind ex, mbind ey]; exact er, hw.sub hw', _, _, fun j => (h0 j).sub (h0' j), fun j => (h1 j).sub (h1' j), hr⟩
  | addNttG g h ihg ihh =>
    rintro ⟨hg, hh⟩
    obtain ⟨x, ex, hw, e0, e1, h0, h1, hx⟩ := ihg hg
    obtain ⟨y, ey, hw', e0', e1', h0', h1', hy⟩ := ihh hh
    obtain ⟨p0, pn0, hp0, ep0⟩ := zero_poly hk F
    obtain ⟨⟨r, er, hr⟩, -⟩ := C58_ntt_rgsw hk F bits B hB s _ _ e0 e1 e0' e1' x y x hx hy ⟨ntt_gadget_shaped hB hx.negSM, ntt_gadget_shaped hB hx.m⟩ p0 pn0 hp0 ep0
    exact ⟨r, by rw [CtExpr.run, mbind ex, mbind ey]; exact er, hw.add hw', _, _, fun j => (h0 j).add (h0' j), fun j => (h1 j).add (h1' j), hr⟩
  | subNttG g h ihg ihh =>
    rintro ⟨hg, hh⟩
    obtain ⟨x, ex, hw, e0, e1, h0, h1, hx⟩ := ihg hg
    obtain ⟨y, ey, hw', e0', e1', h0', h1', hy⟩ := ihh hh
    obtain ⟨p0, pn0, hp0, ep0⟩ := zero_poly hk F
    obtain ⟨-, ⟨r, er, hr⟩, -⟩ := C58_ntt_rgsw hk F bits B hB s _ _ e0 e1 e0' e1' x y x hx hy ⟨ntt_gadget_shaped hB hx.negSM, ntt_gadget_shaped hB hx.m⟩ p0 pn0 hp0 ep0
    exact ⟨r, by rw [CtExpr.run, mbind ex, mbind ey]; exact er, hw.sub hw', _, _, fun j => (h0 j).sub (h0' j), fun j => (h1 j).sub (h1' j), hr⟩
  | mulG g h ihg ihh =>
    rintro ⟨hg, hh⟩
    obtain ⟨x, ex, hw, e0, e1, h0, h1, hx⟩ := ihg hg
    obtain ⟨y, ey, hw', e0', e1', h0', h1', hy⟩ := ihh hh
    obtain ⟨r, er, hr⟩ := (C37_rgsw_product hk F bits B hB s _ _ e0 e1 e0' e1' x hx).2 y hy
    exact ⟨r, by rw [CtExpr.run, mbind ex, mbind ey]; exact er, hw.mul hw', _, _, fun j => product_noise hw' (h0 j) h0' h1', fun j => product_noise hw' (h1 j) h0' h1', hr⟩
  | mulGNtt g h ihg ihh =>
    rintro ⟨hg, hh⟩
    obtain ⟨x, ex, hw, e0, e1, h0, h1, hx⟩ := ihg hg
    obtain ⟨y, ey, hw', e0', e1', h0', h1', hy⟩ := ihh hh
    obtain ⟨r, er, hr⟩ := (C37_rgsw_product hk F bits B hB s _ _ e0 e1 e0' e1' x hx).1 y hy
    exact ⟨r, by rw [CtExpr.run, mbind ex, mbind ey]; exact er, hw.mul hw', _, _, fun j => product_noise hw' (h0 j) h0' h1', fun j => product_noise hw' (h1 j) h0' h1', hr⟩
  | toNttG g ihg =>
    intro hg
    obtain ⟨x, ex, hw, e0, e1, h0, h1, hx⟩ := ihg hg
    obtain ⟨r, er, hr⟩ := C37_to_ntt hk F bits s _ e0 e1 x hx
    exact ⟨r, by rw [CtExpr.run, mbind ex]; exact er, hw, e0, e1, h0, h1, hr⟩
  | mulPolyG g p ihg =>
    rintro ⟨hg, hp⟩
    obtain ⟨x, ex, hw, e0, e1, h0, h1, hx⟩ := ihg hg
    obtain ⟨pn, ep, -, -⟩ := (C62_conversions hk F p hp).2
    obtain ⟨-, -, ⟨r, er, hr⟩, -⟩ := C58_ntt_rgsw hk F bits B hB s _ _ e0 e1 e0 e1 x x x hx hx
      ⟨ntt_gadget_shaped hB hx.negSM, ntt_gadget_shaped hB hx.m⟩ p pn hp ep
    exact ⟨r, by rw [CtExpr.run, mbind ex, mbind ep]; exact er, hw.mul (Rq.weight_words hp), _, _, fun j => by have h := (Rq.weight_words hp).mul_bounded (h0 j); rwa [mul_comm (Rq.ofWords _ _ _)] at h, fun j => by have h := (Rq.weight_words hp).mul_bounded (h1 j); rwa [mul_comm (Rq.ofWords _ _ _)] at h, hr⟩
  | addMulPolyG g h p ihg ihh =>
    rintro ⟨hg, hh, hp⟩
    obtain ⟨x, ex, hw, e0, e1, h0, h1, hx⟩ := ihg hg
    obtain ⟨y, ey, hw', e0', e1', h0', h1', hy⟩ := ihh hh
    obtain ⟨pn, ep, -, -⟩ := (C62_conversions hk F p hp).2
    obtain ⟨r, er, hr⟩ := C37_add_mul hk F bits s _ _ e0 e1 e0' e1' x y hx hy p pn hp ep
    exact ⟨r, by rw [CtExpr.run, mbind ex, mbind ey, mbind ep]; exact er, hw.add (hw'.mul (Rq.weight_words hp)), _, _, fun j => by have h := (h0 j).add ((Rq.weight_words hp).mul_bounded (h0' j)); rwa [mul_comm (Rq.ofWords _ _ _)] at h, fun j => by have h := (h1 j).add ((Rq.weight_words hp).mul_bounded (h1' j)); rwa [mul_comm (Rq.ofWords _ _ _)] at h, hr⟩

/-- C86: the LWE sample extracted from the result of a program has the constant coefficient of the
message as its phase, up to the noise. -/
theorem C86_extract (sw : List Nat) (hsw : Reduced q (2 ^ k) sw) (hs : Rq.ofWords q (2 ^ k) sw = s)
    (c : CtExpr .rlwe) (hc : c.Ok q (2 ^ k)) :
    ∃ x l, c.run R (2 ^ k) ι = some x ∧ RLWE.extract R x = some l ∧ LWEReduced q (2 ^ k) l ∧
      ∃ z : ℤ, |z| ≤ c.noise Γ bits B.decomposeLen ∧
        lwePhase q sw l.a l.b = (c.message Γ).co ⟨0, by positivity⟩ + z := by
  obtain ⟨x, ex, e, he, hx⟩ := C86_run hk F bits B hB s Γ ι hι c hc
  obtain ⟨l, el, -, hl, hp⟩ := C34_extract R.w q F.even R.M F.conf R.tbl (2 ^ k) (by positivity) x hx.a hx.b sw hsw
  obtain ⟨z, hz, ez⟩ := he ⟨0, by positivity⟩
  exact ⟨x, l, ex, el, hl, z, hz, by rw [hp, hs, hx.phase, Rq.add_co, ez]⟩

end

section
variable {R : Ctx} {q : Nat} [Fact q.Prime] {k : Nat} (hk : 0 < k) (F : TableField R.w q R.M R.tbl k)
  (bits : Nat) (B : Basis) (hB : Basis.new R.w q bits = some B) (s : Rq (ZMod q) (2 ^ k)) (e : Nat)
include hk F hB

/-- C86: selecting by an RGSW ciphertext of a bit gives a ciphertext of the chosen message. The noise is
that of the inputs plus one external product; it does not grow with a factor. -/
theorem C86_select (b : Bool) (g : NTTRGSW) (N : Nat)
    (hg : IsCiphertext R q (2 ^ k) bits s (if b then 1 else 0) e N .nttRgsw g) (m m' : Rq (ZMod q) (2 ^ k))
    (E N' : Nat) (x y : RLWE) (hx : IsCiphertext R q (2 ^ k) bits s m E N' .rlwe x)
    (hy : IsCiphertext R q (2 ^ k) bits s m' E N' .rlwe y) :
    ∃ r, select R g x y = some r ∧ IsCiphertext R q (2 ^ k) bits s (if b then m else m')
      (E + CtExpr.gadgetNoise (2 ^ k) bits B.decomposeLen e) N' .rlwe r := by
  obtain ⟨f, hf, hx⟩ := hx
  obtain ⟨f', hf', hy⟩ := hy
  obtain ⟨-, e0, e1, h0, h1, hg⟩ := hg
  obtain ⟨-, d, ed, -, -, hd⟩ := C58_rlwe R.w q F.even R.M F.conf R.tbl (2 ^ k) x y x s _ _ hx hy (rlwe_shaped hx)
  obtain ⟨p, ep, hp⟩ := ((C37_external_product hk F bits s _ _ e0 e1 B hB d hd).2 g hg).1
  obtain ⟨⟨r, er, -, hr⟩, -⟩ := C58_rlwe R.w q F.even R.M F.conf R.tbl (2 ^ k) y p y s _ _ hy hp (rlwe_shaped hy)
  refine ⟨r, by unfold select; rw [mbind (show RLWE.sub R x y = some d from ed), mbind ep]; exact er,
    (if b then f else f') + (gadgetError q (2 ^ k) bits B.decomposeLen d.a e0 +
      gadgetError q (2 ^ k) bits B.decomposeLen d.b e1), ?_, ?_⟩
  · refine Rq.Bounded.add ?_ (gadget_noise h0 h1)
    cases b
    · exact hf'
    · exact hf
  · convert hr using 1
    cases b
    · simp only [Bool.false_eq_true, if_false]; ring
    · simp only [if_true]; ring

/-- C86: looking up an entry of a table of ciphertexts by RGSW ciphertexts of the bits of the index gives a
ciphertext of that entry. The noise grows by one external product per bit, for every table. -/
theorem C86_lookup (table : Nat → RLWE) (m : Nat → Rq (ZMod q) (2 ^ k)) (E N' N : Nat)
    (ht : ∀ i, IsCiphertext R q (2 ^ k) bits s (m i) E N' .rlwe (table i)) :
    ∀ (bs : List Bool) (gs : List NTTRGSW),
      List.Forall₂ (fun b g => IsCiphertext R q (2 ^ k) bits s (if b then 1 else 0) e N .nttRgsw g) bs gs → ∀ i,
      ∃ r, lookup R table gs i = some r ∧ IsCiphertext R q (2 ^ k) bits s (m (ofBits bs i))
        (E + bs.length * CtExpr.gadgetNoise (2 ^ k) bits B.decomposeLen e) N' .rlwe r
  | [], _, h, i => by
    cases h
    exact ⟨table i, rfl, by simpa [ofBits] using ht i⟩
  | b :: bs, _, h, i => by
    cases h with
    | cons hb hbs =>
      obtain ⟨x, ex, hx⟩ := C86_lookup table m E N' N ht bs _ hbs (2 * i + 1)
      obtain ⟨y, ey, hy⟩ := C86_lookup table m E N' N ht bs _ hbs (2 * i)
      obtain ⟨r, er, hr⟩ := C86_select hk F bits B hB s e b _ N hb _ _ _ N' x y hx hy
      refine ⟨r, by rw [lookup, mbind ex, mbind ey, er], ?_⟩
      have e1 : m (ofBits (b :: bs) i) = if b then m (ofBits bs (2 * i + 1)) else m (ofBits bs (2 * i)) := by
        cases b <;> rfl
      rw [e1, List.length_cons, add_mul bs.length 1, one_mul, ← add_assoc]
      exact hr

end

/-! ## A concrete case: q = 17, n = 4, digits of 2 bits -/

/-- One ciphertext of each type: `3 + 9X - X³` without noise, and RGSW ciphertexts of 1 with noise. -/
theorem inputs17 : ∃ (s : Rq (ZMod 17) (2 ^ 2)) (ι : (κ : Kind) → Nat → κ.Ct) (Γ : Known 17 (2 ^ 2)),
    (∀ κ i, IsCiphertext ⟨8, barrett17, tbl17⟩ 17 (2 ^ 2) 2 s (Γ.message κ i) (Γ.noise κ i) (Γ.weight κ i) κ (ι κ i)) ∧
    Γ.message .rlwe = (fun _ => Rq.ofWords 17 (2 ^ 2) [3, 9, 0, 16]) ∧ Γ.message .nttRgsw = (fun _ => 1) ∧
    Γ.noise .rlwe = (fun _ => 0) ∧ Γ.noise .nttRgsw = (fun _ => 1) ∧ Γ.weight .nttRgsw = (fun _ => 1) := by
  have h3 : ∀ l ∈ [[0, 1, 0, 16], [1, 0, 0, 0], [0, 0, 16, 0], ([] : List Nat)], ∀ i : Fin (2 ^ 2),
      (Rq.ofWords 17 (2 ^ 2) l).co i = 0 ∨ (Rq.ofWords 17 (2 ^ 2) l).co i = 1 ∨
        (Rq.ofWords 17 (2 ^ 2) l).co i = -1 := by decide +kernel
  have hz : Rq.ofWords 17 (2 ^ 2) [0, 0, 0, 0] = 0 := Rq.ext (by decide +kernel)
  have : Fact (Nat.Prime 17) := ⟨by decide⟩
  have hF : TableField (⟨8, barrett17, tbl17⟩ : Ctx).w 17 (⟨8, barrett17, tbl17⟩ : Ctx).M
    (⟨8, barrett17, tbl17⟩ : Ctx).tbl 2 := tbl17_field
  have hd : DrawsOk 17 4 [([1, 2, 3, 4], [0, 1, 0, 16]), ([5, 6, 7, 8], [1, 0, 0, 0]), ([9, 1, 2, 3], [0, 0, 16, 0])] := by
    intro d hd
    simp only [List.mem_cons, List.not_mem_nil, or_false] at hd
    rcases hd with rfl | rfl | rfl <;> exact ⟨⟨rfl, by decide⟩, ⟨rfl, by decide⟩⟩
  have hn : ∀ j, Rq.Bounded 1 (drawErrors 17 (2 ^ 2)
      [([1, 2, 3, 4], [0, 1, 0, 16]), ([5, 6, 7, 8], [1, 0, 0, 0]), ([9, 1, 2, 3], [0, 0, 16, 0])] j) := by
    have key : ∀ l ∈ [[0, 1, 0, 16], [1, 0, 0, 0], [0, 0, 16, 0], ([] : List Nat)], Rq.Bounded 1 (Rq.ofWords 17 (2 ^ 2) l) := by
      intro l hl i
      rcases h3 l hl i with h | h | h
      · exact ⟨0, by simp, by rw [h]; simp⟩
      · exact ⟨1, by simp, by rw [h]; simp⟩
      · exact ⟨-1, by simp, by rw [h]; simp⟩
    intro j
    refine key _ ?_
    rcases j with _ | _ | _ | j <;> simp
  obtain ⟨-, g, -, hg⟩ := C37_ntt_samples (R := ⟨8, barrett17, tbl17⟩) (q := 17) (k := 2) (by omega)
    hF 2 ⟨4, 3, 3, 2⟩ (by decide +kernel) [1, 0, 1, 0] [5, 5, 14, 14] ⟨rfl, by decide⟩
    (by decide +kernel) _ _ hd hd (by decide) (by decide)
  obtain ⟨g', -, hg'⟩ := (C37_samples_partial (R := ⟨8, barrett17, tbl17⟩) (q := 17) (k := 2) (by omega)
    hF 2 ⟨4, 3, 3, 2⟩ (by decide +kernel) [1, 0, 1, 0] [5, 5, 14, 14] ⟨rfl, by decide⟩
    (by decide +kernel) _ _ hd hd (by decide) (by decide)).2 (by decide)
  have hx : RLWE.HasPhase 17 (2 ^ 2) (Rq.ofWords 17 (2 ^ 2) [1, 0, 1, 0]) ⟨[0, 0, 0, 0], [3, 9, 0, 16]⟩
      (Rq.ofWords 17 (2 ^ 2) [3, 9, 0, 16] + 0) := by
    refine ⟨⟨rfl, by decide⟩, ⟨rfl, by decide⟩, ?_⟩
    show _ - Rq.ofWords 17 (2 ^ 2) [0, 0, 0, 0] * _ = _
    rw [hz]; ring
  obtain ⟨y, -, hy⟩ := toNtt_phase (R := ⟨8, barrett17, tbl17⟩) (k := 2) (by omega) hF hx
  refine ⟨Rq.ofWords 17 (2 ^ 2) [1, 0, 1, 0],
    fun κ _ => match κ with
      | .rlwe => (⟨[0, 0, 0, 0], [3, 9, 0, 16]⟩ : RLWE)
      | .nttRlwe => y
      | .rgsw => g'
      | .nttRgsw => g,
    ⟨fun κ _ => match κ with
      | .rlwe | .nttRlwe => Rq.ofWords 17 (2 ^ 2) [3, 9, 0, 16]
      | .rgsw | .nttRgsw => 1,
      fun κ _ => match κ with
      | .rlwe | .nttRlwe => 0
      | .rgsw | .nttRgsw => 1, fun _ _ => 1⟩, fun κ _ => ?_, rfl, rfl, rfl, rfl, rfl⟩
  cases κ with
  | rlwe => exact ⟨0, Rq.Bounded.zero, hx⟩
  | nttRlwe => exact ⟨0, Rq.Bounded.zero, hy⟩
  | rgsw => exact ⟨Rq.Weight.one, _, _, hn, hn, hg'⟩
  | nttRgsw => exact ⟨Rq.Weight.one, _, _, hn, hn, hg⟩

-- a program that uses both kinds of ciphertexts: X² c + g * (c - 2c), and its computed noise
example : (CtExpr.addMono (.extNtt (.sub (.input 0) (.toCoeff (.mulPoly (.input 0) [2, 0, 0, 0]))) (.input 0))
    (.input 0) 2).Ok 17 (2 ^ 2) := ⟨⟨⟨trivial, trivial, rfl, by decide⟩, trivial⟩, trivial, by decide⟩

example (Γ : Known 17 (2 ^ 2)) (h : Γ.noise .rlwe 0 = 1) (h' : Γ.noise .nttRgsw 0 = 1) (h'' : Γ.weight .nttRgsw 0 = 1) :
    (CtExpr.addMono (.extNtt (.sub (.input 0) (.toCoeff (.mulPoly (.input 0) [2, 0, 0, 0]))) (.input 0))
      (.input 0) 2).noise Γ 2 3 = 76 := by
  simp only [CtExpr.noise, CtExpr.weight, CtExpr.gadgetNoise, l1, h, h', h'']
  decide

-- the look-up with two RGSW ciphertexts of 1 reads entry 3
example : ∃ (s : Rq (ZMod 17) (2 ^ 2)) (ι : (κ : Kind) → Nat → κ.Ct) (r : RLWE),
    lookup ⟨8, barrett17, tbl17⟩ (ι .rlwe) [ι .nttRgsw 0, ι .nttRgsw 1] 0 = some r ∧
    IsCiphertext ⟨8, barrett17, tbl17⟩ 17 (2 ^ 2) 2 s (Rq.ofWords 17 (2 ^ 2) [3, 9, 0, 16]) (0 + 2 * 72) 0 .rlwe r := by
  obtain ⟨s, ι, Γ, hι, h1, h2, h3, h4, h5⟩ := inputs17
  have : Fact (Nat.Prime 17) := ⟨by decide⟩
  have hF : TableField (⟨8, barrett17, tbl17⟩ : Ctx).w 17 (⟨8, barrett17, tbl17⟩ : Ctx).M
    (⟨8, barrett17, tbl17⟩ : Ctx).tbl 2 := tbl17_field
  have hx : ∀ i, IsCiphertext ⟨8, barrett17, tbl17⟩ 17 (2 ^ 2) 2 s (Rq.ofWords 17 (2 ^ 2) [3, 9, 0, 16]) 0 0 .rlwe (ι .rlwe i) :=
    fun i => by have h := hι .rlwe i; rw [h1, h3] at h; exact h
  have hg : ∀ i, IsCiphertext ⟨8, barrett17, tbl17⟩ 17 (2 ^ 2) 2 s (if true then 1 else 0) 1 1 .nttRgsw (ι .nttRgsw i) :=
    fun i => by have h := hι .nttRgsw i; rw [h2, h4, h5] at h; exact h
  obtain ⟨r, er, hr⟩ := C86_lookup (by omega) hF 2 ⟨4, 3, 3, 2⟩ (by decide +kernel) s 1 (ι .rlwe) _ 0 0 1 hx
    [true, true] _ (.cons (hg 0) (.cons (hg 1) .nil)) 0
  exact ⟨s, ι, r, er, hr⟩

example : ofBits [true, true] 0 = 3 ∧ ofBits [true, false] 0 = 2 := by decide

end Verif.Props
