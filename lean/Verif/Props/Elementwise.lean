import Verif.SpecElementwise
import Verif.Model.Elementwise
import Verif.Props.RGSW

/-! # C58: adding, subtracting and scaling ciphertexts acts on their phases -/

namespace Verif
open Fp Finset Spec Ntt Props

theorem nttAddMulInplace_eq {w : Nat} {M : Barrett} : ∀ a b c d : List Nat, a.length = b.length →
    a.length = c.length → a.length = d.length →
    Poly.nttAddMulInplace w M a b c d = Poly.nttAddMul w M a b c
  | [], [], [], [], _, _, _ => rfl
  | [], _, _, _ :: _, _, _, h => by simp at h
  | [], _ :: _, _, _, h, _, _ => by simp at h
  | [], _, _ :: _, _, _, h, _ => by simp at h
  | _ :: _, [], _, _, h, _, _ => by simp at h
  | _ :: _, _, [], _, _, h, _ => by simp at h
  | _ :: _, _, _, [], _, _, h => by simp at h
  | a :: as, b :: bs, c :: cs, d :: ds, h1, h2, h3 => by
    have := nttAddMulInplace_eq (w := w) (M := M) as bs cs ds (by simpa using h1) (by simpa using h2)
      (by simpa using h3)
    unfold Poly.nttAddMul at this
    simp [Poly.nttAddMulInplace, Poly.nttAddMul, Poly.fmaAssign, this]

theorem zipInto_spec {α β : Type} {f : α → α → β → Option β} : ∀ {xs ys : List α} {ds : List β}
    {P : Nat → β → Prop}, xs.length = ds.length → ys.length = ds.length →
    (∀ j (h1 : j < xs.length) (h2 : j < ys.length) (h3 : j < ds.length),
      ∃ r, f xs[j] ys[j] ds[j] = some r ∧ P j r) →
    ∃ out, zipInto f xs ys ds = some out ∧ out.length = ds.length ∧
      ∀ j (h : j < out.length), P j out[j]
  | [], [], [], _, _, _, _ => ⟨[], rfl, rfl, by simp⟩
  | _ :: _, _, [], _, h, _, _ => by simp at h
  | _, _ :: _, [], _, _, h, _ => by simp at h
  | [], _, _ :: _, _, h, _, _ => by simp at h
  | _, [], _ :: _, _, _, h, _ => by simp at h
  | x :: xs, y :: ys, d :: ds, P, h1, h2, hf => by
    obtain ⟨r, e, hr⟩ := hf 0 (by simp) (by simp) (by simp)
    obtain ⟨out, e', hl, ho⟩ := zipInto_spec (f := f) (xs := xs) (ys := ys) (ds := ds)
      (P := fun j r => P (j + 1) r) (by simpa using h1) (by simpa using h2)
      (fun j a b c => hf (j + 1) (by simpa using a) (by simpa using b) (by simpa using c))
    refine ⟨r :: out, ?_, by simp [hl], ?_⟩
    · simp only [List.getElem_cons_zero] at e
      rw [zipInto, mbind e, mbind e']; rfl
    · intro j hj
      cases j with
      | zero => exact hr
      | succ j => exact ho j (by simpa using hj)

namespace Props

section Ring
variable {w q : Nat} {M : Barrett} (C : Config w q M) (tbl : Nat → Option Table) {n : Nat}
  [NeZero n] {x y : RLWE} {s φ ψ : Rq (ZMod q) n} (hx : x.HasPhase q n s φ)
  (hy : y.HasPhase q n s ψ)
include C hx hy

theorem rlwe_pair {f : List Nat → List Nat → Option (List Nat)} {ε : ZMod q}
    (hf : ∀ l m u v, Vals q n q l u → Vals q n q m v →
      ∃ r, f l m = some r ∧ Vals q n q r (fun i => u i + ε * v i)) :
    ∃ a b, f x.a y.a = some a ∧ f x.b y.b = some b ∧
      (⟨a, b⟩ : RLWE).HasPhase q n s (φ + Rq.const ε * ψ) := by
  have := nontrivial_of (C.value ▸ C)
  have hval := C.value
  subst hval
  have hc : ∀ (p r : Rq (ZMod M.value) n) (i : Fin n),
      p.seq i.val + ε * r.seq i.val = (p + Rq.const ε * r).co i := by
    intro p r i
    rw [Rq.add_co, Rq.const_mul_co, Rq.seq_val, Rq.seq_val]
  obtain ⟨a, ea, ha⟩ := hf _ _ _ _ (rep_exists hx.a) (rep_exists hy.a)
  obtain ⟨b, eb, hb⟩ := hf _ _ _ _ (rep_exists hx.b) (rep_exists hy.b)
  obtain ⟨ra, pa⟩ := rep_iff.1 (rep_of ha (hc _ _))
  obtain ⟨rb, pb⟩ := rep_iff.1 (rep_of hb (hc _ _))
  refine ⟨a, b, ea, eb, ra, rb, ?_⟩
  have h1 := hx.phase
  have h2 := hy.phase
  unfold rlwePhase at h1 h2 ⊢
  rw [pa, pb]
  linear_combination h1 + Rq.const ε * h2

end Ring

/-- C58: adding or subtracting ring ciphertexts in coefficient form, in the borrowing, consuming,
assigning and in-place forms, with whatever content of the destination: the phases are added or
subtracted. -/
theorem C58_rlwe (w q : Nat) (hw : w % 2 = 0) (M : Barrett) (h : Fp.config w q = some M)
    (tbl : Nat → Option Table) (n : Nat) [NeZero n] (x y dest : RLWE) (s φ ψ : Rq (ZMod q) n)
    (hx : x.HasPhase q n s φ) (hy : y.HasPhase q n s ψ) (hd : dest.Shaped n) :
    (∃ r, RLWE.add ⟨w, M, tbl⟩ x y = some r ∧ RLWE.addInplace ⟨w, M, tbl⟩ x y dest = some r ∧
      r.HasPhase q n s (φ + ψ)) ∧
    (∃ r, RLWE.sub ⟨w, M, tbl⟩ x y = some r ∧ RLWE.subAssign ⟨w, M, tbl⟩ x y = some r ∧
      RLWE.subInplace ⟨w, M, tbl⟩ x y dest = some r ∧ r.HasPhase q n s (φ - ψ)) := by
  have C : Config w q M := ⟨hw, h⟩
  have := nontrivial_of (C.value ▸ C)
  have hval := C.value
  subst hval
  have la : x.a.length = y.a.length := by rw [hx.a.1, hy.a.1]
  have lb : x.b.length = y.b.length := by rw [hx.b.1, hy.b.1]
  have da : x.a.length = dest.a.length := by rw [hx.a.1, hd.1]
  have db : x.b.length = dest.b.length := by rw [hx.b.1, hd.2]
  constructor
  · obtain ⟨a, b, ea, eb, hr⟩ := rlwe_pair C hx hy (f := Poly.add w M) (ε := 1) (by
      intro l m u v hl hm
      obtain ⟨r, e, hr⟩ := hl.add C hm
      exact ⟨r, e, hr.congr fun i _ => by ring⟩)
    refine ⟨⟨a, b⟩, ?_, ?_, ?_⟩
    · unfold RLWE.add; dsimp only; rw [mbind ea, mbind eb]; rfl
    · unfold RLWE.addInplace Poly.addInplace; dsimp only
      unfold Poly.add at ea eb
      rw [if_pos la] at ea
      rw [if_pos lb] at eb
      rw [zip3Assign_eq _ _ _ la da, zip3Assign_eq _ _ _ lb db, mbind ea, mbind eb]; rfl
    · rwa [show (Rq.const (1 : ZMod M.value) : Rq (ZMod M.value) n) = 1 from rfl, one_mul] at hr
  · have e1 : φ + Rq.const (-1 : ZMod M.value) * ψ = φ - ψ := by
      rw [Rq.const_neg, show (Rq.const (1 : ZMod M.value) : Rq (ZMod M.value) n) = 1 from rfl]; ring
    obtain ⟨a, b, ea, eb, hr⟩ := rlwe_pair C hx hy (f := Poly.sub w M) (ε := -1) (by
      intro l m u v hl hm
      obtain ⟨r, e, hr⟩ := hl.sub C hm
      exact ⟨r, e, hr.congr fun i _ => by ring⟩)
    obtain ⟨a', ea', ha'⟩ := (vals_self hx.a).subAssign C (vals_self hy.a)
    obtain ⟨a'', ea'', ha''⟩ := (vals_self hx.a).sub C (vals_self hy.a)
    obtain ⟨b', eb', hb'⟩ := (vals_self hx.b).subAssign C (vals_self hy.b)
    obtain ⟨b'', eb'', hb''⟩ := (vals_self hx.b).sub C (vals_self hy.b)
    rw [ea] at ea''
    rw [eb] at eb''
    cases ea''
    cases eb''
    rw [ha'.ext ha''] at ea'
    rw [hb'.ext hb''] at eb'
    refine ⟨⟨a, b⟩, ?_, ?_, ?_, e1 ▸ hr⟩
    · unfold RLWE.sub; dsimp only; rw [mbind ea, mbind eb]; rfl
    · unfold RLWE.subAssign; dsimp only; rw [mbind ea', mbind eb']; rfl
    · unfold RLWE.subInplace Poly.subInplace; dsimp only
      unfold Poly.sub at ea eb
      rw [if_pos la] at ea
      rw [if_pos lb] at eb
      rw [zip3Assign_eq _ _ _ la da, zip3Assign_eq _ _ _ lb db, mbind ea, mbind eb]; rfl

section Ntt
variable {R : Ctx} {q : Nat} [Fact q.Prime] {k : Nat}

/-- C58: the same for ring ciphertexts in transform form. -/
theorem C58_ntt_rlwe (hk : 0 < k) (F : TableField R.w q R.M R.tbl k) (x y dest : NTTRLWE)
    (s φ ψ : Rq (ZMod q) (2 ^ k)) (hx : x.HasPhase R q q (2 ^ k) s φ)
    (hy : y.HasPhase R q q (2 ^ k) s ψ) (hd : dest.Shaped (2 ^ k)) :
    (∃ r, NTTRLWE.add R x y = some r ∧ NTTRLWE.addInplace R x y dest = some r ∧
      r.HasPhase R q q (2 ^ k) s (φ + ψ)) ∧
    (∃ r, NTTRLWE.sub R x y = some r ∧ NTTRLWE.subAssign R x y = some r ∧
      NTTRLWE.subInplace R x y dest = some r ∧ r.HasPhase R q q (2 ^ k) s (φ - ψ)) := by
  have la : x.a.length = y.a.length := by rw [hx.a.1, hy.a.1]
  have lb : x.b.length = y.b.length := by rw [hx.b.1, hy.b.1]
  have da : x.a.length = dest.a.length := by rw [hx.a.1, hd.1]
  have db : x.b.length = dest.b.length := by rw [hx.b.1, hd.2]
  obtain ⟨t, rfl, E⟩ := F.env hk
  have := E.nontrivial
  obtain ⟨a, b, hab, hφ⟩ := (nttHasPhase_iff E (Or.inl rfl)).1 hx
  obtain ⟨a', b', hab', hψ⟩ := (nttHasPhase_iff E (Or.inl rfl)).1 hy
  unfold rlwePhase at hφ hψ
  constructor
  · obtain ⟨oa, ea, ha⟩ := hab.a.add E hab'.a
    obtain ⟨ob, eb, hb⟩ := hab.b.add E hab'.b
    refine ⟨⟨oa, ob⟩, ?_, ?_, (nttHasPhase_iff E (Or.inl rfl)).2 ⟨_, _, ⟨ha, hb⟩, ?_⟩⟩
    · unfold NTTRLWE.add; rw [mbind ea, mbind eb]; rfl
    · unfold NTTRLWE.addInplace Poly.addInplace
      unfold Poly.add at ea eb
      rw [if_pos la] at ea
      rw [if_pos lb] at eb
      rw [zip3Assign_eq _ _ _ la da, zip3Assign_eq _ _ _ lb db, mbind ea, mbind eb]; rfl
    · unfold rlwePhase
      linear_combination hφ + hψ
  · obtain ⟨oa, ea, ha⟩ := Vals.sub E.C hab.a hab'.a
    obtain ⟨ob, eb, hb⟩ := Vals.sub E.C hab.b hab'.b
    obtain ⟨oa', ea', ha'⟩ := hab.a.subAssign E hab'.a
    obtain ⟨ob', eb', hb'⟩ := hab.b.subAssign E hab'.b
    have e1 : oa = oa' := Vals.ext (ha.congr fun i _ => (Rq.evalAt_sub _ _ _ _).symm) ha'
    have e2 : ob = ob' := Vals.ext (hb.congr fun i _ => (Rq.evalAt_sub _ _ _ _).symm) hb'
    subst e1 e2
    refine ⟨⟨oa, ob⟩, ?_, ?_, ?_, (nttHasPhase_iff E (Or.inl rfl)).2 ⟨_, _, ⟨ha', hb'⟩, ?_⟩⟩
    · unfold NTTRLWE.sub; rw [mbind ea, mbind eb]; rfl
    · unfold NTTRLWE.subAssign; rw [mbind ea', mbind eb']; rfl
    · unfold NTTRLWE.subInplace Poly.subInplace
      unfold Poly.sub at ea eb
      rw [if_pos la] at ea
      rw [if_pos lb] at eb
      rw [zip3Assign_eq _ _ _ la da, zip3Assign_eq _ _ _ lb db, mbind ea, mbind eb]; rfl
    · unfold rlwePhase
      linear_combination hφ - hψ

/-- C58: multiplying a ring ciphertext, in coefficient or in transform form, with the transform form
of a polynomial `p` multiplies the phase by `p`; the fused form adds the product to another
ciphertext. -/
theorem C58_scale (hk : 0 < k) (F : TableField R.w q R.M R.tbl k) (s φ ψ : Rq (ZMod q) (2 ^ k))
    (p pn : List Nat) (hp : Reduced q (2 ^ k) p) (hpn : Poly.toNtt R.w R.M R.tbl p = some pn) :
    (∀ x : RLWE, x.HasPhase q (2 ^ k) s φ → ∃ r, RLWE.mulNtt R x pn = some r ∧
      r.HasPhase R q q (2 ^ k) s (φ * Rq.ofWords q (2 ^ k) p)) ∧
    (∀ x y dest : NTTRLWE, x.HasPhase R q q (2 ^ k) s φ → y.HasPhase R q q (2 ^ k) s ψ →
      dest.Shaped (2 ^ k) →
      (∃ r, NTTRLWE.mulNtt R x pn = some r ∧ NTTRLWE.mulNttInplace R x pn dest = some r ∧
        r.HasPhase R q q (2 ^ k) s (φ * Rq.ofWords q (2 ^ k) p)) ∧
      ∃ r, NTTRLWE.addMul R y x pn = some r ∧ NTTRLWE.addMulInplace R y x pn dest = some r ∧
        r.HasPhase R q q (2 ^ k) s (ψ + φ * Rq.ofWords q (2 ^ k) p)) := by
  obtain ⟨t, rfl, E⟩ := F.env hk
  have := E.nontrivial
  obtain ⟨pn', ep, hP⟩ := E.toNtt (rep_exists hp)
  rw [hpn] at ep
  cases ep
  refine ⟨fun x hx => ?_, fun x y dest hx hy hd => ⟨?_, ?_⟩⟩
  · obtain ⟨a, b, hab, hφ⟩ := hasPhase_iff.1 hx
    unfold rlwePhase at hφ
    obtain ⟨va, ea, ha⟩ := E.toNtt hab.a
    obtain ⟨vb, eb, hb⟩ := E.toNtt hab.b
    obtain ⟨ma, ema, hma⟩ := ha.mul E hP
    obtain ⟨mb, emb, hmb⟩ := hb.mul E hP
    refine ⟨⟨ma, mb⟩, ?_, (nttHasPhase_iff E (Or.inl rfl)).2 ⟨_, _, ⟨hma, hmb⟩, ?_⟩⟩
    · unfold RLWE.mulNtt
      rw [if_pos ⟨by rw [hab.a.len, hP.len], by rw [hab.b.len, hP.len]⟩, mbind ea, mbind eb,
        mbind ema, mbind emb]; rfl
    · unfold rlwePhase
      linear_combination Rq.ofWords R.M.value (2 ^ k) p * hφ
  · obtain ⟨a, b, hab, hφ⟩ := (nttHasPhase_iff E (Or.inl rfl)).1 hx
    unfold rlwePhase at hφ
    obtain ⟨ma, ea, hma⟩ := hab.a.mul E hP
    obtain ⟨mb, eb, hmb⟩ := hab.b.mul E hP
    refine ⟨⟨ma, mb⟩, ?_, ?_, (nttHasPhase_iff E (Or.inl rfl)).2 ⟨_, _, ⟨hma, hmb⟩, ?_⟩⟩
    · unfold NTTRLWE.mulNtt; rw [mbind ea, mbind eb]; rfl
    · unfold NTTRLWE.mulNttInplace Poly.nttMulInplace
      unfold Poly.nttMul at ea eb
      rw [if_pos (by rw [hab.a.len, hP.len])] at ea
      rw [if_pos (by rw [hab.b.len, hP.len])] at eb
      rw [zip3Assign_eq _ _ _ (by rw [hab.a.len, hP.len]) (by rw [hab.a.len, hd.1]),
        zip3Assign_eq _ _ _ (by rw [hab.b.len, hP.len]) (by rw [hab.b.len, hd.2]), mbind ea, mbind eb]
      rfl
    · unfold rlwePhase
      linear_combination Rq.ofWords R.M.value (2 ^ k) p * hφ
  · obtain ⟨a, b, hab, hφ⟩ := (nttHasPhase_iff E (Or.inl rfl)).1 hx
    obtain ⟨a', b', hab', hψ⟩ := (nttHasPhase_iff E (Or.inl rfl)).1 hy
    unfold rlwePhase at hφ hψ
    obtain ⟨oa, ea, ha⟩ := hab'.a.addMul E hab.a hP
    obtain ⟨ob, eb, hb⟩ := hab'.b.addMul E hab.b hP
    refine ⟨⟨oa, ob⟩, ?_, ?_, (nttHasPhase_iff E (Or.inl rfl)).2 ⟨_, _, ⟨ha, hb⟩, ?_⟩⟩
    · unfold NTTRLWE.addMul; rw [mbind ea, mbind eb]; rfl
    · unfold NTTRLWE.addMulInplace
      rw [nttAddMulInplace_eq _ _ _ _ (by rw [hab'.a.len, hab.a.len]) (by rw [hab'.a.len, hP.len])
        (by rw [hab'.a.len, hd.1]), nttAddMulInplace_eq _ _ _ _ (by rw [hab'.b.len, hab.b.len])
        (by rw [hab'.b.len, hP.len]) (by rw [hab'.b.len, hd.2]), mbind ea, mbind eb]; rfl
    · unfold rlwePhase
      linear_combination hψ + Rq.ofWords R.M.value (2 ^ k) p * hφ

/-- C58: gadget ciphertexts in coefficient form. -/
theorem C58_gadget (F : TableField R.w q R.M R.tbl k) (bits : Nat)
    (s m m' : Rq (ZMod q) (2 ^ k)) (e e' : Nat → Rq (ZMod q) (2 ^ k)) (g h dest : GadgetRLWE)
    (hg : g.Encrypts R.w q (2 ^ k) bits s m e) (hh : h.Encrypts R.w q (2 ^ k) bits s m' e')
    (hd : dest.Shaped (2 ^ k) g.basis) :
    (∃ r, GadgetRLWE.addInplace R g h dest = some r ∧
      r.Encrypts R.w q (2 ^ k) bits s (m + m') (fun j => e j + e' j)) ∧
    (∃ r, GadgetRLWE.subInplace R g h dest = some r ∧
      r.Encrypts R.w q (2 ^ k) bits s (m - m') (fun j => e j - e' j)) := by
  have hbb : g.basis = h.basis := Option.some.inj (hg.basis.symm.trans hh.basis)
  have l1 : g.data.length = dest.data.length := by rw [hg.len, hd.len]
  have l2 : h.data.length = dest.data.length := by rw [hh.len, hd.len, hbb]
  obtain ⟨hw, hc, _⟩ := F
  constructor
  · obtain ⟨out, eo, hlo, ho⟩ := zipInto_spec (f := RLWE.addInplace R)
      (P := fun j r => r.HasPhase q (2 ^ k) s
        ((m + m') * Rq.const ((2 ^ (bits * j) : Nat) : ZMod q) + (e j + e' j))) l1 l2 (by
      intro j h1 h2 h3
      obtain ⟨⟨r, _, er, hr⟩, _⟩ := C58_rlwe R.w q hw R.M hc R.tbl (2 ^ k) _ _ dest.data[j] s _ _
        (hg.elem j h1) (hh.elem j h2) (hd.elem _ (List.getElem_mem h3))
      refine ⟨r, er, ?_⟩
      convert hr using 1
      ring)
    refine ⟨⟨out, dest.basis⟩, ?_, by rw [hd.basis]; exact hg.basis, ?_, ho⟩
    · unfold GadgetRLWE.addInplace
      rw [if_pos (by rw [hbb]), mbind eo]; rfl
    · rw [hlo, hd.len, hd.basis]
  · obtain ⟨out, eo, hlo, ho⟩ := zipInto_spec (f := RLWE.subInplace R)
      (P := fun j r => r.HasPhase q (2 ^ k) s
        ((m - m') * Rq.const ((2 ^ (bits * j) : Nat) : ZMod q) + (e j - e' j))) l1 l2 (by
      intro j h1 h2 h3
      obtain ⟨_, r, _, _, er, hr⟩ := C58_rlwe R.w q hw R.M hc R.tbl (2 ^ k) _ _ dest.data[j] s _ _
        (hg.elem j h1) (hh.elem j h2) (hd.elem _ (List.getElem_mem h3))
      refine ⟨r, er, ?_⟩
      convert hr using 1
      ring)
    refine ⟨⟨out, dest.basis⟩, ?_, by rw [hd.basis]; exact hg.basis, ?_, ho⟩
    · unfold GadgetRLWE.subInplace
      rw [if_pos (by rw [hbb]), mbind eo]; rfl
    · rw [hlo, hd.len, hd.basis]

/-- C58: gadget ciphertexts in transform form: sum, difference, product with a polynomial, and the
fused product. -/
theorem C58_ntt_gadget (hk : 0 < k) (F : TableField R.w q R.M R.tbl k) (bits : Nat)
    (s m m' : Rq (ZMod q) (2 ^ k)) (e e' : Nat → Rq (ZMod q) (2 ^ k)) (g h dest : NTTGadgetRLWE)
    (hg : g.Encrypts R q (2 ^ k) bits s m e) (hh : h.Encrypts R q (2 ^ k) bits s m' e')
    (hd : dest.Shaped (2 ^ k) g.basis) (p pn : List Nat) (hp : Reduced q (2 ^ k) p)
    (hpn : Poly.toNtt R.w R.M R.tbl p = some pn) :
    (∃ r, NTTGadgetRLWE.addInplace R g h dest = some r ∧
      r.Encrypts R q (2 ^ k) bits s (m + m') (fun j => e j + e' j)) ∧
    (∃ r, NTTGadgetRLWE.subInplace R g h dest = some r ∧
      r.Encrypts R q (2 ^ k) bits s (m - m') (fun j => e j - e' j)) ∧
    (∃ r, NTTGadgetRLWE.mulNttAssign R g pn = some r ∧
      r.Encrypts R q (2 ^ k) bits s (m * Rq.ofWords q (2 ^ k) p)
        (fun j => e j * Rq.ofWords q (2 ^ k) p)) ∧
    (∃ r, NTTGadgetRLWE.addMulNttInplace R g h pn dest = some r ∧
      NTTGadgetRLWE.addMulNtt R g h pn = some r ∧
      r.Encrypts R q (2 ^ k) bits s (m + m' * Rq.ofWords q (2 ^ k) p)
        (fun j => e j + e' j * Rq.ofWords q (2 ^ k) p)) := by
  have hbb : g.basis = h.basis := Option.some.inj (hg.basis.symm.trans hh.basis)
  have l1 : g.data.length = dest.data.length := by rw [hg.len, hd.len]
  have l2 : h.data.length = dest.data.length := by rw [hh.len, hd.len, hbb]
  refine ⟨?_, ?_, ?_, ?_⟩
  · obtain ⟨out, eo, hlo, ho⟩ := zipInto_spec (f := NTTRLWE.addInplace R)
      (P := fun j r => r.HasPhase R q q (2 ^ k) s
        ((m + m') * Rq.const ((2 ^ (bits * j) : Nat) : ZMod q) + (e j + e' j))) l1 l2 (by
      intro j h1 h2 h3
      obtain ⟨⟨r, _, er, hr⟩, _⟩ := C58_ntt_rlwe hk F _ _ dest.data[j] s _ _
        (hg.elem j h1) (hh.elem j h2) (hd.elem _ (List.getElem_mem h3))
      refine ⟨r, er, ?_⟩
      convert hr using 1
      ring)
    refine ⟨⟨out, dest.basis⟩, ?_, by rw [hd.basis]; exact hg.basis, ?_, ho⟩
    · unfold NTTGadgetRLWE.addInplace
      rw [if_pos (by rw [hbb]), mbind eo]; rfl
    · rw [hlo, hd.len, hd.basis]
  · obtain ⟨out, eo, hlo, ho⟩ := zipInto_spec (f := NTTRLWE.subInplace R)
      (P := fun j r => r.HasPhase R q q (2 ^ k) s
        ((m - m') * Rq.const ((2 ^ (bits * j) : Nat) : ZMod q) + (e j - e' j))) l1 l2 (by
      intro j h1 h2 h3
      obtain ⟨_, r, _, _, er, hr⟩ := C58_ntt_rlwe hk F _ _ dest.data[j] s _ _
        (hg.elem j h1) (hh.elem j h2) (hd.elem _ (List.getElem_mem h3))
      refine ⟨r, er, ?_⟩
      convert hr using 1
      ring)
    refine ⟨⟨out, dest.basis⟩, ?_, by rw [hd.basis]; exact hg.basis, ?_, ho⟩
    · unfold NTTGadgetRLWE.subInplace
      rw [if_pos (by rw [hbb]), mbind eo]; rfl
    · rw [hlo, hd.len, hd.basis]
  · obtain ⟨out, eo, hlo, ho⟩ := mapM_getElem (l := g.data) (f := fun x => NTTRLWE.mulNtt R x pn)
      (P := fun j r => r.HasPhase R q q (2 ^ k) s
        (m * Rq.ofWords q (2 ^ k) p * Rq.const ((2 ^ (bits * j) : Nat) : ZMod q) +
          e j * Rq.ofWords q (2 ^ k) p)) (by
      intro j hj
      obtain ⟨⟨r, er, _, hr⟩, _⟩ := (C58_scale hk F s _ _ p pn hp hpn).2 _ _ dest.data[j]
        (hg.elem j hj) (hg.elem j hj) (hd.elem _ (List.getElem_mem (by omega)))
      refine ⟨r, er, ?_⟩
      convert hr using 1
      ring)
    refine ⟨⟨out, g.basis⟩, ?_, hg.basis, by rw [hlo]; exact hg.len, ho⟩
    unfold NTTGadgetRLWE.mulNttAssign
    rw [mbind eo]; rfl
  · obtain ⟨r, er, hr⟩ := gadget_addMulNtt hk F bits s m m' e e' g h hg hh p pn hp hpn
    refine ⟨r, ?_, er, hr⟩
    unfold NTTGadgetRLWE.addMulNtt at er
    obtain ⟨d, ed, er⟩ := Option.bind_eq_some_iff.1 er
    cases er
    have key : ∀ (xs ys ds : List NTTRLWE), xs.length = ds.length → ys.length = ds.length →
        (∀ x y z, x ∈ xs → y ∈ ys → z ∈ ds →
          NTTRLWE.addMulInplace R x y pn z = NTTRLWE.addMul R x y pn) →
        zipInto (fun x y d => NTTRLWE.addMulInplace R x y pn d) xs ys ds =
          (xs.zip ys).mapM fun x => NTTRLWE.addMul R x.1 x.2 pn := by
      intro xs
      induction xs with
      | nil => intro ys ds h1 _ _; cases ds <;> simp_all [zipInto]
      | cons x xs ih =>
        intro ys ds h1 h2 hf
        cases ds with
        | nil => simp at h1
        | cons d ds =>
          cases ys with
          | nil => simp at h2
          | cons y ys =>
            rw [zipInto, List.zip_cons_cons, List.mapM_cons, hf x y d (by simp) (by simp) (by simp),
              ih ys ds (by simpa using h1) (by simpa using h2)
              (fun x y z a b c => hf x y z (by simp [a]) (by simp [b]) (by simp [c]))]
    unfold NTTGadgetRLWE.addMulNttInplace
    rw [key _ _ _ l1 l2 (by
      intro x y z hx hy hz
      obtain ⟨i, hi, rfl⟩ := List.mem_iff_getElem.1 hx
      obtain ⟨j, hj, rfl⟩ := List.mem_iff_getElem.1 hy
      obtain ⟨_, r, e1, e2, _⟩ := (C58_scale hk F s _ _ p pn hp hpn).2 _ _ z (hh.elem j hj)
        (hg.elem i hi) (hd.elem z hz)
      rw [e1, e2]), mbind ed, hd.basis]; rfl

/-- C58: RGSW ciphertexts in coefficient form. -/
theorem C58_rgsw (F : TableField R.w q R.M R.tbl k) (bits : Nat) (B : Basis)
    (hB : Basis.new R.w q bits = some B) (s m m' : Rq (ZMod q) (2 ^ k))
    (e0 e1 e0' e1' : Nat → Rq (ZMod q) (2 ^ k)) (g h dest : RGSW)
    (hg : g.Encrypts R.w q (2 ^ k) bits s m e0 e1)
    (hh : h.Encrypts R.w q (2 ^ k) bits s m' e0' e1') (hd : dest.Shaped (2 ^ k) B) :
    (∃ r, RGSW.addInplace R g h dest = some r ∧ r.Encrypts R.w q (2 ^ k) bits s (m + m')
      (fun j => e0 j + e0' j) (fun j => e1 j + e1' j)) ∧
    (∃ r, RGSW.subInplace R g h dest = some r ∧ r.Encrypts R.w q (2 ^ k) bits s (m - m')
      (fun j => e0 j - e0' j) (fun j => e1 j - e1' j)) := by
  have hb0 : B = g.cNegSM.basis := Option.some.inj (hB.symm.trans hg.negSM.basis)
  have hb1 : B = g.cM.basis := Option.some.inj (hB.symm.trans hg.m.basis)
  obtain ⟨⟨a0, ea0, ha0⟩, ⟨s0, es0, hs0⟩⟩ := C58_gadget F bits s _ _ _ _ _ _ dest.cNegSM hg.negSM
    hh.negSM (hb0 ▸ hd.1)
  obtain ⟨⟨a1, ea1, ha1⟩, ⟨s1, es1, hs1⟩⟩ := C58_gadget F bits s _ _ _ _ _ _ dest.cM hg.m
    hh.m (hb1 ▸ hd.2)
  refine ⟨⟨⟨a0, a1⟩, ?_, ?_, ha1⟩, ⟨⟨s0, s1⟩, ?_, ?_, hs1⟩⟩
  · unfold RGSW.addInplace; rw [mbind ea1, mbind ea0]; rfl
  · rwa [← mul_add] at ha0
  · unfold RGSW.subInplace; rw [mbind es1, mbind es0]; rfl
  · rwa [← mul_sub] at hs0

/-- C58: RGSW ciphertexts in transform form. -/
theorem C58_ntt_rgsw (hk : 0 < k) (F : TableField R.w q R.M R.tbl k) (bits : Nat) (B : Basis)
    (hB : Basis.new R.w q bits = some B) (s m m' : Rq (ZMod q) (2 ^ k))
    (e0 e1 e0' e1' : Nat → Rq (ZMod q) (2 ^ k)) (g h dest : NTTRGSW)
    (hg : g.Encrypts R q (2 ^ k) bits s m e0 e1) (hh : h.Encrypts R q (2 ^ k) bits s m' e0' e1')
    (hd : dest.Shaped (2 ^ k) B) (p pn : List Nat) (hp : Reduced q (2 ^ k) p)
    (hpn : Poly.toNtt R.w R.M R.tbl p = some pn) :
    (∃ r, NTTRGSW.addInplace R g h dest = some r ∧ r.Encrypts R q (2 ^ k) bits s (m + m')
      (fun j => e0 j + e0' j) (fun j => e1 j + e1' j)) ∧
    (∃ r, NTTRGSW.subInplace R g h dest = some r ∧ r.Encrypts R q (2 ^ k) bits s (m - m')
      (fun j => e0 j - e0' j) (fun j => e1 j - e1' j)) ∧
    (∃ r, NTTRGSW.mulNttAssign R g pn = some r ∧
      r.Encrypts R q (2 ^ k) bits s (m * Rq.ofWords q (2 ^ k) p)
        (fun j => e0 j * Rq.ofWords q (2 ^ k) p) (fun j => e1 j * Rq.ofWords q (2 ^ k) p)) ∧
    (∃ r, NTTRGSW.addMulNttInplace R g h pn dest = some r ∧ NTTRGSW.addMulNtt R g h pn = some r ∧
      r.Encrypts R q (2 ^ k) bits s (m + m' * Rq.ofWords q (2 ^ k) p)
        (fun j => e0 j + e0' j * Rq.ofWords q (2 ^ k) p)
        (fun j => e1 j + e1' j * Rq.ofWords q (2 ^ k) p)) := by
  have hb0 : B = g.cNegSM.basis := Option.some.inj (hB.symm.trans hg.negSM.basis)
  have hb1 : B = g.cM.basis := Option.some.inj (hB.symm.trans hg.m.basis)
  obtain ⟨⟨a0, ea0, ha0⟩, ⟨s0, es0, hs0⟩, ⟨m0, em0, hm0⟩, ⟨f0, ef0, ef0', hf0⟩⟩ :=
    C58_ntt_gadget hk F bits s _ _ _ _ _ _ dest.cNegSM hg.negSM hh.negSM (hb0 ▸ hd.1) p pn hp hpn
  obtain ⟨⟨a1, ea1, ha1⟩, ⟨s1, es1, hs1⟩, ⟨m1, em1, hm1⟩, ⟨f1, ef1, ef1', hf1⟩⟩ :=
    C58_ntt_gadget hk F bits s _ _ _ _ _ _ dest.cM hg.m hh.m (hb1 ▸ hd.2) p pn hp hpn
  refine ⟨⟨⟨a0, a1⟩, ?_, ?_, ha1⟩, ⟨⟨s0, s1⟩, ?_, ?_, hs1⟩, ⟨⟨m0, m1⟩, ?_, ?_, hm1⟩,
    ⟨⟨f0, f1⟩, ?_, ?_, ?_, hf1⟩⟩
  · unfold NTTRGSW.addInplace; rw [mbind ea1, mbind ea0]; rfl
  · rwa [← mul_add] at ha0
  · unfold NTTRGSW.subInplace; rw [mbind es1, mbind es0]; rfl
  · rwa [← mul_sub] at hs0
  · unfold NTTRGSW.mulNttAssign; rw [mbind em1, mbind em0]; rfl
  · rwa [mul_assoc] at hm0
  · unfold NTTRGSW.addMulNttInplace; rw [mbind ef0, mbind ef1]; rfl
  · unfold NTTRGSW.addMulNtt; rw [mbind ef0', mbind ef1']; rfl
  · rwa [mul_assoc, ← mul_add] at hf0

theorem ntt_gadget_zero (hk : 0 < k) (F : TableField R.w q R.M R.tbl k) (bits : Nat) (B : Basis)
    (hB : Basis.new R.w q bits = some B) (s m : Rq (ZMod q) (2 ^ k)) (hm : m = 0) (g : NTTGadgetRLWE)
    (hg : g.Shaped (2 ^ k) B) :
    (NTTGadgetRLWE.zero (2 ^ k) B).Encrypts R q (2 ^ k) bits s m (fun _ => 0) ∧
    g.setZero = NTTGadgetRLWE.zero (2 ^ k) B := by
  subst hm
  refine ⟨⟨hB, by simp [NTTGadgetRLWE.zero], fun j hj => ?_⟩, ?_⟩
  · have h0 := zero_hasPhase hk F (K := q) (Or.inl rfl) s
    simp only [NTTGadgetRLWE.zero, List.getElem_map]
    rwa [zero_mul, add_zero]
  · unfold NTTGadgetRLWE.setZero NTTGadgetRLWE.zero
    rw [hg.basis, NTTGadgetRLWE.mk.injEq]
    refine ⟨List.ext_getElem (by simp [hg.len]) fun i h1 h2 => ?_, rfl⟩
    simp only [List.getElem_map]
    have hm := hg.elem _ (List.getElem_mem (by simpa using h1))
    exact NTTRLWE.setZero_eq hm.1 hm.2

/-- C58: the zero constructors and `set_zero` give the same encryption of `0`, without error. -/
theorem C58_zero (hk : 0 < k) (F : TableField R.w q R.M R.tbl k) (bits : Nat) (B : Basis)
    (hB : Basis.new R.w q bits = some B) (s : Rq (ZMod q) (2 ^ k)) (g : NTTRGSW)
    (hg : g.Shaped (2 ^ k) B) :
    (NTTRGSW.zero (2 ^ k) B).Encrypts R q (2 ^ k) bits s 0 (fun _ => 0) (fun _ => 0) ∧
    g.setZero = NTTRGSW.zero (2 ^ k) B := by
  obtain ⟨h0, e0⟩ := ntt_gadget_zero hk F bits B hB s (-s * 0) (by ring) _ hg.1
  obtain ⟨h1, e1⟩ := ntt_gadget_zero hk F bits B hB s 0 rfl _ hg.2
  exact ⟨⟨h0, h1⟩, by unfold NTTRGSW.setZero NTTRGSW.zero; rw [e0, e1]⟩

end Ntt

theorem lwe_zip {q : Nat} (f : Nat → Nat → Option Nat) (ε : ZMod q) :
    ∀ l m : List Nat, l.length = m.length →
    (∀ p ∈ l.zip m, ∃ r, f p.1 p.2 = some r ∧ (r : ZMod q) = p.1 + ε * p.2) →
    ∃ r, LWE.zipCollect f l m = some r ∧ Poly.zipAssign f l m = some r ∧
      ∀ s, ((dot r s : Nat) : ZMod q) = dot l s + ε * dot m s
  | [], [], _, _ => ⟨[], rfl, rfl, fun s => by simp [dot]⟩
  | [], _ :: _, h, _ => by simp at h
  | _ :: _, [], h, _ => by simp at h
  | a :: l, b :: m, h, hf => by
    obtain ⟨r, e, hr⟩ := hf (a, b) (by simp)
    obtain ⟨rs, e1, e2, hrs⟩ := lwe_zip f ε l m (by simpa using h)
      (fun p hp => hf p (by simp [hp]))
    refine ⟨r :: rs, by simp [LWE.zipCollect, e, e1], by simp [Poly.zipAssign, e, e2], fun s => ?_⟩
    cases s with
    | nil => simp [dot]
    | cons z s => simp only [dot, Nat.cast_add, Nat.cast_mul, hr, hrs]; ring

/-- C58: the forms of LWE addition and subtraction without a modulus argument use the operators `add`
and `sub` of the component type. Where these are exact modulo `q`, the phases modulo `q` are added and
subtracted under every key. -/
theorem C58_lwe (q : Nat) (add sub : Nat → Nat → Option Nat) (x y : LWE)
    (hl : x.a.length = y.a.length) :
    ((∀ p ∈ (x.b, y.b) :: x.a.zip y.a, ∃ r, add p.1 p.2 = some r ∧ (r : ZMod q) = p.1 + p.2) →
      ∃ r, LWE.addComponentRef add x y = some r ∧ LWE.addComponentInplace add x y = some r ∧
      ∀ s, lwePhase q s r.a r.b = lwePhase q s x.a x.b + lwePhase q s y.a y.b) ∧
    ((∀ p ∈ (x.b, y.b) :: x.a.zip y.a, ∃ r, sub p.1 p.2 = some r ∧ (r : ZMod q) = p.1 - p.2) →
      ∃ r, LWE.subComponentRef sub x y = some r ∧ LWE.subComponentInplace sub x y = some r ∧
      ∀ s, lwePhase q s r.a r.b = lwePhase q s x.a x.b - lwePhase q s y.a y.b) := by
  constructor
  · intro ha
    obtain ⟨a, e1, e2, hd⟩ := lwe_zip (q := q) add 1 x.a y.a hl
      (fun p hp => by simpa using ha p (by simp [hp]))
    obtain ⟨b, e3, hb⟩ := ha (x.b, y.b) (by simp)
    refine ⟨⟨a, b⟩, ?_, ?_, fun s => ?_⟩
    · unfold LWE.addComponentRef; rw [if_pos hl, mbind e1, mbind e3]; rfl
    · unfold LWE.addComponentInplace; rw [if_pos hl, mbind e2, mbind e3]; rfl
    · simp only [lwePhase, hd s, hb]; ring
  · intro hs
    obtain ⟨a, e1, e2, hd⟩ := lwe_zip (q := q) sub (-1) x.a y.a hl
      (fun p hp => by simpa [← sub_eq_add_neg] using hs p (by simp [hp]))
    obtain ⟨b, e3, hb⟩ := hs (x.b, y.b) (by simp)
    refine ⟨⟨a, b⟩, ?_, ?_, fun s => ?_⟩
    · unfold LWE.subComponentRef; rw [if_pos hl, mbind e1, mbind e3]; rfl
    · unfold LWE.subComponentInplace; rw [if_pos hl, mbind e2, mbind e3]; rfl
    · simp only [lwePhase, hd s, hb]; ring

/-- C58: the operators of a field are exact on reduced components; the checked operators of a
word type are on components whose sums and differences do not leave the word, and panic on others. -/
theorem C58_lwe_operators (w q : Nat) (hw : w % 2 = 0) (M : Barrett) (h : Fp.config w q = some M) :
    (∀ u v, u < q → v < q → ∃ r, Fp.add w M u v = some r ∧ (r : ZMod q) = u + v) ∧
    (∀ u v, u < q → v < q → ∃ r, Fp.sub w M u v = some r ∧ (r : ZMod q) = u - v) ∧
    (∀ u v, u < q → v < q → Fp.subAssign w M u v = Fp.sub w M u v) ∧
    (∀ u v, u + v < 2 ^ w → addC w u v = some (u + v)) ∧
    (∀ u v, 2 ^ w ≤ u + v → addC w u v = none) ∧
    (∀ u v, v ≤ u → subC u v = some (u - v)) ∧ ∀ u v, u < v → subC u v = none := by
  have C : Config w q M := ⟨hw, h⟩
  have hval := C.value
  subst hval
  refine ⟨fun u v hu hv => ?_, fun u v hu hv => ?_, fun u v hu hv => ?_, fun u v huv => ?_,
    fun u v huv => ?_, fun u v huv => ?_, fun u v huv => ?_⟩
  · obtain ⟨r, e, _, hr⟩ := (C.ops hu hv hu).2.2.2.1
    exact ⟨r, e, hr⟩
  · obtain ⟨r, e, _, hr⟩ := (C.ops hu hv hu).2.2.2.2.1
    exact ⟨r, e, hr⟩
  · obtain ⟨r, e, l1, hr⟩ := (C.ops hu hv hu).2.2.2.2.1
    obtain ⟨r', e', l2, hr'⟩ := (C.ops hu hv hu).2.2.2.2.2.1
    rw [e, e']
    have := (ZMod.natCast_eq_natCast_iff' _ _ _).1 (hr'.trans hr.symm)
    rw [Nat.mod_eq_of_lt l1, Nat.mod_eq_of_lt l2] at this
    rw [this]
  · simp [addC, huv]
  · simp [addC, Nat.not_lt.2 huv]
  · simp [subC, huv]
  · simp [subC, Nat.not_le.2 huv]

theorem zipInto_kept {α β : Type} {f : α → α → β → Option β} : ∀ {xs ys : List α} {ds out : List β},
    zipInto f xs ys ds = some out →
    out.length = ds.length ∧ ∀ j, min xs.length ys.length ≤ j → out[j]? = ds[j]?
  | [], ys, ds, out, h => by simp only [zipInto, Option.some.injEq] at h; subst h; simp
  | x :: xs, [], ds, out, h => by simp only [zipInto, Option.some.injEq] at h; subst h; simp
  | x :: xs, y :: ys, [], out, h => by simp only [zipInto, Option.some.injEq] at h; subst h; simp
  | x :: xs, y :: ys, d :: ds, out, h => by
    rw [zipInto] at h
    obtain ⟨r, _, h⟩ := Option.bind_eq_some_iff.1 h
    obtain ⟨rs, h', h⟩ := Option.bind_eq_some_iff.1 h
    cases h
    obtain ⟨hl, hk⟩ := zipInto_kept h'
    refine ⟨by simp [hl], fun j hj => ?_⟩
    cases j with
    | zero => simp at hj
    | succ j =>
      simp only [List.length_cons] at hj
      simpa using hk j (by omega)

/-- C58: why the shape of the destination matters. Whatever the destination is, the operations write
the leading elements only: it keeps its basis, its length and all elements beyond the operands, and
nothing reports a destination of another basis. -/
theorem C58_destination_kept (R : Ctx) (g h dest r : GadgetRLWE) (g' h' dest' r' : NTTGadgetRLWE)
    (p : List Nat) :
    (GadgetRLWE.addInplace R g h dest = some r ∨ GadgetRLWE.subInplace R g h dest = some r →
      r.basis = dest.basis ∧ r.data.length = dest.data.length ∧
      ∀ j, min g.data.length h.data.length ≤ j → r.data[j]? = dest.data[j]?) ∧
    (NTTGadgetRLWE.addInplace R g' h' dest' = some r' ∨
      NTTGadgetRLWE.subInplace R g' h' dest' = some r' ∨
      NTTGadgetRLWE.addMulNttInplace R g' h' p dest' = some r' →
      r'.basis = dest'.basis ∧ r'.data.length = dest'.data.length ∧
      ∀ j, min g'.data.length h'.data.length ≤ j → r'.data[j]? = dest'.data[j]?) := by
  constructor
  · rintro (H | H)
    · unfold GadgetRLWE.addInplace at H
      split at H
      · obtain ⟨d, hd, H⟩ := Option.bind_eq_some_iff.1 H
        cases H
        exact ⟨rfl, zipInto_kept hd⟩
      · cases H
    · unfold GadgetRLWE.subInplace at H
      split at H
      · obtain ⟨d, hd, H⟩ := Option.bind_eq_some_iff.1 H
        cases H
        exact ⟨rfl, zipInto_kept hd⟩
      · cases H
  · rintro (H | H | H)
    · unfold NTTGadgetRLWE.addInplace at H
      split at H
      · obtain ⟨d, hd, H⟩ := Option.bind_eq_some_iff.1 H
        cases H
        exact ⟨rfl, zipInto_kept hd⟩
      · cases H
    · unfold NTTGadgetRLWE.subInplace at H
      split at H
      · obtain ⟨d, hd, H⟩ := Option.bind_eq_some_iff.1 H
        cases H
        exact ⟨rfl, zipInto_kept hd⟩
      · cases H
    · unfold NTTGadgetRLWE.addMulNttInplace at H
      obtain ⟨d, hd, H⟩ := Option.bind_eq_some_iff.1 H
      cases H
      exact ⟨rfl, zipInto_kept hd⟩

/-- C58: operands of different bases are rejected by the sums and differences (the assertion of a
debug build), not by the fused product. -/
theorem C58_operand_basis :
    (∀ (R : Ctx) (g h dest : GadgetRLWE), g.basis.basis ≠ h.basis.basis →
      GadgetRLWE.addInplace R g h dest = none ∧ GadgetRLWE.subInplace R g h dest = none) ∧
    (∀ (R : Ctx) (g h dest : NTTGadgetRLWE), g.basis.basis ≠ h.basis.basis →
      NTTGadgetRLWE.addInplace R g h dest = none ∧ NTTGadgetRLWE.subInplace R g h dest = none) ∧
    (∃ (g h dest : NTTGadgetRLWE), g.basis.basis ≠ h.basis.basis ∧
      (NTTGadgetRLWE.addMulNttInplace ⟨8, barrett17, tbl17⟩ g h [1, 1, 1, 1] dest).isSome) := by
  refine ⟨fun R g h dest hb => ?_, fun R g h dest hb => ?_, ?_⟩
  · simp [GadgetRLWE.addInplace, GadgetRLWE.subInplace, hb]
  · simp [NTTGadgetRLWE.addInplace, NTTGadgetRLWE.subInplace, hb]
  · refine ⟨⟨[⟨[1, 2, 3, 4], [5, 6, 7, 8]⟩, ⟨[1, 2, 3, 4], [5, 6, 7, 8]⟩], ⟨16, 2, 15, 4⟩⟩,
      ⟨[⟨[1, 2, 3, 4], [5, 6, 7, 8]⟩], ⟨32, 1, 31, 5⟩⟩, NTTGadgetRLWE.zero 4 ⟨16, 2, 15, 4⟩,
      by decide, by decide +kernel⟩

theorem fmaAssign_kept {f : Nat → Nat → Nat → Option Nat} : ∀ {a b c out : List Nat},
    Poly.fmaAssign f a b c = some out → out.length = a.length ∧
      ∀ j, out[j]? = if min b.length c.length ≤ j then a[j]? else do
        f (← a[j]?) (← b[j]?) (← c[j]?)
  | [], b, c, out, h => by simp only [Poly.fmaAssign, Option.some.injEq] at h; subst h; simp
  | a :: as, [], c, out, h => by simp only [Poly.fmaAssign, Option.some.injEq] at h; subst h; simp
  | a :: as, b :: bs, [], out, h => by simp only [Poly.fmaAssign, Option.some.injEq] at h; subst h; simp
  | a :: as, b :: bs, c :: cs, out, h => by
    rw [Poly.fmaAssign] at h
    obtain ⟨r, hr, h⟩ := Option.bind_eq_some_iff.1 h
    obtain ⟨rs, h', h⟩ := Option.bind_eq_some_iff.1 h
    cases h
    obtain ⟨hl, hk⟩ := fmaAssign_kept h'
    refine ⟨by simp [hl], fun j => ?_⟩
    cases j with
    | zero => simp [hr]
    | succ j => simp [hk j]

/-- C58: the fused entry-wise product `x += y * z` on transform forms does not check lengths: entries
of `x` beyond the shorter of `y` and `z` are kept, the others are `x + y * z` in the field. -/
theorem C58_unequal_lengths (w : Nat) (M : Barrett) (x y z out : List Nat)
    (h : Poly.nttAddMul w M x y z = some out) : out.length = x.length ∧
    (∀ j, min y.length z.length ≤ j → out[j]? = x[j]?) ∧
    ∀ j (hx : j < x.length) (hy : j < y.length) (hz : j < z.length),
      Fp.addMul w M x[j] y[j] z[j] = some (out.getD j 0) := by
  obtain ⟨hl, hk⟩ := fmaAssign_kept h
  refine ⟨hl, fun j hj => by rw [hk j, if_pos hj], fun j hx hy hz => ?_⟩
  have := hk j
  rw [if_neg (by omega)] at this
  simp only [List.getElem?_eq_getElem hx, List.getElem?_eq_getElem hy, List.getElem?_eq_getElem hz,
    List.getElem?_eq_getElem (hl ▸ hx : j < out.length), Option.bind_eq_bind, Option.bind_some] at this
  rw [← this, List.getD_eq_getElem _ _ (hl ▸ hx : j < out.length)]

-- sums and differences of ring ciphertexts modulo 17, the destination holding other words
example : RLWE.subInplace ⟨8, barrett17, tbl17⟩ ⟨[1, 2, 3, 4], [5, 6, 7, 8]⟩
      ⟨[16, 2, 0, 9], [1, 0, 0, 16]⟩ ⟨[3, 3, 3, 3], [200, 0, 1, 2]⟩ =
    some ⟨[2, 0, 3, 12], [4, 6, 7, 9]⟩ := by decide +kernel

example : (⟨[1, 2, 3, 4], [5, 6, 7, 8]⟩ : RLWE).HasPhase 17 (2 ^ 2) 0
    (Rq.ofWords 17 (2 ^ 2) [5, 6, 7, 8]) :=
  ⟨⟨rfl, by decide⟩, ⟨rfl, by decide⟩, by
    have : Fact (Nat.Prime 17) := ⟨by decide⟩
    unfold rlwePhase; ring⟩

-- destinations of the right shape hold arbitrary words
example : (⟨[⟨[9, 9, 9, 255], [0, 0, 0, 1]⟩, ⟨[1, 2, 3, 4], [5, 6, 7, 8]⟩], ⟨16, 2, 15, 4⟩⟩ :
    NTTGadgetRLWE).Shaped 4 ⟨16, 2, 15, 4⟩ :=
  ⟨rfl, rfl, by
    intro x hx
    rcases List.mem_cons.1 hx with rfl | hx
    · exact ⟨rfl, rfl⟩
    · rcases List.mem_cons.1 hx with rfl | hx
      · exact ⟨rfl, rfl⟩
      · simp at hx⟩

end Props
end Verif
