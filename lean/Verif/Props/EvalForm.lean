import Verif.Model.EvalForm
import Verif.Props.RGSW

/-! # C62: arithmetic on transform forms -/

namespace Verif.Props
open Fp Finset Spec Ntt

theorem zipCollect_eq (f : Nat → Nat → Option Nat) : ∀ a b : List Nat, a.length = b.length →
    EvalForm.zipCollect f a b = Poly.zipAssign f a b
  | [], [], _ => rfl
  | [], _ :: _, h => by simp at h
  | _ :: _, [], h => by simp at h
  | x :: a, y :: b, h => by
    simp only [EvalForm.zipCollect, Poly.zipAssign]
    rw [zipCollect_eq f a b (by simpa using h)]

section
variable {R : Ctx} {q : Nat} [Fact q.Prime] {k : Nat} (hk : 0 < k) (F : TableField R.w q R.M R.tbl k)
  (a b va vb : List Nat) (ha : Reduced q (2 ^ k) a) (hb : Reduced q (2 ^ k) b)
  (hva : Poly.toNtt R.w R.M R.tbl a = some va) (hvb : Poly.toNtt R.w R.M R.tbl b = some vb)
include hk F

/-- C62: the two conversions are inverse bijections between the polynomials and their transform forms. -/
theorem C62_conversions (v : List Nat) (hv : Reduced q (2 ^ k) v) :
    (∃ p, Poly.ofNtt R.w R.M R.tbl v = some p ∧ Reduced q (2 ^ k) p ∧ Poly.toNtt R.w R.M R.tbl p = some v) ∧
    (∃ u, Poly.toNtt R.w R.M R.tbl v = some u ∧ Reduced q (2 ^ k) u ∧ Poly.ofNtt R.w R.M R.tbl u = some v) := by
  obtain ⟨t, rfl, E⟩ := F.env hk
  constructor
  · obtain ⟨p, hp⟩ := E.exists_ntt' hv
    obtain ⟨l, el, hl⟩ := E.ofNtt hp.lazy
    obtain ⟨u, eu, hu⟩ := E.toNtt hl
    obtain rfl := Vals.ext hu hp
    exact ⟨l, el, ⟨hl.len, hl.lt⟩, eu⟩
  · obtain ⟨u, eu, hu⟩ := E.toNtt (rep_exists hv)
    obtain ⟨l, el, hl⟩ := E.ofNtt hu.lazy
    obtain rfl := Vals.ext hl (rep_exists hv)
    exact ⟨u, eu, ⟨hu.len, hu.lt⟩, el⟩

/-- C62: the methods of a table agree with the conversions. -/
theorem C62_table (v : List Nat) (hv : Reduced q (2 ^ k) v) : ∃ t, R.tbl k = some t ∧
    EvalForm.transform R.w R.M t v = Poly.toNtt R.w R.M R.tbl v ∧
    EvalForm.inverseTransform R.w R.M t v = Poly.ofNtt R.w R.M R.tbl v := by
  obtain ⟨t, rfl, E⟩ := F.env hk
  refine ⟨t, E.tb, ?_, ?_⟩
  · unfold Poly.toNtt EvalForm.transform; rw [hv.1, mbind E.tableFor]
  · unfold Poly.ofNtt EvalForm.inverseTransform; rw [hv.1, mbind E.tableFor]

include ha hb hva hvb

/-- C62: every form of the sum of two transform forms is the transform form of the sum. -/
theorem C62_add : ∃ r v, Poly.add R.w R.M a b = some r ∧ Poly.toNtt R.w R.M R.tbl r = some v ∧
    EvalForm.addAssign R.w R.M va vb = some v ∧ EvalForm.addOwned R.w R.M va vb = some v ∧
    EvalForm.addRef R.w R.M va vb = some v := by
  obtain ⟨t, rfl, E⟩ := F.env hk
  have := E.nontrivial
  obtain ⟨va', e1, h1⟩ := E.toNtt (rep_exists ha)
  obtain ⟨vb', e2, h2⟩ := E.toNtt (rep_exists hb)
  obtain rfl := Option.some.inj (hva.symm.trans e1)
  obtain rfl := Option.some.inj (hvb.symm.trans e2)
  obtain ⟨r, er, hr⟩ := (rep_exists ha).add E (rep_exists hb)
  obtain ⟨v, ev, hv⟩ := E.toNtt hr
  obtain ⟨o, eo, ho⟩ := h1.add E h2
  obtain rfl := Vals.ext ho hv
  obtain ⟨o', eo', ho'⟩ := h2.add E h1
  rw [add_comm] at ho'
  obtain rfl := Vals.ext ho' hv
  refine ⟨r, _, er, ev, eo, eo', ?_⟩
  unfold EvalForm.addRef
  unfold Poly.add at eo
  have hl : va.length = vb.length := by rw [h1.len, h2.len]
  rw [if_pos hl] at eo ⊢
  rw [zipCollect_eq _ _ _ hl, eo]

/-- C62: every form of the difference. -/
theorem C62_sub : ∃ r v, Poly.sub R.w R.M a b = some r ∧ EvalForm.subOwnedNative R.w R.M a b = some r ∧
    Poly.toNtt R.w R.M R.tbl r = some v ∧ EvalForm.subAssign R.w R.M va vb = some v ∧
    EvalForm.subOwned R.w R.M va vb = some v ∧ EvalForm.subRef R.w R.M va vb = some v := by
  obtain ⟨t, rfl, E⟩ := F.env hk
  have := E.nontrivial
  obtain ⟨va', e1, h1⟩ := E.toNtt (rep_exists ha)
  obtain ⟨vb', e2, h2⟩ := E.toNtt (rep_exists hb)
  obtain rfl := Option.some.inj (hva.symm.trans e1)
  obtain rfl := Option.some.inj (hvb.symm.trans e2)
  have owned : ∀ {l m : List Nat} {u v : Nat → ZMod R.M.value}, Vals R.M.value (2 ^ k) R.M.value l u →
      Vals R.M.value (2 ^ k) R.M.value m v →
      ∃ r, Poly.zipAssign (fun r l => Fp.sub R.w R.M l r) m l = some r ∧
        Vals R.M.value (2 ^ k) R.M.value r (fun i => u i - v i) := fun {l m u v} hl hm =>
    hm.zip hl (C := R.M.value) (g := fun y x => x - y) fun x y hx hy => (E.C.ops hy hx hx).2.2.2.2.1
  obtain ⟨r, er, hr⟩ := (rep_exists ha).sub E (rep_exists hb)
  obtain ⟨v, ev, hv⟩ := E.toNtt hr
  obtain ⟨o, eo, ho⟩ := h1.subAssign E h2
  obtain rfl := Vals.ext ho hv
  obtain ⟨r', er', hr'⟩ := owned (rep_exists ha) (rep_exists hb)
  have e3 : Rep R.M.value (2 ^ k) r' (Rq.ofWords R.M.value (2 ^ k) a - Rq.ofWords R.M.value (2 ^ k) b) :=
    rep_of hr' fun i => by simp
  obtain rfl := Vals.ext e3 hr
  obtain ⟨o', eo', ho'⟩ := owned h1 h2
  obtain rfl := Vals.ext (ho'.congr fun i _ => (Rq.evalAt_sub _ _ _ _).symm) hv
  obtain ⟨o'', eo'', ho''⟩ := Vals.sub E.C h1 h2
  obtain rfl := Vals.ext (ho''.congr fun i _ => (Rq.evalAt_sub _ _ _ _).symm) hv
  have hl : va.length = vb.length := by rw [h1.len, h2.len]
  refine ⟨r', o'', er, ?_, ev, eo, ?_, ?_⟩
  · unfold EvalForm.subOwnedNative; rw [if_pos (by rw [ha.1, hb.1]), er']
  · unfold EvalForm.subOwned; rw [if_pos hl, eo']
  · unfold EvalForm.subRef
    unfold Poly.sub at eo''
    rw [if_pos hl] at eo'' ⊢
    rw [zipCollect_eq _ _ _ hl, eo'']

/-- C62: every form of the product, also with a polynomial that is not in transform form, is the transform form of
the product modulo `X^n + 1`. -/
theorem C62_mul : ∃ r v, Poly.mul R.w R.M R.tbl a b = some r ∧ Poly.toNtt R.w R.M R.tbl r = some v ∧
    Poly.nttMul R.w R.M va vb = some v ∧ EvalForm.mulOwned R.w R.M va vb = some v ∧
    EvalForm.mulRef R.w R.M va vb = some v ∧ EvalForm.mulNative R.w R.M R.tbl va b = some v ∧
    EvalForm.mulNativeRef R.w R.M R.tbl va b = some v := by
  obtain ⟨r, er, hr, -, va', vb', p, e1, e2, -, e3, -, e4⟩ :=
    C25_mul_partial R.w q R.M R.tbl k hk F a b ha hb
  obtain ⟨t, rfl, E⟩ := F.env hk
  have := E.nontrivial
  obtain rfl := Option.some.inj (hva.symm.trans e1)
  obtain rfl := Option.some.inj (hvb.symm.trans e2)
  obtain ⟨va', e5, h1⟩ := E.toNtt (rep_exists ha)
  obtain ⟨vb', e6, h2⟩ := E.toNtt (rep_exists hb)
  obtain rfl := Option.some.inj (hva.symm.trans e5)
  obtain rfl := Option.some.inj (hvb.symm.trans e6)
  obtain ⟨o, eo, ho⟩ := h1.mul E h2
  obtain rfl := Option.some.inj (e3.symm.trans eo)
  obtain ⟨o', eo', ho'⟩ := h2.mul E h1
  rw [mul_comm] at ho'
  obtain rfl := Vals.ext ho' ho
  have hl : va.length = vb.length := by rw [h1.len, h2.len]
  refine ⟨r, _, er, e4, e3, eo', ?_, ?_, ?_⟩
  · unfold EvalForm.mulRef
    unfold Poly.nttMul at eo
    rw [if_pos hl] at eo ⊢
    rw [zipCollect_eq _ _ _ hl, eo]
  · unfold EvalForm.mulNative; rw [if_pos (by rw [h1.len, hb.1]), mbind hvb, eo]
  · unfold EvalForm.mulNativeRef; rw [if_pos (by rw [h1.len, hb.1]), mbind hvb, eo']

omit hb hvb

/-- C62: negation and multiplication with a scalar. -/
theorem C62_neg_scalar (s : Nat) (hs : s < q) :
    (∃ r v, Poly.neg R.M a = some r ∧ Poly.toNtt R.w R.M R.tbl r = some v ∧ EvalForm.neg R.M va = some v) ∧
    (∃ r v, Poly.mulScalar R.w R.M a s = some r ∧ Poly.toNtt R.w R.M R.tbl r = some v ∧
      EvalForm.mulScalar R.w R.M va s = some v) := by
  obtain ⟨t, rfl, E⟩ := F.env hk
  have := E.nontrivial
  obtain ⟨va', e1, h1⟩ := E.toNtt (rep_exists ha)
  obtain rfl := Option.some.inj (hva.symm.trans e1)
  constructor
  · obtain ⟨r, er, hr⟩ := (rep_exists ha).neg E
    obtain ⟨v, ev, hv⟩ := E.toNtt hr
    obtain ⟨o, eo, ho⟩ := Vals.neg E.C h1
    obtain rfl := Vals.ext (ho.congr fun i _ => (Rq.evalAt_neg _ _ _).symm) hv
    exact ⟨r, o, er, ev, eo⟩
  · have sc : ∀ {l : List Nat} {u : Nat → ZMod R.M.value}, Vals R.M.value (2 ^ k) R.M.value l u →
        ∃ r, (l.mapM fun x => Fp.mul R.w R.M x s) = some r ∧
          Vals R.M.value (2 ^ k) R.M.value r (fun i => u i * s) := fun {l u} hl =>
      hl.map (g := fun x => x * s) fun x hx => (E.C.ops hx hs hx).2.2.2.2.2.2.2.1
    obtain ⟨r, er, hr⟩ := sc (rep_exists ha)
    have e3 : Rep R.M.value (2 ^ k) r (Rq.const (s : ZMod R.M.value) * Rq.ofWords R.M.value (2 ^ k) a) :=
      rep_of hr fun i => by rw [Rq.const_mul_co, Rq.seq_val, mul_comm]
    obtain ⟨v, ev, hv⟩ := E.toNtt e3
    obtain ⟨o, eo, ho⟩ := sc h1
    obtain rfl := Vals.ext (ho.congr fun i _ => by
      rw [Rq.evalAt_mul _ (E.pt_pow i), Rq.evalAt_const, mul_comm]; rfl) hv
    exact ⟨r, o, er, ev, eo⟩

end

/-- The hypotheses hold for the table of size 4 over the field of 17 elements. -/
example : ∃ va vb, Poly.toNtt 8 barrett17 tbl17 [1, 2, 3, 4] = some va ∧ Poly.toNtt 8 barrett17 tbl17 [5, 0, 16, 7] = some vb ∧
    ∃ r v, Poly.mul 8 barrett17 tbl17 [1, 2, 3, 4] [5, 0, 16, 7] = some r ∧ Poly.toNtt 8 barrett17 tbl17 r = some v ∧
      EvalForm.mulNativeRef 8 barrett17 tbl17 va [5, 0, 16, 7] = some v := by
  have : Fact (Nat.Prime 17) := ⟨by norm_num⟩
  have h1 : Reduced 17 (2 ^ 2) [1, 2, 3, 4] := ⟨rfl, by decide⟩
  have h2 : Reduced 17 (2 ^ 2) [5, 0, 16, 7] := ⟨rfl, by decide⟩
  obtain ⟨va, ea, -⟩ := (C62_conversions (R := ⟨8, barrett17, tbl17⟩) (k := 2) (by omega) tbl17_field _ h1).2
  obtain ⟨vb, eb, -⟩ := (C62_conversions (R := ⟨8, barrett17, tbl17⟩) (k := 2) (by omega) tbl17_field _ h2).2
  obtain ⟨r, v, h3, h4, -, -, -, -, h5⟩ :=
    C62_mul (R := ⟨8, barrett17, tbl17⟩) (k := 2) (by omega) tbl17_field _ _ va vb h1 h2 ea eb
  exact ⟨va, vb, ea, eb, r, v, h3, h4, h5⟩

end Verif.Props
