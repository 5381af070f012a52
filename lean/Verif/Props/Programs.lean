import Verif.SpecPrograms
import Verif.Props.EvalForm
import Verif.Props.UniformMask

/-! # C85: programs over polynomials -/

namespace Verif.Props
open Fp Finset Spec Ntt

section
variable {R : Ctx} {k : Nat} {t : Table} (E : Env R k t)
include E

theorem scale_vals {l : List Nat} {u : Nat → ZMod R.M.value} {c : Nat} (hc : c < R.M.value)
    (h : Vals R.M.value (2 ^ k) R.M.value l u) :
    ∃ r, (l.mapM fun x => Fp.mul R.w R.M x c) = some r ∧
      Vals R.M.value (2 ^ k) R.M.value r (fun i => u i * c) :=
  h.map (g := fun x => x * c) fun _ hx => (E.C.ops hx hc hx).2.2.2.2.2.2.2.1

/-- The invariant of the execution. -/
def Holds (R : Ctx) (k : Nat) (t : Table) : Form → List Nat → Rq (ZMod R.M.value) (2 ^ k) → Prop
  | .coeff, l, p => Rep R.M.value (2 ^ k) l p
  | .eval, l, p => NttRep R k t R.M.value l p
  | .lazy, l, p => NttRep R k t (2 * R.M.value) l p

theorem product_rep [Fact R.M.value.Prime] (F : TableField R.w R.M.value R.M R.tbl k) {a v : List Nat}
    {p r : Rq (ZMod R.M.value) (2 ^ k)} (ha : Rep R.M.value (2 ^ k) a p) (hv : NttRep R k t R.M.value v r) :
    ∃ o, Poly.mulNtt R.w R.M R.tbl a v = some o ∧ Rep R.M.value (2 ^ k) o (p * r) := by
  obtain ⟨b, eb, hb⟩ := E.ofNtt hv.lazy
  obtain ⟨v', ev', hv'⟩ := E.toNtt hb
  obtain rfl := Vals.ext hv hv'
  obtain ⟨va, eva, hva⟩ := E.toNtt ha
  obtain ⟨o, -, -, -, va', vb, x, e1, e2, e3, e4, e5, -⟩ :=
    C25_mul_partial R.w R.M.value R.M R.tbl k E.pos F a b ⟨ha.len, ha.lt⟩ ⟨hb.len, hb.lt⟩
  obtain rfl := Option.some.inj (eva.symm.trans e1)
  obtain rfl := Option.some.inj (ev'.symm.trans e2)
  obtain ⟨x', ex, hx⟩ := hva.mul E hv
  obtain rfl := Option.some.inj (e4.symm.trans ex)
  obtain ⟨o', eo, ho⟩ := E.ofNtt hx.lazy
  obtain rfl := Option.some.inj (e5.symm.trans eo)
  exact ⟨o, e3, ho⟩

theorem program_holds [Fact R.M.value.Prime] (F : TableField R.w R.M.value R.M R.tbl k) :
    ∀ {f : Form} (e : PolyExpr f), e.Ok R.M.value (2 ^ k) →
      ∃ l, e.run R (2 ^ k) = some l ∧ Holds R k t f l (e.value R.M.value (2 ^ k)) := by
  have := E.nontrivial
  intro f e
  induction e with
  | lit l => exact fun h => ⟨l, rfl, rep_exists h⟩
  | zero => exact fun _ => ⟨_, rfl, rep_of (Vals.zero E.q_pos) fun i => rfl⟩
  | add a b iha ihb =>
    rintro ⟨ha, hb⟩
    obtain ⟨x, ex, hx⟩ := iha ha
    obtain ⟨y, ey, hy⟩ := ihb hb
    obtain ⟨r, er, hr⟩ := Rep.add E hx hy
    exact ⟨r, by rw [PolyExpr.run, mbind ex, mbind ey, er], hr⟩
  | sub a b iha ihb =>
    rintro ⟨ha, hb⟩
    obtain ⟨x, ex, hx⟩ := iha ha
    obtain ⟨y, ey, hy⟩ := ihb hb
    obtain ⟨r, er, hr⟩ := Rep.sub E hx hy
    exact ⟨r, by rw [PolyExpr.run, mbind ex, mbind ey, er], hr⟩
  | neg a iha =>
    intro ha
    obtain ⟨x, ex, hx⟩ := iha ha
    obtain ⟨r, er, hr⟩ := Rep.neg E hx
    exact ⟨r, by rw [PolyExpr.run, mbind ex, er], hr⟩
  | scale a c iha =>
    rintro ⟨ha, hc⟩
    obtain ⟨x, ex, hx⟩ := iha ha
    obtain ⟨r, er, hr⟩ := scale_vals E hc hx
    exact ⟨r, by rw [PolyExpr.run, mbind ex]; exact er, rep_of hr fun i => by
      rw [PolyExpr.value, Rq.const_mul_co, Rq.seq_val, mul_comm]⟩
  | mul a b iha ihb =>
    rintro ⟨ha, hb⟩
    obtain ⟨x, ex, hx⟩ := iha ha
    obtain ⟨y, ey, hy⟩ := ihb hb
    obtain ⟨v, ev, hv⟩ := E.toNtt hy
    obtain ⟨r, er, hr⟩ := product_rep E F hx hv
    obtain ⟨r', er', -, -, va, vb, p, -, e2, e3, -⟩ :=
      C25_mul_partial R.w R.M.value R.M R.tbl k E.pos F x y ⟨hx.len, hx.lt⟩ ⟨hy.len, hy.lt⟩
    obtain rfl := Option.some.inj (ev.symm.trans e2)
    obtain rfl := Option.some.inj (er.symm.trans e3)
    exact ⟨r, by rw [PolyExpr.run, mbind ex, mbind ey, er'], hr⟩
  | mulEval a b iha ihb =>
    rintro ⟨ha, hb⟩
    obtain ⟨x, ex, hx⟩ := iha ha
    obtain ⟨y, ey, hy⟩ := ihb hb
    obtain ⟨r, er, hr⟩ := product_rep E F hx hy
    exact ⟨r, by rw [PolyExpr.run, mbind ex, mbind ey, er], hr⟩
  | toCoeff a iha =>
    intro ha
    obtain ⟨x, ex, hx⟩ := iha ha
    obtain ⟨r, er, hr⟩ := E.ofNtt (NttRep.lazy hx)
    exact ⟨r, by rw [PolyExpr.run, mbind ex, er], hr⟩
  | finish a iha =>
    intro ha
    obtain ⟨x, ex, hx⟩ := iha ha
    obtain ⟨r, er, hr⟩ := E.ofNtt hx
    exact ⟨r, by rw [PolyExpr.run, mbind ex, er], hr⟩
  | evalZero => exact fun _ => ⟨_, rfl, NttRep.zero E.q_pos⟩
  | evalAdd a b iha ihb =>
    rintro ⟨ha, hb⟩
    obtain ⟨x, ex, hx⟩ := iha ha
    obtain ⟨y, ey, hy⟩ := ihb hb
    obtain ⟨r, er, hr⟩ := NttRep.add E hx hy
    exact ⟨r, by rw [PolyExpr.run, mbind ex, mbind ey]; exact er, hr⟩
  | evalSub a b iha ihb =>
    rintro ⟨ha, hb⟩
    obtain ⟨x, ex, hx⟩ := iha ha
    obtain ⟨y, ey, hy⟩ := ihb hb
    obtain ⟨r, er, hr⟩ := NttRep.subAssign E hx hy
    exact ⟨r, by rw [PolyExpr.run, mbind ex, mbind ey]; exact er, hr⟩
  | evalNeg a iha =>
    intro ha
    obtain ⟨x, ex, hx⟩ := iha ha
    obtain ⟨r, er, hr⟩ := Vals.neg E.C hx
    exact ⟨r, by rw [PolyExpr.run, mbind ex]; exact er, hr.congr fun i _ => (Rq.evalAt_neg _ _ _).symm⟩
  | evalScale a c iha =>
    rintro ⟨ha, hc⟩
    obtain ⟨x, ex, hx⟩ := iha ha
    obtain ⟨r, er, hr⟩ := scale_vals E hc hx
    exact ⟨r, by rw [PolyExpr.run, mbind ex]; exact er, hr.congr fun i _ => by
      rw [PolyExpr.value, Rq.evalAt_mul _ (E.pt_pow i), Rq.evalAt_const, mul_comm]; rfl⟩
  | evalMul a b iha ihb =>
    rintro ⟨ha, hb⟩
    obtain ⟨x, ex, hx⟩ := iha ha
    obtain ⟨y, ey, hy⟩ := ihb hb
    obtain ⟨r, er, hr⟩ := NttRep.mul E hx hy
    exact ⟨r, by rw [PolyExpr.run, mbind ex, mbind ey, er], hr⟩
  | evalMulCoeff a b iha ihb =>
    rintro ⟨ha, hb⟩
    obtain ⟨x, ex, hx⟩ := iha ha
    obtain ⟨y, ey, hy⟩ := ihb hb
    obtain ⟨v, ev, hv⟩ := E.toNtt hy
    obtain ⟨r, er, hr⟩ := NttRep.mul E hx hv
    refine ⟨r, ?_, hr⟩
    rw [PolyExpr.run, mbind ex, mbind ey, EvalForm.mulNative,
      if_pos (show x.length = y.length from hx.len.trans hy.len.symm), mbind ev, er]
  | evalAddMul a b c iha ihb ihc =>
    rintro ⟨ha, hb, hc⟩
    obtain ⟨x, ex, hx⟩ := iha ha
    obtain ⟨y, ey, hy⟩ := ihb hb
    obtain ⟨z, ez, hz⟩ := ihc hc
    obtain ⟨r, er, hr⟩ := NttRep.addMul E hx hy hz
    exact ⟨r, by rw [PolyExpr.run, mbind ex, mbind ey, mbind ez, er], hr⟩
  | toEval a iha =>
    intro ha
    obtain ⟨x, ex, hx⟩ := iha ha
    obtain ⟨r, er, hr⟩ := E.toNtt hx
    exact ⟨r, by rw [PolyExpr.run, mbind ex, er], hr⟩
  | start a iha =>
    intro ha
    obtain ⟨x, ex, hx⟩ := iha ha
    exact ⟨x, ex, NttRep.lazy hx⟩
  | accumulate a b c iha ihb ihc =>
    rintro ⟨ha, hb, hc⟩
    obtain ⟨x, ex, hx⟩ := iha ha
    obtain ⟨y, ey, hy⟩ := ihb hb
    obtain ⟨z, ez, hz⟩ := ihc hc
    obtain ⟨r, er, hr⟩ := NttRep.addMulFast E hx hy hz
    exact ⟨r, by rw [PolyExpr.run, mbind ex, mbind ey, mbind ez, er], hr⟩

end

section
variable {R : Ctx} {q : Nat} [Fact q.Prime] {k : Nat} (hk : 0 < k) (F : TableField R.w q R.M R.tbl k)
include hk F

/-- C85: every expression over polynomials with reduced literals, however it mixes the representations,
runs without panic; its words are below the bound of its representation. A result in coefficient form
has the coefficients of the ring element that the expression denotes; a result in transform form,
reduced or not, is converted to these coefficients. -/
theorem C85_run {f : Form} (e : PolyExpr f) (he : e.Ok q (2 ^ k)) :
    ∃ l, e.run R (2 ^ k) = some l ∧ Reduced (f.bound q) (2 ^ k) l ∧
      ∃ p, (match f with | .coeff => some l | _ => Poly.ofNtt R.w R.M R.tbl l) = some p ∧
        Reduced q (2 ^ k) p ∧ Rq.ofWords q (2 ^ k) p = e.value q (2 ^ k) := by
  obtain ⟨t, rfl, E⟩ := F.env hk
  obtain ⟨l, el, hl⟩ := program_holds E F e he
  refine ⟨l, el, ?_⟩
  cases f with
  | coeff =>
    obtain ⟨h1, h2⟩ := rep_iff.1 hl
    exact ⟨h1, l, rfl, h1, h2⟩
  | eval =>
    obtain ⟨p, ep, hp⟩ := E.ofNtt (NttRep.lazy hl)
    obtain ⟨h1, h2⟩ := rep_iff.1 hp
    exact ⟨⟨Vals.len hl, Vals.lt hl⟩, p, ep, h1, h2⟩
  | lazy =>
    obtain ⟨p, ep, hp⟩ := E.ofNtt hl
    obtain ⟨h1, h2⟩ := rep_iff.1 hp
    exact ⟨⟨Vals.len hl, Vals.lt hl⟩, p, ep, h1, h2⟩

/-- C85: two expressions in coefficient form return the same words exactly if they denote the same ring
element, and the same holds for two expressions in transform form. Every algebraic law of the ring is
therefore a law of the code. -/
theorem C85_equal (d e : PolyExpr .coeff) (hd : d.Ok q (2 ^ k)) (he : e.Ok q (2 ^ k))
    (d' e' : PolyExpr .eval) (hd' : d'.Ok q (2 ^ k)) (he' : e'.Ok q (2 ^ k)) :
    (d.run R (2 ^ k) = e.run R (2 ^ k) ↔ d.value q (2 ^ k) = e.value q (2 ^ k)) ∧
    (d'.run R (2 ^ k) = e'.run R (2 ^ k) ↔ d'.value q (2 ^ k) = e'.value q (2 ^ k)) := by
  obtain ⟨t, rfl, E⟩ := F.env hk
  obtain ⟨l, el, hl⟩ := program_holds E F d hd
  obtain ⟨m, em, hm⟩ := program_holds E F e he
  obtain ⟨l', el', hl'⟩ := program_holds E F d' hd'
  obtain ⟨m', em', hm'⟩ := program_holds E F e' he'
  rw [el, em, el', em']
  refine ⟨⟨fun h => ?_, fun h => ?_⟩, fun h => ?_, fun h => ?_⟩
  · obtain rfl := Option.some.inj h
    exact Rep.unique hl hm
  · rw [h] at hl
    exact congrArg some (Vals.ext hl hm)
  · obtain rfl := Option.some.inj h
    obtain ⟨p, ep, hp⟩ := E.ofNtt (NttRep.lazy hl')
    obtain ⟨r, er, hr⟩ := E.ofNtt (NttRep.lazy hm')
    obtain rfl := Option.some.inj (ep.symm.trans er)
    exact Rep.unique hp hr
  · rw [h] at hl'
    exact congrArg some (Vals.ext hl' hm')

end

/-- A program in the ring of the table of size 4 over the field of 17 elements that uses all forms. -/
def prog17 : PolyExpr .coeff :=
  .finish (.accumulate (.start (.evalSub (.toEval (.lit [1, 2, 3, 4])) (.toEval (.lit [0, 5, 0, 16]))))
    (.toEval (.lit [0, 1, 0, 0])) (.evalMulCoeff (.toEval (.lit [3, 0, 0, 2])) (.neg (.lit [1, 1, 1, 1]))))

example : prog17.Ok 17 (2 ^ 2) := by
  have h : ∀ l : List Nat, l.length = 4 → (∀ x ∈ l, x < 17) → Reduced 17 (2 ^ 2) l := fun l h1 h2 => ⟨h1, h2⟩
  refine ⟨⟨h _ rfl (by decide), h _ rfl (by decide)⟩, h _ rfl (by decide), h _ rfl (by decide), h _ rfl (by decide)⟩

-- (1 + 2X + 3X² + 4X³) - (5X + 16X³) + X (3 + 2X³) (-(1 + X + X² + X³)) = 6 - 4X + 2X² - 13X³
example : prog17.run ⟨8, barrett17, tbl17⟩ (2 ^ 2) = some [6, 13, 2, 4] := by
  have hv : prog17.value 17 (2 ^ 2) = Rq.ofWords 17 (2 ^ 2) [6, 13, 2, 4] := by
    have : ∀ i, (prog17.value 17 (2 ^ 2)).co i = (Rq.ofWords 17 (2 ^ 2) [6, 13, 2, 4]).co i := by decide +kernel
    exact Rq.ext this
  have : Fact (Nat.Prime 17) := ⟨by norm_num⟩
  have h : ∀ l : List Nat, l.length = 4 → (∀ x ∈ l, x < 17) → Reduced 17 (2 ^ 2) l := fun l h1 h2 => ⟨h1, h2⟩
  exact ((C85_equal (R := ⟨8, barrett17, tbl17⟩) (k := 2) (by omega) tbl17_field prog17 (.lit [6, 13, 2, 4])
    ⟨⟨h _ rfl (by decide), h _ rfl (by decide)⟩, h _ rfl (by decide), h _ rfl (by decide), h _ rfl (by decide)⟩
    (h _ rfl (by decide)) .evalZero .evalZero trivial trivial).1).2 hv

/-- C85: an instance of the laws: distributing a product over a sum changes no word. -/
example (R : Ctx) (q : Nat) [Fact q.Prime] (k : Nat) (hk : 0 < k) (F : TableField R.w q R.M R.tbl k)
    (a b c : List Nat) (ha : Reduced q (2 ^ k) a) (hb : Reduced q (2 ^ k) b) (hc : Reduced q (2 ^ k) c) :
    (PolyExpr.mul (.lit a) (.add (.lit b) (.lit c))).run R (2 ^ k) =
      (PolyExpr.finish (.accumulate (.start (.evalMul (.toEval (.lit a)) (.toEval (.lit b))))
        (.toEval (.lit c)) (.toEval (.lit a)))).run R (2 ^ k) := by
  have h2 : Nontrivial (ZMod q) := ZMod.nontrivial_iff.2 (Nat.Prime.one_lt Fact.out).ne'
  refine ((C85_equal hk F (.mul (.lit a) (.add (.lit b) (.lit c)))
    (.finish (.accumulate (.start (.evalMul (.toEval (.lit a)) (.toEval (.lit b)))) (.toEval (.lit c)) (.toEval (.lit a))))
    ⟨ha, hb, hc⟩ ⟨⟨ha, hb⟩, hc, ha⟩ .evalZero .evalZero trivial trivial).1).2 ?_
  simp only [PolyExpr.value]
  ring

end Verif.Props
