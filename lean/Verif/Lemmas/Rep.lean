import Verif.Model.RGSW
import Verif.Lemmas.Ring
import Verif.Props.Poly

/-! # Word lists as ring elements, in coefficient and in transform form -/

namespace Verif
open Fp Finset Spec Ntt Props

/-- `l` has `n` entries below `B` with values `v`. -/
structure Vals (q n B : Nat) (l : List Nat) (v : Nat → ZMod q) : Prop where
  len : l.length = n
  lt : ∀ x ∈ l, x < B
  val : ∀ i, i < n → ((l.getD i 0 : Nat) : ZMod q) = v i

namespace Vals
variable {q n B B' : Nat} {l m : List Nat} {u v x : Nat → ZMod q}

theorem congr (h : Vals q n B l u) (e : ∀ i, i < n → u i = v i) : Vals q n B l v :=
  ⟨h.len, h.lt, fun i hi => (h.val i hi).trans (e i hi)⟩

theorem mono (h : Vals q n B l u) (hB : B ≤ B') : Vals q n B' l u :=
  ⟨h.len, fun x hx => lt_of_lt_of_le (h.lt x hx) hB, h.val⟩

theorem getD_lt (h : Vals q n B l u) {i : Nat} (hi : i < n) : l.getD i 0 < B :=
  h.lt _ (getD_mem _ (by rw [h.len]; exact hi))

theorem of_getD (hl : l.length = n) (h : ∀ i, i < n → l.getD i 0 < B ∧ ((l.getD i 0 : Nat) : ZMod q) = u i) :
    Vals q n B l u :=
  ⟨hl, mem_of_getD hl fun i hi => (h i hi).1, fun i hi => (h i hi).2⟩

theorem ext (h : Vals q n q l u) (h' : Vals q n q m u) : l = m :=
  list_ext_of_cast h.len h'.len (fun _ hi => h.getD_lt hi) (fun _ hi => h'.getD_lt hi)
    (fun i hi => (h.val i hi).trans (h'.val i hi).symm)

theorem zip (h : Vals q n B l u) (h' : Vals q n B' m v) {C : Nat} {f : Nat → Nat → Option Nat}
    {g : ZMod q → ZMod q → ZMod q}
    (hf : ∀ x y, x < B → y < B' → ∃ r, f x y = some r ∧ r < C ∧ (r : ZMod q) = g x y) :
    ∃ r, Poly.zipAssign f l m = some r ∧ Vals q n C r (fun i => g (u i) (v i)) := by
  obtain ⟨r, e, lr, hr⟩ := zipAssign_spec (R := fun x y r => r < C ∧ (r : ZMod q) = g x y) hf l m
    (by rw [h.len, h'.len]) h.lt h'.lt
  refine ⟨r, e, of_getD (by rw [lr, h.len]) fun i hi => ?_⟩
  obtain ⟨h1, h2⟩ := hr i (by rw [h.len]; exact hi)
  exact ⟨h1, by rw [h2, h.val i hi, h'.val i hi]⟩

theorem map (h : Vals q n B l u) {C : Nat} {f : Nat → Option Nat} {g : ZMod q → ZMod q}
    (hf : ∀ x, x < B → ∃ r, f x = some r ∧ r < C ∧ (r : ZMod q) = g x) :
    ∃ r, l.mapM f = some r ∧ Vals q n C r (fun i => g (u i)) := by
  obtain ⟨r, e, lr, hr⟩ := mapM_spec (R := fun x r => r < C ∧ (r : ZMod q) = g x) hf l h.lt
  refine ⟨r, e, of_getD (by rw [lr, h.len]) fun i hi => ?_⟩
  obtain ⟨h1, h2⟩ := hr i (by rw [h.len]; exact hi)
  exact ⟨h1, by rw [h2, h.val i hi]⟩

theorem zero (hB : 0 < B) : Vals q n B (Poly.zero n) (fun _ => 0) := by
  refine of_getD (by simp [Poly.zero]) fun i hi => ?_
  rw [Poly.zero, List.getD_eq_getElem _ _ (by simpa using hi)]
  simp [Fp.zero, hB]

end Vals

section Field
variable {w : Nat} {M : Barrett} (C : Config w M.value M) {n : Nat} {l m p : List Nat}
  {u v x : Nat → ZMod M.value}
include C

theorem _root_.Verif.Fp.Config.ops {a b c : Nat} (ha : a < M.value) (hb : b < M.value)
    (hc : c < M.value) :
    (Fp.zero < M.value ∧ (Fp.zero : ZMod M.value) = 0) ∧
    (Fp.one < M.value ∧ (Fp.one : ZMod M.value) = 1) ∧
    (∃ r, Fp.negOne M = some r ∧ r < M.value ∧ (r : ZMod M.value) = -1) ∧
    (∃ r, Fp.add w M a b = some r ∧ r < M.value ∧ (r : ZMod M.value) = (a : ZMod M.value) + b) ∧
    (∃ r, Fp.sub w M a b = some r ∧ r < M.value ∧ (r : ZMod M.value) = (a : ZMod M.value) - b) ∧
    (∃ r, Fp.subAssign w M a b = some r ∧ r < M.value ∧
      (r : ZMod M.value) = (a : ZMod M.value) - b) ∧
    (∃ r, Fp.neg M a = some r ∧ r < M.value ∧ (r : ZMod M.value) = -(a : ZMod M.value)) ∧
    (∃ r, Fp.mul w M a b = some r ∧ r < M.value ∧ (r : ZMod M.value) = (a : ZMod M.value) * b) ∧
    (∃ r, Fp.pow w M a 0 = some r ∧ r < M.value ∧ (r : ZMod M.value) = (a : ZMod M.value) ^ 0) ∧
    (∃ r, Fp.addMul w M c a b = some r ∧ r < M.value ∧
      (r : ZMod M.value) = (c : ZMod M.value) + a * b) :=
  C49_field_ops w M.value C.even M C.conf a b c 0 ha hb hc (by positivity)

theorem Vals.add (h : Vals M.value n M.value l u) (h' : Vals M.value n M.value m v) :
    ∃ r, Poly.add w M l m = some r ∧ Vals M.value n M.value r (fun i => u i + v i) := by
  obtain ⟨r, e, hr⟩ := h.zip h' (C := M.value) (g := (· + ·))
    fun x y hx hy => (C.ops hx hy hx).2.2.2.1
  exact ⟨r, by unfold Poly.add; rw [if_pos (by rw [h.len, h'.len]), e], hr⟩

theorem Vals.subAssign (h : Vals M.value n M.value l u) (h' : Vals M.value n M.value m v) :
    ∃ r, Poly.subAssign w M l m = some r ∧ Vals M.value n M.value r (fun i => u i - v i) := by
  obtain ⟨r, e, hr⟩ := h.zip h' (C := M.value) (g := (· - ·))
    fun x y hx hy => (C.ops hx hy hx).2.2.2.2.2.1
  exact ⟨r, by unfold Poly.subAssign; rw [if_pos (by rw [h.len, h'.len]), e], hr⟩

theorem Vals.sub (h : Vals M.value n M.value l u) (h' : Vals M.value n M.value m v) :
    ∃ r, Poly.sub w M l m = some r ∧ Vals M.value n M.value r (fun i => u i - v i) := by
  obtain ⟨r, e, hr⟩ := h.zip h' (C := M.value) (g := (· - ·))
    fun x y hx hy => (C.ops hx hy hx).2.2.2.2.1
  exact ⟨r, by unfold Poly.sub; rw [if_pos (by rw [h.len, h'.len]), e], hr⟩

theorem Vals.neg (h : Vals M.value n M.value l u) :
    ∃ r, l.mapM (Fp.neg M) = some r ∧ Vals M.value n M.value r (fun i => -u i) :=
  h.map (g := (- ·)) fun _ hx => (C.ops hx hx hx).2.2.2.2.2.2.1

theorem Vals.addConst (h : Vals M.value n M.value l u) {c : Nat} (hc : c < M.value) :
    ∃ r, (l.mapM fun z => Fp.add w M z c) = some r ∧
      Vals M.value n M.value r (fun i => u i + (c : ZMod M.value)) :=
  h.map (g := (· + (c : ZMod M.value))) fun _ hx => (C.ops hx hc hx).2.2.2.1

theorem Vals.nttMul (h : Vals M.value n M.value l u) (h' : Vals M.value n M.value m v) :
    ∃ r, Poly.nttMul w M l m = some r ∧ Vals M.value n M.value r (fun i => u i * v i) := by
  obtain ⟨r, e, hr⟩ := h.zip h' (C := M.value) (g := (· * ·))
    fun x y hx hy => (C.ops hx hy hx).2.2.2.2.2.2.2.1
  exact ⟨r, by unfold Poly.nttMul; rw [if_pos (by rw [h.len, h'.len]), e], hr⟩

theorem Vals.nttAddMul (h : Vals M.value n M.value l u) (h' : Vals M.value n M.value m v)
    (h'' : Vals M.value n M.value p x) :
    ∃ r, Poly.nttAddMul w M l m p = some r ∧
      Vals M.value n M.value r (fun i => u i + v i * x i) := by
  obtain ⟨r, e, lr, hr⟩ := fmaAssign_spec (f := Fp.addMul w M) (P := (· < M.value))
    (Q := (· < M.value)) (S := (· < M.value))
    (R := fun x y z r => r < M.value ∧ (r : ZMod M.value) = (x : ZMod M.value) + y * z)
    (fun x y z hx hy hz => (C.ops hy hz hx).2.2.2.2.2.2.2.2.2)
    l m p (by rw [h.len, h'.len]) (by rw [h.len, h''.len]) h.lt h'.lt h''.lt
  refine ⟨r, e, of_getD (by rw [lr, h.len]) fun i hi => ?_⟩
  obtain ⟨h1, h2⟩ := hr i (by rw [h.len]; exact hi)
  exact ⟨h1, by rw [h2, h.val i hi, h'.val i hi, h''.val i hi]⟩

theorem Vals.nttAddMulFast (h : Vals M.value n (2 * M.value) l u) (h' : Vals M.value n M.value m v)
    (h'' : Vals M.value n M.value p x) :
    ∃ r, Poly.nttAddMulFast w M l m p = some r ∧
      Vals M.value n (2 * M.value) r (fun i => u i + v i * x i) := by
  have h4 := C.four_mul_lt
  obtain ⟨r, e, lr, hr⟩ := fmaAssign_spec (f := Fp.addMulFast w M) (P := (· < 2 * M.value))
    (Q := (· < M.value)) (S := (· < M.value))
    (R := fun x y z r => r < 2 * M.value ∧ (r : ZMod M.value) = (x : ZMod M.value) + y * z)
    (fun x y z hx hy hz => by
      obtain ⟨r, e, hr, hm⟩ := (C49_fast_ops w M.value C.even M C.conf y z x (by omega) (by omega)
        (by omega)).2
      refine ⟨r, e, hr, ?_⟩
      rw [← Nat.cast_mul, ← Nat.cast_add, ZMod.natCast_eq_natCast_iff']
      exact hm)
    l m p (by rw [h.len, h'.len]) (by rw [h.len, h''.len]) h.lt h'.lt h''.lt
  refine ⟨r, e, of_getD (by rw [lr, h.len]) fun i hi => ?_⟩
  obtain ⟨h1, h2⟩ := hr i (by rw [h.len]; exact hi)
  exact ⟨h1, by rw [h2, h.val i hi, h'.val i hi, h''.val i hi]⟩

end Field

/-! ## The two forms of a ring element -/

/-- `l` is the canonical coefficient list of `p`. -/
def Rep (q n : Nat) (l : List Nat) (p : Rq (ZMod q) n) : Prop := Vals q n q l p.seq

theorem rep_iff {q n : Nat} {l : List Nat} {p : Rq (ZMod q) n} :
    Rep q n l p ↔ Reduced q n l ∧ Rq.ofWords q n l = p := by
  constructor
  · intro h
    refine ⟨⟨h.len, h.lt⟩, ?_⟩
    ext i
    exact (h.val i.val i.isLt).trans (Rq.seq_val p i)
  · rintro ⟨h, rfl⟩
    exact ⟨h.1, h.2, fun i hi => by rw [Rq.seq_lt _ hi]; rfl⟩

theorem Rep.co {q n : Nat} {l : List Nat} {p : Rq (ZMod q) n} (h : Rep q n l p) (i : Fin n) :
    ((l.getD i.val 0 : Nat) : ZMod q) = p.co i := by
  rw [h.val i.val i.isLt, Rq.seq_val]

theorem rep_of {q n : Nat} {l : List Nat} {u : Nat → ZMod q} {p : Rq (ZMod q) n}
    (h : Vals q n q l u) (e : ∀ i : Fin n, u i.val = p.co i) : Rep q n l p :=
  h.congr fun i hi => by rw [Rq.seq_lt _ hi]; exact e ⟨i, hi⟩

theorem rep_exists {q n : Nat} {l : List Nat} (h : Reduced q n l) :
    Rep q n l (Rq.ofWords q n l) := rep_iff.2 ⟨h, rfl⟩

/-- The setting of the proofs about transform-based operations. -/
structure Env (R : Ctx) (k : Nat) (t : Table) : Prop where
  C : Config R.w R.M.value R.M
  T : ∃ pt, Evaluates R.w R.M t pt k
  tb : R.tbl k = some t
  pos : 0 < k

open Classical in
/-- The evaluation point of entry `c`. -/
noncomputable def pt (R : Ctx) (k : Nat) (t : Table) (c : Nat) : ZMod R.M.value :=
  if h : ∃ pt, Evaluates R.w R.M t pt k then h.choose c else 0

/-- `l` holds the values of `p` at the `n` roots of `X^n + 1`, entries below `B`. -/
def NttRep (R : Ctx) (k : Nat) (t : Table) (B : Nat) (l : List Nat)
    (p : Rq (ZMod R.M.value) (2 ^ k)) : Prop :=
  Vals R.M.value (2 ^ k) B l (fun c => p.evalAt (RingHom.id _) (pt R k t c))

namespace Env
variable {R : Ctx} {k : Nat} {t : Table} (E : Env R k t)
include E

theorem ev : Evaluates R.w R.M t (pt R k t) k := by
  have h : pt R k t = E.T.choose := funext fun c => dif_pos E.T
  rw [h]
  exact E.T.choose_spec

theorem pt_pow (c : Nat) : pt R k t c ^ 2 ^ k = -1 := E.ev.pow c

theorem q_pos : 0 < R.M.value := by have := E.C.two_le; omega

theorem tableFor : Poly.tableFor R.tbl (2 ^ k) = some t :=
  tableFor_eq (by have := E.ev.k_lt; omega) E.tb

theorem toNtt {l : List Nat} {p : Rq (ZMod R.M.value) (2 ^ k)} (h : Rep R.M.value (2 ^ k) l p) :
    ∃ v, Poly.toNtt R.w R.M R.tbl l = some v ∧ NttRep R k t R.M.value v p := by
  obtain ⟨v, e, rv, hv⟩ := E.ev.fwd l ⟨h.len, h.lt⟩
  refine ⟨v, by unfold Poly.toNtt; rw [h.len, mbind E.tableFor, e], rv.1, rv.2, fun c hc => (hv c hc).trans ?_⟩
  unfold Rq.evalAt
  refine sum_congr rfl fun i hi => ?_
  unfold coeff
  rw [h.val i (mem_range.1 hi)]; rfl

theorem ofNtt {l : List Nat} {p : Rq (ZMod R.M.value) (2 ^ k)}
    (h : NttRep R k t (2 * R.M.value) l p) :
    ∃ v, Poly.ofNtt R.w R.M R.tbl l = some v ∧ Rep R.M.value (2 ^ k) v p := by
  obtain ⟨v, e, rv, hv⟩ := E.ev.inv_eq E.pos ⟨h.len, h.lt⟩ p.seq (fun c hc => h.val c hc)
  exact ⟨v, by unfold Poly.ofNtt; rw [h.len, mbind E.tableFor, e], rv.1, rv.2, hv⟩

/-- Every list of words below `2q` is the transform form of a ring element. -/
theorem exists_ntt {l : List Nat} (hl : l.length = 2 ^ k) (hB : ∀ x ∈ l, x < 2 * R.M.value) :
    ∃ p, NttRep R k t (2 * R.M.value) l p := by
  obtain ⟨out, _, -, hv⟩ := E.ev.inv E.pos l ⟨hl, hB⟩
  refine ⟨Rq.ofWords _ _ out, hl, hB, fun c hc => (hv c hc).trans ?_⟩
  unfold Rq.evalAt
  refine sum_congr rfl fun i hi => ?_
  rw [Rq.seq_lt _ (mem_range.1 hi)]; rfl

theorem exists_ntt' {l : List Nat} (h : Reduced R.M.value (2 ^ k) l) :
    ∃ p, NttRep R k t R.M.value l p := by
  obtain ⟨p, hp⟩ := E.exists_ntt h.1 (fun x hx => by have := h.2 x hx; omega)
  exact ⟨p, hp.len, h.2, hp.val⟩

end Env

section NttRep
variable {R : Ctx} {k : Nat} {t : Table} (E : Env R k t) {l m d : List Nat}
  {p r s : Rq (ZMod R.M.value) (2 ^ k)}

theorem NttRep.mono {B B' : Nat} (h : NttRep R k t B l p) (hB : B ≤ B') : NttRep R k t B' l p :=
  Vals.mono h hB

theorem NttRep.lazy (h : NttRep R k t R.M.value l p) : NttRep R k t (2 * R.M.value) l p :=
  Vals.mono h (by omega)

theorem NttRep.zero {B : Nat} (hB : 0 < B) : NttRep R k t B (Poly.zero (2 ^ k)) 0 :=
  (Vals.zero hB).congr fun _ _ => (Rq.evalAt_zero _ _).symm

include E

theorem NttRep.add (h : NttRep R k t R.M.value l p) (h' : NttRep R k t R.M.value m r) :
    ∃ o, Poly.add R.w R.M l m = some o ∧ NttRep R k t R.M.value o (p + r) := by
  obtain ⟨o, e, ho⟩ := Vals.add E.C h h'
  exact ⟨o, e, ho.congr fun i _ => (Rq.evalAt_add _ _ _ _).symm⟩

theorem NttRep.subAssign (h : NttRep R k t R.M.value l p) (h' : NttRep R k t R.M.value m r) :
    ∃ o, Poly.subAssign R.w R.M l m = some o ∧ NttRep R k t R.M.value o (p - r) := by
  obtain ⟨o, e, ho⟩ := Vals.subAssign E.C h h'
  exact ⟨o, e, ho.congr fun i _ => (Rq.evalAt_sub _ _ _ _).symm⟩

theorem NttRep.mul (h : NttRep R k t R.M.value l p) (h' : NttRep R k t R.M.value m r) :
    ∃ o, Poly.nttMul R.w R.M l m = some o ∧ NttRep R k t R.M.value o (p * r) := by
  obtain ⟨o, e, ho⟩ := Vals.nttMul E.C h h'
  exact ⟨o, e, ho.congr fun i _ => (Rq.evalAt_mul _ (E.pt_pow i) _ _).symm⟩

theorem NttRep.addMul (h : NttRep R k t R.M.value l p) (h' : NttRep R k t R.M.value m r)
    (h'' : NttRep R k t R.M.value d s) :
    ∃ o, Poly.nttAddMul R.w R.M l m d = some o ∧ NttRep R k t R.M.value o (p + r * s) := by
  obtain ⟨o, e, ho⟩ := Vals.nttAddMul E.C h h' h''
  refine ⟨o, e, ho.congr fun i _ => ?_⟩
  rw [Rq.evalAt_add, Rq.evalAt_mul _ (E.pt_pow i)]

theorem NttRep.addMulFast (h : NttRep R k t (2 * R.M.value) l p)
    (h' : NttRep R k t R.M.value m r) (h'' : NttRep R k t R.M.value d s) :
    ∃ o, Poly.nttAddMulFast R.w R.M l m d = some o ∧
      NttRep R k t (2 * R.M.value) o (p + r * s) := by
  obtain ⟨o, e, ho⟩ := Vals.nttAddMulFast E.C h h' h''
  refine ⟨o, e, ho.congr fun i _ => ?_⟩
  rw [Rq.evalAt_add, Rq.evalAt_mul _ (E.pt_pow i)]

theorem NttRep.addConst (h : NttRep R k t R.M.value l p) {c : Nat} (hc : c < R.M.value) :
    ∃ o, (l.mapM fun z => Fp.add R.w R.M z c) = some o ∧
      NttRep R k t R.M.value o (p + Rq.const (c : ZMod R.M.value)) := by
  obtain ⟨o, e, ho⟩ := Vals.addConst E.C h hc
  refine ⟨o, e, ho.congr fun i _ => ?_⟩
  rw [Rq.evalAt_add, Rq.evalAt_const]; rfl

theorem Rep.add (h : Rep R.M.value (2 ^ k) l p) (h' : Rep R.M.value (2 ^ k) m r) :
    ∃ o, Poly.add R.w R.M l m = some o ∧ Rep R.M.value (2 ^ k) o (p + r) := by
  obtain ⟨o, e, ho⟩ := Vals.add E.C h h'
  exact ⟨o, e, rep_of ho fun i => by simp⟩

theorem Rep.sub (h : Rep R.M.value (2 ^ k) l p) (h' : Rep R.M.value (2 ^ k) m r) :
    ∃ o, Poly.sub R.w R.M l m = some o ∧ Rep R.M.value (2 ^ k) o (p - r) := by
  obtain ⟨o, e, ho⟩ := Vals.sub E.C h h'
  exact ⟨o, e, rep_of ho fun i => by simp⟩

theorem Rep.subAssign (h : Rep R.M.value (2 ^ k) l p) (h' : Rep R.M.value (2 ^ k) m r) :
    ∃ o, Poly.subAssign R.w R.M l m = some o ∧ Rep R.M.value (2 ^ k) o (p - r) := by
  obtain ⟨o, e, ho⟩ := Vals.subAssign E.C h h'
  exact ⟨o, e, rep_of ho fun i => by simp⟩

theorem Rep.neg (h : Rep R.M.value (2 ^ k) l p) :
    ∃ o, Poly.neg R.M l = some o ∧ Rep R.M.value (2 ^ k) o (-p) := by
  obtain ⟨o, e, ho⟩ := Vals.neg E.C h
  exact ⟨o, e, rep_of ho fun i => by simp⟩

/-- `l[0] += c`. -/
theorem Rep.addHead (h : Rep R.M.value (2 ^ k) l p) {c : Nat} (hc : c < R.M.value) :
    ∃ o, NTTRLWE.addHead R l c = some o ∧
      Rep R.M.value (2 ^ k) o (p + Rq.const (c : ZMod R.M.value)) := by
  have hlen := h.len
  have hp := Nat.two_pow_pos k
  cases l with
  | nil => simp at hlen; omega
  | cons x l =>
    have hx := h.lt x (by simp)
    obtain ⟨r, e, hr, er⟩ := (E.C.ops hx hc hx).2.2.2.1
    refine ⟨r :: l, by unfold NTTRLWE.addHead; simp [e], Vals.of_getD (by simpa using hlen) fun i hi => ?_⟩
    rw [Rq.seq_lt _ hi]
    have hv := h.val i hi
    have hb := h.getD_lt hi
    rw [Rq.seq_lt _ hi] at hv
    cases i with
    | zero =>
      refine ⟨hr, ?_⟩
      simp only [List.getD_cons_zero, Rq.add_co, Rq.const] at hv ⊢
      rw [er, hv]; simp
    | succ i =>
      refine ⟨by simpa using hb, ?_⟩
      simp only [List.getD_cons_succ, Rq.add_co, Rq.const] at hv ⊢
      rw [hv]; simp

end NttRep
end Verif
