import Verif.SpecRLWE
import Verif.Lemmas.Rep
import Verif.Lemmas.RingMono
import Verif.Props.LWE

/-! # C34, C35: extraction of LWE samples, monomial multiplication -/

namespace Verif.Props
open Fp Finset Spec Ntt

theorem dot_eq_sum (q : Nat) : ∀ (a s : List Nat) (n : Nat), a.length = n → s.length = n →
    ((dot a s : Nat) : ZMod q) = ∑ i ∈ range n, coeff q a i * coeff q s i
  | [], [], n, h, _ => by subst h; simp [dot]
  | [], _ :: _, _, h, h' => by subst h; simp at h'
  | _ :: _, [], _, h, h' => by subst h; simp at h'
  | x :: a, y :: s, n, h, h' => by
    subst h
    rw [List.length_cons, sum_range_succ', dot]
    push_cast
    rw [dot_eq_sum q a s a.length rfl (by simpa using h'), add_comm]
    simp [coeff]

theorem lwePhase_eq {q n : Nat} {a s : List Nat} (ha : a.length = n) (hs : s.length = n) (b : Nat) :
    lwePhase q s a b = (b : ZMod q) - ∑ i ∈ range n, coeff q a i * coeff q s i := by
  unfold lwePhase; rw [dot_eq_sum q a s n ha hs]

theorem reverseTail_vals {q n B : Nat} {l : List Nat} {u : Nat → ZMod q} (h : Vals q n B l u)
    (hn : 0 < n) : ∃ x m, l = x :: m ∧ RLWE.reverseTail l = some (x :: m.reverse) ∧
      Vals q n B (x :: m.reverse) (fun i => if i = 0 then u 0 else u (n - i)) := by
  obtain ⟨hl, hB, hv⟩ := h
  cases l with
  | nil => simp at hl; omega
  | cons x m =>
    refine ⟨x, m, rfl, rfl, by simpa using hl, fun y hy => hB y (by simpa using hy), fun i hi => ?_⟩
    simp only [List.length_cons] at hl
    cases i with
    | zero => simpa using hv 0 hn
    | succ i =>
      have := hv (n - (i + 1)) (by omega)
      rw [if_neg (by omega), ← this, show n - (i + 1) = (m.length - 1 - i) + 1 by omega,
        List.getD_cons_succ, List.getD_cons_succ, List.getD_eq_getElem _ _ (by simp; omega),
        List.getD_eq_getElem _ _ (by omega), List.getElem_reverse]

theorem vals_cons {q n B : Nat} {x : Nat} {l : List Nat} {u : Nat → ZMod q}
    (hl : l.length + 1 = n) (h0 : x < B) (e0 : (x : ZMod q) = u 0)
    (h : Vals q l.length B l (fun i => u (i + 1))) : Vals q n B (x :: l) u := by
  subst hl
  refine ⟨rfl, ?_, ?_⟩
  · intro y hy
    rcases List.mem_cons.1 hy with rfl | hy
    · exact h0
    · exact h.lt y hy
  · intro i hi
    cases i with
    | zero => simpa using e0
    | succ i => simpa using h.val i (by omega)

theorem vals_tail {q n B : Nat} {x : Nat} {l : List Nat} {u : Nat → ZMod q}
    (h : Vals q n B (x :: l) u) : l.length + 1 = n ∧ x < B ∧ (x : ZMod q) = u 0 ∧
      Vals q l.length B l (fun i => u (i + 1)) := by
  obtain ⟨hl, hB, hv⟩ := h
  simp only [List.length_cons] at hl
  refine ⟨hl, hB x (by simp), by simpa using hv 0 (by omega), rfl, fun y hy => hB y (by simp [hy]),
    fun i hi => by simpa using hv (i + 1) (by omega)⟩

theorem vals_self {q n B : Nat} {l : List Nat} (h : Reduced B n l) : Vals q n B l (coeff q l) :=
  ⟨h.1, h.2, fun _ _ => rfl⟩

/-- The mask of an extracted sample. -/
def extractSeq {q : Nat} (n : Nat) (u : Nat → ZMod q) (i : Nat) : ZMod q :=
  if i = 0 then u 0 else -u (n - i)

section
variable {w : Nat} {M : Barrett} (C : Config w M.value M) (tbl : Nat → Option Table) {n : Nat}
  (hn : 0 < n) {x : RLWE} {u : Nat → ZMod M.value} (ha : Vals M.value n M.value x.a u)
  (hb : Reduced M.value n x.b)
include C hn ha hb

theorem extractLocally_spec : ∃ c, RLWE.extractLocally ⟨w, M, tbl⟩ x = some c ∧
    RLWE.extract ⟨w, M, tbl⟩ x = some c ∧
    Vals M.value n M.value c.a (extractSeq n u) ∧ c.b < M.value ∧ c.b = x.b.getD 0 0 := by
  obtain ⟨y, m, em, er, hr⟩ := reverseTail_vals ha hn
  obtain ⟨hl, hy, ey, hm⟩ := vals_tail hr
  obtain ⟨o, eo, ho⟩ := hm.neg C
  have hbl : x.b[0]? = some (x.b.getD 0 0) := by
    rw [List.getElem?_eq_getElem (by rw [hb.1]; exact hn), List.getD_eq_getElem _ _ (by rw [hb.1]; exact hn)]
  have hfin : Vals M.value n M.value (y :: o) (extractSeq n u) := by
    refine vals_cons (by rw [ho.len]; exact hl) hy (by rw [ey]; simp [extractSeq]) ?_
    rw [ho.len]
    exact ho.congr fun i _ => by simp [extractSeq]
  refine ⟨⟨y :: o, x.b.getD 0 0⟩, ?_, ?_, hfin, hb.2 _ (getD_mem _ (by rw [hb.1]; exact hn)), rfl⟩
  · unfold RLWE.extractLocally
    rw [mbind er]
    simp only [List.drop_one, List.tail_cons]
    rw [mbind eo, hbl]
    simp
  · obtain ⟨o1, e1, h1⟩ := ha.neg C
    obtain ⟨z, m', em', er', hr'⟩ := reverseTail_vals h1 hn
    obtain ⟨hl', hz, ez, hm'⟩ := vals_tail hr'
    obtain ⟨v, ev, hv, cv⟩ := (C.ops hz hz hz).2.2.2.2.2.2.1
    have : v :: m'.reverse = y :: o := Vals.ext (u := extractSeq n u)
      (vals_cons hl' hv (by rw [cv, ez]; simp [extractSeq])
        (hm'.congr fun i _ => by simp [extractSeq])) hfin
    unfold RLWE.extract
    rw [mbind e1, mbind er']
    simp only [List.getD_cons_zero]
    rw [mbind ev, hbl]
    simp [this]

end

theorem ofWords_seq (q n : Nat) (l : List Nat) {i : Nat} (hi : i < n) :
    (Rq.ofWords q n l).seq i = coeff q l i := by
  rw [Rq.seq_lt _ hi]; rfl

section C34
variable (w q : Nat) (hw : w % 2 = 0) (M : Barrett) (h : Fp.config w q = some M)
  (tbl : Nat → Option Table) (n : Nat) (hn : 0 < n) (x : RLWE) (ha : Reduced q n x.a)
  (hb : Reduced q n x.b) (s : List Nat) (hs : Reduced q n s)
include hw h ha hb hs

/-- C34: the two forms of extraction agree, and the phase of the sample under the coefficients of the
ring key is the constant coefficient of the ring phase. -/
theorem C34_extract : ∃ c, RLWE.extract ⟨w, M, tbl⟩ x = some c ∧
    RLWE.extractLocally ⟨w, M, tbl⟩ x = some c ∧ LWEReduced q n c ∧
    lwePhase q s c.a c.b = (rlwePhase (Rq.ofWords q n s) (Rq.ofWords q n x.a)
      (Rq.ofWords q n x.b)).co ⟨0, hn⟩ := by
  have C : Config w q M := ⟨hw, h⟩
  have hval := C.value
  subst hval
  obtain ⟨c, e1, e2, hc, cb, eb⟩ := extractLocally_spec C tbl hn (vals_self ha) hb
  refine ⟨c, e2, e1, ⟨⟨hc.len, hc.lt⟩, cb⟩, ?_⟩
  rw [lwePhase_eq hc.len hs.1, rlwePhase, Rq.sub_co, Rq.mul_co_zero, eb]
  congr 1
  refine sum_congr rfl fun j hj => ?_
  have hj := mem_range.1 hj
  rw [ofWords_seq _ _ _ hj, ofWords_seq _ _ _ hn]
  congr 1
  refine (hc.val j hj).trans ?_
  unfold extractSeq
  split
  · rfl
  · rw [ofWords_seq _ _ _ (by omega)]

/-- C34: the truncated form is right when the key vanishes beyond the dimension. -/
theorem C34_extract_truncated (dim : Nat) (hd : dim ≤ n)
    (hz : ∀ i, dim ≤ i → i < n → s.getD i 0 = 0) :
    ∃ c, RLWE.extractPartial ⟨w, M, tbl⟩ x dim = some c ∧ LWEReduced q dim c ∧
    lwePhase q (s.take dim) c.a c.b = (rlwePhase (Rq.ofWords q n s) (Rq.ofWords q n x.a)
      (Rq.ofWords q n x.b)).co ⟨0, hn⟩ := by
  obtain ⟨c, _, e, hc, hp⟩ := C34_extract w q hw M h tbl n hn x ha hb s hs
  refine ⟨⟨c.a.take dim, c.b⟩, ?_, ⟨⟨by simp [hc.1.1, hd], fun y hy => hc.1.2 y (List.mem_of_mem_take hy)⟩, hc.2⟩, ?_⟩
  · unfold RLWE.extractLocally at e
    unfold RLWE.extractPartial
    simp only [Option.bind_eq_bind, Option.bind_eq_some_iff, Option.pure_def, Option.some.injEq] at e ⊢
    obtain ⟨a, ea, t, et, b, eb, rfl⟩ := e
    exact ⟨a, ea, t, et, b, eb, rfl⟩
  · rw [← hp, lwePhase_eq (n := dim) (by simp [hc.1.1, hd]) (by simp [hs.1, hd]),
      lwePhase_eq hc.1.1 hs.1]
    congr 1
    obtain ⟨m, rfl⟩ : ∃ m, n = dim + m := ⟨n - dim, by omega⟩
    rw [sum_range_add, ← add_zero (∑ i ∈ range dim, coeff q (List.take dim c.a) i * _)]
    congr 1
    · refine sum_congr rfl fun i hi => ?_
      unfold coeff
      rw [getD_take _ _ (mem_range.1 hi), getD_take _ _ (mem_range.1 hi)]
    · symm
      refine sum_eq_zero fun i hi => ?_
      unfold coeff
      rw [hz (dim + i) (by omega) (by have := mem_range.1 hi; omega)]
      simp

/-- C34: the reversed form, which keeps the mask as it is, is right under the reversed key
`s_0, -s_{n-1}, ..., -s_1`; its truncated form when that key vanishes beyond the dimension. -/
theorem C34_extract_reverse (s' : List Nat) (hs' : s'.length = n)
    (hrev : ∀ i, i < n → coeff q s' i = if i = 0 then coeff q s 0 else -coeff q s (n - i)) :
    ∃ c, RLWE.extractReverse x = some c ∧ LWEReduced q n c ∧
    lwePhase q s' c.a c.b = (rlwePhase (Rq.ofWords q n s) (Rq.ofWords q n x.a)
      (Rq.ofWords q n x.b)).co ⟨0, hn⟩ ∧
    ∀ dim, dim ≤ n → (∀ i, dim ≤ i → i < n → s'.getD i 0 = 0) →
      ∃ c', RLWE.extractPartialReverse x dim = some c' ∧ LWEReduced q dim c' ∧
        lwePhase q (s'.take dim) c'.a c'.b = lwePhase q s' c.a c.b := by
  have C : Config w q M := ⟨hw, h⟩
  have : Nontrivial (ZMod q) := ZMod.nontrivial_iff.2 (by have := C.two_le; omega)
  have : NeZero n := ⟨by omega⟩
  have hb0 : x.b[0]? = some (x.b.getD 0 0) := by
    rw [List.getElem?_eq_getElem (by rw [hb.1]; exact hn),
      List.getD_eq_getElem _ _ (by rw [hb.1]; exact hn)]
  have hlt : x.b.getD 0 0 < q := hb.2 _ (getD_mem _ (by rw [hb.1]; exact hn))
  refine ⟨⟨x.a, x.b.getD 0 0⟩, by unfold RLWE.extractReverse; rw [mbind hb0]; rfl, ⟨ha, hlt⟩, ?_, ?_⟩
  · rw [lwePhase_eq ha.1 hs', rlwePhase, Rq.sub_co, mul_comm, Rq.mul_co_zero]
    congr 1
    refine sum_congr rfl fun j hj => ?_
    have hj := mem_range.1 hj
    rw [ofWords_seq _ _ _ hj, ofWords_seq _ _ _ hn, mul_comm, hrev j hj]
    congr 1
    split
    · rfl
    · rw [ofWords_seq _ _ _ (by omega)]
  · intro dim hd hz
    refine ⟨⟨x.a.take dim, x.b.getD 0 0⟩, by unfold RLWE.extractPartialReverse; rw [mbind hb0]; rfl,
      ⟨⟨by simp [ha.1, hd], fun y hy => ha.2 y (List.mem_of_mem_take hy)⟩, hlt⟩, ?_⟩
    rw [lwePhase_eq (n := dim) (by simp [ha.1, hd]) (by simp [hs', hd]), lwePhase_eq ha.1 hs']
    congr 1
    obtain ⟨m, rfl⟩ : ∃ m, n = dim + m := ⟨n - dim, by omega⟩
    rw [sum_range_add, ← add_zero (∑ i ∈ range dim, coeff q (List.take dim _) i * _)]
    congr 1
    · refine sum_congr rfl fun i hi => ?_
      unfold coeff
      rw [getD_take _ _ (mem_range.1 hi), getD_take _ _ (mem_range.1 hi)]
    · symm
      refine sum_eq_zero fun i hi => ?_
      unfold coeff
      rw [hz (dim + i) (by omega) (by have := mem_range.1 hi; omega)]
      simp

end C34

-- non-vacuity: q = 17, n = 4
example : RLWE.extract ⟨8, barrett17, tbl17⟩ ⟨[1, 2, 3, 4], [9, 5, 6, 7]⟩ = some ⟨[1, 13, 14, 15], 9⟩ ∧
    RLWE.extractPartial ⟨8, barrett17, tbl17⟩ ⟨[1, 2, 3, 4], [9, 5, 6, 7]⟩ 2 = some ⟨[1, 13], 9⟩ ∧
    Reduced 17 4 [1, 2, 3, 4] := by
  refine ⟨by decide +kernel, by decide +kernel, rfl, by decide⟩

/-! ## Monomial multiplication -/

theorem vals_take {q n B r : Nat} {l : List Nat} {u : Nat → ZMod q} (h : Vals q n B l u)
    (hr : r ≤ n) : Vals q r B (l.take r) u :=
  ⟨by simp [h.len, hr], fun x hx => h.lt x (List.mem_of_mem_take hx),
    fun i hi => by rw [getD_take _ _ hi]; exact h.val i (by omega)⟩

theorem vals_drop {q n B s : Nat} {l : List Nat} {u : Nat → ZMod q} (h : Vals q n B l u) :
    Vals q (n - s) B (l.drop s) (fun i => u (s + i)) :=
  ⟨by simp [h.len], fun x hx => h.lt x (List.mem_of_mem_drop hx),
    fun i hi => by rw [getD_drop]; exact h.val _ (by omega)⟩

theorem vals_append {q a b B : Nat} {l m : List Nat} {u v : Nat → ZMod q} (h : Vals q a B l u)
    (h' : Vals q b B m v) : Vals q (a + b) B (l ++ m) (fun i => if i < a then u i else v (i - a)) := by
  refine ⟨by simp [h.len, h'.len], ?_, ?_⟩
  · intro x hx
    rcases List.mem_append.1 hx with hx | hx
    · exact h.lt x hx
    · exact h'.lt x hx
  · intro i hi
    by_cases hia : i < a
    · rw [if_pos hia, List.getD_append _ _ _ _ (by rw [h.len]; exact hia)]
      exact h.val i hia
    · rw [if_neg hia, List.getD_append_right _ _ _ _ (by rw [h.len]; omega), h.len]
      exact h'.val _ (by omega)

theorem rotate_vals {q n B r s : Nat} (hrs : r + s = n) {x y : List Nat} {u v : Nat → ZMod q}
    (hx : Vals q n B x u) (hy : Vals q n B y v) {f g : Nat → Nat → Option Nat}
    {F G : ZMod q → ZMod q → ZMod q}
    (hf : ∀ a b, a < B → b < B → ∃ o, f a b = some o ∧ o < B ∧ (o : ZMod q) = F a b)
    (hg : ∀ a b, a < B → b < B → ∃ o, g a b = some o ∧ o < B ∧ (o : ZMod q) = G a b) :
    ∃ o, RLWE.rotate f g x y r s = some o ∧
      Vals q n B o (fun i => if i < r then F (u i) (v (s + i)) else G (u i) (v (i - r))) := by
  have hy' : Vals q r B (y.drop s) (fun i => v (s + i)) := by
    have := vals_drop (s := s) hy
    rwa [show n - s = r by omega] at this
  have hx' : Vals q s B (x.drop r) (fun i => u (r + i)) := by
    have := vals_drop (s := r) hx
    rwa [show n - r = s by omega] at this
  obtain ⟨lo, e1, h1⟩ := (vals_take hx (by omega)).zip hy' hf
  obtain ⟨hi, e2, h2⟩ := hx'.zip (vals_take hy (show s ≤ n by omega)) hg
  refine ⟨lo ++ hi, ?_, ?_⟩
  · unfold RLWE.rotate
    rw [if_pos ⟨by rw [hx.len]; omega, by rw [hy.len]; omega⟩, mbind e1, mbind e2]; rfl
  · have := vals_append h1 h2
    rw [hrs] at this
    refine this.congr fun i hi => ?_
    by_cases hir : i < r
    · rw [if_pos hir, if_pos hir]
    · rw [if_neg hir, if_neg hir, show r + (i - r) = i by omega]

section
variable {w : Nat} {M : Barrett} (C : Config w M.value M) (tbl : Nat → Option Table) {n : Nat}
  [NeZero n] {x y : List Nat} {p v : Rq (ZMod M.value) n}
include C

omit [NeZero n] in
theorem nontrivial_of : Nontrivial (ZMod M.value) :=
  ZMod.nontrivial_iff.2 (by have := C.two_le; omega)

omit [NeZero n] in
theorem fact_of : Fact (1 < M.value) := ⟨by have := C.two_le; omega⟩

theorem rotateSub_spec {r : Nat} (hr : r ≤ n) (hx : Reduced M.value n x) (hy : Rep M.value n y p) :
    (∃ o, RLWE.rotateSub ⟨w, M, tbl⟩ x y r (n - r) = some o ∧
      Rep M.value n o ((Rq.mono r - 1) * p)) ∧
    (∃ o, RLWE.rotateSub' ⟨w, M, tbl⟩ x y r (n - r) = some o ∧
      Rep M.value n o ((Rq.mono (n + r) - 1) * p)) := by
  have := nontrivial_of C
  constructor
  · obtain ⟨o, e, ho⟩ := rotate_vals (show r + (n - r) = n by omega) (vals_self hx) hy
      (f := fun _ v => Fp.neg M v) (g := fun _ v => some v) (F := fun _ v => -v) (G := fun _ v => v)
      (fun a b _ hb => (C.ops hb hb hb).2.2.2.2.2.2.1) (fun a b _ hb => ⟨b, rfl, hb, rfl⟩)
    obtain ⟨o', e', ho'⟩ := ho.subAssign C hy
    refine ⟨o', by unfold RLWE.rotateSub; rw [mbind e, e'], ho'.congr fun i hi => ?_⟩
    rw [Rq.seq_lt ((Rq.mono r - 1) * p) hi, sub_mul, one_mul, Rq.sub_co, ← Rq.seq_lt _ hi,
      ← Rq.seq_lt _ hi, Rq.mono_mul_seq hr p hi]
  · obtain ⟨o, e, ho⟩ := rotate_vals (show r + (n - r) = n by omega) (vals_self hx) hy
      (g := fun _ v => Fp.neg M v) (f := fun _ v => some v) (G := fun _ v => -v) (F := fun _ v => v)
      (fun a b _ hb => ⟨b, rfl, hb, rfl⟩) (fun a b _ hb => (C.ops hb hb hb).2.2.2.2.2.2.1)
    obtain ⟨o', e', ho'⟩ := ho.subAssign C hy
    refine ⟨o', by unfold RLWE.rotateSub'; rw [mbind e, e'], ho'.congr fun i hi => ?_⟩
    rw [Rq.mono_add, Rq.mono_n, Rq.seq_lt ((-1 * Rq.mono r - 1) * p) hi, sub_mul, one_mul,
      Rq.sub_co, neg_one_mul, neg_mul, Rq.neg_co, ← Rq.seq_lt _ hi, ← Rq.seq_lt _ hi,
      Rq.mono_mul_seq hr p hi]
    split <;> simp

theorem rotateAdd_spec {r : Nat} (hr : r ≤ n) (hx : Rep M.value n x v) (hy : Rep M.value n y p) :
    (∃ o, RLWE.rotateAdd ⟨w, M, tbl⟩ x y r (n - r) = some o ∧
      Rep M.value n o (v + Rq.mono r * p)) ∧
    (∃ o, RLWE.rotateAdd' ⟨w, M, tbl⟩ x y r (n - r) = some o ∧
      Rep M.value n o (v + Rq.mono (n + r) * p)) := by
  have := nontrivial_of C
  constructor
  · obtain ⟨o, e, ho⟩ := rotate_vals (show r + (n - r) = n by omega) hx hy
      (f := Fp.subAssign w M) (g := Fp.add w M) (F := (· - ·)) (G := (· + ·))
      (fun a b ha hb => (C.ops ha hb hb).2.2.2.2.2.1) (fun a b ha hb => (C.ops ha hb hb).2.2.2.1)
    refine ⟨o, e, ho.congr fun i hi => ?_⟩
    rw [Rq.seq_lt (v + _) hi, Rq.add_co, ← Rq.seq_lt _ hi, ← Rq.seq_lt _ hi, Rq.mono_mul_seq hr p hi]
    split <;> simp [sub_eq_add_neg]
  · obtain ⟨o, e, ho⟩ := rotate_vals (show r + (n - r) = n by omega) hx hy
      (f := Fp.add w M) (g := Fp.subAssign w M) (F := (· + ·)) (G := (· - ·))
      (fun a b ha hb => (C.ops ha hb hb).2.2.2.1) (fun a b ha hb => (C.ops ha hb hb).2.2.2.2.2.1)
    refine ⟨o, e, ho.congr fun i hi => ?_⟩
    rw [Rq.mono_add, Rq.mono_n, Rq.seq_lt (v + _) hi, Rq.add_co, neg_one_mul, neg_mul, Rq.neg_co,
      ← Rq.seq_lt _ hi, ← Rq.seq_lt _ hi, Rq.mono_mul_seq hr p hi]
    split <;> simp [sub_eq_add_neg]

theorem mulMonomialSubOne_spec {x dest : RLWE} {a b : Rq (ZMod M.value) n} {r : Nat}
    (hr : r ≤ 2 * n) (ha : Rep M.value n x.a a) (hb : Rep M.value n x.b b)
    (hda : Reduced M.value n dest.a) (hdb : Reduced M.value n dest.b) :
    ∃ o, RLWE.mulMonomialSubOne ⟨w, M, tbl⟩ x n r dest = some o ∧
      Rep M.value n o.a ((Rq.mono r - 1) * a) ∧ Rep M.value n o.b ((Rq.mono r - 1) * b) := by
  unfold RLWE.mulMonomialSubOne
  by_cases h : r ≤ n
  · obtain ⟨oa, ea, ha'⟩ := (rotateSub_spec C tbl h hda ha).1
    obtain ⟨ob, eb, hb'⟩ := (rotateSub_spec C tbl h hdb hb).1
    exact ⟨⟨oa, ob⟩, by rw [if_pos h, mbind ea, mbind eb]; rfl, ha', hb'⟩
  · obtain ⟨oa, ea, ha'⟩ := (rotateSub_spec C tbl (show r - n ≤ n by omega) hda ha).2
    obtain ⟨ob, eb, hb'⟩ := (rotateSub_spec C tbl (show r - n ≤ n by omega) hdb hb).2
    rw [show n + (r - n) = r by omega] at ha' hb'
    refine ⟨⟨oa, ob⟩, ?_, ha', hb'⟩
    rw [if_neg h, mbind (subC_eq (show r - n ≤ n by omega)), mbind ea, mbind eb]; rfl

theorem addMulMonomial_spec {x y : RLWE} {a b a' b' : Rq (ZMod M.value) n} {r : Nat}
    (hr : r ≤ 2 * n) (ha : Rep M.value n x.a a) (hb : Rep M.value n x.b b)
    (ha' : Rep M.value n y.a a') (hb' : Rep M.value n y.b b') :
    ∃ o, RLWE.addMulMonomial ⟨w, M, tbl⟩ x y n r = some o ∧
      Rep M.value n o.a (a + Rq.mono r * a') ∧ Rep M.value n o.b (b + Rq.mono r * b') := by
  unfold RLWE.addMulMonomial
  by_cases h : r ≤ n
  · obtain ⟨oa, ea, h1⟩ := (rotateAdd_spec C tbl h ha ha').1
    obtain ⟨ob, eb, h2⟩ := (rotateAdd_spec C tbl h hb hb').1
    exact ⟨⟨oa, ob⟩, by rw [if_pos h, mbind ea, mbind eb]; rfl, h1, h2⟩
  · obtain ⟨oa, ea, h1⟩ := (rotateAdd_spec C tbl (show r - n ≤ n by omega) ha ha').2
    obtain ⟨ob, eb, h2⟩ := (rotateAdd_spec C tbl (show r - n ≤ n by omega) hb hb').2
    rw [show n + (r - n) = r by omega] at h1 h2
    refine ⟨⟨oa, ob⟩, ?_, h1, h2⟩
    rw [if_neg h, mbind (subC_eq (show r - n ≤ n by omega)), mbind ea, mbind eb]; rfl

end

/-- C35: for `r ≤ 2n` the result is the input times `X^r - 1` modulo `X^n + 1`, component by
component, whatever the destination held. -/
theorem C35_mul_monomial_sub_one (w q : Nat) (hw : w % 2 = 0) (M : Barrett)
    (h : Fp.config w q = some M) (tbl : Nat → Option Table) (n : Nat) (hn : 0 < n) (x dest : RLWE)
    (ha : Reduced q n x.a) (hb : Reduced q n x.b) (hda : Reduced q n dest.a)
    (hdb : Reduced q n dest.b) (r : Nat) (hr : r ≤ 2 * n) :
    ∃ o, RLWE.mulMonomialSubOne ⟨w, M, tbl⟩ x n r dest = some o ∧ Reduced q n o.a ∧
      Reduced q n o.b ∧
      Rq.ofWords q n o.a = (Rq.mono r - 1) * Rq.ofWords q n x.a ∧
      Rq.ofWords q n o.b = (Rq.mono r - 1) * Rq.ofWords q n x.b := by
  have C : Config w q M := ⟨hw, h⟩
  have hval := C.value
  subst hval
  have : NeZero n := ⟨by omega⟩
  obtain ⟨o, e, h1, h2⟩ := mulMonomialSubOne_spec C tbl hr (rep_exists ha) (rep_exists hb) hda hdb
  rw [rep_iff] at h1 h2
  exact ⟨o, e, h1.1, h2.1, h1.2, h2.2⟩

/-- C35: for `r ≤ 2n` the right-hand side times `X^r` is added. -/
theorem C35_add_mul_monomial (w q : Nat) (hw : w % 2 = 0) (M : Barrett)
    (h : Fp.config w q = some M) (tbl : Nat → Option Table) (n : Nat) (hn : 0 < n) (x y : RLWE)
    (ha : Reduced q n x.a) (hb : Reduced q n x.b) (ha' : Reduced q n y.a)
    (hb' : Reduced q n y.b) (r : Nat) (hr : r ≤ 2 * n) :
    ∃ o, RLWE.addMulMonomial ⟨w, M, tbl⟩ x y n r = some o ∧ Reduced q n o.a ∧ Reduced q n o.b ∧
      Rq.ofWords q n o.a = Rq.ofWords q n x.a + Rq.mono r * Rq.ofWords q n y.a ∧
      Rq.ofWords q n o.b = Rq.ofWords q n x.b + Rq.mono r * Rq.ofWords q n y.b := by
  have C : Config w q M := ⟨hw, h⟩
  have hval := C.value
  subst hval
  have : NeZero n := ⟨by omega⟩
  obtain ⟨o, e, h1, h2⟩ := addMulMonomial_spec C tbl hr (rep_exists ha) (rep_exists hb)
    (rep_exists ha') (rep_exists hb')
  rw [rep_iff] at h1 h2
  exact ⟨o, e, h1.1, h2.1, h1.2, h2.2⟩

/-- C35: both panic for `r > 2n`. -/
theorem C35_monomial_out_of_range (R : Ctx) (x y : RLWE) (n r : Nat) (hr : 2 * n < r) :
    RLWE.mulMonomialSubOne R x n r y = none ∧ RLWE.addMulMonomial R x y n r = none := by
  have : subC n (r - n) = none := by unfold subC; rw [if_neg (by omega)]
  constructor
  · unfold RLWE.mulMonomialSubOne; rw [if_neg (by omega), this]; rfl
  · unfold RLWE.addMulMonomial; rw [if_neg (by omega), this]; rfl

-- X^5 = -X on [1,2,3,4] modulo X^4 + 1, q = 17
example : RLWE.mulMonomialSubOne ⟨8, barrett17, tbl17⟩ ⟨[1, 2, 3, 4], [0, 0, 0, 1]⟩ 4 5
      ⟨[9, 9, 9, 9], [9, 9, 9, 9]⟩ = some ⟨[3, 14, 12, 10], [1, 0, 0, 16]⟩ ∧
    RLWE.addMulMonomial ⟨8, barrett17, tbl17⟩ ⟨[1, 1, 1, 1], [0, 0, 0, 0]⟩
      ⟨[1, 2, 3, 4], [0, 0, 0, 1]⟩ 4 5 = some ⟨[5, 0, 16, 15], [1, 0, 0, 0]⟩ := by
  decide +kernel

end Verif.Props
