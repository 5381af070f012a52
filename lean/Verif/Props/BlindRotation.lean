import Verif.SpecBlind
import Verif.Model.BlindRotation
import Verif.Props.RGSW

namespace Verif
open Fp Finset Spec Ntt Props

namespace Spec.Rq
variable {R : Type} [CommRing R] {n : Nat} [NeZero n] [Nontrivial R]

theorem monoZ_natCast (d : Nat) : (monoZ (d : ℤ) : Rq R n) = mono d := by
  unfold monoZ
  rw [← mono_mod d]
  congr 1

theorem monoZ_zero : (monoZ 0 : Rq R n) = 1 := by
  have := monoZ_natCast (R := R) (n := n) 0
  rw [mono_zero] at this
  exact this

theorem monoZ_add (x y : ℤ) : (monoZ (x + y) : Rq R n) = monoZ x * monoZ y := by
  have hn : 0 < n := Nat.pos_of_ne_zero (NeZero.ne n)
  have h2 : ((2 * n : ℕ) : ℤ) ≠ 0 := by positivity
  have hx := Int.emod_nonneg x h2
  have hy := Int.emod_nonneg y h2
  have : ((x + y) % (2 * n : ℕ)).toNat =
      ((x % (2 * n : ℕ)).toNat + (y % (2 * n : ℕ)).toNat) % (2 * n) := by
    apply Int.ofNat.inj
    change (((x + y) % (2 * n : ℕ)).toNat : ℤ) =
      (((x % (2 * n : ℕ)).toNat + (y % (2 * n : ℕ)).toNat) % (2 * n) : ℕ)
    rw [Int.natCast_mod, Int.natCast_add, Int.toNat_of_nonneg (Int.emod_nonneg _ h2),
      Int.toNat_of_nonneg hx, Int.toNat_of_nonneg hy]
    rw [← Int.add_emod]
  unfold monoZ
  rw [this, mono_mod, mono_add]

theorem monoZ_neg_mul (x : ℤ) : (monoZ (-x) : Rq R n) * monoZ x = 1 := by
  rw [← monoZ_add, neg_add_cancel, monoZ_zero]

/-- `X^(2n - b) = X^(-b)`. -/
theorem mono_sub_two_n {b : Nat} (hb : b ≤ 2 * n) : (mono (2 * n - b) : Rq R n) = monoZ (-(b : ℤ)) := by
  have h : (mono (2 * n - b) : Rq R n) * mono b = 1 := by
    rw [← mono_add, Nat.sub_add_cancel hb, mono_two_n]
  have h' := monoZ_neg_mul (R := R) (n := n) (b : ℤ)
  rw [monoZ_natCast] at h'
  calc (mono (2 * n - b) : Rq R n) = mono (2 * n - b) * (monoZ (-(b : ℤ)) * mono b) := by rw [h', mul_one]
    _ = monoZ (-(b : ℤ)) * (mono (2 * n - b) * mono b) := by ring
    _ = monoZ (-(b : ℤ)) := by rw [h, mul_one]

end Spec.Rq

theorem Spec.Rq.Bounded.monoZ_mul {q n a : Nat} [NeZero n] [Fact (1 < q)] {p : Rq (ZMod q) n}
    (h : p.Bounded a) (z : ℤ) : (Rq.monoZ z * p).Bounded a := h.mono_mul _

section
variable {R : Ctx} {k : Nat} {t : Table} (E : Env R k t)
include E

theorem rotateNegHead_spec {lut : List Nat} {p : Rq (ZMod R.M.value) (2 ^ k)}
    (h : Rep R.M.value (2 ^ k) lut p) {r : Nat} (hr : r ≤ 2 ^ k) :
    ∃ o, BlindRotation.rotateNegHead R lut r = some o ∧ Rep R.M.value (2 ^ k) o (Rq.mono r * p) := by
  have := E.nontrivial
  obtain ⟨s, hs⟩ : ∃ s, s = 2 ^ k - r := ⟨_, rfl⟩
  have hd : Vals R.M.value r R.M.value (lut.drop s) (fun i => p.seq (s + i)) := by
    have := vals_drop (s := s) h
    rwa [show 2 ^ k - s = r by omega] at this
  have ht : Vals R.M.value s R.M.value (lut.take s) p.seq := vals_take h (by omega)
  obtain ⟨o, e, ho⟩ := hd.neg E.C
  refine ⟨o ++ lut.take s, ?_, ?_⟩
  · unfold BlindRotation.rotateNegHead
    rw [h.len, mbind (subC_eq hr), ← hs, mbind e]; rfl
  · have hv := vals_append ho ht
    rw [show r + s = 2 ^ k by omega] at hv
    refine hv.congr fun i hi => ?_
    rw [Rq.mono_mul_seq hr p hi, hs]

theorem rotateNegTail_spec {lut : List Nat} {p : Rq (ZMod R.M.value) (2 ^ k)}
    (h : Rep R.M.value (2 ^ k) lut p) {r : Nat} (hr : r ≤ 2 ^ k) :
    ∃ o, BlindRotation.rotateNegTail R lut r = some o ∧
      Rep R.M.value (2 ^ k) o (Rq.mono (2 ^ k + r) * p) := by
  have := E.nontrivial
  obtain ⟨s, hs⟩ : ∃ s, s = 2 ^ k - r := ⟨_, rfl⟩
  have hd : Vals R.M.value r R.M.value (lut.drop s) (fun i => p.seq (s + i)) := by
    have := vals_drop (s := s) h
    rwa [show 2 ^ k - s = r by omega] at this
  have ht : Vals R.M.value s R.M.value (lut.take s) p.seq := vals_take h (by omega)
  obtain ⟨o, e, ho⟩ := ht.neg E.C
  refine ⟨lut.drop s ++ o, ?_, ?_⟩
  · unfold BlindRotation.rotateNegTail
    rw [h.len, mbind (subC_eq hr), ← hs, mbind e]; rfl
  · have hv := vals_append hd ho
    rw [show r + s = 2 ^ k by omega] at hv
    refine hv.congr fun i hi => ?_
    rw [Rq.mono_add, Rq.mono_n, mul_assoc, neg_one_mul, Rq.seq_lt _ hi, Rq.neg_co, ← Rq.seq_lt _ hi,
      Rq.mono_mul_seq hr p hi, hs]
    split <;> simp

theorem rotateLut_spec {lut : List Nat} {p : Rq (ZMod R.M.value) (2 ^ k)}
    (h : Rep R.M.value (2 ^ k) lut p) {b : Nat} (hb : b < 2 * 2 ^ k) :
    ∃ o, BlindRotation.rotateLut R lut b = some o ∧
      Rep R.M.value (2 ^ k) o (p * Rq.monoZ (-(b : ℤ))) := by
  have := E.nontrivial
  unfold BlindRotation.rotateLut
  by_cases h0 : b = 0
  · refine ⟨lut, if_pos h0, ?_⟩
    subst h0
    rw [Nat.cast_zero, neg_zero, Rq.monoZ_zero, mul_one]; exact h
  · rw [if_neg h0, ← Rq.mono_sub_two_n hb.le, mul_comm p, h.len, mbind (subC_eq hb.le)]
    by_cases h1 : 2 * 2 ^ k - b ≤ 2 ^ k
    · rw [if_pos h1]
      exact rotateNegHead_spec E h h1
    · rw [if_neg h1]
      have := rotateNegTail_spec E h (show 2 * 2 ^ k - b - 2 ^ k ≤ 2 ^ k by omega)
      rwa [show 2 ^ k + (2 * 2 ^ k - b - 2 ^ k) = 2 * 2 ^ k - b by omega] at this

end

/-- The state of the loop: the accumulator has phase `φ`, the buffers have the ring's shape. -/
structure BlindRotation.Inv (q n : Nat) (s : Rq (ZMod q) n) (φ : Rq (ZMod q) n)
    (st : BlindRotation.State) : Prop where
  acc : st.acc.HasPhase q n s φ
  ea : Reduced q n st.ext.a
  eb : Reduced q n st.ext.b
  ma : st.median.a.length = n
  mb : st.median.b.length = n

section
variable {R : Ctx} {q k : Nat} [Fact q.Prime]

/-- The error bound of one step. -/
def stepBound (n bits len E : Nat) : Nat := 2 * (len * (n * ((2 ^ bits - 1) * E)))

/-- The error of an update is that of two gadget products whose words depend only on the state. -/
theorem update_error (hk : 0 < k) (F : TableField R.w q R.M R.tbl k) (bits : Nat) (B : Basis)
    (hB : Basis.new R.w q bits = some B) (s φ : Rq (ZMod q) (2 ^ k)) (a : Nat) (ha : a ≤ 2 * 2 ^ k)
    (st : BlindRotation.State) (hst : BlindRotation.Inv q (2 ^ k) s φ st) :
    ∃ x, RLWE.mulMonomialSubOne R st.acc (2 ^ k) a st.ext = some x ∧
      ∀ (m : Rq (ZMod q) (2 ^ k)) (e0 e1 : Nat → Rq (ZMod q) (2 ^ k)) (g : NTTRGSW),
      g.Encrypts R q (2 ^ k) bits s m e0 e1 →
      ∃ st', BlindRotation.update R (2 ^ k) st g a = some st' ∧
        BlindRotation.Inv q (2 ^ k) s (φ + m * ((Rq.mono a - 1) * φ) +
          (gadgetError q (2 ^ k) bits B.decomposeLen x.a e0 +
            gadgetError q (2 ^ k) bits B.decomposeLen x.b e1)) st' := by
  obtain ⟨t, hq, E⟩ := F.env hk
  subst hq
  have := E.nontrivial
  obtain ⟨pa, pb, ⟨hpa, hpb⟩, hph⟩ := hasPhase_iff.1 hst.acc
  obtain ⟨x, ex, hxa, hxb⟩ := mulMonomialSubOne_spec E.C R.tbl ha hpa hpb hst.ea hst.eb
  have hx : x.HasPhase R.M.value (2 ^ k) s ((Rq.mono a - 1) * φ) :=
    hasPhase_iff.2 ⟨_, _, ⟨hxa, hxb⟩, by rw [← hph, rlwePhase, rlwePhase]; ring⟩
  refine ⟨x, ex, fun m e0 e1 g hG => ?_⟩
  obtain ⟨y, med, ey, _, hma, hmb, hy⟩ := ((C37_external_product hk F bits s m _ e0 e1 B hB x hx).2 g
    hG).2 st.median hst.ma hst.mb
  obtain ⟨ya, yb, ⟨hya, hyb⟩, hyp⟩ := hasPhase_iff.1 hy
  obtain ⟨oa, ea, hoa⟩ := hpa.add E hya
  obtain ⟨ob, eb, hob⟩ := hpb.add E hyb
  refine ⟨⟨⟨oa, ob⟩, y, med⟩, ?_, ?_, hy.a, hy.b, hma, hmb⟩
  · unfold BlindRotation.update
    have : RLWE.mulMonomialSubOne R st.acc (2 ^ k) a st.ext = some x := ex
    rw [mbind this, mbind ey]
    simp only [RLWE.add]
    rw [ea, eb]; rfl
  · refine hasPhase_iff.2 ⟨_, _, ⟨hoa, hob⟩, ?_⟩
    have e : rlwePhase s (pa + ya) (pb + yb) = rlwePhase s pa pb + rlwePhase s ya yb := by
      simp only [rlwePhase]; ring
    rw [e, hph, hyp]; ring

theorem gadgetError_nil (n bits len : Nat) [NeZero n] [Nontrivial (ZMod q)] (e : Nat → Rq (ZMod q) n) :
    gadgetError q n bits len [] e = 0 := by
  unfold gadgetError
  refine Finset.sum_eq_zero fun j _ => ?_
  have : digitPoly q n bits [] j = 0 := by
    ext i
    simp [digitPoly]
  rw [this, zero_mul]

theorem binary_step_error (hk : 0 < k) (F : TableField R.w q R.M R.tbl k) (bits : Nat) (B : Basis)
    (hB : Basis.new R.w q bits = some B) (s φ : Rq (ZMod q) (2 ^ k)) (a : Nat) (ha : a < 2 * 2 ^ k)
    (st : BlindRotation.State) (hst : BlindRotation.Inv q (2 ^ k) s φ st) (z : ℤ) (hz : z = 0 ∨ z = 1) :
    ∃ la lb : List Nat, ∀ (e0 e1 : Nat → Rq (ZMod q) (2 ^ k)) (g : NTTRGSW),
      g.Encrypts R q (2 ^ k) bits s (Rq.const (z : ZMod q)) e0 e1 →
      ∃ st', BlindRotation.binaryStep R (2 ^ k) st g a = some st' ∧
        BlindRotation.Inv q (2 ^ k) s (Rq.monoZ (a * z) * φ +
          (gadgetError q (2 ^ k) bits B.decomposeLen la e0 +
            gadgetError q (2 ^ k) bits B.decomposeLen lb e1)) st' := by
  unfold BlindRotation.binaryStep
  by_cases h0 : a = 0
  · refine ⟨[], [], fun e0 e1 g _ => ⟨st, if_pos h0, ?_⟩⟩
    subst h0
    rw [Nat.cast_zero, zero_mul, Rq.monoZ_zero, one_mul, gadgetError_nil, gadgetError_nil, add_zero, add_zero]
    exact hst
  · obtain ⟨x, -, hu⟩ := update_error hk F bits B hB s φ a ha.le st hst
    refine ⟨x.a, x.b, fun e0 e1 g hg => ?_⟩
    rw [if_neg h0]
    obtain ⟨st', e, h⟩ := hu _ e0 e1 g hg
    refine ⟨st', e, ?_⟩
    rcases hz with rfl | rfl
    · rw [mul_zero, Rq.monoZ_zero, one_mul]
      rwa [Int.cast_zero, Rq.const_zero, zero_mul, add_zero] at h
    · rw [mul_one, Rq.monoZ_natCast]
      rw [Int.cast_one, show (Rq.const (1 : ZMod q) : Rq (ZMod q) (2 ^ k)) = 1 from rfl, one_mul] at h
      convert h using 2
      ring

/-- One step multiplies by `X^(a z)` up to an error. -/
def StepOk {K : Type} (q n : Nat) (s : Rq (ZMod q) n) (β : Nat)
    (step : BlindRotation.State → K → Nat → Option BlindRotation.State) (g : K) (z : ℤ) : Prop :=
  ∀ (a : Nat) (φ : Rq (ZMod q) n) (st : BlindRotation.State), a < 2 * n →
    BlindRotation.Inv q n s φ st →
    ∃ st', step st g a = some st' ∧ ∃ δ : Rq (ZMod q) n, δ.Bounded β ∧
      BlindRotation.Inv q n s (Rq.monoZ (a * z) * φ + δ) st'

theorem loop_spec {K : Type} (n : Nat) [NeZero n] [Nontrivial (ZMod q)] (s : Rq (ZMod q) n) (β : Nat)
    (step : BlindRotation.State → K → Nat → Option BlindRotation.State) :
    ∀ (key : List K) (S : List ℤ), List.Forall₂ (StepOk q n s β step) key S →
    ∀ (a : List Nat), a.length = key.length → (∀ x ∈ a, x < 2 * n) →
    ∀ (φ : Rq (ZMod q) n) (st : BlindRotation.State), BlindRotation.Inv q n s φ st →
    ∃ st', BlindRotation.loop step key a st = some st' ∧
      ∃ δ : Rq (ZMod q) n, δ.Bounded (a.length * β) ∧
        BlindRotation.Inv q n s (Rq.monoZ (List.zipWith (fun (x : Nat) z => (x : ℤ) * z) a S).sum * φ + δ)
          st' := by
  have h1q : Fact (1 < q) := ⟨(Fact.out : q.Prime).one_lt⟩
  intro key S h
  induction h with
  | nil =>
    intro a ha _ φ st hst
    obtain rfl : a = [] := List.length_eq_zero_iff.1 (by simpa using ha)
    refine ⟨st, rfl, 0, Rq.Bounded.zero.mono (by simp), ?_⟩
    simpa [Rq.monoZ_zero] using hst
  | @cons g z key S hg _ ih =>
    intro a ha hlt φ st hst
    cases a with
    | nil => simp at ha
    | cons a as =>
      obtain ⟨st1, e1, δ1, hδ1, hst1⟩ := hg a φ st (hlt a (by simp)) hst
      obtain ⟨st2, e2, δ2, hδ2, hst2⟩ := ih as (by simpa using ha)
        (fun x hx => hlt x (List.mem_cons_of_mem _ hx)) _ st1 hst1
      refine ⟨st2, by rw [BlindRotation.loop, mbind e1, e2], _,
        ((hδ1.monoZ_mul (List.zipWith (fun (x : Nat) z => (x : ℤ) * z) as S).sum).add hδ2).mono ?_, ?_⟩
      · rw [List.length_cons]; linarith [Nat.succ_mul as.length β]
      · rw [List.zipWith_cons_cons, List.sum_cons, add_comm, Rq.monoZ_add]
        convert hst2 using 1
        ring

theorem init_inv (n : Nat) [NeZero n] [Nontrivial (ZMod q)] (s : Rq (ZMod q) n) (lut : List Nat)
    (hl : Reduced q n lut) :
    BlindRotation.Inv q n s (Rq.ofWords q n lut) (BlindRotation.init lut) := by
  have hq : 0 < q := (Fact.out : q.Prime).pos
  have hz : Rep q n (Poly.zero n) 0 :=
    (Vals.zero hq).congr fun i hi => by rw [Rq.seq_lt _ hi]; rfl
  obtain ⟨hz1, hz2⟩ := rep_iff.1 hz
  unfold BlindRotation.init
  rw [hl.1]
  refine ⟨⟨hz1, hl, ?_⟩, hz1, hz1, ?_, ?_⟩
  · rw [hz2, rlwePhase, zero_mul, sub_zero]
  · simp [NTTRLWE.zero, Poly.zero]
  · simp [NTTRLWE.zero, Poly.zero]

theorem binary_step_ok (hk : 0 < k) (F : TableField R.w q R.M R.tbl k) (bits : Nat) (B : Basis)
    (hB : Basis.new R.w q bits = some B) (s : Rq (ZMod q) (2 ^ k)) (N : Nat) (g : NTTRGSW) (z : ℤ)
    (hz : z = 0 ∨ z = 1)
    (hg : g.EncryptsWithin R q (2 ^ k) bits s (Rq.const (z : ZMod q)) N) :
    StepOk q (2 ^ k) s (stepBound (2 ^ k) bits B.decomposeLen N)
      (BlindRotation.binaryStep R (2 ^ k)) g z := by
  have h1q : Fact (1 < q) := ⟨(Fact.out : q.Prime).one_lt⟩
  intro a φ st ha hst
  obtain ⟨e0, e1, h0, h1, hG⟩ := hg
  obtain ⟨la, lb, h⟩ := binary_step_error hk F bits B hB s φ a ha st hst z hz
  obtain ⟨st', e, hi⟩ := h e0 e1 g hG
  exact ⟨st', e, _, C37_error_bound _ _ bits _ N la lb e0 e1 (fun j _ => h0 j) (fun j _ => h1 j), hi⟩

theorem ofWords_negMono (n d : Nat) :
    Reduced q n (monomialCoeffs q n (q - 1) d) ∧
      Rq.ofWords q n (monomialCoeffs q n (q - 1) d) = -Rq.mono d := by
  have hq : 1 < q := (Fact.out : q.Prime).one_lt
  have e1 : (q - (q - 1)) % q = 1 := by rw [show q - (q - 1) = 1 by omega, Nat.mod_eq_of_lt hq]
  have e2 : ((q - 1 : Nat) : ZMod q) = -1 := by rw [Nat.cast_sub hq.le]; simp
  refine ⟨⟨by simp [monomialCoeffs], ?_⟩, ?_⟩
  · intro x hx
    simp only [monomialCoeffs, List.mem_map] at hx
    obtain ⟨i, _, rfl⟩ := hx
    rw [e1]
    split
    · split <;> omega
    · omega
  · ext i
    change coeff q (monomialCoeffs q n (q - 1) d) i.val =
      -(if i.val = d % n then (if d / n % 2 = 0 then (1 : ZMod q) else -1) else 0)
    unfold coeff monomialCoeffs
    rw [List.getD_eq_getElem _ _ (by simp), List.getElem_map, List.getElem_range, e1]
    by_cases h1 : i.val = d % n
    · rw [if_pos h1, if_pos h1]
      by_cases h2 : d / n % 2 = 0
      · rw [if_pos h2, if_pos h2]; exact e2
      · rw [if_neg h2, if_neg h2]; simp
    · rw [if_neg h1, if_neg h1]; simp

/-- The monomial function of the table gives the transform form of `-X^d`. -/
theorem negOneMonomial_toNtt (hk : 0 < k) (hk' : k ≤ 31) (F : TableField R.w q R.M R.tbl k) (t : Table)
    (ht : R.tbl k = some t) (d : Nat) (hd : d < 2 * 2 ^ k) :
    ∃ m, Table.negOneMonomial R.M t d (2 ^ k) = some m ∧
      Poly.toNtt R.w R.M R.tbl (monomialCoeffs q (2 ^ k) (q - 1) d) = some m := by
  obtain ⟨t', rfl, E⟩ := F.env hk
  have htf := E.tableFor
  have := E.tb
  rw [ht] at this
  cases this
  have hov : 2 * 2 ^ k * d < 2 ^ 64 := by
    have h31 : (2 : Nat) ^ k ≤ 2 ^ 31 := Nat.pow_le_pow_right (by omega) hk'
    calc 2 * 2 ^ k * d < 2 * 2 ^ k * (2 * 2 ^ k) := Nat.mul_lt_mul_of_pos_left hd (by positivity)
      _ ≤ 2 * 2 ^ 31 * (2 * 2 ^ 31) := Nat.mul_le_mul (by omega) (by omega)
      _ = 2 ^ 64 := by norm_num
  have h1q := (Fact.out : R.M.value.Prime).one_lt
  have : Fact (1 < R.M.value) := ⟨h1q⟩
  obtain ⟨-, -, m, em, rm, hm⟩ := E.ev.mono d hd hov
  obtain ⟨hmr, -⟩ := ofWords_negMono (q := R.M.value) (2 ^ k) d
  obtain ⟨v, ev, rv, hv⟩ := E.ev.fwd _ hmr
  have hvm : v = m := list_ext_of_cast (q := R.M.value) rv.1 rm.1
    (fun i hi => rv.2 _ (getD_mem _ (by rw [rv.1]; exact hi)))
    (fun i hi => rm.2 _ (getD_mem _ (by rw [rm.1]; exact hi)))
    (fun i hi => by
      refine (hv i hi).trans (Eq.trans ?_ (hm i hi).symm)
      refine (evalPoly_eq hmr.1 _).symm.trans ?_
      rw [evalPoly_monomial (by omega) (Nat.two_pow_pos k) (E.ev.pow i), Nat.cast_sub (by omega),
        ZMod.natCast_self, zero_sub, Nat.cast_one, neg_one_mul])
  subst hvm
  exact ⟨v, em, by unfold Poly.toNtt; rw [hmr.1, mbind htf, ev]⟩

theorem ternary_step_error (hk : 0 < k) (hk' : k ≤ 31) (F : TableField R.w q R.M R.tbl k) (bits : Nat)
    (B : Basis) (hB : Basis.new R.w q bits = some B) (s φ : Rq (ZMod q) (2 ^ k)) (a : Nat)
    (ha : a < 2 * 2 ^ k) (t : Table) (ht : R.tbl k = some t)
    (st : BlindRotation.State) (hst : BlindRotation.Inv q (2 ^ k) s φ st) (z : ℤ)
    (hz : z = 0 ∨ z = 1 ∨ z = -1) :
    ∃ la lb : List Nat, ∀ (e0 e1 e0' e1' : Nat → Rq (ZMod q) (2 ^ k)) (g : NTTRGSW × NTTRGSW),
      g.1.Encrypts R q (2 ^ k) bits s (Rq.const (if z = 1 then 1 else 0)) e0 e1 →
      g.2.Encrypts R q (2 ^ k) bits s (Rq.const (if z = -1 then 1 else 0)) e0' e1' →
      ∃ st', BlindRotation.ternaryStep R t (2 ^ k) st g a = some st' ∧
        BlindRotation.Inv q (2 ^ k) s (Rq.monoZ (a * z) * φ +
          (gadgetError q (2 ^ k) bits B.decomposeLen la
              (fun j => e0 j + e0' j * -Rq.mono (2 * 2 ^ k - a)) +
            gadgetError q (2 ^ k) bits B.decomposeLen lb
              (fun j => e1 j + e1' j * -Rq.mono (2 * 2 ^ k - a)))) st' := by
  have h1q : Fact (1 < q) := ⟨(Fact.out : q.Prime).one_lt⟩
  unfold BlindRotation.ternaryStep
  by_cases h0 : a = 0
  · refine ⟨[], [], fun e0 e1 e0' e1' g _ _ => ⟨st, if_pos h0, ?_⟩⟩
    subst h0
    rw [Nat.cast_zero, zero_mul, Rq.monoZ_zero, one_mul, gadgetError_nil, gadgetError_nil, add_zero, add_zero]
    exact hst
  · obtain ⟨x, -, hu⟩ := update_error hk F bits B hB s φ a ha.le st hst
    refine ⟨x.a, x.b, fun e0 e1 e0' e1' g hG hG' => ?_⟩
    rw [if_neg h0, mbind (subC_eq ha.le)]
    obtain ⟨m, em, hntt⟩ := negOneMonomial_toNtt hk hk' F t ht (2 * 2 ^ k - a) (by omega)
    obtain ⟨hmr, hmv⟩ := ofWords_negMono (q := q) (2 ^ k) (2 * 2 ^ k - a)
    obtain ⟨ek, eek, hek⟩ := C37_add_mul hk F bits s _ _ _ _ _ _ g.1 g.2 hG hG' _ m hmr hntt
    rw [hmv] at hek
    obtain ⟨st', e, h⟩ := hu _ _ _ ek hek
    rw [mbind em, mbind eek]
    refine ⟨st', e, ?_⟩
    have hone : (Rq.const (1 : ZMod q) : Rq (ZMod q) (2 ^ k)) = 1 := rfl
    rw [Rq.mono_sub_two_n ha.le] at h ⊢
    have hinv := Rq.monoZ_neg_mul (R := ZMod q) (n := 2 ^ k) (a : ℤ)
    rw [Rq.monoZ_natCast] at hinv
    rcases hz with rfl | rfl | rfl
    · rw [mul_zero, Rq.monoZ_zero, one_mul]
      simpa [Rq.const_zero] using h
    · rw [mul_one, Rq.monoZ_natCast]
      rw [if_pos rfl, if_neg (by omega), hone, Rq.const_zero] at h
      convert h using 2
      ring
    · rw [mul_neg_one]
      rw [if_neg (by omega), if_pos rfl, hone, Rq.const_zero] at h
      convert h using 2
      linear_combination φ * hinv

theorem ternary_step_ok (hk : 0 < k) (hk' : k ≤ 31) (F : TableField R.w q R.M R.tbl k) (bits : Nat)
    (B : Basis) (hB : Basis.new R.w q bits = some B) (s : Rq (ZMod q) (2 ^ k)) (N : Nat)
    (t : Table) (ht : R.tbl k = some t) (g : NTTRGSW × NTTRGSW) (z : ℤ)
    (hz : z = 0 ∨ z = 1 ∨ z = -1)
    (hg1 : g.1.EncryptsWithin R q (2 ^ k) bits s (Rq.const (if z = 1 then 1 else 0)) N)
    (hg2 : g.2.EncryptsWithin R q (2 ^ k) bits s (Rq.const (if z = -1 then 1 else 0)) N) :
    StepOk q (2 ^ k) s (stepBound (2 ^ k) bits B.decomposeLen (2 * N))
      (BlindRotation.ternaryStep R t (2 ^ k)) g z := by
  have h1q : Fact (1 < q) := ⟨(Fact.out : q.Prime).one_lt⟩
  intro a φ st ha hst
  obtain ⟨e0, e1, hb0, hb1, hG⟩ := hg1
  obtain ⟨e0', e1', hb0', hb1', hG'⟩ := hg2
  obtain ⟨la, lb, h⟩ := ternary_step_error hk hk' F bits B hB s φ a ha t ht st hst z hz
  obtain ⟨st', e, hi⟩ := h e0 e1 e0' e1' g hG hG'
  have hbd : ∀ e e' : Nat → Rq (ZMod q) (2 ^ k), (∀ j, (e j).Bounded N) → (∀ j, (e' j).Bounded N) →
      ∀ j, (e j + e' j * -Rq.mono (2 * 2 ^ k - a)).Bounded (2 * N) := by
    intro e e' he he' j
    rw [two_mul]
    refine (he j).add ?_
    rw [mul_neg, mul_comm]
    exact ((he' j).mono_mul _).neg
  exact ⟨st', e, _, C37_error_bound _ _ bits _ (2 * N) la lb _ _ (fun j _ => hbd _ _ hb0 hb0' j)
    (fun j _ => hbd _ _ hb1 hb1' j), hi⟩

end
end Verif

namespace Verif.Props
open Fp Finset Spec Ntt

section
variable {R : Ctx} {q k : Nat} [Fact q.Prime]

theorem rotate_finish (hk : 0 < k) (F : TableField R.w q R.M R.tbl k) {K : Type}
    (s : Rq (ZMod q) (2 ^ k)) (β : Nat)
    (step : BlindRotation.State → K → Nat → Option BlindRotation.State) (key : List K) (S : List ℤ)
    (h : List.Forall₂ (StepOk q (2 ^ k) s β step) key S) (lut : List Nat)
    (hl : Reduced q (2 ^ k) lut) (c : LWE) (hlen : c.a.length = key.length)
    (ha : ∀ x ∈ c.a, x < 2 * 2 ^ k) (hb : c.b < 2 * 2 ^ k) :
    ∃ l, BlindRotation.rotateLut R lut c.b = some l ∧ l.length = 2 ^ k ∧
      ∃ st, BlindRotation.loop step key c.a (BlindRotation.init l) = some st ∧
        st.acc.RotatedBy q (2 ^ k) s lut (intPhase S c.a c.b) (c.a.length * β) := by
  obtain ⟨l, el, hl'⟩ : ∃ l, BlindRotation.rotateLut R lut c.b = some l ∧ Reduced q (2 ^ k) l ∧
      Rq.ofWords q (2 ^ k) l = Rq.ofWords q (2 ^ k) lut * Rq.monoZ (-(c.b : ℤ)) := by
    obtain ⟨t, hq, E⟩ := F.env hk
    subst hq
    obtain ⟨l, el, h⟩ := rotateLut_spec E (rep_exists hl) hb
    exact ⟨l, el, rep_iff.1 h⟩
  obtain ⟨st, e, δ, hδ, hi⟩ := loop_spec (2 ^ k) s β step key S h c.a hlen ha _ _
    (init_inv (2 ^ k) s l hl'.1)
  refine ⟨l, el, hl'.1.1, st, e, δ, hδ, ?_⟩
  convert hi.acc using 2
  rw [hl'.2, intPhase, neg_sub, sub_eq_add_neg, Rq.monoZ_add]
  ring

/-- C38: with a binary key, blind rotation returns a ring ciphertext of the lookup table times
`X^(-φ)`, where `φ` is the integer phase of the input; every coefficient of the error is at most the
number of input coefficients times the error of one external product. -/
theorem C38_binary (hk : 0 < k) (F : TableField R.w q R.M R.tbl k) (bits : Nat) (B : Basis)
    (hB : Basis.new R.w q bits = some B) (s : Rq (ZMod q) (2 ^ k)) (N : Nat) (S : List ℤ)
    (key : List NTTRGSW) (hkey : BinaryKey R q (2 ^ k) bits s N S key) (lut : List Nat)
    (hl : Reduced q (2 ^ k) lut) (c : LWE) (hlen : c.a.length = S.length)
    (ha : ∀ x ∈ c.a, x < 2 * 2 ^ k) (hb : c.b < 2 * 2 ^ k) :
    ∃ r, BlindRotation.binary R key lut c = some r ∧
      r.RotatedBy q (2 ^ k) s lut (intPhase S c.a c.b)
        (c.a.length * (2 * (B.decomposeLen * (2 ^ k * ((2 ^ bits - 1) * N))))) := by
  obtain ⟨l, el, hll, st, e, h⟩ := rotate_finish hk F s (stepBound (2 ^ k) bits B.decomposeLen N)
    (BlindRotation.binaryStep R (2 ^ k)) key S
    (hkey.imp fun g z hg => binary_step_ok hk F bits B hB s N g z hg.1 hg.2) lut hl c
    (by rw [hlen, hkey.length_eq]) ha hb
  refine ⟨st.acc, ?_, h⟩
  unfold BlindRotation.binary
  rw [mbind el, hll, mbind e]; rfl

/-- C38: the same with a ternary key, whose two ciphertexts per digit double the error of a step. -/
theorem C38_ternary (hk : 0 < k) (hk' : k ≤ 31) (F : TableField R.w q R.M R.tbl k) (bits : Nat)
    (B : Basis) (hB : Basis.new R.w q bits = some B) (s : Rq (ZMod q) (2 ^ k)) (N : Nat) (S : List ℤ)
    (key : List (NTTRGSW × NTTRGSW)) (hkey : TernaryKey R q (2 ^ k) bits s N S key)
    (lut : List Nat) (hl : Reduced q (2 ^ k) lut) (c : LWE) (hlen : c.a.length = S.length)
    (ha : ∀ x ∈ c.a, x < 2 * 2 ^ k) (hb : c.b < 2 * 2 ^ k) :
    ∃ r, BlindRotation.ternary R key lut c = some r ∧
      r.RotatedBy q (2 ^ k) s lut (intPhase S c.a c.b)
        (c.a.length * (2 * (B.decomposeLen * (2 ^ k * ((2 ^ bits - 1) * (2 * N)))))) := by
  obtain ⟨t, htb, htf⟩ : ∃ t, R.tbl k = some t ∧ Poly.tableFor R.tbl (2 ^ k) = some t := by
    obtain ⟨t, _, E⟩ := F.env hk
    exact ⟨t, E.tb, E.tableFor⟩
  obtain ⟨l, el, hll, st, e, h⟩ := rotate_finish hk F s
    (stepBound (2 ^ k) bits B.decomposeLen (2 * N))
    (BlindRotation.ternaryStep R t (2 ^ k)) key S
    (hkey.imp fun g z hg => ternary_step_ok hk hk' F bits B hB s N t htb g z hg.1 hg.2.1 hg.2.2) lut
    hl c (by rw [hlen, hkey.length_eq]) ha hb
  refine ⟨st.acc, ?_, h⟩
  unfold BlindRotation.ternary
  rw [hl.1, mbind htf, mbind el, hll, mbind e]; rfl

/-- The draws of one RGSW sample are polynomials over the field, enough of them, with errors of at most
`N`. -/
structure RgswDrawOk (q n len N : Nat) (d : BlindRotation.RgswDraw) : Prop where
  ok0 : DrawsOk q n d.1
  ok1 : DrawsOk q n d.2
  len0 : len ≤ d.1.length
  len1 : len ≤ d.2.length
  err0 : ∀ j, (drawErrors q n d.1 j).Bounded N
  err1 : ∀ j, (drawErrors q n d.2 j).Bounded N

theorem sample_within (hk : 0 < k) (F : TableField R.w q R.M R.tbl k) (bits : Nat) (B : Basis)
    (hB : Basis.new R.w q bits = some B) (s sn : List Nat) (hs : Reduced q (2 ^ k) s)
    (hsn : Poly.toNtt R.w R.M R.tbl s = some sn) (N : Nat) (d : BlindRotation.RgswDraw)
    (hd : RgswDrawOk q (2 ^ k) B.decomposeLen N d) :
    (∃ g, NTTRGSW.zeroSample R sn B d.1 d.2 = some g ∧
      g.EncryptsWithin R q (2 ^ k) bits (Rq.ofWords q (2 ^ k) s) 0 N) ∧
    (∃ g, NTTRGSW.oneSample R sn B d.1 d.2 = some g ∧
      g.EncryptsWithin R q (2 ^ k) bits (Rq.ofWords q (2 ^ k) s) 1 N) := by
  obtain ⟨⟨g, e, h⟩, ⟨g', e', h'⟩⟩ := C37_ntt_samples hk F bits B hB s sn hs hsn d.1 d.2 hd.ok0 hd.ok1
    hd.len0 hd.len1
  exact ⟨⟨g, e, _, _, hd.err0, hd.err1, h⟩, ⟨g', e', _, _, hd.err0, hd.err1, h'⟩⟩

/-- C38: the generated binary key is a blind rotation key of the secret. -/
theorem C38_binary_generate (hk : 0 < k) (F : TableField R.w q R.M R.tbl k) (bits : Nat) (B : Basis)
    (hB : Basis.new R.w q bits = some B) (s sn : List Nat) (hs : Reduced q (2 ^ k) s)
    (hsn : Poly.toNtt R.w R.M R.tbl s = some sn) (N : Nat) (secret : List Nat)
    (draws : List BlindRotation.RgswDraw) (hlen : secret.length ≤ draws.length)
    (hd : ∀ d ∈ draws, RgswDrawOk q (2 ^ k) B.decomposeLen N d) :
    ∃ key, BlindRotation.binaryGenerate R sn B secret draws = some key ∧
      BinaryKey R q (2 ^ k) bits (Rq.ofWords q (2 ^ k) s) N (secret.map binaryDigit) key := by
  induction secret generalizing draws with
  | nil => exact ⟨[], by cases draws <;> rfl, .nil⟩
  | cons x xs ih =>
    cases draws with
    | nil => simp at hlen
    | cons d ds =>
      obtain ⟨⟨g, e, h⟩, ⟨g', e', h'⟩⟩ := sample_within hk F bits B hB s sn hs hsn N d (hd d (by simp))
      obtain ⟨gs, es, hgs⟩ := ih ds (by simpa using hlen) (fun d hd' => hd d (by simp [hd']))
      have : ∃ y, BlindRotation.binaryKey R sn B x d = some y ∧
          ((binaryDigit x = 0 ∨ binaryDigit x = 1) ∧
          y.EncryptsWithin R q (2 ^ k) bits (Rq.ofWords q (2 ^ k) s)
            (Rq.const ((binaryDigit x : ℤ) : ZMod q)) N) := by
        unfold BlindRotation.binaryKey binaryDigit
        by_cases hx : x = 0
        · rw [if_pos hx, if_pos hx, Int.cast_zero, Rq.const_zero]
          exact ⟨g, e, Or.inl rfl, h⟩
        · rw [if_neg hx, if_neg hx, Int.cast_one]
          exact ⟨g', e', Or.inr rfl, h'⟩
      obtain ⟨y, ey, hy⟩ := this
      exact ⟨y :: gs, by rw [BlindRotation.binaryGenerate, mbind ey, mbind es]; rfl, .cons hy hgs⟩

/-- C38: the generated ternary key is a blind rotation key of the secret. -/
theorem C38_ternary_generate (hk : 0 < k) (F : TableField R.w q R.M R.tbl k) (bits : Nat) (B : Basis)
    (hB : Basis.new R.w q bits = some B) (s sn : List Nat) (hs : Reduced q (2 ^ k) s)
    (hsn : Poly.toNtt R.w R.M R.tbl s = some sn) (N : Nat) (secret : List Nat)
    (draws : List (BlindRotation.RgswDraw × BlindRotation.RgswDraw))
    (hlen : secret.length ≤ draws.length)
    (hd : ∀ d ∈ draws, RgswDrawOk q (2 ^ k) B.decomposeLen N d.1 ∧
      RgswDrawOk q (2 ^ k) B.decomposeLen N d.2) :
    ∃ key, BlindRotation.ternaryGenerate R sn B secret draws = some key ∧
      TernaryKey R q (2 ^ k) bits (Rq.ofWords q (2 ^ k) s) N (secret.map ternaryDigit) key := by
  induction secret generalizing draws with
  | nil => exact ⟨[], by cases draws <;> rfl, .nil⟩
  | cons x xs ih =>
    cases draws with
    | nil => simp at hlen
    | cons d ds =>
      obtain ⟨hd1, hd2⟩ := hd d (by simp)
      obtain ⟨⟨g, e, h⟩, ⟨g', e', h'⟩⟩ := sample_within hk F bits B hB s sn hs hsn N d.1 hd1
      obtain ⟨⟨f, ef, hf⟩, ⟨f', ef', hf'⟩⟩ := sample_within hk F bits B hB s sn hs hsn N d.2 hd2
      obtain ⟨gs, es, hgs⟩ := ih ds (by simpa using hlen) (fun d hd' => hd d (by simp [hd']))
      have hone : (Rq.const (1 : ZMod q) : Rq (ZMod q) (2 ^ k)) = 1 := rfl
      have : ∃ y, BlindRotation.ternaryKey R sn B x d = some y ∧
          ((ternaryDigit x = 0 ∨ ternaryDigit x = 1 ∨ ternaryDigit x = -1) ∧
          y.1.EncryptsWithin R q (2 ^ k) bits (Rq.ofWords q (2 ^ k) s)
            (Rq.const (if ternaryDigit x = 1 then 1 else 0)) N ∧
          y.2.EncryptsWithin R q (2 ^ k) bits (Rq.ofWords q (2 ^ k) s)
            (Rq.const (if ternaryDigit x = -1 then 1 else 0)) N) := by
        unfold BlindRotation.ternaryKey ternaryDigit
        by_cases hx : x = 1
        · rw [if_pos hx, if_pos hx, if_pos rfl, if_neg (by omega), Rq.const_zero, hone]
          exact ⟨(g', f), by rw [mbind e', mbind ef]; rfl, Or.inr (Or.inl rfl), h', hf⟩
        · rw [if_neg hx, if_neg hx]
          by_cases hx0 : x = 0
          · rw [if_pos hx0, if_pos hx0, if_neg (by omega), if_neg (by omega), Rq.const_zero]
            exact ⟨(g, f), by rw [mbind e, mbind ef]; rfl, Or.inl rfl, h, hf⟩
          · rw [if_neg hx0, if_neg hx0, if_neg (by omega), if_pos rfl, Rq.const_zero, hone]
            exact ⟨(g, f'), by rw [mbind e, mbind ef']; rfl, Or.inr (Or.inr rfl), h, hf'⟩
      obtain ⟨y, ey, hy⟩ := this
      exact ⟨y :: gs, by rw [BlindRotation.ternaryGenerate, mbind ey, mbind es]; rfl, .cons hy hgs⟩

end

theorem drawErrors_bounded {q n : Nat} {l : List Draw} {N : Nat}
    (h : ∀ d ∈ l, ∀ x ∈ d.2, ∃ z : ℤ, |z| ≤ N ∧ (z : ZMod q) = x) (j : Nat) :
    (drawErrors q n l j).Bounded N := by
  intro i
  change ∃ z : ℤ, |z| ≤ N ∧ (z : ZMod q) = (((l.getD j ([], [])).2.getD i.val 0 : Nat) : ZMod q)
  by_cases hj : j < l.length
  · rw [List.getD_eq_getElem _ _ hj]
    by_cases hi : i.val < (l[j]).2.length
    · rw [List.getD_eq_getElem _ _ hi]
      exact h _ (List.getElem_mem hj) _ (List.getElem_mem hi)
    · rw [List.getD_eq_default _ _ (by omega)]
      exact ⟨0, by simp, by simp⟩
  · rw [List.getD_eq_default l _ (by omega)]
    exact ⟨0, by simp, by simp⟩

/-- Two draws with errors in `{-1, 0, 1}`, for the examples. -/
def draw17 : List Draw := [([1, 2, 3, 4], [0, 1, 0, 16]), ([5, 6, 7, 8], [1, 0, 0, 0])]

theorem draw17_ok : RgswDrawOk 17 (2 ^ 2) 2 1 (draw17, draw17) := by
  have hd : DrawsOk 17 (2 ^ 2) draw17 := by
    intro d hd
    rcases List.mem_cons.1 hd with rfl | hd
    · exact ⟨⟨rfl, by decide⟩, ⟨rfl, by decide⟩⟩
    · rcases List.mem_cons.1 hd with rfl | hd
      · exact ⟨⟨rfl, by decide⟩, ⟨rfl, by decide⟩⟩
      · simp at hd
  have he : ∀ d ∈ draw17, ∀ x ∈ d.2, ∃ z : ℤ, |z| ≤ (1 : Nat) ∧ (z : ZMod 17) = x := by
    intro d hd x hx
    have : x = 0 ∨ x = 1 ∨ x = 16 := by
      simp [draw17] at hd
      rcases hd with rfl | rfl <;> simp at hx <;> omega
    rcases this with rfl | rfl | rfl
    · exact ⟨0, by decide, by decide⟩
    · exact ⟨1, by decide, by decide⟩
    · exact ⟨-1, by decide, by decide⟩
  exact ⟨hd, hd, by decide, by decide, drawErrors_bounded he, drawErrors_bounded he⟩

-- the key of the ternary secret (1, -1, 0) is generated, and rotates (1, 2, 3, 4)
-- by 7 - (3 * 1 + 5 * -1 + 6 * 0) = 9
example : ∃ key r, BlindRotation.ternaryGenerate ⟨8, barrett17, tbl17⟩ [5, 5, 14, 14] ⟨16, 2, 15, 4⟩
      [1, 16, 0] (List.replicate 3 ((draw17, draw17), (draw17, draw17))) = some key ∧
    BlindRotation.ternary ⟨8, barrett17, tbl17⟩ key [1, 2, 3, 4] ⟨[3, 5, 6], 7⟩ = some r ∧
    ∃ β, r.RotatedBy 17 (2 ^ 2) (Rq.ofWords 17 (2 ^ 2) [1, 0, 1, 0]) [1, 2, 3, 4] 9 β := by
  have : Fact (Nat.Prime 17) := ⟨by decide⟩
  obtain ⟨key, ek, hkey⟩ := C38_ternary_generate (R := ⟨8, barrett17, tbl17⟩) (q := 17) (k := 2)
    (by omega) tbl17_field 4 ⟨16, 2, 15, 4⟩ (by decide +kernel) [1, 0, 1, 0] [5, 5, 14, 14]
    ⟨rfl, by decide⟩ (by decide +kernel) 1 [1, 16, 0]
    (List.replicate 3 ((draw17, draw17), (draw17, draw17))) (by decide)
    (fun d hd => by rw [List.eq_of_mem_replicate hd]; exact ⟨draw17_ok, draw17_ok⟩)
  obtain ⟨r, er, hr⟩ := C38_ternary (by omega) (by omega) tbl17_field 4 ⟨16, 2, 15, 4⟩
    (by decide +kernel) _ 1 _ key hkey [1, 2, 3, 4] ⟨rfl, by decide⟩ ⟨[3, 5, 6], 7⟩ rfl (by decide)
    (by decide)
  exact ⟨key, r, ek, er, _, hr⟩

-- the same with the binary secret (1, 0)
example : ∃ key r, BlindRotation.binaryGenerate ⟨8, barrett17, tbl17⟩ [5, 5, 14, 14] ⟨16, 2, 15, 4⟩
      [1, 0] (List.replicate 2 (draw17, draw17)) = some key ∧
    BlindRotation.binary ⟨8, barrett17, tbl17⟩ key [1, 2, 3, 4] ⟨[3, 5], 7⟩ = some r ∧
    ∃ β, r.RotatedBy 17 (2 ^ 2) (Rq.ofWords 17 (2 ^ 2) [1, 0, 1, 0]) [1, 2, 3, 4] 4 β := by
  have : Fact (Nat.Prime 17) := ⟨by decide⟩
  obtain ⟨key, ek, hkey⟩ := C38_binary_generate (R := ⟨8, barrett17, tbl17⟩) (q := 17) (k := 2)
    (by omega) tbl17_field 4 ⟨16, 2, 15, 4⟩ (by decide +kernel) [1, 0, 1, 0] [5, 5, 14, 14]
    ⟨rfl, by decide⟩ (by decide +kernel) 1 [1, 0]
    (List.replicate 2 (draw17, draw17)) (by decide)
    (fun d hd => by rw [List.eq_of_mem_replicate hd]; exact draw17_ok)
  obtain ⟨r, er, hr⟩ := C38_binary (by omega) tbl17_field 4 ⟨16, 2, 15, 4⟩
    (by decide +kernel) _ 1 _ key hkey [1, 2, 3, 4] ⟨rfl, by decide⟩ ⟨[3, 5], 7⟩ rfl (by decide)
    (by decide)
  exact ⟨key, r, ek, er, _, hr⟩

end Verif.Props
