import Verif.Props.AccMask

/-! # C75: a step of the blind rotation with a uniform key element makes the mask of the accumulator uniform -/

namespace Verif.Props
open Fp Finset Spec Ntt
open scoped ENNReal

section
variable {R : Ctx} {k : Nat} {t : Table} (E : Env R k t) [Fact R.M.value.Prime]
include E

theorem NttRep.addW {l d : List Nat} {p r : Rq (ZMod R.M.value) (2 ^ k)} (h : NttRep R k t R.M.value l p)
    (h' : NttRep R k t R.M.value d r) :
    letI := E.nontrivial
    NttRep R k t R.M.value (addW R.M.value l d) (p + r) := by
  have := E.nontrivial
  refine Vals.of_getD (by rw [addW_length]; exact h.len) fun i hi => ?_
  rw [addW_getD (by rw [h.len]; exact hi)]
  refine ⟨Nat.mod_lt _ E.q_pos, ?_⟩
  rw [ZMod.natCast_mod, Nat.cast_add, Rq.evalAt_add, h.val i hi, h'.val i hi]

theorem rgswLaw_uniform_ok {χ : PMF Nat} (hχ : ∀ e ∈ χ.support, e < R.M.value) [NeZero R.M.value] {len : Nat}
    {d : BlindRotation.RgswDraw}
    (hd : d ∈ (rgswLaw (draws (uniformBelow R.M.value) (2 ^ k)) χ (2 ^ k) len).support) :
    RgswOk R.M.value (2 ^ k) len d ∧ d.1.length = len ∧ d.2.length = len ∧ ∃ A0 A1, DrawMasks R k t len d A0 A1 := by
  have key : ∀ l : List Draw, l ∈ (draws (sampleLaw (draws (uniformBelow R.M.value) (2 ^ k)) χ (2 ^ k)) len).support →
      DrawsOk R.M.value (2 ^ k) l ∧ l.length = len ∧ ∃ A : Nat → Rq (ZMod R.M.value) (2 ^ k), ∀ j < len,
        NttRep R k t R.M.value (l.getD j ([], [])).1 (A j) := by
    intro l hl
    obtain ⟨e3, e4⟩ := mem_support_draws hl
    have hok : DrawsOk R.M.value (2 ^ k) l := fun d hd => by
      obtain ⟨e5, e6⟩ := mem_support_pair (e4 d hd)
      obtain ⟨e7, e8⟩ := mem_support_draws e5
      obtain ⟨e9, e10⟩ := mem_support_draws e6
      exact ⟨⟨e7, fun v hv => mem_support_uniformBelow (e8 v hv)⟩, ⟨e9, fun v hv => hχ v (e10 v hv)⟩⟩
    refine ⟨hok, e3, ?_⟩
    have : ∀ j, ∃ a : Rq (ZMod R.M.value) (2 ^ k), j < len → NttRep R k t R.M.value (l.getD j ([], [])).1 a := by
      intro j
      by_cases hj : j < l.length
      · obtain ⟨a, hA⟩ := E.exists_ntt' (hok _ (List.getElem_mem hj)).1
        exact ⟨a, fun _ => by rwa [List.getD_eq_getElem _ _ hj]⟩
      · exact ⟨0, fun h => absurd h (by omega)⟩
    choose A hA using this
    exact ⟨A, hA⟩
  obtain ⟨h1, h2⟩ := mem_support_pair hd
  obtain ⟨o1, l1, A0, hA0⟩ := key _ h1
  obtain ⟨o2, l2, A1, hA1⟩ := key _ h2
  exact ⟨⟨o1, o2, l1.ge, l2.ge⟩, l1, l2, A0, A1, fun j hj => ⟨hA0 j hj, hA1 j hj⟩⟩

/-- A mask which is a fixed combination of uniform masks is uniform, if the coefficients have no common root. -/
theorem mask_uniform [NeZero R.M.value] [Nontrivial (ZMod R.M.value)] {χ : PMF Nat}
    (hχ : ∀ e ∈ χ.support, e < R.M.value) (bits len : Nat) (lw : Nat → List Nat)
    (hn : NoCommonRoot (fun c j => digitPoly R.M.value (2 ^ k) bits (lw c) j) 2 len)
    (Out : BlindRotation.RgswDraw → Option (List Nat)) (base : Rq (ZMod R.M.value) (2 ^ k))
    (hOut : ∀ d, RgswOk R.M.value (2 ^ k) len d → ∀ A0 A1, DrawMasks R k t len d A0 A1 → ∃ o, Out d = some o ∧
      Rep R.M.value (2 ^ k) o (base + (gadgetError R.M.value (2 ^ k) bits len (lw 0) A0 +
        gadgetError R.M.value (2 ^ k) bits len (lw 1) A1))) (f : Option (List Nat) → ℝ≥0∞) :
    (mean (rgswLaw (draws (uniformBelow R.M.value) (2 ^ k)) χ (2 ^ k) len) fun d => f (Out d)) =
      mean (draws (uniformBelow R.M.value) (2 ^ k)) fun l => f (some l) := by
  obtain ⟨g, hg⟩ := exists_cofactors E _ _ _ hn
  refine uniform_of_translations _ Out (fun W hW => ?_) f
  choose δ hδ using fun c j => exists_words (t := t) (Rq.ofWords R.M.value (2 ^ k) W * g c j)
  refine ⟨shiftRgsw R.M.value δ, fun F => shiftRgsw_mean χ _ _ δ F, fun d hd => ?_⟩
  obtain ⟨hok, l1, l2, A0, A1, hA⟩ := rgswLaw_uniform_ok E hχ hd
  obtain ⟨o, eo, ho⟩ := hOut d hok A0 A1 hA
  obtain ⟨o', eo', ho'⟩ := hOut (shiftRgsw R.M.value δ d)
    ⟨shiftList_ok hok.1, shiftList_ok hok.2.1, by simp [shiftRgsw, shiftList, l1], by simp [shiftRgsw, shiftList, l2]⟩
    (fun j => A0 j + Rq.ofWords R.M.value (2 ^ k) W * g 0 j) (fun j => A1 j + Rq.ofWords R.M.value (2 ^ k) W * g 1 j)
    (fun j hj => by
      unfold shiftRgsw
      rw [shiftList_getD (by omega), shiftList_getD (by omega)]
      exact ⟨NttRep.addW E (hA j hj).1 (hδ 0 j), NttRep.addW E (hA j hj).2 (hδ 1 j)⟩)
  refine ⟨o, eo, ?_⟩
  rw [eo']
  congr 1
  have hW' := Rep.addW (d := o) (rep_exists hW)
  rw [(rep_iff.1 ho).2] at hW'
  rw [Rep.words_eq ho', Rep.words_eq hW']
  congr 1
  rw [sum_range_succ, sum_range_one] at hg
  simp only [gadgetError, mul_add, sum_add_distrib]
  have e : ∀ c, ∑ j ∈ range len, digitPoly R.M.value (2 ^ k) bits (lw c) j * (Rq.ofWords R.M.value (2 ^ k) W * g c j) =
      Rq.ofWords R.M.value (2 ^ k) W * ∑ j ∈ range len, digitPoly R.M.value (2 ^ k) bits (lw c) j * g c j := fun c => by
    rw [mul_sum]
    exact sum_congr rfl fun j _ => by ring
  rw [e, e]
  linear_combination (Rq.ofWords R.M.value (2 ^ k) W) * hg

end

/-- The digits decomposed in the step for `a` have no common root. -/
def StepGood (q n bits len a : Nat) [NeZero n] [Nontrivial (ZMod q)] (acc : RLWE) : Prop :=
  NoCommonRoot (fun c j => digitPoly q n bits (stepWords q n a acc c) j) 2 len

/-- A step with a random key element makes the mask of the accumulator uniform. -/
def StepUniform {K α : Type} (q n bits len : Nat) [NeZero q] [NeZero n] [Nontrivial (ZMod q)] (s : Rq (ZMod q) n)
    (p : PMF α) (gen : α → Option K) (step : BlindRotation.State → K → Nat → Option BlindRotation.State) : Prop :=
  ∀ (a : Nat) (φ : Rq (ZMod q) n) (st : BlindRotation.State), 0 < a → a < 2 * n →
    BlindRotation.Inv q n s φ st → StepGood q n bits len a st.acc → ∀ f : Option (List Nat) → ℝ≥0∞,
    (mean p fun d => f ((gen d).bind fun g => (step st g a).map fun st' => st'.acc.a)) =
      mean (draws (uniformBelow q) n) fun l => f (some l)

section
variable {R : Ctx} {q k : Nat} [Fact q.Prime] {χ : PMF Nat}

theorem gadgetError_add [Nontrivial (ZMod q)] (n bits len : Nat) [NeZero n] (l : List Nat)
    (A A' : Nat → Rq (ZMod q) n) : gadgetError q n bits len l (fun j => A j + A' j) =
      gadgetError q n bits len l A + gadgetError q n bits len l A' := by
  unfold gadgetError
  rw [← sum_add_distrib]
  exact sum_congr rfl fun j _ => by ring

theorem binary_step_uniform [NeZero q] [Nontrivial (ZMod q)] (hk : 0 < k) (F : TableField R.w q R.M R.tbl k)
    (bits : Nat) (B : Basis)
    (hB : Basis.new R.w q bits = some B) (s sn : List Nat) (hs : Reduced q (2 ^ k) s)
    (hsn : Poly.toNtt R.w R.M R.tbl s = some sn) (hχ : ∀ e ∈ χ.support, e < q) (x : Nat) :
    StepUniform q (2 ^ k) bits B.decomposeLen (Rq.ofWords q (2 ^ k) s)
      (rgswLaw (draws (uniformBelow q) (2 ^ k)) χ (2 ^ k) B.decomposeLen)
      (BlindRotation.binaryKey R sn B x) (BlindRotation.binaryStep R (2 ^ k)) := by
  intro a φ st ha0 ha hst hgood f
  obtain ⟨t, rfl, E⟩ := F.env hk
  obtain ⟨C, hC⟩ : ∃ C : Nat → Rq (ZMod R.M.value) (2 ^ k), ∀ d, RgswOk R.M.value (2 ^ k) B.decomposeLen d →
      ∀ A0 A1, DrawMasks R k t B.decomposeLen d A0 A1 → ∃ g, BlindRotation.binaryKey R sn B x d = some g ∧
      MaskedBy R R.M.value (2 ^ k) bits g (fun j => A0 j + C j) A1 := by
    by_cases hx : x = 0
    · refine ⟨fun _ => 0, fun d hd A0 A1 hA => ?_⟩
      obtain ⟨g, eg, hg⟩ := zero_masked E F bits B hB s sn hs hsn hk d hd A0 A1 hA
      refine ⟨g, by unfold BlindRotation.binaryKey; rw [if_pos hx, eg], ?_⟩
      simpa only [add_zero] using hg
    · refine ⟨fun j => Rq.const ((2 ^ (bits * j) : Nat) : ZMod R.M.value), fun d hd A0 A1 hA => ?_⟩
      obtain ⟨g, eg, hg⟩ := one_masked E F bits B hB s sn hs hsn hk d hd A0 A1 hA
      exact ⟨g, by unfold BlindRotation.binaryKey; rw [if_neg hx, eg], hg⟩
  refine mask_uniform E hχ bits B.decomposeLen (stepWords R.M.value (2 ^ k) a st.acc) hgood
    (fun d => (BlindRotation.binaryKey R sn B x d).bind fun g =>
      (BlindRotation.binaryStep R (2 ^ k) st g a).map fun st' => st'.acc.a)
    (Rq.ofWords R.M.value (2 ^ k) st.acc.a + gadgetError R.M.value (2 ^ k) bits B.decomposeLen
      (stepWords R.M.value (2 ^ k) a st.acc 0) C) (fun d hd A0 A1 hA => ?_) f
  obtain ⟨g, eg, hg⟩ := hC d hd A0 A1 hA
  obtain ⟨st', es, hr⟩ := update_mask hk F bits B hB _ φ a ha.le st hst _ _ g hg
  refine ⟨st'.acc.a, ?_, ?_⟩
  · rw [eg, Option.bind_some]
    unfold BlindRotation.binaryStep
    rw [if_neg (by omega), es]; rfl
  · rw [gadgetError_add] at hr
    convert hr using 1
    ring

theorem negOneMonomial_ntt (hk : 0 < k) (hk' : k ≤ 31) (F : TableField R.w q R.M R.tbl k) (a : Nat)
    (t : Table) (ht : R.tbl k = some t) (ha : 0 < a) : ∃ pm m, Reduced q (2 ^ k) pm ∧ Poly.toNtt R.w R.M R.tbl pm = some m ∧
      Table.negOneMonomial R.M t (2 * 2 ^ k - a) (2 ^ k) = some m := by
  have h1q : Fact (1 < q) := ⟨(Fact.out : q.Prime).one_lt⟩
  obtain ⟨m, em, hntt⟩ := negOneMonomial_toNtt hk hk' F t ht (2 * 2 ^ k - a)
    (by have := Nat.two_pow_pos k; omega)
  exact ⟨_, m, (ofWords_negMono (q := q) (2 ^ k) (2 * 2 ^ k - a)).1, hntt, em⟩

theorem ternary_step_uniform [NeZero q] [Nontrivial (ZMod q)] (hk : 0 < k) (hk' : k ≤ 31)
    (F : TableField R.w q R.M R.tbl k) (bits : Nat) (B : Basis)
    (hB : Basis.new R.w q bits = some B) (s sn : List Nat) (hs : Reduced q (2 ^ k) s)
    (hsn : Poly.toNtt R.w R.M R.tbl s = some sn) (tb : Table) (htb : R.tbl k = some tb)
    (hχ : ∀ e ∈ χ.support, e < q) (x : Nat) :
    StepUniform q (2 ^ k) bits B.decomposeLen (Rq.ofWords q (2 ^ k) s)
      (pair (rgswLaw (draws (uniformBelow q) (2 ^ k)) χ (2 ^ k) B.decomposeLen)
        (rgswLaw (draws (uniformBelow q) (2 ^ k)) χ (2 ^ k) B.decomposeLen))
      (BlindRotation.ternaryKey R sn B x) (BlindRotation.ternaryStep R tb (2 ^ k)) := by
  intro a φ st ha0 ha hst hgood f
  obtain ⟨pm, m, hpm, em, hmn⟩ : ∃ pm m, Reduced q (2 ^ k) pm ∧ Poly.toNtt R.w R.M R.tbl pm = some m ∧
      Table.negOneMonomial R.M tb (2 * 2 ^ k - a) (2 ^ k) = some m := negOneMonomial_ntt hk hk' F a tb htb ha0
  obtain ⟨t, rfl, E⟩ := F.env hk
  obtain ⟨C, C', hC⟩ : ∃ C C' : Nat → Rq (ZMod R.M.value) (2 ^ k), ∀ d d', RgswOk R.M.value (2 ^ k) B.decomposeLen d →
      RgswOk R.M.value (2 ^ k) B.decomposeLen d' → ∀ A0 A1, DrawMasks R k t B.decomposeLen d A0 A1 → ∀ A0' A1',
      DrawMasks R k t B.decomposeLen d' A0' A1' → ∃ g, BlindRotation.ternaryKey R sn B x (d, d') = some g ∧
      MaskedBy R R.M.value (2 ^ k) bits g.1 (fun j => A0 j + C j) A1 ∧
      MaskedBy R R.M.value (2 ^ k) bits g.2 (fun j => A0' j + C' j) A1' := by
    by_cases h1 : x = 1
    · refine ⟨fun j => Rq.const ((2 ^ (bits * j) : Nat) : ZMod R.M.value), fun _ => 0, fun d d' hd hd' A0 A1 hA A0' A1' hA' => ?_⟩
      obtain ⟨g, eg, hg⟩ := one_masked E F bits B hB s sn hs hsn hk d hd A0 A1 hA
      obtain ⟨g', eg', hg'⟩ := zero_masked E F bits B hB s sn hs hsn hk d' hd' A0' A1' hA'
      refine ⟨(g, g'), by unfold BlindRotation.ternaryKey; rw [if_pos h1, mbind eg, mbind eg']; rfl, hg, ?_⟩
      simpa only [add_zero] using hg'
    · by_cases hx : x = 0
      · refine ⟨fun _ => 0, fun _ => 0, fun d d' hd hd' A0 A1 hA A0' A1' hA' => ?_⟩
        obtain ⟨g, eg, hg⟩ := zero_masked E F bits B hB s sn hs hsn hk d hd A0 A1 hA
        obtain ⟨g', eg', hg'⟩ := zero_masked E F bits B hB s sn hs hsn hk d' hd' A0' A1' hA'
        refine ⟨(g, g'), by unfold BlindRotation.ternaryKey; rw [if_neg h1, if_pos hx, mbind eg, mbind eg']; rfl, ?_, ?_⟩
        · simpa only [add_zero] using hg
        · simpa only [add_zero] using hg'
      · refine ⟨fun _ => 0, fun j => Rq.const ((2 ^ (bits * j) : Nat) : ZMod R.M.value), fun d d' hd hd' A0 A1 hA A0' A1' hA' => ?_⟩
        obtain ⟨g, eg, hg⟩ := zero_masked E F bits B hB s sn hs hsn hk d hd A0 A1 hA
        obtain ⟨g', eg', hg'⟩ := one_masked E F bits B hB s sn hs hsn hk d' hd' A0' A1' hA'
        refine ⟨(g, g'), by unfold BlindRotation.ternaryKey; rw [if_neg h1, if_neg hx, mbind eg, mbind eg']; rfl, ?_, hg'⟩
        simpa only [add_zero] using hg
  rw [mean_pair, mean_comm]
  refine (mean_congr fun d' hd' => ?_).trans (mean_const _ _)
  obtain ⟨hok', -, -, A0', A1', hA'⟩ := rgswLaw_uniform_ok E hχ hd'
  obtain ⟨M, hM⟩ : ∃ M, M = Rq.ofWords R.M.value (2 ^ k) pm := ⟨_, rfl⟩
  refine mask_uniform E hχ bits B.decomposeLen (stepWords R.M.value (2 ^ k) a st.acc) hgood
    (fun d => (BlindRotation.ternaryKey R sn B x (d, d')).bind fun g =>
      (BlindRotation.ternaryStep R tb (2 ^ k) st g a).map fun st' => st'.acc.a)
    (Rq.ofWords R.M.value (2 ^ k) st.acc.a + gadgetError R.M.value (2 ^ k) bits B.decomposeLen
      (stepWords R.M.value (2 ^ k) a st.acc 0) (fun j => C j + (A0' j + C' j) * M) +
      gadgetError R.M.value (2 ^ k) bits B.decomposeLen
      (stepWords R.M.value (2 ^ k) a st.acc 1) (fun j => A1' j * M)) (fun d hd A0 A1 hA => ?_) f
  obtain ⟨g, eg, hg, hg'⟩ := hC d d' hd hok' A0 A1 hA A0' A1' hA'
  obtain ⟨r, er, hr⟩ := masked_add_mul hk F bits _ _ _ _ _ _ hg hg' pm m hpm em
  obtain ⟨st', es, hr⟩ := update_mask hk F bits B hB _ φ a ha.le st hst _ _ r hr
  refine ⟨st'.acc.a, ?_, ?_⟩
  · rw [eg, Option.bind_some]
    unfold BlindRotation.ternaryStep
    rw [if_neg (by omega), mbind (subC_eq ha.le), mbind hmn, mbind er, es]; rfl
  · rw [← hM] at hr
    have e0 : (fun j => A0 j + C j + (A0' j + C' j) * M) = fun j => A0 j + (C j + (A0' j + C' j) * M) :=
      funext fun j => by ring
    rw [e0, gadgetError_add (A := A0), gadgetError_add (A := A1)] at hr
    convert hr using 1
    ring

end
end Verif.Props
