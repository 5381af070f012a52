import Verif.Props.MaskSpread

/-! # C75: the mask of the accumulator after a step of the blind rotation -/

namespace Verif.Props
open Fp Finset Spec Ntt
open scoped ENNReal

/-- The words of a ring element. -/
def wordsOf {q n : Nat} (p : Rq (ZMod q) n) : List Nat := (List.range n).map fun i => (p.seq i).val

section
variable {q n : Nat} [NeZero q]

omit [NeZero q] in
theorem wordsOf_getD (p : Rq (ZMod q) n) {i : Nat} (hi : i < n) : (wordsOf p).getD i 0 = (p.seq i).val := by
  rw [List.getD_eq_getElem _ _ (by simpa [wordsOf] using hi)]
  simp [wordsOf]

theorem wordsOf_rep (p : Rq (ZMod q) n) : Rep q n (wordsOf p) p :=
  Vals.of_getD (by simp [wordsOf]) fun i hi => by
    rw [wordsOf_getD p hi]
    exact ⟨ZMod.val_lt _, ZMod.natCast_zmod_val _⟩

theorem Rep.words_eq {l : List Nat} {p : Rq (ZMod q) n} (h : Rep q n l p) : l = wordsOf p := by
  have h' := wordsOf_rep p
  refine list_ext_of_cast h.len h'.len (fun i hi => h.lt _ (getD_mem _ (by rw [h.len]; exact hi)))
    (fun i hi => h'.lt _ (getD_mem _ (by rw [h'.len]; exact hi))) fun i hi => ?_
  rw [h.val i hi, h'.val i hi]

theorem Reduced.addW {l d : List Nat} (h : Reduced q n l) : Reduced q n (addW q l d) :=
  ⟨by rw [addW_length, h.1], fun x hx => by
    obtain ⟨i, hi, rfl⟩ := List.mem_iff_getElem.1 hx
    simp only [Props.addW, List.getElem_mapIdx]
    exact Nat.mod_lt _ (Nat.pos_of_ne_zero (NeZero.ne q))⟩

theorem Rep.addW {l d : List Nat} {p : Rq (ZMod q) n} [NeZero n] [Nontrivial (ZMod q)] (h : Rep q n l p) :
    Rep q n (addW q l d) (p + Rq.ofWords q n d) := by
  refine Vals.of_getD (by rw [addW_length, h.len]) fun i hi => ?_
  rw [addW_getD (by rw [h.len]; exact hi)]
  refine ⟨Nat.mod_lt _ (Nat.pos_of_ne_zero (NeZero.ne q)), ?_⟩
  rw [ZMod.natCast_mod, Nat.cast_add, h.val i hi, Rq.seq_lt _ hi, Rq.seq_lt _ hi, Rq.add_co]
  rfl

/-- If every translation of the words of an outcome is an invariance of the law, then they are uniform. -/
theorem uniform_of_translations {α : Type} (p : PMF α) (Out : α → Option (List Nat))
    (h : ∀ W, Reduced q n W → ∃ τ : α → α, (∀ F : α → ℝ≥0∞, (mean p fun d => F (τ d)) = mean p F) ∧
      ∀ d ∈ p.support, ∃ o, Out d = some o ∧ Out (τ d) = some (addW q W o)) (f : Option (List Nat) → ℝ≥0∞) :
    (mean p fun d => f (Out d)) = mean (draws (uniformBelow q) n) fun l => f (some l) := by
  calc (mean p fun d => f (Out d))
      = mean (draws (uniformBelow q) n) fun _ => mean p fun d => f (Out d) := (mean_const _ _).symm
    _ = mean (draws (uniformBelow q) n) fun W => mean p fun d => f (some (addW q W ((Out d).getD []))) :=
        mean_congr fun W hW => by
          obtain ⟨e1, e2⟩ := mem_support_draws hW
          obtain ⟨τ, hτ, hd⟩ := h W ⟨e1, fun v hv => mem_support_uniformBelow (e2 v hv)⟩
          rw [← hτ fun d => f (Out d)]
          refine mean_congr fun d hd' => ?_
          obtain ⟨o, eo, e⟩ := hd d hd'
          rw [e, eo]; rfl
    _ = mean p fun d => mean (draws (uniformBelow q) n) fun W => f (some (addW q W ((Out d).getD []))) :=
        mean_comm _ _ _
    _ = mean p fun _ => mean (draws (uniformBelow q) n) fun W => f (some W) :=
        mean_congr fun d _ => uniform_shift ((Out d).getD []) n fun W => f (some W)
    _ = _ := mean_const _ _

/-- Shift the masks of a list of draws. -/
def shiftList (q : Nat) (δ : Nat → List Nat) (l : List Draw) : List Draw :=
  l.mapIdx fun j x => (addW q x.1 (δ j), x.2)

omit [NeZero q] in
theorem shiftList_getD {δ : Nat → List Nat} {l : List Draw} {j : Nat} (hj : j < l.length) :
    (shiftList q δ l).getD j ([], []) = (addW q (l.getD j ([], [])).1 (δ j), (l.getD j ([], [])).2) := by
  rw [List.getD_eq_getElem _ _ (by simpa [shiftList] using hj), List.getD_eq_getElem _ _ hj]
  simp [shiftList]

theorem shiftList_mean (χ : PMF Nat) (m len : Nat) (δ : Nat → List Nat) (f : List Draw → ℝ≥0∞) :
    (mean (draws (sampleLaw (draws (uniformBelow q) n) χ m) len) fun l => f (shiftList q δ l)) =
      mean (draws (sampleLaw (draws (uniformBelow q) n) χ m) len) f := by
  refine mean_draws_mapIdx _ len _ (fun j _ => pmf_ext_mean fun F => ?_) f
  rw [mean_map]
  unfold sampleLaw
  rw [mean_pair, mean_pair]
  exact uniform_shift (δ j) n fun a => mean (draws χ m) fun e => F (a, e)

theorem shiftList_ok {δ : Nat → List Nat} {l : List Draw} (h : DrawsOk q n l) : DrawsOk q n (shiftList q δ l) := by
  intro d hd
  obtain ⟨j, hj, rfl⟩ := List.mem_iff_getElem.1 hd
  simp only [shiftList, List.getElem_mapIdx, List.length_mapIdx] at hj ⊢
  obtain ⟨h1, h2⟩ := h _ (List.getElem_mem hj)
  exact ⟨Reduced.addW h1, h2⟩

/-- Shift the masks of the draws of an RGSW ciphertext. -/
def shiftRgsw (q : Nat) (δ : Nat → Nat → List Nat) (d : BlindRotation.RgswDraw) : BlindRotation.RgswDraw :=
  (shiftList q (δ 0) d.1, shiftList q (δ 1) d.2)

theorem shiftRgsw_mean (χ : PMF Nat) (m len : Nat) (δ : Nat → Nat → List Nat)
    (f : BlindRotation.RgswDraw → ℝ≥0∞) :
    (mean (rgswLaw (draws (uniformBelow q) n) χ m len) fun d => f (shiftRgsw q δ d)) =
      mean (rgswLaw (draws (uniformBelow q) n) χ m len) f := by
  unfold rgswLaw
  rw [mean_pair, mean_pair]
  unfold shiftRgsw
  rw [shiftList_mean χ m len (δ 0) fun a => mean (draws (sampleLaw (draws (uniformBelow q) n) χ m) len)
    fun b => f (a, shiftList q (δ 1) b)]
  refine mean_congr fun a _ => ?_
  exact shiftList_mean χ m len (δ 1) fun b => f (a, b)

end

/-- The rows of `g` have the masks `A0 j` and `A1 j`. -/
def MaskedBy (R : Ctx) (q n bits : Nat) [NeZero n] [Nontrivial (ZMod q)] (g : NTTRGSW)
    (A0 A1 : Nat → Rq (ZMod q) n) : Prop :=
  ∃ B0 B1 : Nat → Rq (ZMod q) n, ∀ s, g.Encrypts R q n bits s 0 (fun j => B0 j - A0 j * s) fun j => B1 j - A1 j * s

section
variable {R : Ctx} {k : Nat} {t : Table} (E : Env R k t)
include E

theorem gadget_masked [Nontrivial (ZMod R.M.value)] {bits : Nat} {s m : Rq (ZMod R.M.value) (2 ^ k)}
    {e A : Nat → Rq (ZMod R.M.value) (2 ^ k)}
    {g : NTTGadgetRLWE} (hg : g.Encrypts R R.M.value (2 ^ k) bits s m e)
    (hA : ∀ j (h : j < g.data.length), NttRep R k t R.M.value g.data[j].a (A j)) :
    ∃ B : Nat → Rq (ZMod R.M.value) (2 ^ k), ∀ s', g.Encrypts R R.M.value (2 ^ k) bits s' 0
      fun j => B j - A j * s' := by
  obtain ⟨GA, GB, hG⟩ := NTTGadgetRLWE.Encrypts.rep E hg
  refine ⟨GB, fun s' => ⟨hg.basis, hg.len, fun j hj => ?_⟩⟩
  have := (hG j hj).1
  rw [List.getD_eq_getElem _ _ hj] at this
  refine (nttHasPhase_iff E (Or.inl rfl)).2 ⟨A j, GB j, ⟨hA j hj, this.b⟩, ?_⟩
  unfold rlwePhase
  ring

end

theorem generateLoop_elem {R : Ctx} {sample : Nat → List Nat → List Nat → Option NTTRLWE} {basis : Nat} :
    ∀ {cnt power : Nat} {ds : List Draw} {out : List NTTRLWE},
    NTTGadgetRLWE.generateLoop R sample basis cnt power ds = some out → ∀ j (h : j < out.length),
    sample (power * basis ^ j) (ds.getD j ([], [])).1 (ds.getD j ([], [])).2 = some out[j]
  | _, _, [], out, h => by unfold NTTGadgetRLWE.generateLoop at h; cases h
  | 0, power, (a, e) :: ds, out, h => by
    unfold NTTGadgetRLWE.generateLoop at h
    obtain ⟨r, hr, h⟩ := Option.bind_eq_some_iff.1 h
    cases h
    intro j hj
    obtain rfl : j = 0 := by simpa using hj
    simpa using hr
  | cnt + 1, power, (a, e) :: ds, out, h => by
    unfold NTTGadgetRLWE.generateLoop at h
    obtain ⟨r, hr, h⟩ := Option.bind_eq_some_iff.1 h
    obtain ⟨p, hp, h⟩ := Option.bind_eq_some_iff.1 h
    obtain ⟨rs, hrs, h⟩ := Option.bind_eq_some_iff.1 h
    cases h
    intro j hj
    cases j with
    | zero => simpa using hr
    | succ j =>
      have := generateLoop_elem hrs j (by simpa using hj)
      have hpe : p = power * basis := by
        unfold mulC at hp
        split at hp
        · exact (Option.some.inj hp).symm
        · cases hp
      rw [hpe, mul_assoc, ← pow_succ'] at this
      simpa using this

section
variable {R : Ctx} {k : Nat} {t : Table} (E : Env R k t) [Fact R.M.value.Prime]
  (F : TableField R.w R.M.value R.M R.tbl k) (bits : Nat) (B : Basis)
  (hB : Basis.new R.w R.M.value bits = some B) (s sn : List Nat) (hs : Reduced R.M.value (2 ^ k) s)
  (hsn : Poly.toNtt R.w R.M R.tbl s = some sn) (hk : 0 < k)
include E F hB hs hsn hk

theorem zero_gadget_masked (ds : List Draw) (hd : DrawsOk R.M.value (2 ^ k) ds) (hl : B.decomposeLen ≤ ds.length)
    (A : Nat → Rq (ZMod R.M.value) (2 ^ k))
    (hA : ∀ j < B.decomposeLen, NttRep R k t R.M.value (ds.getD j ([], [])).1 (A j)) :
    ∃ g, NTTGadgetRLWE.zeroSample R sn B ds = some g ∧ ∃ b : Nat → Rq (ZMod R.M.value) (2 ^ k),
      ∀ s', g.Encrypts R R.M.value (2 ^ k) bits s' 0 fun j => b j - A j * s' := by
  have := E.nontrivial
  obtain ⟨⟨g, eg, hg⟩, -, -⟩ := C36_ntt_samples hk F bits B hB s sn hs hsn ds hd hl
  refine ⟨g, eg, gadget_masked E hg fun j hj => ?_⟩
  have hlen := hg.len
  rw [show g.basis = B from Option.some.inj (hg.basis.symm.trans hB)] at hlen
  have hjB : j < B.decomposeLen := by omega
  unfold NTTGadgetRLWE.zeroSample at eg
  rw [if_pos hl] at eg
  obtain ⟨data, hdata, eg⟩ := Option.bind_eq_some_iff.1 eg
  cases eg
  obtain ⟨out, eo, -, ho⟩ := zeroSample_aux (f := fun d => NTTRLWE.zeroSample R sn d.1 d.2)
    (P := fun d r => NTTRLWE.zeroSample R sn d.1 d.2 = some r) hd hl (fun d h1 h2 => by
      obtain ⟨r, er, -⟩ := (samples_spec hk F s sn hs hsn d.1 d.2 h1 h2 0 E.q_pos).2.2.2.1
      exact ⟨r, er, er⟩)
  obtain rfl := Option.some.inj (hdata.symm.trans eo)
  rw [nttZeroSample_a (ho j hj)]
  exact hA j hjB

theorem one_gadget_masked (ds : List Draw) (hd : DrawsOk R.M.value (2 ^ k) ds) (hl : B.decomposeLen ≤ ds.length)
    (A : Nat → Rq (ZMod R.M.value) (2 ^ k))
    (hA : ∀ j < B.decomposeLen, NttRep R k t R.M.value (ds.getD j ([], [])).1 (A j)) :
    ∃ g, NTTGadgetRLWE.oneSample R sn B ds = some g ∧ ∃ b : Nat → Rq (ZMod R.M.value) (2 ^ k),
      ∀ s', g.Encrypts R R.M.value (2 ^ k) bits s' 0 fun j => b j - A j * s' := by
  have := E.nontrivial
  obtain ⟨-, ⟨g, eg, hg⟩, -⟩ := C36_ntt_samples hk F bits B hB s sn hs hsn ds hd hl
  refine ⟨g, eg, gadget_masked E hg fun j hj => ?_⟩
  have hlen := hg.len
  rw [show g.basis = B from Option.some.inj (hg.basis.symm.trans hB)] at hlen
  have hjB : j < B.decomposeLen := by omega
  unfold NTTGadgetRLWE.oneSample at eg
  obtain ⟨c, -, eg⟩ := Option.bind_eq_some_iff.1 eg
  obtain ⟨data, hdata, eg⟩ := Option.bind_eq_some_iff.1 eg
  cases eg
  have he := generateLoop_elem hdata j hj
  unfold NTTRLWE.valueSample at he
  split at he
  · obtain ⟨_, _, he⟩ := Option.bind_eq_some_iff.1 he
    obtain ⟨_, _, he⟩ := Option.bind_eq_some_iff.1 he
    obtain ⟨_, _, he⟩ := Option.bind_eq_some_iff.1 he
    have := congrArg NTTRLWE.a (Option.some.inj he)
    rw [← this]
    exact hA j hjB
  · cases he

theorem neg_gadget_masked (ds : List Draw) (hd : DrawsOk R.M.value (2 ^ k) ds) (hl : B.decomposeLen ≤ ds.length)
    (A : Nat → Rq (ZMod R.M.value) (2 ^ k))
    (hA : ∀ j < B.decomposeLen, NttRep R k t R.M.value (ds.getD j ([], [])).1 (A j)) :
    letI := E.nontrivial
    ∃ g, NTTGadgetRLWE.negSecretSample R sn B ds = some g ∧ ∃ b : Nat → Rq (ZMod R.M.value) (2 ^ k),
      ∀ s', g.Encrypts R R.M.value (2 ^ k) bits s' 0 fun j =>
        b j - (A j + Rq.const ((2 ^ (bits * j) : Nat) : ZMod R.M.value)) * s' := by
  have := E.nontrivial
  obtain ⟨-, -, ⟨g, eg, hg⟩⟩ := C36_ntt_samples hk F bits B hB s sn hs hsn ds hd hl
  refine ⟨g, eg, gadget_masked E hg fun j hj => ?_⟩
  have hlen := hg.len
  rw [show g.basis = B from Option.some.inj (hg.basis.symm.trans hB)] at hlen
  have hjB : j < B.decomposeLen := by omega
  have hqw : R.M.value < 2 ^ R.w := by have := E.C.four_mul_lt; omega
  obtain ⟨_, _, _, _, _, hbasis, _⟩ := new_basis hqw hB
  obtain ⟨_, hl1, hlt⟩ := len_bounds hqw E.C.two_le hB
  unfold NTTGadgetRLWE.negSecretSample at eg
  obtain ⟨c, -, eg⟩ := Option.bind_eq_some_iff.1 eg
  obtain ⟨data, hdata, eg⟩ := Option.bind_eq_some_iff.1 eg
  cases eg
  have he := generateLoop_elem hdata j hj
  rw [show Fp.one = 1 from rfl, one_mul, hbasis, ← pow_mul] at he
  have hv : 2 ^ (bits * j) < R.M.value :=
    lt_of_le_of_lt (Nat.pow_le_pow_right (by omega) (Nat.mul_le_mul_left _ (by omega))) hlt
  unfold NTTGadgetRLWE.negSecretElement at he
  obtain ⟨r, hr, he⟩ := Option.bind_eq_some_iff.1 he
  obtain ⟨a', ha', he⟩ := Option.bind_eq_some_iff.1 he
  obtain ⟨o, eo, ho⟩ := (hA j hjB).addConst E hv
  rw [nttZeroSample_a hr] at ha'
  obtain rfl := Option.some.inj (ha'.symm.trans eo)
  have := congrArg NTTRLWE.a (Option.some.inj he)
  rw [← this]
  exact ho

/-- The masks of a drawn RGSW ciphertext. -/
def DrawMasks (R : Ctx) (k : Nat) (t : Table) (len : Nat) (d : BlindRotation.RgswDraw)
    (A0 A1 : Nat → Rq (ZMod R.M.value) (2 ^ k)) : Prop :=
  ∀ j < len, NttRep R k t R.M.value (d.1.getD j ([], [])).1 (A0 j) ∧
    NttRep R k t R.M.value (d.2.getD j ([], [])).1 (A1 j)

/-- The draws have the right lengths. -/
def RgswOk (q n len : Nat) (d : BlindRotation.RgswDraw) : Prop :=
  DrawsOk q n d.1 ∧ DrawsOk q n d.2 ∧ len ≤ d.1.length ∧ len ≤ d.2.length

theorem zero_masked (d : BlindRotation.RgswDraw) (hd : RgswOk R.M.value (2 ^ k) B.decomposeLen d)
    (A0 A1 : Nat → Rq (ZMod R.M.value) (2 ^ k)) (hA : DrawMasks R k t B.decomposeLen d A0 A1) :
    letI := E.nontrivial
    ∃ g, NTTRGSW.zeroSample R sn B d.1 d.2 = some g ∧ MaskedBy R R.M.value (2 ^ k) bits g A0 A1 := by
  have := E.nontrivial
  obtain ⟨h0, h1, l0, l1⟩ := hd
  obtain ⟨g0, e0, b0, H0⟩ := zero_gadget_masked E F bits B hB s sn hs hsn hk d.1 h0 l0 A0 fun j hj => (hA j hj).1
  obtain ⟨g1, e1, b1, H1⟩ := zero_gadget_masked E F bits B hB s sn hs hsn hk d.2 h1 l1 A1 fun j hj => (hA j hj).2
  refine ⟨⟨g0, g1⟩, by unfold NTTRGSW.zeroSample; rw [mbind e0, mbind e1]; rfl, b0, b1, fun s' => ⟨?_, H1 s'⟩⟩
  rw [mul_zero]
  exact H0 s'

theorem one_masked (d : BlindRotation.RgswDraw) (hd : RgswOk R.M.value (2 ^ k) B.decomposeLen d)
    (A0 A1 : Nat → Rq (ZMod R.M.value) (2 ^ k)) (hA : DrawMasks R k t B.decomposeLen d A0 A1) :
    letI := E.nontrivial
    ∃ g, NTTRGSW.oneSample R sn B d.1 d.2 = some g ∧ MaskedBy R R.M.value (2 ^ k) bits g
      (fun j => A0 j + Rq.const ((2 ^ (bits * j) : Nat) : ZMod R.M.value)) A1 := by
  have := E.nontrivial
  obtain ⟨h0, h1, l0, l1⟩ := hd
  obtain ⟨g0, e0, b0, H0⟩ := neg_gadget_masked E F bits B hB s sn hs hsn hk d.1 h0 l0 A0 fun j hj => (hA j hj).1
  obtain ⟨g1, e1, b1, H1⟩ := one_gadget_masked E F bits B hB s sn hs hsn hk d.2 h1 l1 A1 fun j hj => (hA j hj).2
  refine ⟨⟨g0, g1⟩, by unfold NTTRGSW.oneSample; rw [mbind e0, mbind e1]; rfl, b0, b1, fun s' => ⟨?_, H1 s'⟩⟩
  rw [mul_zero]
  exact H0 s'

end

section
variable {R : Ctx} {q k : Nat} [Fact q.Prime]

theorem masked_add_mul [Nontrivial (ZMod q)] (hk : 0 < k) (F : TableField R.w q R.M R.tbl k) (bits : Nat)
    (A0 A1 A0' A1' : Nat → Rq (ZMod q) (2 ^ k)) (g h : NTTRGSW)
    (hg : MaskedBy R q (2 ^ k) bits g A0 A1) (hh : MaskedBy R q (2 ^ k) bits h A0' A1')
    (p pn : List Nat) (hp : Reduced q (2 ^ k) p) (hpn : Poly.toNtt R.w R.M R.tbl p = some pn) :
    ∃ r, NTTRGSW.addMulNtt R g h pn = some r ∧ MaskedBy R q (2 ^ k) bits r
      (fun j => A0 j + A0' j * Rq.ofWords q (2 ^ k) p) (fun j => A1 j + A1' j * Rq.ofWords q (2 ^ k) p) := by
  obtain ⟨B0, B1, hg⟩ := hg
  obtain ⟨B0', B1', hh⟩ := hh
  obtain ⟨r, er, -⟩ := C37_add_mul hk F bits 0 0 0 _ _ _ _ g h (hg 0) (hh 0) p pn hp hpn
  refine ⟨r, er, fun j => B0 j + B0' j * Rq.ofWords q (2 ^ k) p, fun j => B1 j + B1' j * Rq.ofWords q (2 ^ k) p,
    fun s => ?_⟩
  obtain ⟨r', er', hr⟩ := C37_add_mul hk F bits s 0 0 _ _ _ _ g h (hg s) (hh s) p pn hp hpn
  obtain rfl := Option.some.inj (er.symm.trans er')
  rw [zero_mul, add_zero] at hr
  convert hr using 2
  · ring
  · ring

/-- The words decomposed in the step for the word `a` of the input: chunk 0 for the mask of the accumulator and
chunk 1 for its body. -/
def stepWords (q n a : Nat) [NeZero n] [Nontrivial (ZMod q)] (acc : RLWE) (c : Nat) : List Nat :=
  wordsOf ((Rq.mono a - 1) * Rq.ofWords q n (if c = 0 then acc.a else acc.b))

theorem update_mask [Nontrivial (ZMod q)] (hk : 0 < k) (F : TableField R.w q R.M R.tbl k) (bits : Nat) (B : Basis)
    (hB : Basis.new R.w q bits = some B) (s φ : Rq (ZMod q) (2 ^ k)) (a : Nat) (ha : a ≤ 2 * 2 ^ k)
    (st : BlindRotation.State) (hst : BlindRotation.Inv q (2 ^ k) s φ st) (A0 A1 : Nat → Rq (ZMod q) (2 ^ k))
    (g : NTTRGSW) (hg : MaskedBy R q (2 ^ k) bits g A0 A1) :
    ∃ st', BlindRotation.update R (2 ^ k) st g a = some st' ∧ Rep q (2 ^ k) st'.acc.a
      (Rq.ofWords q (2 ^ k) st.acc.a +
        (gadgetError q (2 ^ k) bits B.decomposeLen (stepWords q (2 ^ k) a st.acc 0) A0 +
          gadgetError q (2 ^ k) bits B.decomposeLen (stepWords q (2 ^ k) a st.acc 1) A1)) := by
  have hnz : NeZero q := ⟨(Fact.out : q.Prime).ne_zero⟩
  have hinv : ∀ s', BlindRotation.Inv q (2 ^ k) s'
      (rlwePhase s' (Rq.ofWords q (2 ^ k) st.acc.a) (Rq.ofWords q (2 ^ k) st.acc.b)) st := fun s' =>
    ⟨⟨hst.acc.a, hst.acc.b, rfl⟩, hst.ea, hst.eb, hst.ma, hst.mb⟩
  obtain ⟨B0, B1, hg⟩ := hg
  obtain ⟨x, ex, h0⟩ := update_error hk F bits B hB _ _ a ha st (hinv 0)
  obtain ⟨x', ex', h1⟩ := update_error hk F bits B hB _ _ a ha st (hinv 1)
  obtain rfl := Option.some.inj (ex.symm.trans ex')
  obtain ⟨st', es, i0⟩ := h0 0 _ _ g (hg 0)
  obtain ⟨st'', es', i1⟩ := h1 0 _ _ g (hg 1)
  obtain rfl := Option.some.inj (es.symm.trans es')
  have hx : x.a = stepWords q (2 ^ k) a st.acc 0 ∧ x.b = stepWords q (2 ^ k) a st.acc 1 := by
    obtain ⟨t, rfl, E⟩ := F.env hk
    obtain ⟨o, eo, ha', hb'⟩ := mulMonomialSubOne_spec E.C R.tbl ha (rep_exists hst.acc.a) (rep_exists hst.acc.b)
      hst.ea hst.eb
    obtain rfl := Option.some.inj (ex.symm.trans eo)
    exact ⟨Rep.words_eq ha', Rep.words_eq hb'⟩
  rw [hx.1, hx.2] at i0 i1
  refine ⟨st', es, rep_iff.2 ⟨i0.acc.a, ?_⟩⟩
  have p0 := i0.acc.phase
  have p1 := i1.acc.phase
  simp only [rlwePhase, mul_zero, sub_zero, mul_one, zero_mul, add_zero] at p0 p1
  rw [p0] at p1
  have hlin : ∀ l (A A' : Nat → Rq (ZMod q) (2 ^ k)), gadgetError q (2 ^ k) bits B.decomposeLen l (fun j => A j - A' j) =
      gadgetError q (2 ^ k) bits B.decomposeLen l A - gadgetError q (2 ^ k) bits B.decomposeLen l A' := by
    intro l A A'
    unfold gadgetError
    rw [← sum_sub_distrib]
    exact sum_congr rfl fun j _ => by ring
  rw [hlin, hlin] at p1
  linear_combination -p1

end
end Verif.Props
