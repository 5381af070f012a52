import Verif.Props.AccSwitch

/-!
# C75: the rounding of a bootstrapping with a fresh evaluation key

Concrete cases that meet the hypotheses are in `Props/AccDefaults.lean`.
-/

namespace Verif.Props
open Fp Finset Spec Ntt
open scoped ENNReal

section
variable {K : EvalKey} {Q k m : Nat} [Fact Q.Prime] (G : GateParams K.w K.R K.P Q k m)
include G

omit G [Fact Q.Prime] in
theorem maskError_zero (q' : Nat) (S : List ℤ) {a : List Nat} (ha : ∀ i < a.length, a.getD i 0 = 0) :
    maskError Q q' S a = 0 := by
  rw [maskError_eq]
  refine sum_eq_zero fun i _ => ?_
  have : a.getD i 0 = 0 := by
    by_cases hi : i < a.length
    · exact ha i hi
    · exact List.getD_eq_default _ _ (by omega)
  rw [this]
  simp [centred]

/-- A zero mask stays zero and is rounded exactly. -/
theorem zero_out_rounding {sk z : List Nat} {S Z : List ℤ} {E E' : Nat} (V : K.Valid Q k m sk z S Z E E')
    (hst : K.P.steps = .brKsMs) {c : LWE} {lut : List Nat}
    (h : ∀ c' acc, K.switchIn c = some c' → K.accumulate c' lut = some acc →
      acc.a = Poly.zero (2 ^ k) ∧ Reduced Q (2 ^ k) acc.a ∧ Reduced Q (2 ^ k) acc.b) (T : Nat) :
    K.OutRounding Q m S Z (1 + 2 * T) c lut := by
  have C : Config K.R.w Q K.R.M := ⟨G.field.even, G.field.conf⟩
  refine ⟨fun c' acc x1 y1 h => absurd hst h, fun c' acc x y dim key' _ h1 h2 h3 h4 h5 => ?_⟩
  obtain ⟨h0, ha, hb⟩ := h c' acc h1 h2
  have hodd := table_odd (by have := G.two_le; omega) G.field
  have hsw := V.sw
  unfold SwitchKey.Valid at hsw
  rw [hst] at hsw
  obtain ⟨B, key, k', s, e, e1, eB, hk', F', g1, g2, hs, -, hkey, -⟩ := hsw
  rw [e1] at h3
  obtain ⟨rfl, rfl⟩ := SwitchKey.rlwe.inj h3
  have hx : LWEReduced Q sk.length x ∧ ∀ i < sk.length, x.a.getD i 0 = 0 := by
    have hzl := V.red.1
    rw [← hzl] at ha hb h0
    have hval := C.value
    subst hval
    obtain ⟨t, _, Ev⟩ := F'.env hk'
    have : ∀ c, ∃ A : Nat → Rq (ZMod K.R.M.value) (2 ^ k'), ∀ (hc : c < key.length) j
        (hj : j < key[c].data.length), NttRep K.R k' t K.R.M.value key[c].data[j].a (A j) := by
      intro c
      by_cases hc : c < key.length
      · obtain ⟨GA, GB, hG⟩ := NTTGadgetRLWE.Encrypts.rep Ev (hkey.elem c hc)
        refine ⟨GA, fun hc j hj => ?_⟩
        have := (hG j hj).1
        rw [List.getD_eq_getElem _ _ hj] at this
        exact this.a
      · exact ⟨fun _ => 0, fun h => absurd h hc⟩
    choose A hA using this
    obtain ⟨out, eo, ho, hi⟩ := switch_mask Ev F' K.P.keySwitchBits B eB sk.length g1 g2 _ z e key hkey
      (by rw [hzl]; exact Nat.two_pow_pos k) acc ha hb A hA
    obtain rfl : out = x := Option.some.inj (eo.symm.trans h4)
    refine ⟨ho, fun i hlt => ?_⟩
    have hz := hi i hlt
    rw [h0] at hz
    simp only [zero_switchDigit, zero_mul, sum_const_zero] at hz
    have h0 : (out.a.getD i 0 : ZMod K.R.M.value) = 0 := hz
    rw [ZMod.natCast_eq_zero_iff] at h0
    exact Nat.eq_zero_of_dvd_of_lt h0 (ho.1.2 _ (getD_mem _ (by rw [ho.1.1]; exact hlt)))
  have hQ53 : Q < 2 ^ 53 := by
    have := G.switchOut
    have h1 := Nat.mul_le_mul_left (Q - 1) (Nat.one_le_two_pow (n := m))
    omega
  obtain ⟨z', ez, -, rfl, -⟩ := C41_lwe K.w Q (2 ^ m) hQ53 (Nat.two_pow_pos m)
    (Nat.pow_lt_pow_right (by decide) G.lwe.fits) G.switchOut sk.length x hx.1
  obtain rfl := Option.some.inj (ez.symm.trans h5)
  refine roundedBy_of hodd S x T ?_
  rw [maskError_zero (2 ^ m) S (fun i hi => hx.2 i (by rw [← hx.1.1.1]; exact hi)), abs_zero]
  positivity

end

section
variable {w : Nat} {R : Ctx} {P : Params} {Q k m : Nat} [Fact Q.Prime] (G : GateParams w R P Q k m)
include G

/-- C75: with a fresh evaluation key with uniform masks and a table that is a unit, the modulus switch at the end of a
bootstrapping of a given ciphertext changes the scaled phase by at most `1/2 + T`, except with probability
`2 exp(-T² / 2V) + accTail`, for each order of the steps. -/
theorem C75_rounding [NeZero Q] (hS : StepsOk R P Q k m) (bits : Nat) (hB : Basis.new R.w Q bits = some P.basis)
    {t t' : Nat} (ht : t ≤ k) (hq : (2 ^ t * (2 ^ bits - 1)) ^ 2 ^ t < Q)
    (ht' : P.steps = .brKsMs → t' ≤ Nat.clog 2 P.n ∧ (2 ^ t' * (2 ^ P.keySwitchBits - 1)) ^ 2 ^ t' < Q)
    (dk : KeyDraws) (hg : GaussOk P Q dk) (pack : KeyPack) (hp : KeyPack.new R P dk = some pack)
    (Z : List ℤ) (hZ : KeyWords Q pack.ring Z)
    (hZt : P.ringKeyType ≠ .gaussian → Z = pack.ring.map ternaryDigit)
    (L : KeyLaws) (v vL vR : ℝ) (hL : L.Ok P Q k m v vL vR) (hm : L.mask = draws (uniformBelow Q) (2 ^ k))
    (hm' : P.steps = .brKsMs → L.maskRlwe = draws (uniformBelow Q) (2 ^ Nat.clog 2 P.n))
    (c : LWE) (hc : LWEReduced (2 ^ m) P.n c) (lut : List Nat) (hl : Reduced Q (2 ^ k) lut)
    (hu : TableUnit Q (2 ^ k) lut) (V : ℝ)
    (hV : (((if P.steps = .brMsKs then Z else pack.lwe.map ternaryDigit).map fun z => z ^ 2).sum : ℤ) ≤ 12 * V)
    (T : Nat) :
    (evalLaw w R P Q k m L).toOuterMeasure
      {d | ∃ K, EvalKey.new w R P pack d = some K ∧
        K.OutRounding Q m (pack.lwe.map ternaryDigit) Z (1 + 2 * T) c lut}ᶜ ≤
    gaussTail V T + accTail P Q k t t' := by
  have C : Config R.w Q R.M := ⟨G.field.even, G.field.conf⟩
  have hQ := C.two_le
  have hk : 0 < k := by have := G.two_le; omega
  have hodd := table_odd hk G.field
  have hcop : Nat.Coprime (2 ^ m) Q := Nat.Coprime.pow_left _ (Nat.coprime_two_left.2 (Nat.odd_iff.2 hodd))
  obtain ⟨pack', ep, hlen, hw, hb, hr, hn, hrk, hms⟩ := C52_key_pack G hS dk hg
  obtain rfl := Option.some.inj (ep.symm.trans hp)
  have hcS : LWEReduced (2 ^ m) (pack'.lwe.map ternaryDigit).length c := by rw [List.length_map, hlen]; exact hc
  have hQ53 : Q < 2 ^ 53 := by
    have := G.switchOut
    have h1 := Nat.mul_le_mul_left (Q - 1) (Nat.one_le_two_pow (n := m))
    omega
  -- the runs
  have hrun : ∀ d ∈ (evalLaw w R P Q k m L).support, ∃ K c' acc, EvalKey.new w R P pack' d = some K ∧
      GateParams K.w K.R K.P Q k m ∧ K.w = w ∧ K.P = P ∧ K.R = R ∧
      K.Valid Q k m pack'.lwe pack'.ring (pack'.lwe.map ternaryDigit) Z Q (Q + 2 ^ m) ∧
      K.switchIn c = some c' ∧ K.accumulate c' lut = some acc ∧ Reduced Q (2 ^ k) acc.a ∧ Reduced Q (2 ^ k) acc.b := by
    intro d hd
    obtain ⟨rot, sw, e1, e2, hv⟩ := evaluation_key G hS bits hB dk hg pack' ep Z hZ hZt Q (Q + 2 ^ m) d
      (evalLaw_ok (w := w) (by omega) hL hd)
    obtain ⟨c₀, -, -, ec, hc0, -⟩ := switchIn_spec (K := ⟨w, R, P, rot, sw⟩) G
      (pack'.lwe.map ternaryDigit) hcS (Int.ModEq.refl _)
    obtain ⟨r, er, _, _, hred⟩ := rotate_spec (K := ⟨w, R, P, rot, sw⟩) G hv hc0 hl
    obtain ⟨acc, ea, hra, hrb, -⟩ := addEighth_spec (K := ⟨w, R, P, rot, sw⟩) (z := pack'.ring) G hred.a hred.b
    refine ⟨⟨w, R, P, rot, sw⟩, c₀, acc, ?_, G, rfl, rfl, rfl, hv, ec, ?_, hra, hrb⟩
    · unfold EvalKey.new
      rw [mbind e1, mbind e2]; rfl
    · unfold EvalKey.accumulate
      rw [mbind er, ea]
  have hacc := fun X hX => C75_accumulator G hS bits hB ht hq dk hg pack' ep L v vL vR hL hm c hc lut hl hu X hX
  unfold accTail
  by_cases hst : P.steps = .brKsMs
  · rw [if_neg (by rw [hst]; decide)] at hV
    rw [if_pos hst]
    have h1 := out_rounding G hS hst bits hB dk hg pack' ep Z hZ hZt L v vL vR hL (hm' hst) c hc lut hl V hV T
    obtain ⟨X, hXd⟩ : ∃ X : Set (List Nat), X = {l | l ≠ Poly.zero (2 ^ k) ∧ ¬NoCommonRoot (switchDigit Q
      (2 ^ Nat.clog 2 P.n) (2 ^ k) P.keySwitchBits l) (2 ^ (k - Nat.clog 2 P.n)) (rlweLevels R P Q)} := ⟨_, rfl⟩
    have h2 := hacc X (by rw [hXd]; exact fun h => h.1 rfl)
    have hS' := hS
    unfold StepsOk at hS'
    rw [hst] at hS'
    obtain ⟨k', B, hk', hkk, g1, g2, F', eB⟩ := hS'
    have hclog := clog_eq g1 g2
    have hlv : rlweLevels R P Q = B.decomposeLen := by unfold rlweLevels; rw [eB]; rfl
    have hX' : (draws (uniformBelow Q) (2 ^ k)).toOuterMeasure X ≤ rootTail Q (2 ^ Nat.clog 2 P.n) t' := by
      refine le_trans (prob_mono ?_) (chunk_root_prob (m := 2 ^ (Nat.clog 2 P.n - t')) (N := 2 ^ k)
        (bits := P.keySwitchBits) (len := B.decomposeLen) (cnt := 2 ^ (k - Nat.clog 2 P.n))
        (by rw [← pow_add]; congr 1; have := (ht' hst).1; omega) (Nat.two_pow_pos _)
        (Nat.pow_le_pow_right (by decide) (by omega)) (ht' hst).2
        (len_bounds (by have := C.four_mul_lt; omega) (by omega) eB).1 (Nat.two_pow_pos _))
      intro l _ h
      rw [hXd, hlv] at h
      exact h.2
    refine le_trans (prob_mono ?_) ((MeasureTheory.measure_union_le _ _).trans
      ((add_le_add h1 (h2.trans (add_le_add_left hX' _))).trans_eq (by ring)))
    intro d hd hbad
    by_contra hgood
    simp only [Set.mem_union, not_or, Set.notMem_compl_iff] at hgood
    obtain ⟨⟨K, eK, hK⟩, hgood⟩ := hgood
    obtain ⟨K', c', acc, eK', G', hw, hP, hR, hv, ec, ea, hra, hrb⟩ := hrun d hd
    obtain rfl := Option.some.inj (eK.symm.trans eK')
    refine hbad ⟨K, eK, ?_⟩
    have huniq : ∀ c1 acc1, K.switchIn c = some c1 → K.accumulate c1 lut = some acc1 → acc1 = acc := by
      intro c1 acc1 e1 e2
      obtain rfl := Option.some.inj (ec.symm.trans e1)
      exact Option.some.inj (e2.symm.trans ea)
    by_cases hz : acc.a = Poly.zero (2 ^ k)
    · refine zero_out_rounding G' hv (by rw [hP]; exact hst) (fun c1 acc1 e1 e2 => ?_) T
      obtain rfl := huniq c1 acc1 e1 e2
      exact ⟨hz, hra, hrb⟩
    · refine hK fun c1 acc1 e1 e2 => ?_
      obtain rfl := huniq c1 acc1 e1 e2
      by_contra hnd
      refine hgood ⟨K, c', acc1, eK, ec, ea, ?_⟩
      rw [hXd]
      rw [hP, hR] at hnd
      exact ⟨hz, hnd⟩
  · rw [if_neg hst, add_zero]
    obtain ⟨S, hSd⟩ : ∃ S : List ℤ, S = if P.steps = .brMs then pack'.lwe.map ternaryDigit else Z := ⟨_, rfl⟩
    have hSS : (if P.steps = .brMsKs then Z else pack'.lwe.map ternaryDigit) = S := by
      rw [hSd]
      cases h : P.steps with
      | brMsKs => rfl
      | brKsMs => exact absurd h hst
      | brMs => rfl
    rw [hSS] at hV
    have hSl : S.length = 2 ^ k := by
      rw [hSd]
      split
      · next h =>
        have hS' := hS
        unfold StepsOk at hS'
        rw [h] at hS'
        rw [List.length_map, hlen, hS'.2]
      · rw [← hr.1]
        have h := congrArg List.length hZ
        simpa using h.symm
    obtain ⟨X, hXd⟩ : ∃ X : Set (List Nat), X = {l | extractWords Q (2 ^ k) l ∈
      {l | |maskError Q (2 ^ m) S l| ≤ Q * T}ᶜ} := ⟨_, rfl⟩
    have h2 := hacc X (by
      rw [hXd]
      intro h
      refine h ?_
      rw [Set.mem_ofPred_eq, maskError_zero, abs_zero]
      · positivity
      · intro i hi
        have hi : i < 2 ^ k := by simpa [extractWords] using hi
        have hz : ∀ j, (Poly.zero (2 ^ k)).getD j 0 = 0 := fun j => by
          unfold Poly.zero
          by_cases hi : j < 2 ^ k
          · rw [List.getD_eq_getElem _ _ (by simpa using hi)]; simp [Fp.zero]
          · rw [List.getD_eq_default _ _ (by simpa using hi)]
        unfold extractWords
        rw [List.getD_eq_getElem _ _ (by simpa using hi), List.getElem_map]
        simp only [hz, Nat.sub_zero, Nat.mod_self, ite_self])
    have h3 := maskError_tail (q' := 2 ^ m) hodd hcop S V hV T
    rw [hSl, ← extract_uniform (Nat.two_pow_pos k), ← hXd] at h3
    refine le_trans (prob_mono ?_) (h2.trans (add_le_add_left h3 _))
    intro d hd hbad
    by_contra hgood
    obtain ⟨K, c', acc, eK, G', hw, hP, hR, hv, ec, ea, hra, hrb⟩ := hrun d hd
    refine hbad ⟨K, eK, ⟨fun c1 acc1 x y _ e1 e2 e3 e4 => ?_, fun _ _ _ _ _ _ h => absurd (hP ▸ h) hst⟩⟩
    obtain rfl := Option.some.inj (ec.symm.trans e1)
    obtain rfl := Option.some.inj (ea.symm.trans e2)
    have hx : x.a = extractWords Q (2 ^ k) acc.a ∧ LWEReduced Q (2 ^ k) x := by
      have hval := C.value
      subst hval
      rw [hR] at e3
      obtain ⟨x', ex, -, hxv, hxb, -⟩ := extractLocally_spec C R.tbl (Nat.two_pow_pos k) (vals_self hra) hrb
      obtain rfl := Option.some.inj (ex.symm.trans e3)
      exact ⟨Vals.ext hxv (extract_vals (Nat.two_pow_pos k) hra), ⟨hxv.len, hxv.lt⟩, hxb⟩
    rw [hw] at e4
    obtain ⟨z', ez, -, rfl, -⟩ := C41_lwe w Q (2 ^ m) hQ53 (Nat.two_pow_pos m)
      (Nat.pow_lt_pow_right (by decide) G.lwe.fits) G.switchOut (2 ^ k) x hx.2
    obtain rfl := Option.some.inj (ez.symm.trans e4)
    rw [hP, ← hSd]
    refine roundedBy_of hodd S x T ?_
    rw [hx.1]
    by_contra hT
    refine hgood ⟨K, c', acc, eK, ec, ea, ?_⟩
    rw [hXd]
    exact hT

end
end Verif.Props
