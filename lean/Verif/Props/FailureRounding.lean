import Verif.Props.UniformMask
import Verif.Props.NoiseDefaults

/-! # C66: the rounding of a bootstrapping with a uniform switching key -/

namespace Verif.Props
open Fp Spec Ntt
open scoped ENNReal

section
variable {R : Ctx} {q : Nat} [Fact q.Prime] {k : Nat}

theorem table_odd (hk : 0 < k) (F : TableField R.w q R.M R.tbl k) : q % 2 = 1 := by
  rcases (Fact.out : q.Prime).eq_two_or_odd with h | h
  · exfalso
    obtain ⟨t, rfl, E⟩ := F.env hk
    exact E.ev.ne_two hk h
  · exact h

/-- C66: the modulus switch after an RLWE key switching with a uniform key rounds the phase under the digits of `sk` by at
most `1/2 + T`, except with probability `2 exp(-T² / 2V)` for `V` at least `Σ s_i² / 12`. -/
theorem C66_switch_rounding (hk : 0 < k) (F : TableField R.w q R.M R.tbl k) [NeZero q] (bits : Nat) (B : Basis)
    (hB : Basis.new R.w q bits = some B) (sk : List Nat) (h1 : 2 ^ (k - 1) < sk.length)
    (h2 : sk.length ≤ 2 ^ k) (cnt : Nat) (hcnt : 0 < cnt) (N : Nat) (hN : cnt * 2 ^ k = N) (ring ringNtt : List Nat)
    (hr : Reduced q N ring)
    (hrn : cnt = 1 → Poly.toNtt R.w R.M R.tbl ring = some ringNtt) (χ : PMF Nat) {v : ℝ}
    (hχ : SubGaussian q χ v) (x : RLWE) (ha : Reduced q N x.a) (hb : Reduced q N x.b)
    (hx : NoCommonRoot (switchDigit q (2 ^ k) N bits x.a) cnt B.decomposeLen)
    (w q' : Nat) (hc : Nat.Coprime q' q) (hq53 : q < 2 ^ 53) (hq0 : 0 < q') (hw : q' < 2 ^ w)
    (hm : 2 * ((q - 1) * q') < 2 ^ 53) (S : List ℤ) (hS : S.length = sk.length)
    (V : ℝ) (hV : ((S.map fun z => z ^ 2).sum : ℤ) ≤ 12 * V) (T : Nat) :
    (rlweSwitchLaw (draws (uniformBelow q) (2 ^ k)) χ (2 ^ k) B.decomposeLen cnt).toOuterMeasure
      {d | ∃ key y z, RlweSwitch.generate R bits sk ring ringNtt d = some key ∧
        RlweSwitch.keySwitchRlwe R sk.length key x = some y ∧ ModSwitch.lwe w q q' y = some z ∧
        RoundedBy q q' S (1 + 2 * T) y z}ᶜ ≤
    gaussTail V T := by
  subst hN
  have C : Config R.w q R.M := ⟨F.even, F.conf⟩
  have hq2 := C.two_le
  have hodd := table_odd hk F
  have h := maskError_tail (q' := q') hodd hc S V hV T
  have hlaw := C66_uniform_mask hk F bits B hB sk h1 h2 cnt hcnt ring ringNtt hr hrn χ hχ.lt x ha hb hx
  have e : (draws (uniformBelow q) S.length).toOuterMeasure {l | |maskError q q' S l| ≤ q * T}ᶜ =
      ((draws (uniformBelow q) S.length).map some).toOuterMeasure
        {o | ∃ l, o = some l ∧ |maskError q q' S l| ≤ q * T}ᶜ := by
    rw [prob_map]
    congr 1
    ext l
    simp
  rw [e, hS, ← hlaw, prob_map] at h
  refine le_trans (prob_mono ?_) h
  intro d hd hbad hgood
  refine hbad ?_
  obtain ⟨l, hl, hT⟩ := hgood
  obtain ⟨key, ek, hl⟩ := Option.bind_eq_some_iff.1 hl
  obtain ⟨y, ey, rfl⟩ := Option.map_eq_some_iff.1 hl
  have hy : LWEReduced q sk.length y := by
    obtain ⟨l, hl', rfl⟩ := (PMF.mem_support_map_iff _ _ _).1 hd
    have hok := rlweSwitchLaw_ok (by omega) hχ (fun a ha => by
      obtain ⟨e1, e2⟩ := mem_support_draws ha
      exact ⟨e1, fun v hv => mem_support_uniformBelow (e2 v hv)⟩) hl'
    obtain ⟨cr, ck⟩ := convert_keyWords hq2 sk
    obtain ⟨key', ek', hkey⟩ := C40_generate hk F bits B hB sk h1 h2 _ cr (by
      unfold KeyWords at ck; rw [ck, List.map_map]; rfl) cnt hcnt ring ringNtt hr hrn _ (fun c => (hok c).1)
      (fun c => (hok c).2)
    obtain rfl := Option.some.inj (ek.symm.trans ek')
    rw [← hr.1] at ha hb
    obtain ⟨y', ey', hy, -⟩ := C40_key_switch_rlwe hk F bits B hB sk.length h1 h2 _ cr ring _ key hkey
      (by rw [hr.1]; exact Nat.mul_pos hcnt (Nat.two_pow_pos k)) x ha hb
    obtain rfl := Option.some.inj (ey.symm.trans ey')
    exact hy
  obtain ⟨z, ez, -, rfl, -⟩ := C41_lwe w q q' hq53 hq0 hw hm sk.length y hy
  exact ⟨key, y, _, ek, ey, ez, roundedBy_of hodd S y T hT⟩

end

section
variable {w : Nat} {R : Ctx} {P : Params} {Q k m : Nat} [Fact Q.Prime] (G : GateParams w R P Q k m)
include G

/-- The rounding for a given rotation key. -/
theorem out_rounding_fixed [NeZero Q] (hS : StepsOk R P Q k m) (hst : P.steps = .brKsMs) (bits : Nat)
    (hB : Basis.new R.w Q bits = some P.basis)
    (dk : KeyDraws) (hg : GaussOk P Q dk) (pack : KeyPack) (hp : KeyPack.new R P dk = some pack)
    (Z : List ℤ) (hZ : KeyWords Q pack.ring Z)
    (hZt : P.ringKeyType ≠ .gaussian → Z = pack.ring.map ternaryDigit)
    (L : KeyLaws) (v vL vR : ℝ) (hL : L.Ok P Q k m v vL vR)
    (hu : L.maskRlwe = draws (uniformBelow Q) (2 ^ Nat.clog 2 P.n)) (c : LWE) (hc : LWEReduced (2 ^ m) P.n c)
    (lut : List Nat) (hl : Reduced Q (2 ^ k) lut)
    (V : ℝ) (hvar : (((pack.lwe.map ternaryDigit).map fun z => z ^ 2).sum : ℤ) ≤ 12 * V) (T : Nat)
    (x : List BlindRotation.RgswDraw × List (BlindRotation.RgswDraw × BlindRotation.RgswDraw))
    (hx : x ∈ (pair (draws (rgswLaw L.mask L.err (2 ^ k) P.basis.decomposeLen) P.n)
          (draws (pair (rgswLaw L.mask L.err (2 ^ k) P.basis.decomposeLen)
            (rgswLaw L.mask L.err (2 ^ k) P.basis.decomposeLen)) P.n)).support) :
    ((pair (lweSwitchLaw L.maskLwe L.errLwe P.n (2 ^ P.keySwitchBits - 1) (2 ^ k)
        (lweLevels w P m)) (rlweSwitchLaw L.maskRlwe L.errRlwe (2 ^ Nat.clog 2 P.n) (rlweLevels R P Q)
        (2 ^ (k - Nat.clog 2 P.n)))).map fun y => (⟨x.1, x.2, y.1, y.2⟩ : EvalDraws)).toOuterMeasure
      {d | ∃ K, EvalKey.new w R P pack d = some K ∧ (K.Nondegenerate Q k c lut →
        K.OutRounding Q m (pack.lwe.map ternaryDigit) Z (1 + 2 * T) c lut)}ᶜ ≤
    gaussTail V T := by
  have C : Config R.w Q R.M := ⟨G.field.even, G.field.conf⟩
  have hQ := C.two_le
  have hk : 0 < k := by have := G.two_le; omega
  obtain ⟨pack', ep, hlen, hw, hb, hr, hn, hrk, hms⟩ := C52_key_pack G hS dk hg
  obtain rfl := Option.some.inj (ep.symm.trans hp)
  have hcS : LWEReduced (2 ^ m) (pack'.lwe.map ternaryDigit).length c := by rw [List.length_map, hlen]; exact hc
  obtain ⟨c₀, -, -, ec, hc0, -⟩ := switchIn_spec (K := ⟨w, R, P, .binary [], .none⟩) G
    (pack'.lwe.map ternaryDigit) hcS (Int.ModEq.refl _)
  have ec' : ∀ rot sw, EvalKey.switchIn ⟨w, R, P, rot, sw⟩ c = some c₀ := fun _ _ => ec
  have hV := fun d hd => evaluation_key G hS bits hB dk hg pack' ep Z hZ hZt Q (Q + 2 ^ m) d
    (evalLaw_ok (w := w) (by omega) hL hd)
  unfold evalLaw at hV
  simp only [PMF.mem_support_bind_iff, PMF.mem_support_map_iff] at hV
  have hV' : ∃ rot, (∀ l s, RotationKey.generate R P pack' ⟨x.1, x.2, l, s⟩ = some rot) ∧
      ∀ y ∈ (pair (lweSwitchLaw L.maskLwe L.errLwe P.n (2 ^ P.keySwitchBits - 1) (2 ^ k)
        (lweLevels w P m)) (rlweSwitchLaw L.maskRlwe L.errRlwe (2 ^ Nat.clog 2 P.n) (rlweLevels R P Q)
        (2 ^ (k - Nat.clog 2 P.n)))).support, ∃ sw, SwitchKey.generate w R P pack' ⟨x.1, x.2, y.1, y.2⟩ = some sw ∧
        EvalKey.Valid ⟨w, R, P, rot, sw⟩ Q k m pack'.lwe pack'.ring (pack'.lwe.map ternaryDigit) Z Q
          (Q + 2 ^ m) := by
    obtain ⟨y, hy⟩ := (pair (lweSwitchLaw L.maskLwe L.errLwe P.n (2 ^ P.keySwitchBits - 1) (2 ^ k)
        (lweLevels w P m)) (rlweSwitchLaw L.maskRlwe L.errRlwe (2 ^ Nat.clog 2 P.n) (rlweLevels R P Q)
        (2 ^ (k - Nat.clog 2 P.n)))).support_nonempty
    obtain ⟨rot, sw, e1, e2, hv⟩ := hV _ ⟨x, hx, y, hy, rfl⟩
    refine ⟨rot, fun _ _ => e1, fun y hy => ?_⟩
    obtain ⟨rot', sw, e1', e2, hv⟩ := hV _ ⟨x, hx, y, hy, rfl⟩
    obtain rfl := Option.some.inj (e1.symm.trans e1')
    exact ⟨sw, e2, hv⟩
  obtain ⟨rot, erot, hV'⟩ := hV'
  obtain ⟨acc, hacc, hra, hrb⟩ : ∃ acc, (∀ sw, EvalKey.accumulate ⟨w, R, P, rot, sw⟩ c₀ lut = some acc) ∧
      Reduced Q (2 ^ k) acc.a ∧ Reduced Q (2 ^ k) acc.b := by
    obtain ⟨y, hy⟩ := (pair (lweSwitchLaw L.maskLwe L.errLwe P.n (2 ^ P.keySwitchBits - 1) (2 ^ k)
      (lweLevels w P m)) (rlweSwitchLaw L.maskRlwe L.errRlwe (2 ^ Nat.clog 2 P.n) (rlweLevels R P Q)
      (2 ^ (k - Nat.clog 2 P.n)))).support_nonempty
    obtain ⟨sw, -, hv⟩ := hV' y hy
    obtain ⟨r, er, _, _, hred⟩ := rotate_spec (K := ⟨w, R, P, rot, sw⟩) G hv hc0 hl
    obtain ⟨acc, ea, hra, hrb, -⟩ := addEighth_spec (K := ⟨w, R, P, rot, sw⟩) (z := pack'.ring) G hred.a hred.b
    refine ⟨acc, fun sw => ?_, hra, hrb⟩
    unfold EvalKey.accumulate
    rw [mbind er, ea]
  rw [prob_map]
  have hmk : ∀ {l s sw}, SwitchKey.generate w R P pack' ⟨x.1, x.2, l, s⟩ = some sw →
      EvalKey.new w R P pack' ⟨x.1, x.2, l, s⟩ = some ⟨w, R, P, rot, sw⟩ := fun {l s sw} e => by
    unfold EvalKey.new
    rw [mbind (erot _ _), mbind e]; rfl
  have hS' := hS
  unfold StepsOk at hS'
  rw [hst] at hS'
  obtain ⟨k', B, hk', hkk, g1, g2, F', eB⟩ := hS'
  have hclog := clog_eq g1 g2
  have hQ53 : Q < 2 ^ 53 := by
    have := G.switchOut
    have h1 := Nat.mul_le_mul_left (Q - 1) (Nat.one_le_two_pow (n := m))
    omega
  have hpow : 2 ^ (k - k') * 2 ^ k' = 2 ^ k := by rw [← pow_add]; congr 1; omega
  have hlv : rlweLevels R P Q = B.decomposeLen := by unfold rlweLevels; rw [eB]; rfl
  by_cases hnd : NoCommonRoot (switchDigit Q (2 ^ k') (2 ^ k) P.keySwitchBits acc.a) (2 ^ (k - k')) B.decomposeLen
  · have hsw := C66_switch_rounding hk' F' P.keySwitchBits B eB pack'.lwe
      (by rw [hlen]; exact g1) (by rw [hlen]; exact g2) (2 ^ (k - k')) (Nat.two_pow_pos _) (2 ^ k) hpow
      pack'.ring pack'.ringNtt hr (fun _ => hn) L.errRlwe hL.errRlwe acc hra hrb hnd w (2 ^ m)
      (Nat.Coprime.pow_left _ (Nat.coprime_two_left.2 (Nat.odd_iff.2 (table_odd hk G.field)))) hQ53
      (Nat.two_pow_pos m) (Nat.pow_lt_pow_right (by decide) G.lwe.fits) G.switchOut (pack'.lwe.map ternaryDigit) (List.length_map _) V hvar T
    rw [hclog] at hu
    rw [hclog, hlv, hu] at hV' ⊢
    rw [← prob_pair_snd (lweSwitchLaw L.maskLwe L.errLwe P.n (2 ^ P.keySwitchBits - 1) (2 ^ k)
      (lweLevels w P m))] at hsw
    refine le_trans (prob_mono ?_) hsw
    intro y hy hbad hA
    refine hbad ?_
    obtain ⟨key, y', z, ek, ey, ez, hR⟩ := hA
    obtain ⟨sw, esw, hv⟩ := hV' y hy
    refine ⟨_, hmk esw, fun _ => ⟨fun c' acc' x1 y1 h => absurd hst h, fun c' acc' x1 y1 dim key' _ h1 h2 h3 h4 h5 => ?_⟩⟩
    obtain rfl : c₀ = c' := Option.some.inj ((ec' _ _).symm.trans h1)
    obtain rfl : acc = acc' := Option.some.inj ((hacc _).symm.trans h2)
    have : sw = .rlwe P.n key := by
      unfold SwitchKey.generate at esw
      rw [hst] at esw
      simp only [] at esw
      rw [mbind ek] at esw
      exact (Option.some.inj esw).symm
    rw [this] at h3
    obtain ⟨rfl, rfl⟩ := SwitchKey.rlwe.inj h3
    rw [hlen] at ey
    obtain rfl : y' = x1 := Option.some.inj (ey.symm.trans h4)
    obtain rfl : z = y1 := Option.some.inj (ez.symm.trans h5)
    exact hR
  · refine le_trans (le_of_eq ?_) zero_le
    rw [PMF.toOuterMeasure_apply_eq_zero_iff, Set.disjoint_left]
    intro y hy hbad
    obtain ⟨sw, esw, hv⟩ := hV' y hy
    refine hbad ⟨_, hmk esw, fun h => absurd ?_ hnd⟩
    have := h c₀ acc (ec' _ _) (hacc _)
    rwa [hclog, show rlweLevels R P Q = B.decomposeLen from hlv] at this

theorem out_rounding [NeZero Q] (hS : StepsOk R P Q k m) (hst : P.steps = .brKsMs) (bits : Nat)
    (hB : Basis.new R.w Q bits = some P.basis)
    (dk : KeyDraws) (hg : GaussOk P Q dk) (pack : KeyPack) (hp : KeyPack.new R P dk = some pack)
    (Z : List ℤ) (hZ : KeyWords Q pack.ring Z)
    (hZt : P.ringKeyType ≠ .gaussian → Z = pack.ring.map ternaryDigit)
    (L : KeyLaws) (v vL vR : ℝ) (hL : L.Ok P Q k m v vL vR)
    (hu : L.maskRlwe = draws (uniformBelow Q) (2 ^ Nat.clog 2 P.n)) (c : LWE) (hc : LWEReduced (2 ^ m) P.n c)
    (lut : List Nat) (hl : Reduced Q (2 ^ k) lut)
    (V : ℝ) (hvar : (((pack.lwe.map ternaryDigit).map fun z => z ^ 2).sum : ℤ) ≤ 12 * V) (T : Nat) :
    (evalLaw w R P Q k m L).toOuterMeasure
      {d | ∃ K, EvalKey.new w R P pack d = some K ∧ (K.Nondegenerate Q k c lut →
        K.OutRounding Q m (pack.lwe.map ternaryDigit) Z (1 + 2 * T) c lut)}ᶜ ≤
    gaussTail V T := by
  unfold evalLaw
  exact prob_bind_le fun x hx =>
    out_rounding_fixed G hS hst bits hB dk hg pack hp Z hZ hZt L v vL vR hL hu c hc lut hl V hvar T x hx

omit G [Fact Q.Prime] in
theorem key_cases {pack : KeyPack} {d : EvalDraws} {K : EvalKey} (e : EvalKey.new w R P pack d = some K) :
    ∃ rot sw, K = ⟨w, R, P, rot, sw⟩ := by
  obtain ⟨rot, -, e2⟩ := Option.bind_eq_some_iff.1 e
  obtain ⟨sw, -, e3⟩ := Option.bind_eq_some_iff.1 e2
  exact ⟨rot, sw, (Option.some.inj e3).symm⟩

omit G [Fact Q.Prime] in
/-- Two events over the same evaluation key. -/
theorem both_failures {pack : KeyPack} {A B : EvalKey → Prop} {D : PMF EvalDraws} {p1 p2 : ℝ≥0∞}
    (hA : D.toOuterMeasure {d | ∃ K, EvalKey.new w R P pack d = some K ∧ A K}ᶜ ≤ p1)
    (hB : D.toOuterMeasure {d | ∃ K, EvalKey.new w R P pack d = some K ∧ B K}ᶜ ≤ p2) :
    D.toOuterMeasure {d | ∃ K, EvalKey.new w R P pack d = some K ∧ A K ∧ B K}ᶜ ≤ p1 + p2 := by
  refine le_trans (D.toOuterMeasure.mono ?_) ((MeasureTheory.measure_union_le _ _).trans (add_le_add hA hB))
  intro d hd
  by_contra h
  simp only [Set.mem_union, not_or, Set.notMem_compl_iff] at h
  obtain ⟨⟨K, e, hK⟩, K', e', hK'⟩ := h
  obtain rfl := Option.some.inj (e.symm.trans e')
  exact hd ⟨K, e, hK, hK'⟩

section
variable [NeZero Q] (hS : StepsOk R P Q k m) (hst : P.steps = .brKsMs) (bits : Nat)
    (hB : Basis.new R.w Q bits = some P.basis)
    (dk : KeyDraws) (hg : GaussOk P Q dk) (pack : KeyPack) (hp : KeyPack.new R P dk = some pack)
    (Z : List ℤ) (hZ : KeyWords Q pack.ring Z)
    (hZt : P.ringKeyType ≠ .gaussian → Z = pack.ring.map ternaryDigit)
    (L : KeyLaws) (v vL vR : ℝ) (hL : L.Ok P Q k m v vL vR)
    (hu : L.maskRlwe = draws (uniformBelow Q) (2 ^ Nat.clog 2 P.n))
    (V : ℝ) (hV : (((pack.lwe.map ternaryDigit).map fun z => z ^ 2).sum : ℤ) ≤ 12 * V) (T : Nat)
include hS hst hB hg hp hZ hZt hL hu hV

theorem lut_rounding (c : LWE) (hc : LWEReduced (2 ^ m) P.n c) (lut : Ctx → Nat → Nat → Option (List Nat))
    (hlut : ∀ step l, P.lutStep = some step → lut R P.ringDimension step = some l → Reduced Q (2 ^ k) l) :
    (evalLaw w R P Q k m L).toOuterMeasure
      {d | ∃ K, EvalKey.new w R P pack d = some K ∧ ∀ step l, P.lutStep = some step →
        lut R P.ringDimension step = some l → K.Nondegenerate Q k c l →
        K.OutRounding Q m (pack.lwe.map ternaryDigit) Z (1 + 2 * T) c l}ᶜ ≤
    gaussTail V T := by
  have C : Config R.w Q R.M := ⟨G.field.even, G.field.conf⟩
  have hQ := C.two_le
  by_cases hex : ∃ step l, P.lutStep = some step ∧ lut R P.ringDimension step = some l
  · obtain ⟨step, l, es, el⟩ := hex
    refine le_trans (prob_mono ?_)
      (out_rounding G hS hst bits hB dk hg pack hp Z hZ hZt L v vL vR hL hu c hc l (hlut step l es el) V hV T)
    intro d hd hbad hgood
    refine hbad ?_
    obtain ⟨K, eK, h⟩ := hgood
    refine ⟨K, eK, fun step' l' es' el' => ?_⟩
    obtain rfl : step = step' := Option.some.inj (es.symm.trans es')
    obtain rfl : l = l' := Option.some.inj (el.symm.trans el')
    exact h
  · refine le_trans (le_of_eq ?_) zero_le
    rw [PMF.toOuterMeasure_apply_eq_zero_iff, Set.disjoint_left]
    intro d hd hbad
    obtain ⟨rot, sw, e1, e2, -⟩ := evaluation_key G hS bits hB dk hg pack hp Z hZ hZt Q (Q + 2 ^ m) d
      (evalLaw_ok (w := w) (by omega) hL hd)
    refine hbad ⟨⟨w, R, P, rot, sw⟩, ?_, fun step l es el => absurd ⟨step, l, es, el⟩ hex⟩
    unfold EvalKey.new
    rw [mbind e1, mbind e2]; rfl

/-- C66: `majority`. -/
theorem C66_majority (c0 c1 c2 : LWE) (h0 : LWEReduced (2 ^ m) P.n c0) (h1 : LWEReduced (2 ^ m) P.n c1)
    (h2 : LWEReduced (2 ^ m) P.n c2) (β κ : Nat) (a b c : Bool) (e0 e1 e2 : ℤ)
    (p0 : EncryptsBit (2 ^ m) pack.lwe c0 a e0)
    (p1 : EncryptsBit (2 ^ m) pack.lwe c1 b e1) (p2 : EncryptsBit (2 ^ m) pack.lwe c2 c e2)
    (hn : 8 * 2 ^ k * |e0 + e1 + e2| + 2 * 2 ^ m * inError k m (pack.lwe.map ternaryDigit) < 2 ^ k * 2 ^ m) :
    (evalLaw w R P Q k m L).toOuterMeasure {d | ∃ K, EvalKey.new w R P pack d = some K ∧
      (K.MajNondegenerate Q k c0 c1 c2 →
        K.Refreshed Q m pack.lwe ⟨β, κ, inError k m (pack.lwe.map ternaryDigit), 1 + 2 * T⟩ (K.majority c0 c1 c2)
          (maj a b c))}ᶜ ≤
    rotationTail P k v β + switchTail w R P Q k m vL vR κ + gaussTail V T := by
  obtain ⟨O, eO, hO⟩ := gate_ops (K := ⟨w, R, P, .binary [], .none⟩) G
  obtain ⟨x, ex, -, hx, -⟩ := C33_add (2 ^ m) P.n O hO c0 c1 h0 h1
  obtain ⟨y, -, ey, hy, -⟩ := C33_add (2 ^ m) P.n O hO x c2 hx h2
  refine le_trans (prob_mono ?_) (both_failures
    (C60_majority G hS bits hB dk hg pack hp Z hZ hZt L v vL vR hL β κ c0 c1 c2 h0 h1 h2 a b c e0 e1 e2 p0 p1 p2 hn)
    (lut_rounding G hS hst bits hB dk hg pack hp Z hZ hZt L v vL vR hL hu V hV T y hy Lut.andMajority
      fun step l es h => lut_reduced (K := ⟨w, R, P, .binary [], .none⟩) G es (.inr (.inl h))))
  intro d _ hbad hgood
  refine hbad ?_
  obtain ⟨K, eK, h, h'⟩ := hgood
  obtain ⟨rot, sw, rfl⟩ := key_cases eK
  refine ⟨_, eK, fun hnd => h.2 _ fun O' x' y' step l eO' ex' ey' es el => ?_⟩
  have hnd' := hnd O' x' y' step l eO' ex' ey' es el
  obtain rfl := Option.some.inj (eO.symm.trans eO')
  obtain rfl := Option.some.inj (ex.symm.trans ex')
  obtain rfl := Option.some.inj (ey.symm.trans ey')
  exact h' step l es el hnd'

variable (c0 c1 : LWE) (h0 : LWEReduced (2 ^ m) P.n c0) (h1 : LWEReduced (2 ^ m) P.n c1)
include h0 h1

theorem sum_rounding (lut : Ctx → Nat → Nat → Option (List Nat))
    (hlut : ∀ step l, P.lutStep = some step → lut R P.ringDimension step = some l → Reduced Q (2 ^ k) l) :
    (evalLaw w R P Q k m L).toOuterMeasure
      {d | ∃ K, EvalKey.new w R P pack d = some K ∧ (K.SumNondegenerate Q k lut c0 c1 →
        K.SumRounding Q m (pack.lwe.map ternaryDigit) Z (1 + 2 * T) lut c0 c1)}ᶜ ≤
    gaussTail V T := by
  obtain ⟨O, eO, hO⟩ := gate_ops (K := ⟨w, R, P, .binary [], .none⟩) G
  obtain ⟨c, ec, -, hc, -⟩ := C33_add (2 ^ m) P.n O hO c0 c1 h0 h1
  refine le_trans (prob_mono ?_)
    (lut_rounding G hS hst bits hB dk hg pack hp Z hZ hZt L v vL vR hL hu V hV T c hc lut hlut)
  intro d hd hbad hgood
  refine hbad ?_
  obtain ⟨K, eK, h⟩ := hgood
  obtain ⟨rot, sw, rfl⟩ := key_cases eK
  refine ⟨_, eK, fun hnd O' c' step l eO' ec' es el => ?_⟩
  have hnd' := hnd O' c' step l eO' ec' es el
  obtain rfl := Option.some.inj (eO.symm.trans eO')
  obtain rfl := Option.some.inj (ec.symm.trans ec')
  exact h step l es el hnd'

theorem diff_rounding (lut : Ctx → Nat → Nat → Option (List Nat))
    (hlut : ∀ step l, P.lutStep = some step → lut R P.ringDimension step = some l → Reduced Q (2 ^ k) l) :
    (evalLaw w R P Q k m L).toOuterMeasure
      {d | ∃ K, EvalKey.new w R P pack d = some K ∧ (K.DiffNondegenerate Q k lut c0 c1 →
        K.DiffRounding Q m (pack.lwe.map ternaryDigit) Z (1 + 2 * T) lut c0 c1)}ᶜ ≤
    gaussTail V T := by
  obtain ⟨O, eO, hO⟩ := gate_ops (K := ⟨w, R, P, .binary [], .none⟩) G
  have h2 : 2 < 2 ^ m := by
    have := G.lwe.lt
    calc 2 < 2 ^ 2 := by decide
      _ ≤ 2 ^ m := Nat.pow_le_pow_right (by decide) (by omega)
  obtain ⟨c, ec, -, hc, -⟩ := C33_sub (2 ^ m) P.n O hO c0 c1 h0 h1
  obtain ⟨c', ec', hc', -⟩ := (C33_scalar_neg (2 ^ m) P.n O hO c hc 2 h2).1
  refine le_trans (prob_mono ?_)
    (lut_rounding G hS hst bits hB dk hg pack hp Z hZ hZt L v vL vR hL hu V hV T c' hc' lut hlut)
  intro d hd hbad hgood
  refine hbad ?_
  obtain ⟨K, eK, h⟩ := hgood
  obtain ⟨rot, sw, rfl⟩ := key_cases eK
  refine ⟨_, eK, fun hnd O1 c1 c1' step l eO1 ec1 ec1' es el => ?_⟩
  have hnd' := hnd O1 c1 c1' step l eO1 ec1 ec1' es el
  obtain rfl := Option.some.inj (eO.symm.trans eO1)
  obtain rfl := Option.some.inj (ec.symm.trans ec1)
  obtain rfl := Option.some.inj (ec'.symm.trans ec1')
  exact h step l es el hnd'

variable (β κ : Nat) (a b : Bool) (e0 e1 : ℤ) (p0 : EncryptsBit (2 ^ m) pack.lwe c0 a e0)
  (p1 : EncryptsBit (2 ^ m) pack.lwe c1 b e1)
include p0 p1

/-- C66: `nand` of two bits that were encrypted without knowledge of the evaluation key, with uniform masks in the
switching key and the order `BrKsMs`: unless the digits of the accumulator have a common root, the result is a ciphertext of
the right bit with the noise `outError` of the level `⟨β, κ, inError, 1 + 2T⟩`, except with the stated probability over the
draws of the evaluation key. -/
theorem C66_nand
    (hn : 8 * 2 ^ k * |e0 + e1| + 2 * 2 ^ m * inError k m (pack.lwe.map ternaryDigit) < 2 ^ k * 2 ^ m) :
    (evalLaw w R P Q k m L).toOuterMeasure {d | ∃ K, EvalKey.new w R P pack d = some K ∧
      (K.SumNondegenerate Q k Lut.nand c0 c1 →
        K.Refreshed Q m pack.lwe ⟨β, κ, inError k m (pack.lwe.map ternaryDigit), 1 + 2 * T⟩ (K.nand c0 c1)
          (!(a && b)))}ᶜ ≤
    rotationTail P k v β + switchTail w R P Q k m vL vR κ + gaussTail V T := by
  refine le_trans (prob_mono ?_) (both_failures
    (C60_nand G hS bits hB dk hg pack hp Z hZ hZt L v vL vR hL β κ c0 c1 h0 h1 a b e0 e1 p0 p1 hn)
    (sum_rounding G hS hst bits hB dk hg pack hp Z hZ hZt L v vL vR hL hu V hV T c0 c1 h0 h1 Lut.nand
      fun step l es h => lut_reduced (K := ⟨w, R, P, .binary [], .none⟩) G es (.inl h)))
  intro d _ hbad hgood
  refine hbad ?_
  obtain ⟨K, eK, h, h'⟩ := hgood
  exact ⟨K, eK, fun hnd => h.2 _ (h' hnd)⟩

/-- C66: `and`. -/
theorem C66_and
    (hn : 8 * 2 ^ k * |e0 + e1| + 2 * 2 ^ m * inError k m (pack.lwe.map ternaryDigit) < 2 ^ k * 2 ^ m) :
    (evalLaw w R P Q k m L).toOuterMeasure {d | ∃ K, EvalKey.new w R P pack d = some K ∧
      (K.SumNondegenerate Q k Lut.andMajority c0 c1 →
        K.Refreshed Q m pack.lwe ⟨β, κ, inError k m (pack.lwe.map ternaryDigit), 1 + 2 * T⟩ (K.and c0 c1)
          (a && b))}ᶜ ≤
    rotationTail P k v β + switchTail w R P Q k m vL vR κ + gaussTail V T := by
  refine le_trans (prob_mono ?_) (both_failures
    (C60_and G hS bits hB dk hg pack hp Z hZ hZt L v vL vR hL β κ c0 c1 h0 h1 a b e0 e1 p0 p1 hn)
    (sum_rounding G hS hst bits hB dk hg pack hp Z hZ hZt L v vL vR hL hu V hV T c0 c1 h0 h1 Lut.andMajority
      fun step l es h => lut_reduced (K := ⟨w, R, P, .binary [], .none⟩) G es (.inr (.inl h))))
  intro d _ hbad hgood
  refine hbad ?_
  obtain ⟨K, eK, h, h'⟩ := hgood
  exact ⟨K, eK, fun hnd => h.2 _ (h' hnd)⟩

/-- C66: `or`. -/
theorem C66_or
    (hn : 8 * 2 ^ k * |e0 + e1| + 2 * 2 ^ m * inError k m (pack.lwe.map ternaryDigit) < 2 ^ k * 2 ^ m) :
    (evalLaw w R P Q k m L).toOuterMeasure {d | ∃ K, EvalKey.new w R P pack d = some K ∧
      (K.SumNondegenerate Q k Lut.or c0 c1 →
        K.Refreshed Q m pack.lwe ⟨β, κ, inError k m (pack.lwe.map ternaryDigit), 1 + 2 * T⟩ (K.or c0 c1)
          (a || b))}ᶜ ≤
    rotationTail P k v β + switchTail w R P Q k m vL vR κ + gaussTail V T := by
  refine le_trans (prob_mono ?_) (both_failures
    (C60_or G hS bits hB dk hg pack hp Z hZ hZt L v vL vR hL β κ c0 c1 h0 h1 a b e0 e1 p0 p1 hn)
    (sum_rounding G hS hst bits hB dk hg pack hp Z hZ hZt L v vL vR hL hu V hV T c0 c1 h0 h1 Lut.or
      fun step l es h => lut_reduced (K := ⟨w, R, P, .binary [], .none⟩) G es (.inr (.inr (.inl h)))))
  intro d _ hbad hgood
  refine hbad ?_
  obtain ⟨K, eK, h, h'⟩ := hgood
  exact ⟨K, eK, fun hnd => h.2 _ (h' hnd)⟩

/-- C66: `nor`. -/
theorem C66_nor
    (hn : 8 * 2 ^ k * |e0 + e1| + 2 * 2 ^ m * inError k m (pack.lwe.map ternaryDigit) < 2 ^ k * 2 ^ m) :
    (evalLaw w R P Q k m L).toOuterMeasure {d | ∃ K, EvalKey.new w R P pack d = some K ∧
      (K.SumNondegenerate Q k Lut.nor c0 c1 →
        K.Refreshed Q m pack.lwe ⟨β, κ, inError k m (pack.lwe.map ternaryDigit), 1 + 2 * T⟩ (K.nor c0 c1)
          (!(a || b)))}ᶜ ≤
    rotationTail P k v β + switchTail w R P Q k m vL vR κ + gaussTail V T := by
  refine le_trans (prob_mono ?_) (both_failures
    (C60_nor G hS bits hB dk hg pack hp Z hZ hZt L v vL vR hL β κ c0 c1 h0 h1 a b e0 e1 p0 p1 hn)
    (sum_rounding G hS hst bits hB dk hg pack hp Z hZ hZt L v vL vR hL hu V hV T c0 c1 h0 h1 Lut.nor
      fun step l es h => lut_reduced (K := ⟨w, R, P, .binary [], .none⟩) G es (.inr (.inr (.inr (.inl h))))))
  intro d _ hbad hgood
  refine hbad ?_
  obtain ⟨K, eK, h, h'⟩ := hgood
  exact ⟨K, eK, fun hnd => h.2 _ (h' hnd)⟩

/-- C66: `xor`. -/
theorem C66_xor
    (hn : 8 * 2 ^ k * |e0 - e1| + 2 ^ m * inError k m (pack.lwe.map ternaryDigit) < 2 ^ k * 2 ^ m) :
    (evalLaw w R P Q k m L).toOuterMeasure {d | ∃ K, EvalKey.new w R P pack d = some K ∧
      (K.DiffNondegenerate Q k Lut.xor c0 c1 →
        K.Refreshed Q m pack.lwe ⟨β, κ, inError k m (pack.lwe.map ternaryDigit), 1 + 2 * T⟩ (K.xor c0 c1)
          (a ^^ b))}ᶜ ≤
    rotationTail P k v β + switchTail w R P Q k m vL vR κ + gaussTail V T := by
  refine le_trans (prob_mono ?_) (both_failures
    (C60_xor G hS bits hB dk hg pack hp Z hZ hZt L v vL vR hL β κ c0 c1 h0 h1 a b e0 e1 p0 p1 hn)
    (diff_rounding G hS hst bits hB dk hg pack hp Z hZ hZt L v vL vR hL hu V hV T c0 c1 h0 h1 Lut.xor
      fun step l es h => lut_reduced (K := ⟨w, R, P, .binary [], .none⟩) G es (.inr (.inr (.inr (.inr (.inl h)))))))
  intro d _ hbad hgood
  refine hbad ?_
  obtain ⟨K, eK, h, h'⟩ := hgood
  exact ⟨K, eK, fun hnd => h.2 _ (h' hnd)⟩

/-- C66: `xnor`. -/
theorem C66_xnor
    (hn : 8 * 2 ^ k * |e0 - e1| + 2 ^ m * inError k m (pack.lwe.map ternaryDigit) < 2 ^ k * 2 ^ m) :
    (evalLaw w R P Q k m L).toOuterMeasure {d | ∃ K, EvalKey.new w R P pack d = some K ∧
      (K.DiffNondegenerate Q k Lut.xnor c0 c1 →
        K.Refreshed Q m pack.lwe ⟨β, κ, inError k m (pack.lwe.map ternaryDigit), 1 + 2 * T⟩ (K.xnor c0 c1)
          (!(a ^^ b)))}ᶜ ≤
    rotationTail P k v β + switchTail w R P Q k m vL vR κ + gaussTail V T := by
  refine le_trans (prob_mono ?_) (both_failures
    (C60_xnor G hS bits hB dk hg pack hp Z hZ hZt L v vL vR hL β κ c0 c1 h0 h1 a b e0 e1 p0 p1 hn)
    (diff_rounding G hS hst bits hB dk hg pack hp Z hZ hZt L v vL vR hL hu V hV T c0 c1 h0 h1 Lut.xnor
      fun step l es h => lut_reduced (K := ⟨w, R, P, .binary [], .none⟩) G es (.inr (.inr (.inr (.inr (.inr h)))))))
  intro d _ hbad hgood
  refine hbad ?_
  obtain ⟨K, eK, h, h'⟩ := hgood
  exact ⟨K, eK, fun hnd => h.2 _ (h' hnd)⟩

end

section
variable [NeZero Q] (hS : StepsOk R P Q k m) (hst : P.steps = .brKsMs) (bits : Nat)
    (hB : Basis.new R.w Q bits = some P.basis)
    (dk : KeyDraws) (hg : GaussOk P Q dk) (pack : KeyPack) (hp : KeyPack.new R P dk = some pack)
    (Z : List ℤ) (hZ : KeyWords Q pack.ring Z)
    (hZt : P.ringKeyType ≠ .gaussian → Z = pack.ring.map ternaryDigit)
    (L : KeyLaws) (v vL vR : ℝ) (hL : L.Ok P Q k m v vL vR)
    (hu : L.maskRlwe = draws (uniformBelow Q) (2 ^ Nat.clog 2 P.n))
    (V : ℝ) (hV : (((pack.lwe.map ternaryDigit).map fun z => z ^ 2).sum : ℤ) ≤ 12 * V) (T : Nat)
    (β κ : Nat) (η : ℤ)
    (hη : 24 * 2 ^ k * η + 2 * 2 ^ m * inError k m (pack.lwe.map ternaryDigit) < 2 ^ k * 2 ^ m)
    (c : Nat → LWE) (b : Nat → Bool) (hc : ∀ i, Encrypts (2 ^ m) pack.lwe η (c i) (b i))
include hS hst hB hg hp hZ hZt hL hu hV hη hc

theorem one_gate (X : Circuit) (hX : X.OneGate) :
    (evalLaw w R P Q k m L).toOuterMeasure {d | ∃ K, EvalKey.new w R P pack d = some K ∧
      (X.Nondegenerate K Q k c → K.Refreshed Q m pack.lwe
        ⟨β, κ, inError k m (pack.lwe.map ternaryDigit), 1 + 2 * T⟩ (X.run K c) (X.eval b))}ᶜ ≤
    rotationTail P k v β + switchTail w R P Q k m vL vR κ + gaussTail V T := by
  have hlen := pack_length G hS dk hg pack hp
  have hred : ∀ i, LWEReduced (2 ^ m) P.n (c i) := fun i => hlen ▸ (hc i).1
  have hin := inError_nonneg k m (pack.lwe.map ternaryDigit)
  choose e he hp' using fun i => (hc i).2
  have hk0 : (0 : ℤ) ≤ 8 * 2 ^ k := by positivity
  have hsum : ∀ i j, 8 * 2 ^ k * |e i + e j| + 2 * 2 ^ m * inError k m (pack.lwe.map ternaryDigit) < 2 ^ k * 2 ^ m :=
    fun i j => by
      have h1 := abs_add_le (e i) (e j)
      have h2 : |e i + e j| ≤ 3 * η := by linarith [he i, he j, abs_nonneg (e i)]
      linarith [mul_le_mul_of_nonneg_left h2 hk0]
  have hdiff : ∀ i j, 8 * 2 ^ k * |e i - e j| + 2 ^ m * inError k m (pack.lwe.map ternaryDigit) < 2 ^ k * 2 ^ m :=
    fun i j => by
      have h1 := abs_sub (e i) (e j)
      have h2 : |e i - e j| ≤ 3 * η := by linarith [he i, he j, abs_nonneg (e i)]
      have h3 : 0 ≤ 2 ^ m * inError k m (pack.lwe.map ternaryDigit) := by positivity
      linarith [mul_le_mul_of_nonneg_left h2 hk0]
  have hmaj : ∀ i j l, 8 * 2 ^ k * |e i + e j + e l| + 2 * 2 ^ m * inError k m (pack.lwe.map ternaryDigit) <
      2 ^ k * 2 ^ m := fun i j l => by
    have h1 := abs_add_three (e i) (e j) (e l)
    have h2 : |e i + e j + e l| ≤ 3 * η := by linarith [he i, he j, he l]
    linarith [mul_le_mul_of_nonneg_left h2 hk0]
  unfold Circuit.OneGate at hX
  split at hX
  · rename_i i j
    exact C66_nand G hS hst bits hB dk hg pack hp Z hZ hZt L v vL vR hL hu V hV T _ _ (hred i) (hred j) β κ _ _ _ _
      (hp' i) (hp' j) (hsum i j)
  · rename_i i j
    exact C66_and G hS hst bits hB dk hg pack hp Z hZ hZt L v vL vR hL hu V hV T _ _ (hred i) (hred j) β κ _ _ _ _
      (hp' i) (hp' j) (hsum i j)
  · rename_i i j
    exact C66_or G hS hst bits hB dk hg pack hp Z hZ hZt L v vL vR hL hu V hV T _ _ (hred i) (hred j) β κ _ _ _ _
      (hp' i) (hp' j) (hsum i j)
  · rename_i i j
    exact C66_nor G hS hst bits hB dk hg pack hp Z hZ hZt L v vL vR hL hu V hV T _ _ (hred i) (hred j) β κ _ _ _ _
      (hp' i) (hp' j) (hsum i j)
  · rename_i i j
    exact C66_xor G hS hst bits hB dk hg pack hp Z hZ hZt L v vL vR hL hu V hV T _ _ (hred i) (hred j) β κ _ _ _ _
      (hp' i) (hp' j) (hdiff i j)
  · rename_i i j
    have := C66_xnor G hS hst bits hB dk hg pack hp Z hZ hZt L v vL vR hL hu V hV T _ _ (hred i) (hred j) β κ _ _ _ _
      (hp' i) (hp' j) (hdiff i j)
    rw [show (!(b i ^^ b j)) = (b i == b j) by cases b i <;> cases b j <;> rfl] at this
    exact this
  · rename_i i j l
    exact C66_majority G hS hst bits hB dk hg pack hp Z hZ hZt L v vL vR hL hu V hV T _ _ _ (hred i) (hred j) (hred l)
      β κ _ _ _ _ _ _ (hp' i) (hp' j) (hp' l) (hmaj i j l)
  · exact hX.elim

/-- C66: any number of gates on ciphertexts with noises of at most `η` that were made without knowledge of the evaluation
key. All results decrypt to the values of the gates, unless the digits of an accumulator have a common root, except
with the stated probability over the draws of the evaluation key. -/
theorem C66_gates (hout : 2 * outError P.steps Q m
      ⟨β, κ, inError k m (pack.lwe.map ternaryDigit), 1 + 2 * T⟩ < Q * 2 ^ m)
    (gs : List Circuit) (hgs : ∀ X ∈ gs, X.OneGate) :
    (evalLaw w R P Q k m L).toOuterMeasure {d | ∃ K, EvalKey.new w R P pack d = some K ∧
      ∀ X ∈ gs, X.Nondegenerate K Q k c → ∃ out, X.run K c = some out ∧
        (P.lwe w).decrypt .bool pack.lwe out = some (X.eval b).toNat}ᶜ ≤
    gs.length * (rotationTail P k v β + switchTail w R P Q k m vL vR κ + gaussTail V T) := by
  have C : Config R.w Q R.M := ⟨G.field.even, G.field.conf⟩
  have hQ := C.two_le
  induction gs with
  | nil =>
    refine le_trans (le_of_eq ?_) zero_le
    rw [PMF.toOuterMeasure_apply_eq_zero_iff, Set.disjoint_left]
    intro d hd hbad
    obtain ⟨rot, sw, e1, e2, -⟩ := evaluation_key G hS bits hB dk hg pack hp Z hZ hZt Q (Q + 2 ^ m) d
      (evalLaw_ok (w := w) (by omega) hL hd)
    refine hbad ⟨⟨w, R, P, rot, sw⟩, ?_, by simp⟩
    unfold EvalKey.new
    rw [mbind e1, mbind e2]; rfl
  | cons X gs ih =>
    have h1 := one_gate G hS hst bits hB dk hg pack hp Z hZ hZt L v vL vR hL hu V hV T β κ η hη c b hc X
      (hgs X (by simp))
    have h2 := ih fun Y hY => hgs Y (by simp [hY])
    rw [List.length_cons, Nat.cast_add, Nat.cast_one, add_mul, one_mul, add_comm]
    refine le_trans (prob_mono ?_) (both_failures h1 h2)
    intro d _ hbad hgood
    refine hbad ?_
    obtain ⟨K, eK, hX, hK⟩ := hgood
    refine ⟨K, eK, fun Y hY => ?_⟩
    rcases List.mem_cons.1 hY with rfl | hY
    · intro hnd
      obtain ⟨out, e, eo, -, -, -, hdec⟩ := hX hnd
      obtain ⟨rot, sw, rfl⟩ := key_cases eK
      exact ⟨out, eo, hdec hout⟩
    · exact hK Y hY

end

/-- C66: bits are encrypted, then an evaluation key is drawn, any number of gates is applied to the ciphertexts, and
the results are decrypted. They are the values of the gates, unless the digits of an accumulator have a common root, except
with the stated probability. -/
theorem C66_end_to_end [NeZero Q] (hS : StepsOk R P Q k m) (hst : P.steps = .brKsMs) (bits : Nat)
    (hB : Basis.new R.w Q bits = some P.basis) (dk : KeyDraws) (hg : GaussOk P Q dk) :
    ∃ pack, KeyPack.new R P dk = some pack ∧
      ∀ (L : KeyLaws) (v vL vR : ℝ), L.Ok P Q k m v vL vR →
      L.maskRlwe = draws (uniformBelow Q) (2 ^ Nat.clog 2 P.n) →
      ∀ (T β κ : Nat) (η : ℤ),
      24 * 2 ^ k * η + 2 * 2 ^ m * inError k m (pack.lwe.map ternaryDigit) < 2 ^ k * 2 ^ m →
      2 * outError P.steps Q m ⟨β, κ, inError k m (pack.lwe.map ternaryDigit), 1 + 2 * T⟩ < Q * 2 ^ m →
      ∀ (b : Nat → Bool) (masks : Nat → List Nat) (z : Nat → ℤ),
        (∀ i, P.n ≤ (masks i).length ∧ ∀ x ∈ masks i, x < P.q) → (∀ i, |z i| ≤ η) →
        ∃ c : Nat → LWE,
          (∀ i, (P.lwe w).encrypt pack.lwe (masks i) (z i) (b i).toNat = some (c i)) ∧
          ∀ gs : List Circuit, (∀ X ∈ gs, X.OneGate) →
            (evalLaw w R P Q k m L).toOuterMeasure {d | ∃ K, EvalKey.new w R P pack d = some K ∧
              ∀ X ∈ gs, X.Nondegenerate K Q k c → ∃ out, X.run K c = some out ∧
                (P.lwe w).decrypt .bool pack.lwe out = some (X.eval b).toNat}ᶜ ≤
            gs.length * (rotationTail P k v β + switchTail w R P Q k m vL vR κ + gaussTail (P.n / 12) T) := by
  obtain ⟨pack, ep, hlen, hw, hb, hr, hn, hrk, hms⟩ := C52_key_pack G hS dk hg
  obtain ⟨Z, hZ, hZt⟩ : ∃ Z, KeyWords Q pack.ring Z ∧ (P.ringKeyType ≠ .gaussian → Z = pack.ring.map ternaryDigit) := by
    by_cases ht : P.ringKeyType = .gaussian
    · exact ⟨_, keyWords_self pack.ring, fun h => absurd ht h⟩
    · have C : Config R.w Q R.M := ⟨G.field.even, G.field.conf⟩
      exact ⟨_, keyWords_digits C.two_le (hrk ht), fun _ => rfl⟩
  refine ⟨pack, ep, fun L v vL vR hL hu T β κ η hη hout b masks z hm hz => ?_⟩
  have hq : P.q = 2 ^ m := G.lwe.q
  have hrange : ∀ i, NoiseInRange (2 ^ 2) (2 ^ m) (z i) := fun i => by
    have h2 := inError_nonneg k m (pack.lwe.map ternaryDigit)
    have h2 : (0 : ℤ) ≤ 2 * 2 ^ m * inError k m (pack.lwe.map ternaryDigit) := by positivity
    have h3 : (24 * η) * 2 ^ k < 2 ^ m * 2 ^ k := by linarith
    have h4 : 24 * η < 2 ^ m := lt_of_mul_lt_mul_right h3 (by positivity)
    have h5 := abs_le.1 (hz i)
    have h6 : 0 ≤ η := (abs_nonneg _).trans (hz i)
    unfold NoiseInRange
    push_cast
    constructor <;> linarith
  have hone : ∀ i, ∃ c, (P.lwe w).encrypt pack.lwe (masks i) (z i) (b i).toNat = some c ∧
      Encrypts (2 ^ m) pack.lwe η c (b i) := fun i => by
    obtain ⟨c, ec, hc, -, hp, -⟩ := C31_encrypt_decrypt (P.lwe w) 2 m P.n G.lwe pack.lwe (masks i) hlen
      (hm i).1 (by rw [← hq]; exact (hm i).2) (b i).toNat (z i)
      (by have := Bool.toNat_lt (b i); omega) (hrange i)
    exact ⟨c, ec, by rw [hlen]; exact hc, z i, hz i, hp⟩
  choose c hc1 hc2 using hone
  refine ⟨c, hc1, fun gs hgs => ?_⟩
  refine C66_gates G hS hst bits hB dk hg pack ep Z hZ hZt L v vL vR hL hu (P.n / 12) ?_ T β κ η hη c b hc2 hout gs hgs
  have := List.sum_le_card_nsmul ((pack.lwe.map ternaryDigit).map fun z => z ^ 2) 1 (by
    intro z hz
    rw [List.map_map] at hz
    obtain ⟨v, -, rfl⟩ := List.mem_map.1 hz
    change ternaryDigit v ^ 2 ≤ 1
    unfold ternaryDigit
    split_ifs <;> norm_num)
  rw [List.length_map, List.length_map, hlen, nsmul_eq_mul, mul_one] at this
  have h2 : ((((pack.lwe.map ternaryDigit).map fun z => z ^ 2).sum : ℤ) : ℝ) ≤ P.n := by exact_mod_cast this
  linarith

end

-- With the default parameters and uniform masks in the switching key: bits are encrypted with noises of at most 40, a
-- thousand gates are applied to the ciphertexts, and the results are decrypted. All are right, except with probability
-- 6000 exp(-58), unless the digits of an accumulator have a common root; for all secret keys, all masks of the
-- ciphertexts and of the rotation key.
example [DefaultBuild] [NeZero 132120577] (dk : KeyDraws) (mask : PMF (List Nat))
    (h : ∀ a ∈ mask.support, Reduced 132120577 (2 ^ 10) a) (b : Nat → Bool) (masks : Nat → List Nat) (z : Nat → ℤ)
    (hm : ∀ i, 1024 ≤ (masks i).length ∧ ∀ x ∈ masks i, x < 1024) (hz : ∀ i, |z i| ≤ 40) :
    ∃ pack, KeyPack.new defaultCtx defaultParams dk = some pack ∧ ∃ c : Nat → LWE,
      (∀ i, (defaultParams.lwe 16).encrypt pack.lwe (masks i) (z i) (b i).toNat = some (c i)) ∧
      ∀ gs : List Circuit, (∀ X ∈ gs, X.OneGate) → gs.length = 1000 →
        (evalLaw 16 defaultCtx defaultParams 132120577 10 10
          (defaultLaws mask (draws (uniformBelow 132120577) (2 ^ 10)))).toOuterMeasure
          {d | ∃ K, EvalKey.new 16 defaultCtx defaultParams pack d = some K ∧
            ∀ X ∈ gs, X.Nondegenerate K 132120577 10 c → ∃ out, X.run K c = some out ∧
              (defaultParams.lwe 16).decrypt .bool pack.lwe out = some (X.eval b).toNat}ᶜ ≤
        ENNReal.ofReal (6000 * Real.exp (-58)) := by
  have hclog : Nat.clog 2 defaultParams.n = 10 := clog_eq (by decide) (by decide)
  obtain ⟨pack, ep, hend⟩ := C66_end_to_end default_gateParams default_stepsOk rfl 3 default_basis dk
    (fun h => by cases h)
  obtain ⟨c, ec, hgs⟩ := hend (defaultLaws mask (draws (uniformBelow 132120577) (2 ^ 10))) (21 / 2) 0 (21 / 2)
    (defaultLaws_ok mask _ h fun a ha => by
      obtain ⟨x1, x2⟩ := mem_support_draws ha
      exact ⟨x1, fun v hv => mem_support_uniformBelow (x2 v hv)⟩) (by rw [hclog]; rfl) 100 (2 ^ 21) (2 ^ 13) 40
    (by rw [show inError 10 10 (pack.lwe.map ternaryDigit) = 0 from if_pos (by decide)]; norm_num)
    (by
      change 2 * (2 ^ 10 * (4 * (((2 ^ 21 : Nat) : ℤ) + ((2 ^ 13 : Nat) : ℤ)) + 7) +
        2 * ((132120577 : Nat) : ℤ) * (1 + 2 * ((100 : Nat) : ℤ))) < _
      norm_num) b masks z hm hz
  refine ⟨pack, ep, c, ec, fun gs hg hl => (hgs gs hg).trans ?_⟩
  have htail : rotationTail defaultParams 10 (21 / 2) (2 ^ 21 : Nat) +
      switchTail 16 defaultCtx defaultParams 132120577 10 10 0 (21 / 2) (2 ^ 13 : Nat) +
      gaussTail (defaultParams.n / 12) (100 : Nat) ≤ ENNReal.ofReal (6 * Real.exp (-58)) := by
    refine (add_le_add default_tails (gaussTail_le (r := 58) (by norm_num [defaultParams]))).trans ?_
    rw [← ENNReal.ofReal_add (by positivity) (by positivity)]
    refine ENNReal.ofReal_le_ofReal ?_
    have := Real.exp_le_exp.2 (show (-112 : ℝ) ≤ -58 by norm_num)
    linarith
  rw [hl]
  refine (mul_le_mul_right htail _).trans (le_of_eq ?_)
  rw [← ENNReal.ofReal_natCast, ← ENNReal.ofReal_mul (by positivity)]
  congr 1
  push_cast
  ring

-- The digits of the accumulator have no common root in the small instance of `EndToEnd`: the digit 1 of the chunk 10 is a
-- monomial.
example : ∃ pack K, KeyPack.new nativeCtx smallParams ⟨fun _ => 14, fun _ => 0x2d2d2d2d, []⟩ = some pack ∧
    EvalKey.new 16 nativeCtx smallParams pack smallEvalDraws = some K ∧
    K.SumNondegenerate 132120577 5 Lut.nand ⟨[5, 60], 7⟩ ⟨[6, 61], 9⟩ := by
  obtain ⟨pack, K, ep, eK, -⟩ := C52_end_to_end small_gateParams small_stepsOk 7 (by decide +kernel)
    ⟨fun _ => 14, fun _ => 0x2d2d2d2d, []⟩ (fun h => by cases h) 1 1 _ smallEvalDraws_ok 2
    ⟨by decide +kernel, by decide +kernel⟩
  refine ⟨pack, K, ep, eK, fun O c step l eO ec es el c' acc ec' ea => ?_⟩
  have hrun : ((KeyPack.new nativeCtx smallParams ⟨fun _ => 14, fun _ => 0x2d2d2d2d, []⟩).bind fun pack =>
      (EvalKey.new 16 nativeCtx smallParams pack smallEvalDraws).bind fun K =>
      (K.P.lwe K.w).ops.bind fun O => (LWE.addRef O ⟨[5, 60], 7⟩ ⟨[6, 61], 9⟩).bind fun c =>
      K.P.lutStep.bind fun step => (Lut.nand K.R K.P.ringDimension step).bind fun l =>
      (K.switchIn c).bind fun c' => K.accumulate c' l).all (fun acc =>
        (switchDigit 132120577 2 32 7 acc.a 10 1).seq 0 = 0 ∧
        (switchDigit 132120577 2 32 7 acc.a 10 1).seq 1 ≠ 0) = true := by decide +kernel
  rw [ep, Option.bind_some, eK, Option.bind_some, eO, Option.bind_some, ec, Option.bind_some, es, Option.bind_some,
    el, Option.bind_some, ec', Option.bind_some, ea, Option.all_some, decide_eq_true_eq] at hrun
  obtain ⟨rot, sw, rfl⟩ := key_cases eK
  have hclog : Nat.clog 2 smallParams.n = 1 := clog_eq (by decide) (by decide)
  have hlv : rlweLevels nativeCtx smallParams 132120577 = 4 := by decide +kernel
  change NoCommonRoot (switchDigit _ (2 ^ Nat.clog 2 smallParams.n) (2 ^ 5) 7 acc.a)
    (2 ^ (5 - Nat.clog 2 smallParams.n)) (rlweLevels nativeCtx smallParams 132120577)
  rw [hclog, hlv]
  refine noCommonRoot_of_const (c := 10) (j := 1) (i := 1) (by decide) (by decide) (by decide) hrun.2
    (fun i hi hne => ?_) (by decide)
  obtain rfl : i = 0 := by omega
  exact hrun.1

end Verif.Props
