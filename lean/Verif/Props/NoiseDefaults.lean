import Verif.Props.Failure
import Verif.Props.EndToEnd

/-!
# C59, C60: the bounds at the default parameters
-/

namespace Verif.Props
open Spec
open scoped ENNReal

/-- The law of the errors with which the examples draw keys. -/
theorem default_cbd : SubGaussian 132120577 (cbdLaw 32 defaultBarrett) (21 / 2) :=
  (C59_cbd_law 32 132120577 rfl _ default_config (by norm_num)).1

theorem reduced_replicate {q n x : Nat} (h : x < q) : Reduced q n (List.replicate n x) :=
  ⟨List.length_replicate, fun y hy => by rw [List.eq_of_mem_replicate hy]; exact h⟩

theorem pure_reduced {q n x : Nat} (h : x < q) :
    ∀ a ∈ (PMF.pure (List.replicate n x)).support, Reduced q n a := fun a ha => by
  rw [PMF.mem_support_pure_iff] at ha
  rw [ha]; exact reduced_replicate h

theorem gaussTail_le {V T r : ℝ} (h : r ≤ T ^ 2 / (2 * V)) :
    gaussTail V T ≤ ENNReal.ofReal (2 * Real.exp (-r)) := by
  unfold gaussTail
  refine ENNReal.ofReal_le_ofReal (mul_le_mul_of_nonneg_left (Real.exp_le_exp.2 (by linarith)) (by norm_num))

-- with a ternary key of length 1024, the noise of a rotation is at most 2²¹ = 2097152 < Q/8 = 16515072,
-- except with probability 2 exp(-112); the worst-case bound would be 21 * 1024 * 4 * 9 * 1024 * 7 > 5 * 10⁹
example [DefaultBuild] : ∃ sn, Poly.toNtt 32 defaultBarrett defaultCtx.tbl (List.replicate 1024 1) = some sn ∧
    (draws (pair (rgswLaw (PMF.pure (List.replicate 1024 12345678)) (cbdLaw 32 defaultBarrett) (2 ^ 10) 9)
      (rgswLaw (PMF.pure (List.replicate 1024 12345678)) (cbdLaw 32 defaultBarrett) (2 ^ 10) 9)) 1024).toOuterMeasure
      {d | ∃ key r, BlindRotation.ternaryGenerate defaultCtx sn ⟨8, 9, 7, 3⟩ (List.replicate 1024 1023) d = some key ∧
        BlindRotation.ternary defaultCtx key (List.replicate 1024 3) ⟨List.replicate 1024 5, 7⟩ = some r ∧
        ∃ e : ℤ, |(e : ℝ)| ≤ 2 ^ 21 ∧ ringPhase0 132120577 (2 ^ 10) (List.replicate 1024 1) r (Nat.two_pow_pos 10) =
          tableAt 132120577 (2 ^ 10) (List.replicate 1024 3) (intPhase ((List.replicate 1024 1023).map ternaryDigit)
            (List.replicate 1024 5) 7) + (e : ZMod 132120577)}ᶜ ≤ ENNReal.ofReal (2 * Real.exp (-112)) := by
  have F : TableField defaultCtx.w 132120577 defaultCtx.M defaultCtx.tbl 10 := default_table
  obtain ⟨sn, esn⟩ : ∃ rn, Poly.toNtt 32 defaultBarrett defaultCtx.tbl (List.replicate 1024 1) = some rn := by
    obtain ⟨t, hQ, E⟩ := F.env (by decide)
    have h1 : Reduced 132120577 (2 ^ 10) (List.replicate 1024 1) :=
      reduced_replicate (n := 1024) (x := 1) (by decide)
    rw [hQ] at h1
    obtain ⟨rn, ern, _⟩ := E.toNtt (rep_exists h1)
    exact ⟨rn, ern⟩
  refine ⟨sn, esn, ?_⟩
  have hl : (List.replicate 1024 1023).length = 1024 := List.length_replicate
  have h := C59_ternary (R := defaultCtx) (q := 132120577) (k := 10) (by decide) (by decide) F 3 ⟨8, 9, 7, 3⟩
    default_basis (List.replicate 1024 1) sn (reduced_replicate (n := 1024) (x := 1) (by decide)) esn (List.replicate 1024 1023)
    default_cbd (by norm_num) (pure_reduced (n := 1024) (x := 12345678) (by decide)) (List.replicate 1024 3) (reduced_replicate (n := 1024) (x := 3) (by decide))
    ⟨List.replicate 1024 5, 7⟩ (by rw [hl]; exact List.length_replicate)
    (fun x hx => by rw [List.eq_of_mem_replicate hx]; decide) (by decide) (2 ^ 21) (by positivity)
  rw [hl] at h
  dsimp only at h
  refine h.trans (gaussTail_le ?_)
  norm_num

theorem default_ntt [DefaultBuild] (s : List Nat) (hs : Reduced 132120577 (2 ^ 10) s) :
    ∃ sn, Poly.toNtt 32 defaultBarrett defaultCtx.tbl s = some sn := by
  have F : TableField defaultCtx.w 132120577 defaultCtx.M defaultCtx.tbl 10 := default_table
  obtain ⟨t, hQ, E⟩ := F.env (by decide)
  have h1 : Reduced defaultCtx.M.value (2 ^ 10) s := hs
  obtain ⟨rn, ern, _⟩ := E.toNtt (rep_exists h1)
  exact ⟨rn, ern⟩

-- the same for every binary key, ring key, ciphertext and table
example [DefaultBuild] (s : List Nat) (hs : Reduced 132120577 (2 ^ 10) s) (secret : List Nat) (hl : secret.length = 1024)
    (lut : List Nat) (hlut : Reduced 132120577 (2 ^ 10) lut) (c : LWE) (hc : LWEReduced (2 * 2 ^ 10) 1024 c)
    (mask : PMF (List Nat)) (hm : ∀ a ∈ mask.support, Reduced 132120577 (2 ^ 10) a) :
    ∃ sn, Poly.toNtt 32 defaultBarrett defaultCtx.tbl s = some sn ∧
    (draws (rgswLaw mask (cbdLaw 32 defaultBarrett) (2 ^ 10) 9) 1024).toOuterMeasure
      {d | ∃ key r, BlindRotation.binaryGenerate defaultCtx sn ⟨8, 9, 7, 3⟩ secret d = some key ∧
        BlindRotation.binary defaultCtx key lut c = some r ∧
        ∃ e : ℤ, |(e : ℝ)| ≤ 2 ^ 21 ∧ ringPhase0 132120577 (2 ^ 10) s r (Nat.two_pow_pos 10) =
          tableAt 132120577 (2 ^ 10) lut (intPhase (secret.map binaryDigit) c.a c.b) +
            (e : ZMod 132120577)}ᶜ ≤ ENNReal.ofReal (2 * Real.exp (-225)) := by
  obtain ⟨sn, esn⟩ := default_ntt s hs
  refine ⟨sn, esn, ?_⟩
  have h := C59_binary (R := defaultCtx) (q := 132120577) (k := 10) (by decide) default_table 3
    ⟨8, 9, 7, 3⟩ default_basis s sn hs esn secret default_cbd (by norm_num) hm lut hlut c
    (by rw [hl]; exact hc.1.1) hc.1.2 hc.2 (2 ^ 21) (by positivity)
  rw [hl] at h
  dsimp only at h
  refine h.trans (gaussTail_le ?_)
  norm_num

-- RLWE key switching with the default parameters
example [DefaultBuild] (sk : List Nat) (hl : sk.length = 1024) (ring : List Nat) (hr : Reduced 132120577 (2 ^ 10) ring)
    (x : RLWE) (ha : Reduced 132120577 (2 ^ 10) x.a) (hb : Reduced 132120577 (2 ^ 10) x.b)
    (mask : PMF (List Nat)) (hm : ∀ a ∈ mask.support, Reduced 132120577 (2 ^ 10) a) :
    ∃ rn, Poly.toNtt 32 defaultBarrett defaultCtx.tbl ring = some rn ∧
    (rlweSwitchLaw mask (cbdLaw 32 defaultBarrett) (2 ^ 10) 27 1).toOuterMeasure
      {d | ∃ key y, RlweSwitch.generate defaultCtx 1 sk ring rn d = some key ∧
        RlweSwitch.keySwitchRlwe defaultCtx sk.length key x = some y ∧
        ∃ e : ℤ, |(e : ℝ)| ≤ 2 ^ 13 ∧ (intPhase (sk.map ternaryDigit) y.a y.b : ZMod 132120577) =
          ringPhase0 132120577 (2 ^ 10) ring x (Nat.two_pow_pos 10) + (e : ZMod 132120577)}ᶜ ≤
      ENNReal.ofReal (2 * Real.exp (-115)) := by
  obtain ⟨rn, ern⟩ := default_ntt ring hr
  refine ⟨rn, ern, ?_⟩
  have h := C60_rlwe_switch (R := defaultCtx) (q := 132120577) (k := 10) (by decide) default_table 1
    ⟨2, 27, 1, 1⟩ default_switch_basis sk (by rw [hl]; decide) (by rw [hl]; decide) 1 (by decide) (2 ^ 10)
    (by decide) (by decide) ring rn hr ern default_cbd (by norm_num) hm x ha hb (2 ^ 13) (by positivity)
  refine h.trans (gaussTail_le ?_)
  norm_num

-- LWE key switching with the second parameter set of the crate, `q = 2^14`, and errors -1, 0, 1
example (sk ring : List Nat) (hr : ring.length = 1024) (x : LWE) (hx : LWEReduced (2 ^ 14) 1024 x)
    (mask : PMF (List Nat)) (hm : ∀ a ∈ mask.support, Reduced (2 ^ 14) sk.length a) (χ : PMF Nat)
    (hχ : SubGaussian (2 ^ 14) χ 1) :
    (lweSwitchLaw mask χ sk.length (2 ^ 7 - 1) 1024 2).toOuterMeasure
      {d | ∃ key y, LweSwitch.generate 16 (2 ^ 14) 7 (PowOf2.ops 16 ⟨2 ^ 14 - 1⟩) sk ring d =
          some (⟨128, 2, 127, 7⟩, key) ∧
        LweSwitch.keySwitch 16 ⟨128, 2, 127, 7⟩ (PowOf2.ops 16 ⟨2 ^ 14 - 1⟩) sk.length key x = some y ∧
        ∃ e : ℤ, |(e : ℝ)| ≤ 500 ∧ lwePhase (2 ^ 14) sk y.a y.b =
          (intPhase (ring.map ternaryDigit) x.a x.b : ZMod (2 ^ 14)) + (e : ZMod (2 ^ 14))}ᶜ ≤
      ENNReal.ofReal (2 * Real.exp (-61)) := by
  obtain ⟨B, eB, h⟩ := C60_lwe_switch (u := mask) (χ := χ) 16 14 7 (by decide) (by decide) ⟨2 ^ 14 - 1⟩
    (by decide +kernel) (by decide) (by decide) sk ring hχ (by norm_num) hm x (by rw [hr]; exact hx) 500
    (by norm_num)
  obtain rfl : B = ⟨128, 2, 127, 7⟩ := Option.some.inj (eB.symm.trans (by decide +kernel))
  rw [hr] at h
  dsimp only at h
  refine h.trans (gaussTail_le ?_)
  norm_num

/-- No error at all. -/
theorem pure_zero_subGaussian {q : Nat} (hq : 0 < q) : SubGaussian q (PMF.pure 0) 0 := by
  refine ⟨fun x hx => ?_, fun t => ?_⟩
  · rw [PMF.mem_support_pure_iff] at hx; omega
  · have := mean_pure (0 : Nat) fun x => ENNReal.ofReal (Real.exp (t * centred q x))
    unfold mean at this
    rw [this]
    simp [centred]

/-- The laws of an evaluation key with centred binomial errors and the given masks; the LWE switching key is not used
with the default parameters. -/
noncomputable def defaultLaws (mask maskRlwe : PMF (List Nat)) : KeyLaws :=
  ⟨mask, cbdLaw 32 defaultBarrett, PMF.pure (List.replicate 1024 0), PMF.pure 0, maskRlwe,
    cbdLaw 32 defaultBarrett⟩

theorem defaultLaws_ok (mask maskRlwe : PMF (List Nat)) (h : ∀ a ∈ mask.support, Reduced 132120577 (2 ^ 10) a)
    (h' : ∀ a ∈ maskRlwe.support, Reduced 132120577 (2 ^ 10) a) :
    (defaultLaws mask maskRlwe).Ok defaultParams 132120577 10 10 (21 / 2) 0 (21 / 2) := by
  have hclog : Nat.clog 2 defaultParams.n = 10 := clog_eq (by decide) (by decide)
  exact ⟨h, default_cbd, by norm_num, pure_reduced (n := 1024) (x := 0) (by decide),
    pure_zero_subGaussian (by decide), le_rfl, by rw [hclog]; exact h', default_cbd, by norm_num⟩

theorem default_gateParams [DefaultBuild] : GateParams 16 defaultCtx defaultParams 132120577 10 10 :=
  ⟨default_table, ⟨rfl, rfl, by decide, by decide, by decide⟩, rfl, by decide,
    by decide, by decide, by decide, by decide⟩

theorem default_stepsOk [DefaultBuild] : StepsOk defaultCtx defaultParams 132120577 10 10 :=
  ⟨10, ⟨2, 27, 1, 1⟩, by decide, by decide, by decide, by decide, default_table,
    default_switch_basis⟩

theorem default_tails [DefaultBuild] : rotationTail defaultParams 10 (21 / 2) (2 ^ 21 : Nat) +
    switchTail 16 defaultCtx defaultParams 132120577 10 10 0 (21 / 2) (2 ^ 13 : Nat) ≤
      ENNReal.ofReal (4 * Real.exp (-112)) := by
  have h1 : rotationTail defaultParams 10 (21 / 2) (2 ^ 21 : Nat) ≤ ENNReal.ofReal (2 * Real.exp (-112)) := by
    unfold rotationTail
    rw [if_neg (by decide)]
    refine gaussTail_le ?_
    norm_num [defaultParams]
  have hB : Basis.new defaultCtx.w 132120577 defaultParams.keySwitchBits = some ⟨2, 27, 1, 1⟩ := default_switch_basis
  have hlv : rlweLevels defaultCtx defaultParams 132120577 = 27 := by unfold rlweLevels; rw [hB]; rfl
  have h2 : switchTail 16 defaultCtx defaultParams 132120577 10 10 0 (21 / 2) (2 ^ 13 : Nat) ≤
      ENNReal.ofReal (2 * Real.exp (-112)) := by
    unfold switchTail
    rw [hlv]
    change gaussTail _ _ ≤ _
    refine gaussTail_le ?_
    norm_num [defaultParams]
  refine (add_le_add h1 h2).trans (le_of_eq ?_)
  rw [← ENNReal.ofReal_add (by positivity) (by positivity)]
  congr 1
  ring

-- With the default parameters, `nand` of any two encrypted bits whose noises add to less than `q/8 = 128`
-- decrypts to the right bit, except with probability 4 exp(-112), if the rounding error of the last step is at
-- most 100; for all secret keys and all masks. The errors are centred binomial.
example [DefaultBuild] (dk : KeyDraws) (pack : KeyPack) (hp : KeyPack.new defaultCtx defaultParams dk = some pack)
    (mask maskRlwe : PMF (List Nat)) (h : ∀ a ∈ mask.support, Reduced 132120577 (2 ^ 10) a)
    (h' : ∀ a ∈ maskRlwe.support, Reduced 132120577 (2 ^ 10) a)
    (c0 c1 : LWE) (h0 : LWEReduced 1024 1024 c0) (h1 : LWEReduced 1024 1024 c1) (a b : Bool) (e0 e1 : ℤ)
    (p0 : EncryptsBit 1024 pack.lwe c0 a e0) (p1 : EncryptsBit 1024 pack.lwe c1 b e1) (he : |e0 + e1| < 128) :
    (evalLaw 16 defaultCtx defaultParams 132120577 10 10 (defaultLaws mask maskRlwe)).toOuterMeasure
      {d | ∃ K, EvalKey.new 16 defaultCtx defaultParams pack d = some K ∧
        (K.SumRounding 132120577 10 (pack.lwe.map ternaryDigit) (pack.ring.map ternaryDigit) 200 Lut.nand c0 c1 →
          ∃ out, K.nand c0 c1 = some out ∧
            (defaultParams.lwe 16).decrypt .bool pack.lwe out = some (!(a && b)).toNat)}ᶜ ≤
      ENNReal.ofReal (4 * Real.exp (-112)) := by
  have C : Fp.Config defaultCtx.w 132120577 defaultCtx.M :=
    ⟨default_gateParams.field.even, default_gateParams.field.conf⟩
  obtain ⟨pack', ep, -, -, -, -, -, hrk, -⟩ := C52_key_pack default_gateParams default_stepsOk dk
    (fun h => by cases h)
  obtain rfl := Option.some.inj (ep.symm.trans hp)
  have := C60_nand default_gateParams default_stepsOk 3 default_basis dk (fun h => by cases h) pack' hp
    (pack'.ring.map ternaryDigit) (keyWords_digits C.two_le (hrk (by decide))) (fun _ => rfl)
    (defaultLaws mask maskRlwe) (21 / 2) 0 (21 / 2) (defaultLaws_ok mask maskRlwe h h') (2 ^ 21) (2 ^ 13)
    c0 c1 h0 h1 a b e0 e1 p0 p1 (by
      rw [show inError 10 10 (pack'.lwe.map ternaryDigit) = 0 from if_pos (by decide)]
      linarith)
  refine le_trans (prob_mono ?_) (this.trans default_tails)
  intro d _ hbad hgood
  refine hbad ?_
  obtain ⟨K, eK, -, hK⟩ := hgood
  obtain ⟨rot, sw, rfl⟩ : ∃ rot sw, K = ⟨16, defaultCtx, defaultParams, rot, sw⟩ := by
    obtain ⟨rot, -, e2⟩ := Option.bind_eq_some_iff.1 eK
    obtain ⟨sw, -, e3⟩ := Option.bind_eq_some_iff.1 e2
    exact ⟨rot, sw, (Option.some.inj e3).symm⟩
  refine ⟨_, eK, fun hr => ?_⟩
  obtain ⟨out, e, eo, -, -, -, hdec⟩ := hK 200 hr
  exact ⟨out, eo, hdec (by
    change 2 * (2 ^ 10 * (4 * (((2 ^ 21 : Nat) : ℤ) + ((2 ^ 13 : Nat) : ℤ)) + 7) +
      2 * ((132120577 : Nat) : ℤ) * 200) < _
    norm_num)⟩

end Verif.Props
