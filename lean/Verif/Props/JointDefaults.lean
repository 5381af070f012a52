import Verif.Props.JointNoise
import Verif.Props.AccDefaults
import Verif.Props.SampleLaw

/-! # C82: the second parameter set of the crate -/

namespace Verif.Props
open Fp Spec Ntt Gaussian F64
open scoped ENNReal NNReal

/-- The moments of `31` to the number of entries that are not zero. -/
theorem mean_weight (q : Nat) (hq : 2 < q) : ∀ n, (mean (draws (ternaryLaw q) n) fun l =>
    (31 : ℝ≥0∞) ^ (norm1 (l.map ternaryDigit)).toNat) = 16 ^ n
  | 0 => by rw [mean_draws_zero]; simp [norm1]
  | n + 1 => by
    have hstep : ∀ x l, (31 : ℝ≥0∞) ^ (norm1 ((x :: l).map ternaryDigit)).toNat =
        31 ^ (ternaryDigit x).natAbs * 31 ^ (norm1 (l.map ternaryDigit)).toNat := fun x l => by
      have h1 : norm1 ((x :: l).map ternaryDigit) = |ternaryDigit x| + norm1 (l.map ternaryDigit) := by
        simp [norm1]
      rw [h1, ← pow_add, Int.toNat_add (abs_nonneg _) (norm1_nonneg _)]
      congr 2
      rw [Int.abs_eq_natAbs, Int.toNat_natCast]
    rw [mean_draws_succ]
    simp only [hstep, mean_mul_left, mean_weight q hq n, mean_mul_right]
    rw [pow_succ, mul_comm]
    congr 1
    unfold ternaryLaw
    rw [mean_map, mean_uniformBelow]
    simp only [Finset.sum_range_succ, Finset.sum_range_zero]
    have h1 : q - 1 ≠ 0 := by omega
    have h2 : q - 1 ≠ 1 := by omega
    simp only [ternaryDigit]
    norm_num [h1, h2]
    rw [show (64 : ℝ≥0∞) = 4 * 16 by norm_num, ← mul_assoc, ENNReal.inv_mul_cancel (by norm_num) (by norm_num), one_mul]

/-- C82: a ternary key of length `n` has `k` or more entries other than zero with probability at most `16^n / 31^k`. -/
theorem C82_key_weight (q : Nat) (hq : 2 < q) (n k : Nat) :
    (draws (ternaryLaw q) n).toOuterMeasure {l | norm1 (l.map ternaryDigit) < k}ᶜ ≤ 16 ^ n / 31 ^ k := by
  classical
  rw [ENNReal.le_div_iff_mul_le (by simp) (by simp), prob_eq, ← mean_mul_right, ← mean_weight q hq n]
  refine mean_mono fun l _ => ?_
  split_ifs with h
  · rw [one_mul]
    refine pow_le_pow_right₀ (by norm_num) ?_
    have h' : ¬ norm1 (l.map ternaryDigit) < k := h
    omega
  · simp

/-- bool/src/bfhe/parameters.rs 28-47: `CUSTOM_TERNARY_128_BITS_PARAMETERS`. -/
def customParams : Params :=
  ⟨512, 4, 2 ^ 14, .ternary, 1024, 132120577, .ternary, ⟨128, 4, 127, 7⟩, .brMsKs, 7⟩

theorem custom_params : Params.new 32 132120577 customConst = some (.ok customParams) := by decide +kernel

theorem custom_basis [DefaultBuild] : Basis.new defaultCtx.w 132120577 7 = some customParams.basis := by
  rw [show defaultCtx.w = 32 from rfl]; decide +kernel

theorem custom_gateParams [DefaultBuild] : GateParams 16 defaultCtx customParams 132120577 10 14 :=
  ⟨default_table, ⟨rfl, rfl, by decide, by decide, by decide⟩, rfl, by decide, by decide, by decide, by decide, by decide⟩

theorem custom_stepsOk [DefaultBuild] : StepsOk defaultCtx customParams 132120577 10 14 :=
  ⟨by decide, by decide, by decide⟩

/-- The laws of an evaluation key of the second parameter set: uniform masks in the rotation key, any masks in the switching
key, Gaussian errors in both. The RLWE switching key is not used. -/
noncomputable def customLaws [NeZero 132120577] (δ : PMF ℚ) (maskLwe : PMF (List Nat)) : KeyLaws :=
  ⟨draws (uniformBelow 132120577) (2 ^ 10), defaultErrors δ, maskLwe, gaussLaw (2 ^ 14) δ defaultSampler.maxDev,
    PMF.pure (List.replicate 512 0), PMF.pure 0⟩

theorem customLaws_ok [NeZero 132120577] (δ : PMF ℚ) (hδ : Deviates δ (13 / 2)) (maskLwe : PMF (List Nat))
    (h : ∀ a ∈ maskLwe.support, Reduced (2 ^ 14) 512 a) :
    (customLaws δ maskLwe).Ok customParams 132120577 10 14 49 49 0 := by
  have hclog : Nat.clog 2 customParams.n = 9 := clog_eq (by decide) (by decide)
  obtain ⟨h1, h2⟩ := default_maxDev
  have h1' : (38 : ℝ) < defaultSampler.maxDev := by exact_mod_cast h1
  have h2' : (defaultSampler.maxDev : ℝ) < 39 := by exact_mod_cast h2
  have h9 := C71_subgaussian hδ (by norm_num) (D := defaultSampler.maxDev) (by linarith) (2 ^ 14)
    (by push_cast; linarith)
  norm_num at h9
  refine ⟨fun a ha => ?_, C71_default_errors δ hδ, by norm_num, h, by norm_num; exact h9, by norm_num,
    by rw [hclog]; exact pure_reduced (n := 512) (x := 0) (by decide), pure_zero_subGaussian (by decide), le_rfl⟩
  obtain ⟨x1, x2⟩ := mem_support_draws ha
  exact ⟨x1, fun v hv => mem_support_uniformBelow (x2 v hv)⟩

/-- The bounds of the tails of the second parameter set. -/
theorem custom_tails [DefaultBuild] : jointTail 16 defaultCtx customParams 132120577 10 14 49 49 0 (264000000000 : Nat) +
    (gaussTail (((2 ^ 10 : Nat) : ℝ) / 12) (48 : Nat) + accTail customParams 132120577 10 1 0) ≤
      ENNReal.ofReal (5 * Real.exp (-(49 / 5))) := by
  have hlv : lweLevels 16 customParams 14 = 2 := by decide +kernel
  have h1 : jointTail 16 defaultCtx customParams 132120577 10 14 49 49 0 (264000000000 : Nat) ≤
      ENNReal.ofReal (4 * Real.exp (-(49 / 5))) := by
    unfold jointTail switchVariance rotationVariance switchFactor
    rw [if_neg (by decide), hlv, show (4 : ℝ) * Real.exp (-(49 / 5)) = 2 * (2 * Real.exp (-(49 / 5))) by ring,
      ENNReal.ofReal_mul (by norm_num), show ENNReal.ofReal 2 = 2 by norm_num]
    refine mul_le_mul_right (gaussTail_le ?_) 2
    norm_num [customParams]
  have h2 : gaussTail (((2 ^ 10 : Nat) : ℝ) / 12) (48 : Nat) ≤ ENNReal.ofReal (2 * Real.exp (-(27 / 2))) :=
    gaussTail_le (by norm_num)
  have h3 : accTail customParams 132120577 10 1 0 ≤ ENNReal.ofReal (1024 * 1024 / 132120577 ^ 2) := by
    unfold accTail rootTail
    rw [if_neg (by decide), add_zero]
    have : (((132120577 : Nat) : ℝ≥0∞) ^ 2 ^ 1)⁻¹ = ENNReal.ofReal ((132120577 ^ 2)⁻¹) := by
      rw [ENNReal.ofReal_inv_of_pos (by positivity), ENNReal.ofReal_pow (by norm_num)]
      norm_num
    rw [this, ← ENNReal.ofReal_natCast, ← ENNReal.ofReal_natCast, ← ENNReal.ofReal_mul (by positivity),
      ← ENNReal.ofReal_mul (by positivity)]
    refine ENNReal.ofReal_le_ofReal ?_
    norm_num [customParams]
  refine (add_le_add h1 (add_le_add h2 h3)).trans ?_
  rw [← ENNReal.ofReal_add (by positivity) (by positivity), ← ENNReal.ofReal_add (by positivity) (by positivity)]
  refine ENNReal.ofReal_le_ofReal ?_
  have e1 : Real.exp (-(27 / 2)) = Real.exp (-(37 / 10)) * Real.exp (-(49 / 5)) := by rw [← Real.exp_add]; norm_num
  have e2 : Real.exp (-(37 / 10)) ≤ 1 / 4 := by
    rw [Real.exp_neg, one_div]
    refine inv_anti₀ (by norm_num) ?_
    have := Real.add_one_le_exp (37 / 10 : ℝ)
    linarith
  have e3 : (1024 * 1024 / 132120577 ^ 2 : ℝ) ≤ 1 / 2 * Real.exp (-(49 / 5)) := by
    have hexp : Real.exp (49 / 5) ≤ (68 / 25) ^ 10 := by
      refine (Real.exp_le_exp.2 (show (49 / 5 : ℝ) ≤ (10 : Nat) * 1 by norm_num)).trans ?_
      rw [Real.exp_nat_mul]
      gcongr
      have := Real.exp_one_lt_d9
      linarith
    rw [Real.exp_neg]
    refine le_trans ?_ (mul_le_mul_of_nonneg_left (inv_anti₀ (Real.exp_pos _) hexp) (by norm_num))
    norm_num
  rw [e1]
  nlinarith [Real.exp_pos (-(49 / 5))]

/-- C82: the second parameter set of the crate, for every LWE key with at most 496 of its 512 entries different from zero.
Bits are encrypted with noises that the sampler of the parameters accepts, `g` gates are applied to the ciphertexts with an
evaluation key with Gaussian errors, and the results are decrypted. All are right, except with probability
`5 g exp(-9.8)`. -/
theorem C82_custom_gates [DefaultBuild] [NeZero 132120577] (δ : PMF ℚ) (hδ : Deviates δ (13 / 2))
    (maskLwe : PMF (List Nat)) (hmask : ∀ a ∈ maskLwe.support, Reduced (2 ^ 14) 512 a) (dk : KeyDraws)
    (b : Nat → Bool) (masks : Nat → List Nat) (z : Nat → ℤ)
    (hm : ∀ i, 512 ≤ (masks i).length ∧ ∀ x ∈ masks i, x < 2 ^ 14)
    (s : Sampler) (hs : noise (rnd (16 / 5)) = some s) (hz : ∀ i, ∃ x, accept s x = true ∧ z i = roundAway x) :
    ∃ pack, KeyPack.new defaultCtx customParams dk = some pack ∧ (norm1 (pack.lwe.map ternaryDigit) ≤ 496 →
      ∃ c : Nat → LWE,
        (∀ i, (customParams.lwe 16).encrypt pack.lwe (masks i) (z i) (b i).toNat = some (c i)) ∧
        ∀ gs : List Circuit, (∀ X ∈ gs, X.OneGate) →
          (evalLaw 16 defaultCtx customParams 132120577 10 14 (customLaws δ maskLwe)).toOuterMeasure
            {d | ∃ K, EvalKey.new 16 defaultCtx customParams pack d = some K ∧
              ∀ X ∈ gs, ∃ out, X.run K c = some out ∧
                (customParams.lwe 16).decrypt .bool pack.lwe out = some (X.eval b).toNat}ᶜ ≤
          ENNReal.ofReal (5 * gs.length * Real.exp (-(49 / 5)))) := by
  have hz' : ∀ i, |z i| ≤ 19 := by
    obtain ⟨s', hs', hb⟩ := C53_encryption_noise (rnd (16 / 5)) (by decide +kernel) 19 (by decide +kernel)
    obtain rfl := Option.some.inj (hs.symm.trans hs')
    intro i
    obtain ⟨x, hx, e⟩ := hz i
    rw [e]
    exact hb x hx
  obtain ⟨pack, ep, hend⟩ := C82_end_to_end custom_gateParams custom_stepsOk 7 custom_basis (t := 1) (t' := 0)
    (by decide) (by decide) (fun h => by cases h) dk (fun h => by cases h)
  refine ⟨pack, ep, fun hw => ?_⟩
  obtain ⟨c, ec, hgs⟩ := hend (customLaws δ maskLwe) 49 49 0 (customLaws_ok δ hδ maskLwe hmask)
    rfl
    (fun h => by cases h) 264000000000 48 19
    (by
      rw [show inError 10 14 (pack.lwe.map ternaryDigit) = 1 + norm1 (pack.lwe.map ternaryDigit) from if_neg (by decide)]
      norm_num
      linarith)
    (by unfold jointError; norm_num) b masks z hm hz'
  refine ⟨c, ec, fun gs hg => (hgs gs hg).trans ?_⟩
  rw [if_pos (show customParams.steps = .brMsKs from rfl)]
  refine (mul_le_mul_right custom_tails _).trans (le_of_eq ?_)
  rw [← ENNReal.ofReal_natCast, ← ENNReal.ofReal_mul (by positivity)]
  congr 1
  ring

/-- The LWE keys of the second parameter set are light enough, except with probability `2^-400`. -/
theorem custom_key_weight [DefaultBuild] : (wordStream 32 33).toOuterMeasure
    {words | ∃ l, KeyPack.lweKey customParams words = some l ∧ norm1 (l.map ternaryDigit) ≤ 496}ᶜ ≤ (2 ^ 400)⁻¹ := by
  have hF := custom_gateParams.field
  have h64 := (C64_secret_keys defaultCtx.w 132120577 hF.even defaultCtx hF.conf customParams (by decide) [] []).2.1 rfl
  have e1 : (wordStream 32 33).toOuterMeasure
      {words | ∃ l, KeyPack.lweKey customParams words = some l ∧ norm1 (l.map ternaryDigit) ≤ 496}ᶜ =
      ((wordStream 32 33).map fun words => KeyPack.lweKey customParams words).toOuterMeasure
        {o | ∃ l, o = some l ∧ norm1 (l.map ternaryDigit) ≤ 496}ᶜ := by
    rw [PMF.toOuterMeasure_map_apply]; rfl
  have e2 : ((draws (ternaryLaw customParams.q) customParams.n).map some).toOuterMeasure
        {o | ∃ l, o = some l ∧ norm1 (l.map ternaryDigit) ≤ 496}ᶜ =
      (draws (ternaryLaw customParams.q) customParams.n).toOuterMeasure
        {l | norm1 (l.map ternaryDigit) < (497 : Nat)}ᶜ := by
    rw [PMF.toOuterMeasure_map_apply]
    congr 1
    ext l
    change (¬ ∃ l', some l = some l' ∧ norm1 (l'.map ternaryDigit) ≤ 496) ↔ ¬ norm1 (l.map ternaryDigit) < (497 : Nat)
    refine not_congr ⟨fun ⟨l', h, h'⟩ => ?_, fun h => ⟨l, rfl, ?_⟩⟩
    · obtain rfl := Option.some.inj h
      push_cast; omega
    · push_cast at h; omega
  have key : ∀ a b c : Nat, 16 ^ a * 2 ^ b ≤ 31 ^ c → (16 : ℝ≥0∞) ^ a * 2 ^ b ≤ 31 ^ c := fun a b c h => by
    exact_mod_cast h
  rw [e1]
  refine le_trans (le_of_eq ?_) ((C82_key_weight customParams.q (by decide) customParams.n 497).trans ?_)
  · rw [← e2, ← h64]; rfl
  · rw [ENNReal.div_le_iff (by simp) (by simp), ← ENNReal.div_eq_inv_mul,
      ENNReal.le_div_iff_mul_le (by simp) (by simp)]
    exact key customParams.n 400 497 (by decide +kernel)

/-- C82: the whole scheme with the second parameter set of the crate. A secret key is drawn (from uniform words for its LWE
part), bits are encrypted with noises that the sampler of the parameters accepts, an evaluation key with Gaussian errors is
drawn, `g` gates are applied to the ciphertexts and the results are decrypted. All are right, except with probability
`2^-400 + 5 g exp(-9.8)`. -/
theorem C82_custom [DefaultBuild] [NeZero 132120577] (δ : PMF ℚ) (hδ : Deviates δ (13 / 2))
    (maskLwe : PMF (List Nat)) (hmask : ∀ a ∈ maskLwe.support, Reduced (2 ^ 14) 512 a)
    (ring : Nat → Nat) (gauss : List Nat)
    (b : Nat → Bool) (masks : Nat → List Nat) (z : Nat → ℤ)
    (hm : ∀ i, 512 ≤ (masks i).length ∧ ∀ x ∈ masks i, x < 2 ^ 14)
    (s : Sampler) (hs : noise (rnd (16 / 5)) = some s) (hz : ∀ i, ∃ x, accept s x = true ∧ z i = roundAway x)
    (gs : List Circuit) (hgs : ∀ X ∈ gs, X.OneGate) :
    (pair (wordStream 32 33)
      (evalLaw 16 defaultCtx customParams 132120577 10 14 (customLaws δ maskLwe))).toOuterMeasure
      {x | ∃ pack, KeyPack.new defaultCtx customParams ⟨x.1, ring, gauss⟩ = some pack ∧ ∃ c : Nat → LWE,
        (∀ i, (customParams.lwe 16).encrypt pack.lwe (masks i) (z i) (b i).toNat = some (c i)) ∧
        ∃ K, EvalKey.new 16 defaultCtx customParams pack x.2 = some K ∧
          ∀ X ∈ gs, ∃ out, X.run K c = some out ∧
            (customParams.lwe 16).decrypt .bool pack.lwe out = some (X.eval b).toNat}ᶜ ≤
    (2 ^ 400)⁻¹ + ENNReal.ofReal (5 * gs.length * Real.exp (-(49 / 5))) := by
  unfold pair
  refine prob_bind_split custom_key_weight fun words _ hw => ?_
  obtain ⟨l, el, hl⟩ := hw
  obtain ⟨pack, ep, h⟩ := C82_custom_gates δ hδ maskLwe hmask ⟨words, ring, gauss⟩ b masks z hm s hs hz
  have hpl : pack.lwe = l := by
    have ep' := ep
    unfold KeyPack.new at ep'
    rw [mbind el] at ep'
    obtain ⟨r, -, e⟩ := Option.bind_eq_some_iff.1 ep'
    obtain ⟨n, -, e⟩ := Option.bind_eq_some_iff.1 e
    rw [← Option.some.inj e]
  rw [hpl] at h
  obtain ⟨c, ec, hg⟩ := h hl
  have := hg gs hgs
  change (PMF.map (fun d => (words, d)) _).toOuterMeasure _ ≤ _
  rw [PMF.toOuterMeasure_map_apply]
  refine le_trans (prob_mono ?_) this
  intro d _ hbad hgood
  refine hbad ?_
  obtain ⟨K, eK, hK⟩ := hgood
  exact ⟨pack, ep, c, by rw [hpl]; exact ec, K, eK, by rw [hpl]; exact hK⟩

-- One `nand`: a normal law of standard deviation 6.4 with 40 binary places, uniform masks of the switching key, all masks and
-- noises of the two ciphertexts zero, and the words of the ring key zero
example [DefaultBuild] [NeZero 132120577] (s : Sampler) (hs : noise (rnd (16 / 5)) = some s) (b : Nat → Bool) :
    (pair (wordStream 32 33) (evalLaw 16 defaultCtx customParams 132120577 10 14
      (customLaws (normalDeviates (32 / 5) 40) (draws (uniformBelow (2 ^ 14)) 512)))).toOuterMeasure
      {x | ∃ pack, KeyPack.new defaultCtx customParams ⟨x.1, fun _ => 0, []⟩ = some pack ∧ ∃ c : Nat → LWE,
        (∀ i, (customParams.lwe 16).encrypt pack.lwe (List.replicate 512 0) 0 (b i).toNat = some (c i)) ∧
        ∃ K, EvalKey.new 16 defaultCtx customParams pack x.2 = some K ∧ ∃ out, K.nand (c 0) (c 1) = some out ∧
            (customParams.lwe 16).decrypt .bool pack.lwe out = some (!(b 0 && b 1)).toNat}ᶜ ≤
    (2 ^ 400)⁻¹ + ENNReal.ofReal (5 * Real.exp (-(49 / 5))) := by
  have := C82_custom (normalDeviates (32 / 5) 40)
    (deviates_mono (C71_normal _ _) (by positivity) (by push_cast; norm_num)) (draws (uniformBelow (2 ^ 14)) 512)
    (fun a ha => by
      obtain ⟨x1, x2⟩ := mem_support_draws ha
      exact ⟨x1, fun v hv => mem_support_uniformBelow (x2 v hv)⟩) (fun _ => 0) [] b (fun _ => List.replicate 512 0)
    (fun _ => 0) (fun _ => ⟨by rw [List.length_replicate], fun x hx => by rw [List.eq_of_mem_replicate hx]; decide⟩) s hs
    (fun _ => ⟨0, by
      have h0 : (noise (rnd (16 / 5))).all (fun s => accept s 0) = true := by decide +kernel
      rwa [hs] at h0, by decide +kernel⟩) [.nand (.input 0) (.input 1)]
    (fun X hX => by rw [List.mem_singleton.1 hX]; trivial)
  rw [List.length_singleton, Nat.cast_one, mul_one] at this
  refine le_trans (prob_mono ?_) this
  intro x _ hbad hgood
  obtain ⟨pack, ep, c, ec, K, eK, hK⟩ := hgood
  obtain ⟨out, e, ho⟩ := hK (.nand (.input 0) (.input 1)) (by simp)
  exact hbad ⟨pack, ep, c, ec, K, eK, out, e, ho⟩

-- the bound for one gate
example : (5 : ℝ) * Real.exp (-(49 / 5)) < 1 / 2700 := by
  have h : Real.exp (-(49 / 5)) ≤ 1 / (2.7 ^ 9 * (9 / 5)) := by
    rw [Real.exp_neg, one_div]
    refine inv_anti₀ (by positivity) ?_
    rw [show (49 / 5 : ℝ) = (9 : Nat) * 1 + 4 / 5 by norm_num, Real.exp_add, Real.exp_nat_mul]
    have h1 := Real.exp_one_gt_d9
    have h2 := Real.add_one_le_exp (4 / 5 : ℝ)
    gcongr <;> linarith
  refine lt_of_le_of_lt (mul_le_mul_of_nonneg_left h (by norm_num)) ?_
  norm_num

end Verif.Props
