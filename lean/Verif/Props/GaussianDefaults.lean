import Verif.Props.GaussianLaw
import Verif.Lemmas.Normal
import Verif.Props.FailureRounding

/-!
# C71: Gaussian errors with the default parameters
-/

namespace Verif.Props
open Spec Gaussian F64
open scoped ENNReal NNReal

/-- A larger deviation is a weaker assumption. -/
theorem deviates_mono {δ : PMF ℚ} {τ τ' : ℝ} (h : Deviates δ τ) (h0 : 0 ≤ τ) (hle : τ ≤ τ') : Deviates δ τ' := by
  refine ⟨h.f64, h.symm, fun t => (h.mgf t).trans (eexp_mono ?_)⟩
  have : τ ^ 2 ≤ τ' ^ 2 := by gcongr
  have := mul_le_mul_of_nonneg_right this (sq_nonneg t)
  linarith

/-- C71: the normal law of standard deviation `σ`, rounded towards zero to multiples of `2^-k`, meets the assumptions. -/
theorem C71_normal (σ : ℝ≥0) (k : Nat) : Deviates (normalDeviates σ k) σ := normalDeviates_ok σ k

/-- The deviation of ring and switching key errors of both parameter sets of the crate, `3.2 * 2`
(bool/src/bfhe/parameters.rs 18, 22, 39, 43). -/
def defaultDeviation : ℚ := F64.mul (rnd (16 / 5)) 2

/-- Its sampler. -/
def defaultSampler : Sampler := ⟨0, defaultDeviation, F64.mul defaultDeviation 6, false⟩

theorem default_sampler : noise defaultDeviation = some defaultSampler := by
  have h : ¬ defaultDeviation < 0 := by decide +kernel
  have h2 : cbdEnable 0 defaultDeviation = false := by decide +kernel
  unfold noise Gaussian.new
  dsimp only
  rw [if_neg h, h2]
  rfl

theorem default_maxDev : 38 < defaultSampler.maxDev ∧ defaultSampler.maxDev < 39 := by
  constructor <;> decide +kernel

/-- The law of the errors of the default parameters. -/
noncomputable def defaultErrors (δ : PMF ℚ) : PMF Nat := gaussLaw 132120577 δ defaultSampler.maxDev

/-- C71: with the default parameters the errors of ring ciphertexts are sub-Gaussian with parameter 49, if the deviates
are those of a normal law of standard deviation at most 6.5. -/
theorem C71_default_errors (δ : PMF ℚ) (hδ : Deviates δ (13 / 2)) : SubGaussian 132120577 (defaultErrors δ) 49 := by
  obtain ⟨h1, h2⟩ := default_maxDev
  have h1' : (38 : ℝ) < defaultSampler.maxDev := by exact_mod_cast h1
  have := C71_subgaussian hδ (by norm_num) (D := defaultSampler.maxDev) (by linarith) 132120577
    (by push_cast; linarith)
  norm_num at this
  exact this

-- A normal law of standard deviation 6.4 with 40 binary places
example : Deviates (normalDeviates (32 / 5) 40) (13 / 2) :=
  deviates_mono (C71_normal _ _) (by positivity) (by push_cast; norm_num)

/-- The laws of an evaluation key of the default parameters; the LWE switching key is not used. -/
noncomputable def defaultGaussLaws (δ : PMF ℚ) (mask maskRlwe : PMF (List Nat)) : KeyLaws :=
  ⟨mask, defaultErrors δ, PMF.pure (List.replicate 1024 0), PMF.pure 0, maskRlwe, defaultErrors δ⟩

theorem defaultGaussLaws_ok (δ : PMF ℚ) (hδ : Deviates δ (13 / 2)) (mask maskRlwe : PMF (List Nat))
    (h : ∀ a ∈ mask.support, Reduced 132120577 (2 ^ 10) a)
    (h' : ∀ a ∈ maskRlwe.support, Reduced 132120577 (2 ^ 10) a) :
    (defaultGaussLaws δ mask maskRlwe).Ok defaultParams 132120577 10 10 49 0 49 := by
  have hclog : Nat.clog 2 defaultParams.n = 10 := clog_eq (by decide) (by decide)
  exact ⟨h, C71_default_errors δ hδ, by norm_num, pure_reduced (n := 1024) (x := 0) (by decide),
    pure_zero_subGaussian (by decide), le_rfl, by rw [hclog]; exact h', C71_default_errors δ hδ, by norm_num⟩

theorem default_gauss_tails [DefaultBuild] : rotationTail defaultParams 10 49 (3500000 : Nat) +
    switchTail 16 defaultCtx defaultParams 132120577 10 10 0 49 (2 ^ 14 : Nat) ≤
      ENNReal.ofReal (4 * Real.exp (-65)) := by
  have h1 : rotationTail defaultParams 10 49 (3500000 : Nat) ≤ ENNReal.ofReal (2 * Real.exp (-65)) := by
    unfold rotationTail
    rw [if_neg (by decide)]
    refine gaussTail_le ?_
    norm_num [defaultParams]
  have hB : Basis.new defaultCtx.w 132120577 defaultParams.keySwitchBits = some ⟨2, 27, 1, 1⟩ := default_switch_basis
  have hlv : rlweLevels defaultCtx defaultParams 132120577 = 27 := by unfold rlweLevels; rw [hB]; rfl
  have h2 : switchTail 16 defaultCtx defaultParams 132120577 10 10 0 49 (2 ^ 14 : Nat) ≤
      ENNReal.ofReal (2 * Real.exp (-65)) := by
    unfold switchTail
    rw [hlv]
    change gaussTail _ _ ≤ _
    refine gaussTail_le ?_
    norm_num [defaultParams]
  refine (add_le_add h1 h2).trans (le_of_eq ?_)
  rw [← ENNReal.ofReal_add (by positivity) (by positivity)]
  congr 1
  ring

/-- C71: the whole scheme with the default parameters and their noise. Bits are encrypted with noises that the sampler of
the parameters accepts, `g` gates are applied to the ciphertexts with an evaluation key with Gaussian errors, and the
results are decrypted. All are right, except with probability `6 g exp(-58)`, unless the digits of an accumulator have a
common root; for all secret keys and all masks of the ciphertexts and of the rotation key. -/
theorem C71_default_gates [DefaultBuild] [NeZero 132120577] (δ : PMF ℚ) (hδ : Deviates δ (13 / 2)) (dk : KeyDraws)
    (mask : PMF (List Nat)) (h : ∀ a ∈ mask.support, Reduced 132120577 (2 ^ 10) a) (b : Nat → Bool)
    (masks : Nat → List Nat) (z : Nat → ℤ) (hm : ∀ i, 1024 ≤ (masks i).length ∧ ∀ x ∈ masks i, x < 1024)
    (s : Sampler) (hs : noise (rnd (16 / 5)) = some s) (hz : ∀ i, ∃ x, accept s x = true ∧ z i = roundAway x) :
    ∃ pack, KeyPack.new defaultCtx defaultParams dk = some pack ∧ ∃ c : Nat → LWE,
      (∀ i, (defaultParams.lwe 16).encrypt pack.lwe (masks i) (z i) (b i).toNat = some (c i)) ∧
      ∀ gs : List Circuit, (∀ X ∈ gs, X.OneGate) →
        (evalLaw 16 defaultCtx defaultParams 132120577 10 10
          (defaultGaussLaws δ mask (draws (uniformBelow 132120577) (2 ^ 10)))).toOuterMeasure
          {d | ∃ K, EvalKey.new 16 defaultCtx defaultParams pack d = some K ∧
            ∀ X ∈ gs, X.Nondegenerate K 132120577 10 c → ∃ out, X.run K c = some out ∧
              (defaultParams.lwe 16).decrypt .bool pack.lwe out = some (X.eval b).toNat}ᶜ ≤
        ENNReal.ofReal (6 * gs.length * Real.exp (-58)) := by
  have hz' : ∀ i, |z i| ≤ 40 := by
    obtain ⟨s', hs', hb⟩ := C53_encryption_noise (rnd (16 / 5)) (by decide +kernel) 19 (by decide +kernel)
    obtain rfl := Option.some.inj (hs.symm.trans hs')
    intro i
    obtain ⟨x, hx, e⟩ := hz i
    rw [e]
    have := hb x hx
    push_cast at this
    linarith
  have hclog : Nat.clog 2 defaultParams.n = 10 := clog_eq (by decide) (by decide)
  obtain ⟨pack, ep, hend⟩ := C66_end_to_end default_gateParams default_stepsOk rfl 3 default_basis dk
    (fun h => by cases h)
  obtain ⟨c, ec, hgs⟩ := hend (defaultGaussLaws δ mask (draws (uniformBelow 132120577) (2 ^ 10))) 49 0 49
    (defaultGaussLaws_ok δ hδ mask _ h fun a ha => by
      obtain ⟨x1, x2⟩ := mem_support_draws ha
      exact ⟨x1, fun v hv => mem_support_uniformBelow (x2 v hv)⟩) (by rw [hclog]; rfl) 100 3500000 (2 ^ 14) 40
    (by rw [show inError 10 10 (pack.lwe.map ternaryDigit) = 0 from if_pos (by decide)]; norm_num)
    (by
      change 2 * (2 ^ 10 * (4 * (((3500000 : Nat) : ℤ) + ((2 ^ 14 : Nat) : ℤ)) + 7) +
        2 * ((132120577 : Nat) : ℤ) * (1 + 2 * ((100 : Nat) : ℤ))) < _
      norm_num) b masks z hm hz'
  refine ⟨pack, ep, c, ec, fun gs hg => (hgs gs hg).trans ?_⟩
  have htail : rotationTail defaultParams 10 49 (3500000 : Nat) +
      switchTail 16 defaultCtx defaultParams 132120577 10 10 0 49 (2 ^ 14 : Nat) +
      gaussTail (defaultParams.n / 12) (100 : Nat) ≤ ENNReal.ofReal (6 * Real.exp (-58)) := by
    refine (add_le_add default_gauss_tails (gaussTail_le (r := 58) (by norm_num [defaultParams]))).trans ?_
    rw [← ENNReal.ofReal_add (by positivity) (by positivity)]
    refine ENNReal.ofReal_le_ofReal ?_
    have := Real.exp_le_exp.2 (show (-65 : ℝ) ≤ -58 by norm_num)
    linarith
  refine (mul_le_mul_right htail _).trans (le_of_eq ?_)
  rw [← ENNReal.ofReal_natCast, ← ENNReal.ofReal_mul (by positivity)]
  congr 1
  ring

-- One error polynomial of the default parameters from `k` deviates of finite precision: the deviates fall short with
-- probability at most 2^1024 (3/4)^k
example (k : Nat) (bytes : Nat → Nat) :
    ((draws (normalDeviates (32 / 5) 40) k).map (polynomial 32 defaultBarrett defaultSampler 1024 bytes)) (some none) ≤
      2 ^ 1024 * (3 / 4) ^ k :=
  (C71_polynomial 32 132120577 rfl defaultBarrett (by decide +kernel) defaultDeviation (by decide +kernel)
    (by decide +kernel) defaultSampler default_sampler (by have := default_maxDev.2; push_cast; linarith) _ (13 / 2)
    (deviates_mono (C71_normal _ _) (by positivity) (by push_cast; norm_num)) (by norm_num)
    (by
      have h1' : (38 : ℝ) < defaultSampler.maxDev := by exact_mod_cast default_maxDev.1
      linarith) 1024 k bytes).2.2

-- An error of a fresh ciphertext of the default parameters: the law of the sampler up to the case that 100 deviates are
-- rejected, and its sub-Gaussian parameter
example : ∃ s, noise (rnd (16 / 5)) = some s ∧
    (∀ e, ((draws (normalDeviates (16 / 5) 40) 100).map fun xs => (lwe 16 1024 s xs).map fun o => o.map Prod.fst)
        (some (some e)) =
      (1 - ((draws (normalDeviates (16 / 5) 40) 100).map fun xs => (lwe 16 1024 s xs).map fun o => o.map Prod.fst)
        (some none)) * gaussLaw 1024 (normalDeviates (16 / 5) 40) s.maxDev e) ∧
    SubGaussian 1024 (gaussLaw 1024 (normalDeviates (16 / 5) 40) s.maxDev) 14 := by
  obtain ⟨s, hs, -⟩ := C53_encryption_noise (rnd (16 / 5)) (by decide +kernel) 19 (by decide +kernel)
  obtain ⟨-, -, h3, -⟩ := noise_sampler (by decide +kernel) hs
  have h4 : rnd (16 / 5) < 13 / 4 ∧ 3 < rnd (16 / 5) := by constructor <;> decide +kernel
  have h5 := abs_le.1 h3
  have h6 : s.maxDev < 20 := by linarith [h5.2, h4.1]
  have h7 : 17 < s.maxDev := by linarith [h5.1, h4.1, h4.2]
  have h8 : (17 : ℝ) < s.maxDev := by exact_mod_cast h7
  have hd : Deviates (normalDeviates (16 / 5) 40) (16 / 5) := by
    have := C71_normal (16 / 5) 40
    push_cast at this
    exact this
  refine ⟨s, hs, (C71_lwe 16 1024 (by decide) (rnd (16 / 5)) (by decide +kernel) s hs (by norm_num; linarith) _
    (16 / 5) hd (by norm_num) (by linarith) 100).2.1, ?_⟩
  have h9 := C71_subgaussian hd (by norm_num) (D := s.maxDev) (by linarith) 1024 (by norm_num; linarith)
  exact ⟨h9.lt, fun t => (h9.mgf t).trans (eexp_mono (by nlinarith [sq_nonneg t]))⟩

end Verif.Props
