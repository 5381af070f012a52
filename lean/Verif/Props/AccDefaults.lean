import Verif.Props.AccGates
import Verif.Props.GaussianDefaults

/-! # C75: the default parameters -/

namespace Verif.Props
open Fp Spec Ntt Gaussian F64
open scoped ENNReal NNReal

/-- The roots of small polynomials are negligible for the default parameters. -/
theorem default_accTail : accTail defaultParams 132120577 10 2 3 ≤ ENNReal.ofReal (Real.exp (-58)) := by
  have hclog : Nat.clog 2 defaultParams.n = 10 := clog_eq (by decide) (by decide)
  have hn : defaultParams.n = 1024 := rfl
  have hexp : Real.exp 58 ≤ (68 / 25) ^ 58 := by
    rw [show (58 : ℝ) = (58 : Nat) * 1 by norm_num, Real.exp_nat_mul]
    gcongr
    have := Real.exp_one_lt_d9
    linarith
  have hinv : ∀ t : Nat, ((132120577 : Nat) : ℝ≥0∞) ^ 2 ^ t = ENNReal.ofReal (132120577 ^ 2 ^ t) := fun t => by
    rw [ENNReal.ofReal_pow (by norm_num), ← ENNReal.ofReal_natCast]
    norm_num
  have hroot : ∀ t n : Nat, rootTail 132120577 n t = ENNReal.ofReal (n / 132120577 ^ 2 ^ t) := fun t n => by
    unfold rootTail
    rw [hinv, ← ENNReal.ofReal_inv_of_pos (by positivity), ← ENNReal.ofReal_natCast,
      ← ENNReal.ofReal_mul (by positivity), div_eq_mul_inv]
  unfold accTail
  rw [if_pos (show defaultParams.steps = .brKsMs from rfl), hclog, hn, hroot, hroot, ← ENNReal.ofReal_natCast, ← ENNReal.ofReal_mul (by positivity),
    ← ENNReal.ofReal_add (by positivity) (by positivity)]
  refine ENNReal.ofReal_le_ofReal ?_
  rw [Real.exp_neg]
  refine le_trans ?_ (inv_anti₀ (Real.exp_pos _) hexp)
  norm_num

/-- C75: the whole scheme with the default parameters and their noise, without exceptions. Bits are encrypted with noises
that the sampler of the parameters accepts, `g` gates are applied to the ciphertexts with an evaluation key with uniform
masks and Gaussian errors, and the results are decrypted. All are right, except with probability `7 g exp(-58)`; for all
secret keys and all masks of the ciphertexts. -/
theorem C75_default_gates [DefaultBuild] [NeZero 132120577] (δ : PMF ℚ) (hδ : Deviates δ (13 / 2)) (dk : KeyDraws)
    (b : Nat → Bool) (masks : Nat → List Nat) (z : Nat → ℤ)
    (hm : ∀ i, 1024 ≤ (masks i).length ∧ ∀ x ∈ masks i, x < 1024)
    (s : Sampler) (hs : noise (rnd (16 / 5)) = some s) (hz : ∀ i, ∃ x, accept s x = true ∧ z i = roundAway x) :
    ∃ pack, KeyPack.new defaultCtx defaultParams dk = some pack ∧ ∃ c : Nat → LWE,
      (∀ i, (defaultParams.lwe 16).encrypt pack.lwe (masks i) (z i) (b i).toNat = some (c i)) ∧
      ∀ gs : List Circuit, (∀ X ∈ gs, X.OneGate) →
        (evalLaw 16 defaultCtx defaultParams 132120577 10 10
          (defaultGaussLaws δ (draws (uniformBelow 132120577) (2 ^ 10))
            (draws (uniformBelow 132120577) (2 ^ 10)))).toOuterMeasure
          {d | ∃ K, EvalKey.new 16 defaultCtx defaultParams pack d = some K ∧
            ∀ X ∈ gs, ∃ out, X.run K c = some out ∧
              (defaultParams.lwe 16).decrypt .bool pack.lwe out = some (X.eval b).toNat}ᶜ ≤
        ENNReal.ofReal (7 * gs.length * Real.exp (-58)) := by
  have hz' : ∀ i, |z i| ≤ 40 := by
    obtain ⟨s', hs', hb⟩ := C53_encryption_noise (rnd (16 / 5)) (by decide +kernel) 19 (by decide +kernel)
    obtain rfl := Option.some.inj (hs.symm.trans hs')
    intro i
    obtain ⟨x, hx, e⟩ := hz i
    rw [e]
    have := hb x hx
    push_cast at this
    linarith
  have hclog : Nat.clog 2 defaultParams.n = 10 := clog_eq (by decide) (by decide)
  have hred : ∀ a ∈ (draws (uniformBelow 132120577) (2 ^ 10)).support, Reduced 132120577 (2 ^ 10) a := fun a ha => by
    obtain ⟨x1, x2⟩ := mem_support_draws ha
    exact ⟨x1, fun v hv => mem_support_uniformBelow (x2 v hv)⟩
  obtain ⟨pack, ep, hend⟩ := C75_end_to_end default_gateParams default_stepsOk 3 default_basis (t := 2) (t' := 3)
    (by decide) (by decide) (fun _ => ⟨by rw [hclog]; decide, by decide⟩) dk (fun h => by cases h)
  obtain ⟨c, ec, hgs⟩ := hend (defaultGaussLaws δ (draws (uniformBelow 132120577) (2 ^ 10))
      (draws (uniformBelow 132120577) (2 ^ 10))) 49 0 49 (defaultGaussLaws_ok δ hδ _ _ hred hred) rfl
    (fun _ => by rw [hclog]; rfl) 100 3500000 (2 ^ 14) 40
    (by rw [show inError 10 10 (pack.lwe.map ternaryDigit) = 0 from if_pos (by decide)]; norm_num)
    (by
      change 2 * (2 ^ 10 * (4 * (((3500000 : Nat) : ℤ) + ((2 ^ 14 : Nat) : ℤ)) + 7) +
        2 * ((132120577 : Nat) : ℤ) * (1 + 2 * ((100 : Nat) : ℤ))) < _
      norm_num) b masks z hm hz'
  refine ⟨pack, ep, c, ec, fun gs hg => (hgs gs hg).trans ?_⟩
  rw [if_neg (by decide)]
  have htail : rotationTail defaultParams 10 49 (3500000 : Nat) +
      switchTail 16 defaultCtx defaultParams 132120577 10 10 0 49 (2 ^ 14 : Nat) +
      (gaussTail (defaultParams.n / 12) (100 : Nat) + accTail defaultParams 132120577 10 2 3) ≤
        ENNReal.ofReal (7 * Real.exp (-58)) := by
    refine (add_le_add default_gauss_tails (add_le_add (gaussTail_le (r := 58) (by norm_num [defaultParams]))
      default_accTail)).trans ?_
    rw [← ENNReal.ofReal_add (by positivity) (by positivity), ← ENNReal.ofReal_add (by positivity) (by positivity)]
    refine ENNReal.ofReal_le_ofReal ?_
    have := Real.exp_le_exp.2 (show (-65 : ℝ) ≤ -58 by norm_num)
    linarith
  refine (mul_le_mul_right htail _).trans (le_of_eq ?_)
  rw [← ENNReal.ofReal_natCast, ← ENNReal.ofReal_mul (by positivity)]
  congr 1
  ring

-- One `nand` with the default parameters, a normal law of standard deviation 6.4 with 40 binary places and all masks and
-- noises of the two ciphertexts zero
example [DefaultBuild] [NeZero 132120577] (dk : KeyDraws) (s : Sampler) (hs : noise (rnd (16 / 5)) = some s) (b : Nat → Bool) :
    ∃ pack, KeyPack.new defaultCtx defaultParams dk = some pack ∧ ∃ c : Nat → LWE,
      (∀ i, (defaultParams.lwe 16).encrypt pack.lwe (List.replicate 1024 0) 0 (b i).toNat = some (c i)) ∧
        (evalLaw 16 defaultCtx defaultParams 132120577 10 10
          (defaultGaussLaws (normalDeviates (32 / 5) 40) (draws (uniformBelow 132120577) (2 ^ 10))
            (draws (uniformBelow 132120577) (2 ^ 10)))).toOuterMeasure
          {d | ∃ K, EvalKey.new 16 defaultCtx defaultParams pack d = some K ∧ ∃ out, K.nand (c 0) (c 1) = some out ∧
              (defaultParams.lwe 16).decrypt .bool pack.lwe out = some (!(b 0 && b 1)).toNat}ᶜ ≤
        ENNReal.ofReal (7 * Real.exp (-58)) := by
  obtain ⟨pack, ep, c, ec, h⟩ := C75_default_gates (normalDeviates (32 / 5) 40)
    (deviates_mono (C71_normal _ _) (by positivity) (by push_cast; norm_num)) dk b (fun _ => List.replicate 1024 0)
    (fun _ => 0) (fun _ => ⟨by rw [List.length_replicate], fun x hx => by rw [List.eq_of_mem_replicate hx]; decide⟩) s hs
    (fun _ => ⟨0, by
      have h0 : (noise (rnd (16 / 5))).all (fun s => accept s 0) = true := by decide +kernel
      rwa [hs] at h0, by decide +kernel⟩)
  refine ⟨pack, ep, c, ec, ?_⟩
  have := h [.nand (.input 0) (.input 1)] (fun X hX => by rw [List.mem_singleton.1 hX]; trivial)
  rw [List.length_singleton, Nat.cast_one, mul_one] at this
  refine le_trans (prob_mono ?_) this
  intro d _ hbad hgood
  obtain ⟨K, eK, hK⟩ := hgood
  obtain ⟨out, e, ho⟩ := hK (.nand (.input 0) (.input 1)) (by simp)
  exact hbad ⟨K, eK, out, e, ho⟩

end Verif.Props
