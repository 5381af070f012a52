import Verif.Props.Tuned

/-! # C104: the whole scheme and the default parameters -/

namespace Verif.Props
open Fp Spec Ntt Gaussian F64
open scoped ENNReal NNReal

/-- C104: the whole scheme. Bits are encrypted, layers of gates are evaluated, each with a new evaluation key with uniform
masks, and everything is decrypted. For every secret key and all masks of the ciphertexts. -/
theorem C104_end_to_end {w : Nat} {R : Ctx} {P : Params} {Q k m : Nat} [Fact Q.Prime] (G : GateParams w R P Q k m)
    [NeZero Q] (hS : StepsOk R P Q k m) (hst : P.steps = .brKsMs) (hn : 0 < P.n) (bits : Nat)
    (hB : Basis.new R.w Q bits = some P.basis) {t t' : Nat} (ht : t ≤ k) (hq : (2 ^ t * (2 ^ bits - 1)) ^ 2 ^ t < Q)
    (ht' : t' ≤ Nat.clog 2 P.n ∧ (2 ^ t' * (2 ^ P.keySwitchBits - 1)) ^ 2 ^ t' < Q)
    (dk : KeyDraws) (hg : GaussOk P Q dk) :
    ∃ pack, KeyPack.new R P dk = some pack ∧
      ∀ (L : KeyLaws) (v vL vR : ℝ), L.Ok P Q k m v vL vR →
      L.mask = draws (uniformBelow Q) (2 ^ k) →
      L.maskRlwe = draws (uniformBelow Q) (2 ^ Nat.clog 2 P.n) →
      ∀ (κ : Nat) (η : ℤ) (ary : Nat), 0 ≤ budget Q m κ η → 2 ≤ ary →
      8 * ary * 2 ^ k * η + 2 * 2 ^ m * inError k m (pack.lwe.map ternaryDigit) < 2 ^ k * 2 ^ m →
      ∀ (b : Nat → Bool) (masks : Nat → List Nat) (z : Nat → ℤ),
        (∀ i, P.n ≤ (masks i).length ∧ ∀ x ∈ masks i, x < P.q) → (∀ i, |z i| ≤ η) →
        ∃ c : Nat → LWE,
          (∀ i, (P.lwe w).encrypt pack.lwe (masks i) (z i) (b i).toNat = some (c i)) ∧
          ∀ (plan : Nat → (Nat → LWE) → List Circuit) (g : Nat → Nat),
            (∀ t c, (plan t c).length ≤ g t ∧ ∀ X ∈ plan t c, X.Single ary) → ∀ D : Nat,
            (renewedLaw ((evalLaw w R P Q k m L).map fun d => EvalKey.new w R P pack d) plan D 0 c).toOuterMeasure
              {r | ∃ log, r = some log ∧ AllRight ((P.lwe w).decrypt .bool pack.lwe) b log}ᶜ ≤
            (∑ i ∈ Finset.range D, g i : Nat) * (switchTail w R P Q k m vL vR κ +
              (tunedTail P Q k m v (P.n / 12) κ η + accTail P Q k t t')) := by
  obtain ⟨pack, ep, hlen, hw, hb, hr, -, hrk, hms⟩ := C52_key_pack G hS dk hg
  obtain ⟨Z, hZ, hZt⟩ : ∃ Z, KeyWords Q pack.ring Z ∧ (P.ringKeyType ≠ .gaussian → Z = pack.ring.map ternaryDigit) := by
    by_cases hty : P.ringKeyType = .gaussian
    · exact ⟨_, keyWords_self pack.ring, fun h => absurd hty h⟩
    · have C : Config R.w Q R.M := ⟨G.field.even, G.field.conf⟩
      exact ⟨_, keyWords_digits C.two_le (hrk hty), fun _ => rfl⟩
  refine ⟨pack, ep, fun L v vL vR hL hm1 hm2 κ η ary hA hary hη b masks z hm hz => ?_⟩
  have hPq : P.q = 2 ^ m := G.lwe.q
  have hrange : ∀ i, NoiseInRange (2 ^ 2) (2 ^ m) (z i) := fun i => by
    have h2 := inError_nonneg k m (pack.lwe.map ternaryDigit)
    have h2 : (0 : ℤ) ≤ 2 * 2 ^ m * inError k m (pack.lwe.map ternaryDigit) := by positivity
    have h6 : 0 ≤ η := (abs_nonneg _).trans (hz i)
    have h7 : 2 * η ≤ ary * η := mul_le_mul_of_nonneg_right (by exact_mod_cast hary) h6
    have h8 := mul_le_mul_of_nonneg_left h7 (by positivity : (0 : ℤ) ≤ 8 * 2 ^ k)
    have h3 : (16 * η) * 2 ^ k < 2 ^ m * 2 ^ k := by linarith
    have h4 : 16 * η < 2 ^ m := lt_of_mul_lt_mul_right h3 (by positivity)
    have h5 := abs_le.1 (hz i)
    unfold NoiseInRange
    push_cast
    constructor <;> linarith
  have hone : ∀ i, ∃ c, (P.lwe w).encrypt pack.lwe (masks i) (z i) (b i).toNat = some c ∧
      Encrypts (2 ^ m) pack.lwe η c (b i) := fun i => by
    obtain ⟨c, ec, hc, -, hp, -⟩ := C31_encrypt_decrypt (P.lwe w) 2 m P.n G.lwe pack.lwe (masks i) hlen
      (hm i).1 (by rw [← hPq]; exact (hm i).2) (b i).toNat (z i)
      (by have := Bool.toNat_lt (b i); omega) (hrange i)
    exact ⟨c, ec, by rw [hlen]; exact hc, z i, hz i, hp⟩
  choose c hc1 hc2 using hone
  refine ⟨c, hc1, fun plan g hplan D => ?_⟩
  refine C104_layers G hS hst bits hB ht hq ht' dk hg pack ep Z hZ hZt L v vL vR hL hm1 hm2 (P.n / 12) ?_
    (by have : (0 : ℝ) < P.n := by exact_mod_cast hn
        positivity) κ η hA ary hary hη c b hc2 plan g hplan D
  have h2 : (((pack.lwe.map ternaryDigit).map fun z => z ^ 2).sum : ℤ) ≤ P.n := by
    have := List.sum_le_card_nsmul ((pack.lwe.map ternaryDigit).map fun z => z ^ 2) 1 (by
      intro z hz
      rw [List.map_map] at hz
      obtain ⟨v, -, rfl⟩ := List.mem_map.1 hz
      change ternaryDigit v ^ 2 ≤ 1
      unfold ternaryDigit
      split_ifs <;> norm_num)
    rwa [List.length_map, List.length_map, nsmul_eq_mul, mul_one, hlen] at this
  have h3 : ((((pack.lwe.map ternaryDigit).map fun z => z ^ 2).sum : ℤ) : ℝ) ≤ P.n := by exact_mod_cast h2
  linarith

/-- The default parameters with any bound `η` that leaves a margin for `ary` operands. -/
theorem default_tuned [DefaultBuild] [NeZero 132120577] (δ : PMF ℚ) (hδ : Deviates δ (13 / 2)) (dk : KeyDraws)
    (b : Nat → Bool) (masks : Nat → List Nat) (z : Nat → ℤ)
    (hm : ∀ i, 1024 ≤ (masks i).length ∧ ∀ x ∈ masks i, x < 1024)
    (s : Sampler) (hs : noise (rnd (16 / 5)) = some s) (hz : ∀ i, ∃ x, accept s x = true ∧ z i = roundAway x)
    (η : ℤ) (ary : Nat) (hη : 20 ≤ η) (hary : 2 ≤ ary) (hη' : 8 * ary * η < 1024) (r B : ℝ)
    (hr : r ≤ (η - 3 / 2 - 127 / 1000) ^ 2 / (2 * (454 / 5))) (hB : 4 * Real.exp (-r) + 2 * Real.exp (-65) + Real.exp (-58) ≤ B) :
    ∃ pack, KeyPack.new defaultCtx defaultParams dk = some pack ∧ ∃ c : Nat → LWE,
      (∀ i, (defaultParams.lwe 16).encrypt pack.lwe (masks i) (z i) (b i).toNat = some (c i)) ∧
      ∀ (plan : Nat → (Nat → LWE) → List Circuit) (g : Nat → Nat),
        (∀ t c, (plan t c).length ≤ g t ∧ ∀ X ∈ plan t c, X.Single ary) → ∀ D : Nat,
        (renewedLaw ((evalLaw 16 defaultCtx defaultParams 132120577 10 10
            (defaultGaussLaws δ (draws (uniformBelow 132120577) (2 ^ 10))
              (draws (uniformBelow 132120577) (2 ^ 10)))).map fun d => EvalKey.new 16 defaultCtx defaultParams pack d)
          plan D 0 c).toOuterMeasure
          {r | ∃ log, r = some log ∧ AllRight ((defaultParams.lwe 16).decrypt .bool pack.lwe) b log}ᶜ ≤
        ENNReal.ofReal ((∑ i ∈ Finset.range D, g i : Nat) * B) := by
  have hz' : ∀ i, |z i| ≤ η := by
    obtain ⟨s', hs', hb⟩ := C53_encryption_noise (rnd (16 / 5)) (by decide +kernel) 19 (by decide +kernel)
    obtain rfl := Option.some.inj (hs.symm.trans hs')
    intro i
    obtain ⟨x, hx, e⟩ := hz i
    rw [e]
    have := hb x hx
    push_cast at this
    linarith
  have hclog : Nat.clog 2 defaultParams.n = 10 := clog_eq (by decide) (by decide)
  have hred : ∀ a ∈ (draws (uniformBelow 132120577) (2 ^ 10)).support, Reduced 132120577 (2 ^ 10) a := fun a ha => by
    obtain ⟨x1, x2⟩ := mem_support_draws ha
    exact ⟨x1, fun v hv => mem_support_uniformBelow (x2 v hv)⟩
  have hηr : (20 : ℝ) ≤ η := by exact_mod_cast hη
  have hbud : η - 3 / 2 - 127 / 1000 ≤ budget 132120577 10 (2 ^ 14) η := by
    unfold budget
    push_cast
    linarith
  obtain ⟨pack, ep, hend⟩ := C104_end_to_end default_gateParams default_stepsOk rfl (by decide) 3 default_basis (t := 2) (t' := 3)
    (by decide) (by decide) ⟨by rw [hclog]; decide, by decide⟩ dk (fun h => by cases h)
  obtain ⟨c, ec, hgs⟩ := hend (defaultGaussLaws δ (draws (uniformBelow 132120577) (2 ^ 10))
      (draws (uniformBelow 132120577) (2 ^ 10))) 49 0 49 (defaultGaussLaws_ok δ hδ _ _ hred hred) rfl
    (by rw [hclog]; rfl) (2 ^ 14) η ary (le_trans (by linarith) hbud) hary
    (by rw [show inError 10 10 (pack.lwe.map ternaryDigit) = 0 from if_pos (by decide)]; norm_num; linarith) b masks z hm hz'
  refine ⟨pack, ep, c, ec, fun plan g hp D => (hgs plan g hp D).trans ?_⟩
  have hlv : rlweLevels defaultCtx defaultParams 132120577 = 27 := by
    unfold rlweLevels
    rw [show Basis.new defaultCtx.w 132120577 defaultParams.keySwitchBits = some ⟨2, 27, 1, 1⟩ from default_switch_basis]; rfl
  have h2 : switchTail 16 defaultCtx defaultParams 132120577 10 10 0 49 (2 ^ 14 : Nat) ≤
      ENNReal.ofReal (2 * Real.exp (-65)) := by
    unfold switchTail
    rw [hlv]
    change gaussTail _ _ ≤ _
    refine gaussTail_le ?_
    norm_num [defaultParams]
  have h1 : tunedTail defaultParams 132120577 10 10 49 (defaultParams.n / 12) (2 ^ 14) η ≤ ENNReal.ofReal (4 * Real.exp (-r)) := by
    unfold tunedTail
    rw [show 4 * Real.exp (-r) = 2 * (2 * Real.exp (-r)) by ring, ENNReal.ofReal_mul (by norm_num),
      show ENNReal.ofReal 2 = 2 by norm_num]
    refine mul_le_mul_right (gaussTail_le (hr.trans ?_)) _
    have e1 : (η - 3 / 2 - 127 / 1000 : ℝ) ^ 2 ≤ budget 132120577 10 (2 ^ 14) η ^ 2 := pow_le_pow_left₀ (by linarith) hbud 2
    have e2 : (defaultParams.n : ℝ) / 12 + (2 ^ 10 / (132120577 : Nat)) ^ 2 * rotationVariance defaultParams 10 49 ≤ 454 / 5 := by
      unfold rotationVariance
      rw [if_neg (by decide)]
      norm_num [defaultParams]
    have e3 : 0 < (defaultParams.n : ℝ) / 12 + (2 ^ 10 / (132120577 : Nat)) ^ 2 * rotationVariance defaultParams 10 49 := by
      unfold rotationVariance
      rw [if_neg (by decide)]
      norm_num [defaultParams]
    exact div_le_div₀ (sq_nonneg _) e1 (by linarith) (by linarith)
  have htail : switchTail 16 defaultCtx defaultParams 132120577 10 10 0 49 (2 ^ 14 : Nat) +
      (tunedTail defaultParams 132120577 10 10 49 (defaultParams.n / 12) (2 ^ 14) η + accTail defaultParams 132120577 10 2 3) ≤
        ENNReal.ofReal B := by
    refine (add_le_add h2 (add_le_add h1 default_accTail)).trans ?_
    rw [← ENNReal.ofReal_add (by positivity) (by positivity), ← ENNReal.ofReal_add (by positivity) (by positivity)]
    exact ENNReal.ofReal_le_ofReal (by linarith)
  have hB0 : 0 ≤ B := le_trans (by positivity) hB
  refine (mul_le_mul_right htail _).trans (le_of_eq ?_)
  rw [← ENNReal.ofReal_natCast, ← ENNReal.ofReal_mul (by positivity)]

theorem tuned_numbers (n : Nat) (x c : ℝ) (hx : 0 ≤ x) (hn : n ≤ 20) (hc : 4 ≤ c * (1 + x + x ^ 2 / 2 + x ^ 3 / 6)) :
    4 * Real.exp (-(n + x)) + 2 * Real.exp (-65) + Real.exp (-58) ≤ (c + 1 / 100) * Real.exp (-n) := by
  have hsmall : ∀ n : Nat, Real.exp (-(n : ℝ)) ≤ (2 / 5) ^ n := fun n => by
    rw [show -(n : ℝ) = n * (-1) by ring, Real.exp_nat_mul]
    refine pow_le_pow_left₀ (Real.exp_pos _).le ?_ _
    rw [Real.exp_neg]
    have := Real.exp_one_gt_d9
    refine (inv_anti₀ (by norm_num : (0 : ℝ) < 5 / 2) (by linarith)).trans (by norm_num)
  have hnr : (n : ℝ) ≤ 20 := by exact_mod_cast hn
  have h1 : Real.exp (-58) ≤ Real.exp (-n) * (1 / 1000) := by
    have := hsmall 38
    calc Real.exp (-58) ≤ Real.exp (-n + -((38 : Nat) : ℝ)) := Real.exp_le_exp.2 (by push_cast; linarith)
      _ = Real.exp (-n) * Real.exp (-((38 : Nat) : ℝ)) := Real.exp_add _ _
      _ ≤ _ := mul_le_mul_of_nonneg_left (this.trans (by norm_num)) (Real.exp_pos _).le
  have h2 : Real.exp (-65) ≤ Real.exp (-58) := Real.exp_le_exp.2 (by norm_num)
  have h3 : 4 * Real.exp (-(n + x)) ≤ c * Real.exp (-n) := by
    have e1 : 1 + x + x ^ 2 / 2 + x ^ 3 / 6 ≤ Real.exp x := by
      have := Real.sum_le_exp_of_nonneg hx 4
      simp only [Finset.sum_range_succ, Finset.sum_range_zero, Nat.factorial] at this
      norm_num at this
      linarith
    have hc0 : 0 ≤ c := by
      by_contra h
      have : c * (1 + x + x ^ 2 / 2 + x ^ 3 / 6) ≤ 0 := mul_nonpos_of_nonpos_of_nonneg (by linarith) (by positivity)
      linarith
    have e2 : 4 ≤ c * Real.exp x := hc.trans (mul_le_mul_of_nonneg_left e1 hc0)
    have e3 : Real.exp (-(n + x)) * Real.exp x = Real.exp (-n) := by rw [← Real.exp_add]; ring_nf
    rw [← e3]
    have := mul_le_mul_of_nonneg_right e2 (Real.exp_pos (-(n + x))).le
    linarith
  have := Real.exp_pos (-(n : ℝ))
  linarith

/-- C104: the default parameters and their noise, and gates of one or two operands, at most `g t` of them in layer `t`:
`2 exp(-20)` for every gate. -/
theorem C104_default [DefaultBuild] [NeZero 132120577] (δ : PMF ℚ) (hδ : Deviates δ (13 / 2)) (dk : KeyDraws)
    (b : Nat → Bool) (masks : Nat → List Nat) (z : Nat → ℤ)
    (hm : ∀ i, 1024 ≤ (masks i).length ∧ ∀ x ∈ masks i, x < 1024)
    (s : Sampler) (hs : noise (rnd (16 / 5)) = some s) (hz : ∀ i, ∃ x, accept s x = true ∧ z i = roundAway x) :
    ∃ pack, KeyPack.new defaultCtx defaultParams dk = some pack ∧ ∃ c : Nat → LWE,
      (∀ i, (defaultParams.lwe 16).encrypt pack.lwe (masks i) (z i) (b i).toNat = some (c i)) ∧
      ∀ (plan : Nat → (Nat → LWE) → List Circuit) (g : Nat → Nat),
        (∀ t c, (plan t c).length ≤ g t ∧ ∀ X ∈ plan t c, X.Single 2) → ∀ D : Nat,
        (renewedLaw ((evalLaw 16 defaultCtx defaultParams 132120577 10 10
            (defaultGaussLaws δ (draws (uniformBelow 132120577) (2 ^ 10))
              (draws (uniformBelow 132120577) (2 ^ 10)))).map fun d => EvalKey.new 16 defaultCtx defaultParams pack d)
          plan D 0 c).toOuterMeasure
          {r | ∃ log, r = some log ∧ AllRight ((defaultParams.lwe 16).decrypt .bool pack.lwe) b log}ᶜ ≤
        ENNReal.ofReal ((∑ i ∈ Finset.range D, g i : Nat) * (2 * Real.exp (-20))) := by
  have h := tuned_numbers 20 (18 / 25) (199 / 100) (by norm_num) le_rfl (by norm_num)
  norm_num at h
  exact default_tuned δ hδ dk b masks z hm s hs hz 63 2 (by norm_num) le_rfl (by norm_num) (518 / 25) _ (by norm_num) h

/-- C104: with `majority` among the gates. -/
theorem C104_default_majority [DefaultBuild] [NeZero 132120577] (δ : PMF ℚ) (hδ : Deviates δ (13 / 2)) (dk : KeyDraws)
    (b : Nat → Bool) (masks : Nat → List Nat) (z : Nat → ℤ)
    (hm : ∀ i, 1024 ≤ (masks i).length ∧ ∀ x ∈ masks i, x < 1024)
    (s : Sampler) (hs : noise (rnd (16 / 5)) = some s) (hz : ∀ i, ∃ x, accept s x = true ∧ z i = roundAway x) :
    ∃ pack, KeyPack.new defaultCtx defaultParams dk = some pack ∧ ∃ c : Nat → LWE,
      (∀ i, (defaultParams.lwe 16).encrypt pack.lwe (masks i) (z i) (b i).toNat = some (c i)) ∧
      ∀ (plan : Nat → (Nat → LWE) → List Circuit) (g : Nat → Nat),
        (∀ t c, (plan t c).length ≤ g t ∧ ∀ X ∈ plan t c, X.Single 3) → ∀ D : Nat,
        (renewedLaw ((evalLaw 16 defaultCtx defaultParams 132120577 10 10
            (defaultGaussLaws δ (draws (uniformBelow 132120577) (2 ^ 10))
              (draws (uniformBelow 132120577) (2 ^ 10)))).map fun d => EvalKey.new 16 defaultCtx defaultParams pack d)
          plan D 0 c).toOuterMeasure
          {r | ∃ log, r = some log ∧ AllRight ((defaultParams.lwe 16).decrypt .bool pack.lwe) b log}ᶜ ≤
        ENNReal.ofReal ((∑ i ∈ Finset.range D, g i : Nat) * (2 * Real.exp (-8))) := by
  have h := tuned_numbers 8 (9 / 10) (199 / 100) (by norm_num) (by norm_num) (by norm_num)
  norm_num at h
  exact default_tuned δ hδ dk b masks z hm s hs hz 42 3 (by norm_num) (by norm_num) (by norm_num) (89 / 10) _ (by norm_num) h

-- 1000 layers of one majority with the default parameters, a normal law of standard deviation 6.4 with 40 binary places and
-- all masks and noises of the inputs zero
example [DefaultBuild] [NeZero 132120577] (dk : KeyDraws) (s : Sampler) (hs : noise (rnd (16 / 5)) = some s) (b : Nat → Bool) :
    ∃ pack, KeyPack.new defaultCtx defaultParams dk = some pack ∧ ∃ c : Nat → LWE,
      (∀ i, (defaultParams.lwe 16).encrypt pack.lwe (List.replicate 1024 0) 0 (b i).toNat = some (c i)) ∧
        (renewedLaw ((evalLaw 16 defaultCtx defaultParams 132120577 10 10
            (defaultGaussLaws (normalDeviates (32 / 5) 40) (draws (uniformBelow 132120577) (2 ^ 10))
              (draws (uniformBelow 132120577) (2 ^ 10)))).map fun d => EvalKey.new 16 defaultCtx defaultParams pack d)
          (fun _ _ => [.majority (.input 0) (.input 1) (.input 2)])
          1000 0 c).toOuterMeasure
          {r | ∃ log, r = some log ∧ AllRight ((defaultParams.lwe 16).decrypt .bool pack.lwe) b log}ᶜ ≤
        ENNReal.ofReal (2000 * Real.exp (-8)) := by
  obtain ⟨pack, ep, c, ec, h⟩ := C104_default_majority (normalDeviates (32 / 5) 40)
    (deviates_mono (C71_normal _ _) (by positivity) (by push_cast; norm_num)) dk b (fun _ => List.replicate 1024 0)
    (fun _ => 0) (fun _ => ⟨by rw [List.length_replicate], fun x hx => by rw [List.eq_of_mem_replicate hx]; decide⟩) s hs
    (fun _ => ⟨0, by
      have h0 : (noise (rnd (16 / 5))).all (fun s => accept s 0) = true := by decide +kernel
      rwa [hs] at h0, by decide +kernel⟩)
  refine ⟨pack, ep, c, ec, ?_⟩
  have := h (fun _ _ => [.majority (.input 0) (.input 1) (.input 2)]) (fun _ => 1)
    (fun t c => ⟨le_rfl, fun X hX => by
      rw [List.mem_singleton.1 hX]
      exact le_rfl⟩) 1000
  refine this.trans (ENNReal.ofReal_le_ofReal (le_of_eq ?_))
  simp only [Finset.sum_const, Finset.card_range, smul_eq_mul, mul_one]
  push_cast
  ring

end Verif.Props
