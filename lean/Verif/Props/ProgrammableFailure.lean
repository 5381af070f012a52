import Verif.Props.Programmable
import Verif.Props.FailureRounding

/-!
# C90: the probability that a lookup fails
-/

namespace Verif.Props
open Fp Spec Ntt
open scoped ENNReal

section
variable {w : Nat} {R : Ctx} {P : Params} {Q k m : Nat} [Fact Q.Prime] (G : GateParams w R P Q k m)
  (hS : StepsOk R P Q k m) (bits : Nat) (hB : Basis.new R.w Q bits = some P.basis)
  (dk : KeyDraws) (hg : GaussOk P Q dk) (pack : KeyPack) (hp : KeyPack.new R P dk = some pack)
  (Z : List ℤ) (hZ : KeyWords Q pack.ring Z)
  (hZt : P.ringKeyType ≠ .gaussian → Z = pack.ring.map ternaryDigit)
  (L : KeyLaws) (v vL vR : ℝ) (hL : L.Ok P Q k m v vL vR) (β κ : Nat)
  {i : Nat} (hi0 : 0 < i) (hik : i ≤ k) (him : i < m) (f : Nat → Nat) (hf : ∀ u < 2 ^ i / 2, f u < 2 ^ i)
  (c : LWE) (hc : LWEReduced (2 ^ m) P.n c) {u : Nat} (hu : u < 2 ^ i / 2) {e : ℤ}
  (hpc : EncryptsValue (2 ^ m) (2 ^ i) pack.lwe c u e)
  (hn : 2 ^ i * (2 ^ m * inError k m (pack.lwe.map ternaryDigit) + 4 * 2 ^ k * |e|) < 2 * 2 ^ m * 2 ^ k)
include G hS hB hg hp hZ hZt hL hi0 hik him hf hc hu hpc hn

/-- The lookup succeeds with every bound of the last rounding that holds in the run. -/
theorem lookup_failure :
    (evalLaw w R P Q k m L).toOuterMeasure {d | ∃ K, EvalKey.new w R P pack d = some K ∧
      K.OutRounding Q m (pack.lwe.map ternaryDigit) Z (roundBound P.steps (pack.lwe.map ternaryDigit) Z) c
        (functionTable Q (2 ^ k) (2 ^ i) f) ∧
      ∀ ρ, K.OutRounding Q m (pack.lwe.map ternaryDigit) Z ρ c (functionTable Q (2 ^ k) (2 ^ i) f) →
        LookedUp K Q m i pack.lwe ⟨β, κ, inError k m (pack.lwe.map ternaryDigit), ρ⟩
          (K.bootstrap c (functionTable Q (2 ^ k) (2 ^ i) f)) (f u)}ᶜ ≤
    rotationTail P k v β + switchTail w R P Q k m vL vR κ := by
  have hQ := (Fact.out : Q.Prime).pos
  refine le_trans (prob_mono ?_)
    (C60_run G hS bits hB dk hg pack hp Z hZ hZt L v vL vR hL c hc
      (functionTable Q (2 ^ k) (2 ^ i) f) (functionTable_reduced hQ f) β κ)
  intro d hd hbad hgood
  refine hbad ?_
  obtain ⟨K, eK, h1, h2⟩ := hgood
  obtain ⟨rot, sw, e1, e2, V⟩ := evaluation_key G hS bits hB dk hg pack hp Z hZ hZt Q (Q + 2 ^ m) d
    (evalLaw_ok (w := w) hQ hL hd)
  have eK' : EvalKey.new w R P pack d = some ⟨w, R, P, rot, sw⟩ := by
    unfold EvalKey.new
    rw [mbind e1, mbind e2]; rfl
  obtain rfl := Option.some.inj (eK.symm.trans eK')
  have hlen := pack_length G hS dk hg pack hp
  exact ⟨_, eK, h1, fun ρ hρ => C90_function (K := ⟨w, R, P, rot, sw⟩) G V hi0 hik him f hf (by rw [hlen]; exact hc) hu
    hpc hn (h2 ρ hρ)⟩

/-- C90: a lookup with a freshly drawn evaluation key in a ciphertext that does not depend on it, for any laws of the
samples with sub-Gaussian errors: it gives `f u` except with the stated probability. The last rounding is bounded by
its worst case. -/
theorem C90_failure :
    (evalLaw w R P Q k m L).toOuterMeasure {d | ∃ K, EvalKey.new w R P pack d = some K ∧
      LookedUp K Q m i pack.lwe
        ⟨β, κ, inError k m (pack.lwe.map ternaryDigit), roundBound P.steps (pack.lwe.map ternaryDigit) Z⟩
        (K.bootstrap c (functionTable Q (2 ^ k) (2 ^ i) f)) (f u)}ᶜ ≤
    rotationTail P k v β + switchTail w R P Q k m vL vR κ := by
  refine le_trans (prob_mono ?_) (lookup_failure G hS bits hB dk hg pack hp Z hZ hZt L v vL vR hL β κ hi0 hik him f hf c
    hc hu hpc hn)
  intro d _ hbad hgood
  obtain ⟨K, eK, h1, h2⟩ := hgood
  exact hbad ⟨K, eK, h2 _ h1⟩

/-- C90: the same with the rounding of the last step as a random variable, for uniform masks in the switching key. -/
theorem C90_failure_rounding [NeZero Q] (hst : P.steps = .brKsMs)
    (hum : L.maskRlwe = draws (uniformBelow Q) (2 ^ Nat.clog 2 P.n))
    (V : ℝ) (hV : (((pack.lwe.map ternaryDigit).map fun z => z ^ 2).sum : ℤ) ≤ 12 * V) (T : Nat) :
    (evalLaw w R P Q k m L).toOuterMeasure {d | ∃ K, EvalKey.new w R P pack d = some K ∧
      (K.Nondegenerate Q k c (functionTable Q (2 ^ k) (2 ^ i) f) →
        LookedUp K Q m i pack.lwe ⟨β, κ, inError k m (pack.lwe.map ternaryDigit), 1 + 2 * T⟩
          (K.bootstrap c (functionTable Q (2 ^ k) (2 ^ i) f)) (f u))}ᶜ ≤
    rotationTail P k v β + switchTail w R P Q k m vL vR κ + gaussTail V T := by
  refine le_trans (prob_mono ?_) (both_failures
    (lookup_failure G hS bits hB dk hg pack hp Z hZ hZt L v vL vR hL β κ hi0 hik him f hf c hc hu hpc hn)
    (out_rounding G hS hst bits hB dk hg pack hp Z hZ hZt L v vL vR hL hum c hc
      (functionTable Q (2 ^ k) (2 ^ i) f) (functionTable_reduced (Fact.out : Q.Prime).pos f) V hV T))
  intro d _ hbad hgood
  obtain ⟨K, eK, ⟨-, h1⟩, h2⟩ := hgood
  exact hbad ⟨K, eK, fun hnd => h1 _ (h2 hnd)⟩

end

-- With the default parameters, a number modulo 8 below 4 is encrypted with noise at most 40, and any function to the
-- numbers modulo 8 is looked up: the result decrypts to the value, except with probability 6 exp(-12), unless the
-- digits of the accumulator have a common root; for all secret keys, all masks of the ciphertext and of the rotation key.
example [DefaultBuild] [NeZero 132120577] (dk : KeyDraws) (mask : PMF (List Nat))
    (h : ∀ a ∈ mask.support, Reduced 132120577 (2 ^ 10) a) (f : Nat → Nat) (hf : ∀ u < 4, f u < 8) (u : Nat) (hu : u < 4)
    (masks : List Nat) (z : ℤ) (hm : 1024 ≤ masks.length ∧ ∀ x ∈ masks, x < 1024) (hz : |z| ≤ 40) :
    ∃ pack, KeyPack.new defaultCtx defaultParams dk = some pack ∧ ∃ c,
      (LWEParams.mk 16 8 1024).encrypt pack.lwe masks z u = some c ∧
      (evalLaw 16 defaultCtx defaultParams 132120577 10 10
          (defaultLaws mask (draws (uniformBelow 132120577) (2 ^ 10)))).toOuterMeasure
          {d | ∃ K, EvalKey.new 16 defaultCtx defaultParams pack d = some K ∧
            (K.Nondegenerate 132120577 10 c (functionTable 132120577 1024 8 f) →
              ∃ out, K.bootstrap c (functionTable 132120577 1024 8 f) = some out ∧
              (LWEParams.mk 16 8 1024).decrypt (.uint 8) pack.lwe out = some (f u))}ᶜ ≤
        ENNReal.ofReal (6 * Real.exp (-12)) := by
  have hclog : Nat.clog 2 defaultParams.n = 10 := clog_eq (by decide) (by decide)
  obtain ⟨pack, ep, hlen, hw, hb, hr, hn, hrk, hms⟩ := C52_key_pack default_gateParams default_stepsOk dk
    (fun h => by cases h)
  have hng : defaultParams.ringKeyType ≠ .gaussian := by decide
  obtain ⟨c, ec, hc, -, hp, -⟩ := C31_encrypt_decrypt (LWEParams.mk 16 8 1024) 3 10 1024
    ⟨rfl, rfl, by decide, by decide, by decide⟩ pack.lwe masks hlen hm.1 hm.2 u z (by omega)
    (by obtain ⟨h1, h2⟩ := abs_le.1 hz; unfold NoiseInRange; push_cast; constructor <;> linarith)
  refine ⟨pack, ep, c, ec, ?_⟩
  have hin : inError 10 10 (pack.lwe.map ternaryDigit) = 0 := if_pos (by decide)
  have hsum := List.sum_le_card_nsmul ((pack.lwe.map ternaryDigit).map fun z => z ^ 2) 1 (by
    intro z hz
    rw [List.map_map] at hz
    obtain ⟨v, -, rfl⟩ := List.mem_map.1 hz
    change ternaryDigit v ^ 2 ≤ 1
    unfold ternaryDigit
    split_ifs <;> norm_num)
  rw [List.length_map, List.length_map, hlen, nsmul_eq_mul, mul_one] at hsum
  have hV : ((((pack.lwe.map ternaryDigit).map fun z => z ^ 2).sum : ℤ) : ℝ) ≤ 12 * ((defaultParams.n : ℝ) / 12) := by
    have : ((((pack.lwe.map ternaryDigit).map fun z => z ^ 2).sum : ℤ) : ℝ) ≤ defaultParams.n := by exact_mod_cast hsum
    linarith
  refine le_trans (prob_mono ?_) (le_trans (C90_failure_rounding default_gateParams default_stepsOk 3 default_basis dk
    (fun h => by cases h) pack ep _ (keyWords_digits (by decide) (hrk hng)) (fun _ => rfl)
    (defaultLaws mask (draws (uniformBelow 132120577) (2 ^ 10))) (21 / 2) 0 (21 / 2)
    (defaultLaws_ok mask _ h fun a ha => by
      obtain ⟨x1, x2⟩ := mem_support_draws ha
      exact ⟨x1, fun v hv => mem_support_uniformBelow (x2 v hv)⟩) (2 ^ 21) (2 ^ 13) (i := 3) (by decide) (by decide)
    (by decide) f hf c hc hu (e := z) hp (by rw [hin]; linarith) rfl (by rw [hclog]; rfl) (defaultParams.n / 12) hV 46) ?_)
  · intro d _ hbad hgood
    obtain ⟨K, eK, h1⟩ := hgood
    refine hbad ⟨K, eK, fun hnd => ?_⟩
    obtain ⟨rot, sw, rfl⟩ := key_cases eK
    obtain ⟨out, e', eo, -, -, -, hdec⟩ := h1 hnd
    refine ⟨out, eo, hdec ?_ (LWEParams.mk 16 8 1024) rfl rfl rfl 8 (by have := hf u hu; omega)⟩
    change 2 ^ 3 * (2 * 2 ^ 10 * (((2 ^ 21 : Nat) : ℤ) + ((2 ^ 13 : Nat) : ℤ)) +
      ((132120577 : Nat) : ℤ) * (1 + 2 * ((46 : Nat) : ℤ)) + 2 * 2 ^ 10) < ((132120577 : Nat) : ℤ) * 2 ^ 10
    norm_num
  · refine (add_le_add default_tails (gaussTail_le (r := 12) (by norm_num [defaultParams]))).trans ?_
    rw [← ENNReal.ofReal_add (by positivity) (by positivity)]
    refine ENNReal.ofReal_le_ofReal ?_
    have := Real.exp_le_exp.2 (show (-112 : ℝ) ≤ -12 by norm_num)
    linarith

end Verif.Props
