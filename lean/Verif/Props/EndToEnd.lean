import Verif.Props.Circuit
import Mathlib.Tactic.NormNum.LegendreSymbol

/-!
# C52: from key generation to decryption

The worst-case bounds here depend on the parameters and on bounds of the samples only.
-/

namespace Verif.Props
open Fp Finset Spec Ntt

/-- The worst-case noise of a rotation with a key of errors at most `E`. -/
def worstRotation (P : Params) (k E : Nat) : Nat :=
  P.n * (2 * (P.basis.decomposeLen * (2 ^ k * ((2 ^ P.basis.bits - 1) * (2 * E)))))

/-- The worst-case noise of a key switching with a key of errors at most `E`. -/
def worstSwitch (w : Nat) (R : Ctx) (P : Params) (Q k m E : Nat) : Nat :=
  match P.steps with
  | .brMsKs => ((Basis.newWord w P.keySwitchBits (2 ^ m)).elim 0 (·.decomposeLen)) * (2 ^ k * E)
  | .brKsMs => ((Basis.new R.w Q P.keySwitchBits).elim 0 (·.decomposeLen)) *
      (2 ^ k * ((2 ^ P.keySwitchBits - 1) * E))
  | .brMs => 0

/-- The level `η` is stable for all keys with digits in `{-1, 0, 1}`: `4Q` times the noise of a
bootstrapping is at most `4Qη`, and three ciphertexts of this level can be added for a gate. -/
structure WorstStable (P : Params) (Q k m β κ : Nat) (η : ℤ) : Prop where
  gate : 24 * 2 ^ k * η + 2 * 2 ^ m * (if 2 ^ m ≤ 2 * 2 ^ k then 0 else 1 + (P.n : ℤ)) < 2 ^ k * 2 ^ m
  fresh : (match P.steps with
    | .brMsKs => 2 ^ m * (4 * β + 7) + 2 * Q * (1 + 2 ^ k) + 4 * Q * κ
    | .brKsMs => 2 ^ m * (4 * (β + κ) + 7) + 2 * Q * (1 + P.n)
    | .brMs => 2 ^ m * (4 * β + 7) + 2 * Q * (1 + P.n) : ℤ) ≤ 4 * Q * η

theorem norm1_digits (l : List Nat) : norm1 (l.map ternaryDigit) ≤ l.length := by
  unfold norm1
  induction l with
  | nil => simp
  | cons a l ih =>
    simp only [List.map_cons, List.sum_cons, List.length_cons]
    have : |ternaryDigit a| ≤ 1 := by unfold ternaryDigit; split_ifs <;> decide
    push_cast
    linarith

section
variable {w : Nat} {R : Ctx} {P : Params} {Q k m : Nat} [Fact Q.Prime] (G : GateParams w R P Q k m)

omit [Fact Q.Prime] in
theorem worst_stable {K : EvalKey} (hw : K.w = w) (hR : K.R = R) (hP : K.P = P) {l : List Nat}
    (hl : l.length = P.n) {Z : List ℤ} (hZ : P.steps = .brMsKs → norm1 Z ≤ 2 ^ k) {E E' : Nat} {η : ℤ}
    (h : WorstStable P Q k m (worstRotation P k E) (worstSwitch w R P Q k m E') η) :
    Stable P.steps Q k m (worstLevel K Q k m (l.map ternaryDigit) Z E E') η := by
  obtain ⟨kw, KR, KP, rot, sw⟩ := K
  obtain rfl : kw = w := hw
  obtain rfl : KR = R := hR
  obtain rfl : KP = P := hP
  have hn := norm1_digits l
  rw [hl] at hn
  have hrot : rotationBound ⟨kw, KR, KP, rot, sw⟩ k (l.map ternaryDigit).length E ≤
      worstRotation KP k E := by
    rw [List.length_map, hl]
    unfold rotationBound worstRotation
    cases rot with
    | binary key => dsimp only; gcongr; omega
    | ternary key => exact le_rfl
  have hsw : switchBound ⟨kw, KR, KP, rot, sw⟩ Q k m E' = worstSwitch kw KR KP Q k m E' := rfl
  unfold worstLevel
  rw [hsw]
  generalize rotationBound ⟨kw, KR, KP, rot, sw⟩ k (l.map ternaryDigit).length E = β at hrot ⊢
  have hβ : (β : ℤ) ≤ (worstRotation KP k E : ℤ) := by exact_mod_cast hrot
  refine ⟨inError_nonneg _ _ _, lt_of_le_of_lt ?_ h.gate, le_trans ?_ h.fresh⟩
  · unfold inError
    split_ifs
    · exact le_rfl
    · dsimp only; gcongr
  · unfold outError roundBound
    dsimp only
    cases hst : KP.steps with
    | brMsKs => dsimp only; have := hZ hst; gcongr
    | brKsMs => dsimp only; gcongr
    | brMs => dsimp only; gcongr

include G in
/-- C57: with freshly generated keys, encrypting bits, evaluating any circuit of gates and decrypting gives the value of
the circuit, provided that the noises that in fact occur in this evaluation are at most `Λ` and that the noises of the
inputs are at most a level that is stable for `Λ`. Moreover the worst-case level bounds the noises of all
evaluations of inputs at a level that is stable for it. -/
theorem C57_end_to_end (hS : StepsOk R P Q k m) (bits : Nat)
    (hB : Basis.new R.w Q bits = some P.basis) (dk : KeyDraws) (hg : GaussOk P Q dk) (E E' : Nat)
    (d : EvalDraws) (hd : EvalDrawsOk R P Q k m E E' d) :
    ∃ (pack : KeyPack) (K : EvalKey) (Z : List ℤ), KeyPack.new R P dk = some pack ∧
      EvalKey.new w R P pack d = some K ∧ pack.lwe.length = P.n ∧ KeyWords Q pack.ring Z ∧
      (P.ringKeyType ≠ .gaussian → Z = pack.ring.map ternaryDigit) ∧
      ∀ (Λ : Level) (η : ℤ), Stable P.steps Q k m Λ η →
      ∀ (b : Nat → Bool) (masks : Nat → List Nat) (z : Nat → ℤ),
        (∀ i, P.n ≤ (masks i).length ∧ ∀ x ∈ masks i, x < P.q) → (∀ i, |z i| ≤ η) →
        ∃ c : Nat → LWE,
          (∀ i, (P.lwe w).encrypt pack.lwe (masks i) (z i) (b i).toNat = some (c i)) ∧
          ∀ X : Circuit,
            (X.NoiseWithin K Q k m pack.lwe pack.ring (pack.lwe.map ternaryDigit) Z Λ c →
              ∃ out, X.run K c = some out ∧
                (P.lwe w).decrypt .bool pack.lwe out = some (X.eval b).toNat) ∧
            (Λ = worstLevel K Q k m (pack.lwe.map ternaryDigit) Z E E' →
              X.NoiseWithin K Q k m pack.lwe pack.ring (pack.lwe.map ternaryDigit) Z Λ c) := by
  obtain ⟨pack, rot, sw, Z, ep, eK, hlen, hZ, V⟩ :=
    C52_evaluation_key G hS bits hB dk hg E E' d hd
  refine ⟨pack, _, Z, ep, eK, hlen, V.keyZ, hZ, fun Λ η hη b masks z hm hz => ?_⟩
  have hq : P.q = 2 ^ m := G.lwe.q
  -- the inputs
  have hrange : ∀ i, NoiseInRange (2 ^ 2) (2 ^ m) (z i) := fun i => by
    have h1 := hη.gate
    have h2 : (0 : ℤ) ≤ 2 * 2 ^ m * Λ.inp := mul_nonneg (by positivity) hη.nonneg
    have h3 : (24 * η) * 2 ^ k < 2 ^ m * 2 ^ k := by linarith
    have h4 : 24 * η < 2 ^ m := lt_of_mul_lt_mul_right h3 (by positivity)
    have h5 := abs_le.1 (hz i)
    have h6 : 0 ≤ η := (abs_nonneg _).trans (hz i)
    unfold NoiseInRange
    push_cast
    constructor <;> linarith
  have hone : ∀ i, ∃ c, (P.lwe w).encrypt pack.lwe (masks i) (z i) (b i).toNat = some c ∧
      Encrypts (2 ^ m) pack.lwe η c (b i) := fun i => by
    obtain ⟨c, ec, hc, -, hp, -⟩ := C31_encrypt_decrypt (P.lwe w) 2 m P.n G.lwe pack.lwe (masks i) hlen
      (hm i).1 (by rw [← hq]; exact (hm i).2) (b i).toNat (z i)
      (by have := Bool.toNat_lt (b i); omega) (hrange i)
    exact ⟨c, ec, by rw [hlen]; exact hc, z i, hz i, hp⟩
  choose c hc1 hc2 using hone
  refine ⟨c, hc1, fun X => ⟨fun hX => ?_, fun hΛ => ?_⟩⟩
  · obtain ⟨out, e, -, he⟩ := C57_circuit (K := ⟨w, R, P, rot, sw⟩) G V hη c b hc2 X hX
    exact ⟨out, e, he⟩
  · subst hΛ
    exact within_of_all (K := ⟨w, R, P, rot, sw⟩) G V hη (C44_noise_bound G V) c b hc2 X

include G in
/-- C52: with freshly generated keys, encrypting bits, evaluating any circuit of gates and decrypting
gives the value of the circuit, for all samples within the bounds of a stable level. -/
theorem C52_end_to_end (hS : StepsOk R P Q k m) (bits : Nat)
    (hB : Basis.new R.w Q bits = some P.basis) (dk : KeyDraws) (hg : GaussOk P Q dk) (E E' : Nat)
    (d : EvalDraws) (hd : EvalDrawsOk R P Q k m E E' d) (η : ℤ)
    (hη : WorstStable P Q k m (worstRotation P k E) (worstSwitch w R P Q k m E') η) :
    ∃ (pack : KeyPack) (K : EvalKey), KeyPack.new R P dk = some pack ∧
      EvalKey.new w R P pack d = some K ∧
      ∀ (b : Nat → Bool) (masks : Nat → List Nat) (z : Nat → ℤ),
        (∀ i, P.n ≤ (masks i).length ∧ ∀ x ∈ masks i, x < P.q) → (∀ i, |z i| ≤ η) →
        ∃ c : Nat → LWE,
          (∀ i, (P.lwe w).encrypt pack.lwe (masks i) (z i) (b i).toNat = some (c i)) ∧
          ∀ X : Circuit, ∃ out, X.run K c = some out ∧
            (P.lwe w).decrypt .bool pack.lwe out = some (X.eval b).toNat := by
  obtain ⟨pack, rot, sw, Z, ep, eK, hlen, hZ, V⟩ :=
    C52_evaluation_key G hS bits hB dk hg E E' d hd
  obtain ⟨pack', K, Z', ep', eK', -, -, hZ', h⟩ := C57_end_to_end G hS bits hB dk hg E E' d hd
  obtain rfl := Option.some.inj (ep.symm.trans ep')
  obtain rfl := Option.some.inj (eK.symm.trans eK')
  refine ⟨pack, _, ep, eK, fun b masks z hm hz => ?_⟩
  have hZn : P.steps = .brMsKs → norm1 Z' ≤ 2 ^ k := fun hst => by
    have hng : P.ringKeyType ≠ .gaussian := by
      unfold StepsOk at hS; rw [hst] at hS; exact hS.1
    rw [hZ' hng]
    refine (norm1_digits _).trans ?_
    have := V.red.1
    rw [this]; push_cast; exact le_rfl
  have hst := worst_stable (K := ⟨w, R, P, rot, sw⟩) rfl rfl rfl hlen hZn hη
  obtain ⟨c, hc, hX⟩ := h _ η hst b masks z hm hz
  exact ⟨c, hc, fun X => (hX X).1 ((hX X).2 rfl)⟩

end

/-! ## The field and the parameter sets of the crate -/

/-- The Barrett constant of the default field. -/
def defaultBarrett : Barrett := ⟨132120577, 2 ^ 64 / 132120577 % 2 ^ 32, 2 ^ 64 / 132120577 / 2 ^ 32⟩

/-- The default field in the build without `concrete-ntt`, with tables generated from the draw 5. -/
def nativeCtx : Ctx :=
  ⟨32, defaultBarrett, fun k => (Table.generate 32 defaultBarrett none k [5]).join⟩

theorem default_prime : Nat.Prime 132120577 := by norm_num

instance : Fact (Nat.Prime 132120577) := ⟨default_prime⟩

theorem default_config : Fp.config 32 132120577 = some defaultBarrett := by decide +kernel

theorem default_nonsquare : ¬ IsSquare ((5 : Nat) : ZMod 132120577) := by
  have h : jacobiSym 5 132120577 = -1 := by norm_num
  exact_mod_cast ZMod.nonsquare_of_jacobiSym_eq_neg_one h

/-- Without the external library the default field has a table for every size up to `2^20`. -/
theorem native_table {k : Nat} (hk : k ≤ 20) :
    TableField nativeCtx.w 132120577 nativeCtx.M nativeCtx.tbl k := by
  have hd : ∀ x ∈ [5], 2 ≤ x ∧ x < 132120577 := by decide
  have hdvd : 2 ^ (k + 1) ∣ 132120577 - 1 :=
    (Nat.pow_dvd_pow 2 (by omega : k + 1 ≤ 21)).trans (by norm_num)
  obtain ⟨t, e, -⟩ := (C23_generate 32 132120577 (by decide) defaultBarrett default_config k (by omega)
    (Nat.pow_lt_pow_right (by decide) (by omega)) [5] hd).1 ⟨hdvd, 5, by simp, default_nonsquare⟩
  have h : Table.generate 32 defaultBarrett none k [5] = some (some (.native t)) := by
    unfold Table.generate
    rw [e]; rfl
  refine ⟨rfl, default_config, none, [5], .native t, by simp, hd, h, ?_⟩
  show (Table.generate 32 defaultBarrett none k [5]).join = some _
  rw [h]; rfl

/-- A build of the crate: where the default field gets its tables from. It has one for the ring
dimension `2^10` of the provided parameter sets, generated with or without the external library. -/
class DefaultBuild where
  tbl : Nat → Option Table
  table : TableField 32 132120577 defaultBarrett tbl 10

/-- The build without `concrete-ntt`. -/
@[reducible] def nativeBuild : DefaultBuild := ⟨nativeCtx.tbl, native_table (by decide)⟩

section
variable [DefaultBuild]

/-- fhe_core/src/parameter.rs 309-313: `DefaultFieldU32`, in any build. -/
def defaultCtx : Ctx := ⟨32, defaultBarrett, DefaultBuild.tbl⟩

theorem default_table : TableField defaultCtx.w 132120577 defaultCtx.M defaultCtx.tbl 10 := DefaultBuild.table

theorem default_basis : Basis.new defaultCtx.w 132120577 3 = some ⟨8, 9, 7, 3⟩ :=
  show Basis.new 32 132120577 3 = _ by decide +kernel

theorem default_switch_basis : Basis.new defaultCtx.w 132120577 1 = some ⟨2, 27, 1, 1⟩ :=
  show Basis.new 32 132120577 1 = _ by decide +kernel

end

/-- bool/src/bfhe/parameters.rs 7-26: `DEFAULT_TERNARY_128_BITS_PARAMETERS`. -/
def defaultConst : ConstParams where
  lweDimension := 1024
  lwePlainModulus := 4
  lweCipherModulus := 1024
  lweKeyType := .ternary
  ringDimension := 1024
  ringModulus := 132120577
  ringKeyType := .ternary
  blindRotationBits := 3
  steps := .brKsMs
  keySwitchBits := 1

/-- bool/src/bfhe/parameters.rs 28-47: `CUSTOM_TERNARY_128_BITS_PARAMETERS`. -/
def customConst : ConstParams where
  lweDimension := 512
  lwePlainModulus := 4
  lweCipherModulus := 2 ^ 14
  lweKeyType := .ternary
  ringDimension := 1024
  ringModulus := 132120577
  ringKeyType := .ternary
  blindRotationBits := 7
  steps := .brMsKs
  keySwitchBits := 7

/-- The parameter sets of the crate are accepted and meet the conditions of the theorems about gates and
key generation. -/
theorem C52_default_parameters [DefaultBuild] :
    (∃ P, Params.new 32 132120577 defaultConst = some (.ok P) ∧
      GateParams 16 defaultCtx P 132120577 10 10 ∧ StepsOk defaultCtx P 132120577 10 10) ∧
    (∃ P, Params.new 32 132120577 customConst = some (.ok P) ∧
      GateParams 16 defaultCtx P 132120577 10 14 ∧ StepsOk defaultCtx P 132120577 10 14) := by
  refine ⟨⟨⟨1024, 4, 1024, .ternary, 1024, 132120577, .ternary, ⟨8, 9, 7, 3⟩, .brKsMs, 1⟩,
      by decide +kernel, ?_, ?_⟩,
    ⟨⟨512, 4, 2 ^ 14, .ternary, 1024, 132120577, .ternary, ⟨128, 4, 127, 7⟩, .brMsKs, 7⟩,
      by decide +kernel, ?_, ?_⟩⟩
  · exact ⟨default_table, ⟨rfl, rfl, by decide, by decide, by decide⟩, rfl, by decide,
      by decide, by decide, by decide, by decide⟩
  · exact ⟨10, ⟨2, 27, 1, 1⟩, by decide, by decide, by decide, by decide, default_table,
      default_switch_basis⟩
  · exact ⟨default_table, ⟨rfl, rfl, by decide, by decide, by decide⟩, rfl, by decide,
      by decide, by decide, by decide, by decide⟩
  · exact ⟨by decide, by decide, by decide⟩

/-! ## A small instance, in the build without the external library -/

/-- Dimension 2, `q = 64`, `N = 32`. -/
def smallParams : Params :=
  ⟨2, 4, 64, .ternary, 32, 132120577, .ternary, ⟨128, 4, 127, 7⟩, .brKsMs, 7⟩

/-- Samples with errors 1 and -1. -/
def smallDraws (n : Nat) : List Draw :=
  List.replicate 4 (List.replicate n 12345678, List.replicate n 132120576)

theorem smallDraws_ok (n : Nat) : DrawsOk 132120577 n (smallDraws n) ∧
    ∀ j, (drawErrors 132120577 n (smallDraws n) j).Bounded 1 := by
  refine ⟨fun d hd => ?_, drawErrors_bounded fun d hd x hx => ?_⟩
  · rw [List.eq_of_mem_replicate hd]
    exact ⟨⟨by simp, fun x hx => by rw [List.eq_of_mem_replicate hx]; decide⟩,
      ⟨by simp, fun x hx => by rw [List.eq_of_mem_replicate hx]; decide⟩⟩
  · rw [List.eq_of_mem_replicate hd] at hx
    rw [List.eq_of_mem_replicate hx]
    refine ⟨-1, by decide, ?_⟩
    have : ((132120577 : Nat) : ZMod 132120577) = 0 := ZMod.natCast_self _
    rw [show (132120576 : Nat) = 132120577 - 1 from rfl, Nat.cast_sub (by decide), this]
    simp

theorem small_gateParams : GateParams 16 nativeCtx smallParams 132120577 5 6 :=
  ⟨native_table (by decide), ⟨rfl, rfl, by decide, by decide, by decide⟩, rfl, by decide,
    by decide, by decide, by decide, by decide⟩

theorem small_stepsOk : StepsOk nativeCtx smallParams 132120577 5 6 :=
  ⟨1, ⟨128, 4, 127, 7⟩, by decide, by decide, by decide, by decide, native_table (by decide),
    by decide +kernel⟩

/-- Draws of an evaluation key for the small instance. -/
def smallEvalDraws : EvalDraws :=
  ⟨[], List.replicate 2 ((smallDraws 32, smallDraws 32), (smallDraws 32, smallDraws 32)),
    fun _ _ _ => ([], 0), fun _ => smallDraws 2⟩

theorem smallEvalDraws_ok : EvalDrawsOk nativeCtx smallParams 132120577 5 6 1 1 smallEvalDraws := by
  have h32 := smallDraws_ok 32
  have ho : RgswDrawOk 132120577 (2 ^ 5) 4 1 (smallDraws 32, smallDraws 32) :=
    ⟨h32.1, h32.1, by simp [smallDraws], by simp [smallDraws], h32.2, h32.2⟩
  refine ⟨fun h => ?_, fun _ => ⟨by simp [smallParams, smallEvalDraws], fun x hx => ?_⟩, fun h => ?_,
    fun _ k' B h1 h2 hB c => ?_⟩
  · cases h
  · rw [List.eq_of_mem_replicate hx]; exact ⟨ho, ho⟩
  · cases h
  · obtain rfl : k' = 1 := by
      change 2 ^ (k' - 1) < 2 at h1
      change 2 ≤ 2 ^ k' at h2
      rcases k' with _ | _ | k'
      · omega
      · rfl
      · rw [Nat.add_sub_cancel, pow_succ] at h1
        have := Nat.two_pow_pos k'
        omega
    have : Basis.new nativeCtx.w 132120577 smallParams.keySwitchBits =
        some ⟨128, 4, 127, 7⟩ := by decide +kernel
    obtain rfl : B = ⟨128, 4, 127, 7⟩ := Option.some.inj (hB.symm.trans this)
    exact ⟨by simp [smallDraws, smallEvalDraws], (smallDraws_ok 2).1, (smallDraws_ok 2).2⟩

-- the worst-case conditions hold for it, so every circuit is evaluated correctly, whatever the words for
-- the secret keys (here those of the key `(1, -1)`)
example : ∃ (pack : KeyPack) (K : EvalKey),
    KeyPack.new nativeCtx smallParams ⟨fun _ => 14, fun _ => 0x2d2d2d2d, []⟩ = some pack ∧
    EvalKey.new 16 nativeCtx smallParams pack smallEvalDraws = some K ∧
    ∀ b : Nat → Bool, ∃ c : Nat → LWE,
      (∀ i, (smallParams.lwe 16).encrypt pack.lwe [5, 60] 2 (b i).toNat = some (c i)) ∧
      ∀ X : Circuit, ∃ out, X.run K c = some out ∧
        (smallParams.lwe 16).decrypt .bool pack.lwe out = some (X.eval b).toNat := by
  obtain ⟨pack, K, ep, eK, h⟩ := C52_end_to_end small_gateParams small_stepsOk 7 (by decide +kernel)
    ⟨fun _ => 14, fun _ => 0x2d2d2d2d, []⟩ (fun h => by cases h) 1 1 _ smallEvalDraws_ok 2
    ⟨by decide +kernel, by decide +kernel⟩
  exact ⟨pack, K, ep, eK, fun b => h b (fun _ => [5, 60]) (fun _ => 2)
    (fun _ => ⟨by decide, by decide⟩) (fun _ => by decide)⟩

/-! ## An instance with the default parameters

The worst-case bounds exclude keys of full weight, so here the LWE key is `(-1, 0, 1, 0, 0, …)` and the errors are 0. -/

def defaultParams : Params :=
  ⟨1024, 4, 1024, .ternary, 1024, 132120577, .ternary, ⟨8, 9, 7, 3⟩, .brKsMs, 1⟩

/-- Samples without errors. -/
def exactDraws (len : Nat) : List Draw :=
  List.replicate len (List.replicate 1024 12345678, List.replicate 1024 0)

theorem exactDraws_ok (len : Nat) : DrawsOk 132120577 1024 (exactDraws len) ∧
    ∀ j, (drawErrors 132120577 1024 (exactDraws len) j).Bounded 0 := by
  refine ⟨fun d hd => ?_, drawErrors_bounded fun d hd x hx => ?_⟩
  · rw [List.eq_of_mem_replicate hd]
    exact ⟨⟨List.length_replicate .., fun x hx => by rw [List.eq_of_mem_replicate hx]; decide⟩,
      ⟨List.length_replicate .., fun x hx => by rw [List.eq_of_mem_replicate hx]; decide⟩⟩
  · rw [List.eq_of_mem_replicate hd] at hx
    rw [List.eq_of_mem_replicate hx]
    exact ⟨0, by decide, by simp⟩

def defaultWords : Nat → Nat := fun i => if i = 0 then 0x23 else 0

theorem default_key_norm : (KeyPack.lweKey defaultParams defaultWords).map
    (fun l => norm1 (l.map ternaryDigit)) = some 2 := by decide +kernel

theorem default_draws [DefaultBuild] : EvalDrawsOk defaultCtx defaultParams 132120577 10 10 0 0 ⟨[], List.replicate 1024
    ((exactDraws 9, exactDraws 9), (exactDraws 9, exactDraws 9)), fun _ _ _ => ([], 0),
    fun _ => exactDraws 27⟩ := by
  have h9 := exactDraws_ok 9
  have ho : RgswDrawOk 132120577 (2 ^ 10) 9 0 (exactDraws 9, exactDraws 9) :=
    ⟨h9.1, h9.1, List.length_replicate.ge, List.length_replicate.ge, h9.2, h9.2⟩
  refine ⟨fun h => ?_, fun _ => ⟨List.length_replicate.ge, fun x hx => ?_⟩, fun h => ?_,
    fun _ k' B h1 h2 hB c => ?_⟩
  · cases h
  · rw [List.eq_of_mem_replicate hx]; exact ⟨ho, ho⟩
  · cases h
  · obtain rfl : k' = 10 := by
      change 2 ^ (k' - 1) < 2 ^ 10 at h1
      change 2 ^ 10 ≤ 2 ^ k' at h2
      have := (Nat.pow_lt_pow_iff_right (by decide : 1 < 2)).1 h1
      have := (Nat.pow_le_pow_iff_right (by decide : 1 < 2)).1 h2
      omega
    obtain rfl : B = ⟨2, 27, 1, 1⟩ := Option.some.inj (hB.symm.trans default_switch_basis)
    exact ⟨List.length_replicate.ge, (exactDraws_ok 27).1, (exactDraws_ok 27).2⟩

-- every circuit is evaluated correctly on inputs of noise at most 2
example [DefaultBuild] : ∃ (pack : KeyPack) (K : EvalKey),
    KeyPack.new defaultCtx defaultParams ⟨defaultWords, fun _ => 0x2d2d2d2d, []⟩ = some pack ∧
    EvalKey.new 16 defaultCtx defaultParams pack ⟨[], List.replicate 1024
      ((exactDraws 9, exactDraws 9), (exactDraws 9, exactDraws 9)), fun _ _ _ => ([], 0),
      fun _ => exactDraws 27⟩ = some K ∧
    ∀ b : Nat → Bool, ∃ c : Nat → LWE,
      (∀ i, (defaultParams.lwe 16).encrypt pack.lwe (List.replicate 1024 777) (-2) (b i).toNat = some (c i)) ∧
      ∀ X : Circuit, ∃ out, X.run K c = some out ∧
        (defaultParams.lwe 16).decrypt .bool pack.lwe out = some (X.eval b).toNat := by
  have G : GateParams 16 defaultCtx defaultParams 132120577 10 10 :=
    ⟨default_table, ⟨rfl, rfl, by decide, by decide, by decide⟩, rfl, by decide,
      by decide, by decide, by decide, by decide⟩
  have hS : StepsOk defaultCtx defaultParams 132120577 10 10 :=
    ⟨10, ⟨2, 27, 1, 1⟩, by decide, by decide, by decide, by decide, default_table,
      default_switch_basis⟩
  obtain ⟨pack, K, Z, ep, eK, hl, -, -, h⟩ := C57_end_to_end G hS 3 default_basis
    ⟨defaultWords, fun _ => 0x2d2d2d2d, []⟩ (fun h => by cases h) 0 0 _ default_draws
  refine ⟨pack, K, ep, eK, fun b => ?_⟩
  have hn : norm1 (pack.lwe.map ternaryDigit) = 2 := by
    have h1 := default_key_norm
    unfold KeyPack.new at ep
    obtain ⟨l, el, ep⟩ := Option.bind_eq_some_iff.1 ep
    obtain ⟨r, er, ep⟩ := Option.bind_eq_some_iff.1 ep
    obtain ⟨t, et, ep⟩ := Option.bind_eq_some_iff.1 ep
    rw [el] at h1
    obtain rfl := Option.some.inj ep
    exact Option.some.inj h1
  have hK : K.P = defaultParams ∧ K.w = 16 ∧ K.R = defaultCtx := by
    unfold EvalKey.new at eK
    obtain ⟨r, er, eK⟩ := Option.bind_eq_some_iff.1 eK
    obtain ⟨t, et, eK⟩ := Option.bind_eq_some_iff.1 eK
    obtain rfl := Option.some.inj eK
    exact ⟨rfl, rfl, rfl⟩
  have hst : Stable defaultParams.steps 132120577 10 10
      (worstLevel K 132120577 10 10 (pack.lwe.map ternaryDigit) Z 0 0) 2 := by
    have hrot : rotationBound K 10 (pack.lwe.map ternaryDigit).length 0 = 0 := by
      unfold rotationBound; split <;> simp
    have hsw : switchBound K 132120577 10 10 0 = 0 := by
      unfold switchBound; rw [hK.1]; simp [defaultParams]
    unfold worstLevel
    rw [hrot, hsw, hK.1]
    refine ⟨by simp [inError], by simp [inError], ?_⟩
    unfold outError roundBound
    simp only [defaultParams]
    rw [hn]; norm_num
  obtain ⟨c, hc, hX⟩ := h _ 2 hst b (fun _ => List.replicate 1024 777) (fun _ => -2)
    (fun _ => ⟨by rw [List.length_replicate]; decide, fun x hx => by
      rw [List.eq_of_mem_replicate hx]; decide⟩) (fun _ => by decide)
  exact ⟨c, hc, fun X => (hX X).1 ((hX X).2 rfl)⟩

end Verif.Props
