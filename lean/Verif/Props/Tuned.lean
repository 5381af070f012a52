import Verif.SpecTuned
import Verif.Props.JointNoise
import Verif.Props.Renewed

/-!
# C104: the rounding of a bootstrapping is bounded together with the noise of the rotation

The masks of the switching key are independent of the rotation key. How much rounding is allowed may therefore depend on the
noise of the rotation.

Concrete cases that meet the hypotheses are in `Props/TunedDefaults.lean`.
-/

namespace Verif.Props
open Fp Finset Spec Ntt
open scoped ENNReal

/-- The draws of the rotation key. -/
noncomputable abbrev rotationDraws (P : Params) (k : Nat) (L : KeyLaws) :
    PMF (List BlindRotation.RgswDraw × List (BlindRotation.RgswDraw × BlindRotation.RgswDraw)) :=
  pair (draws (rgswLaw L.mask L.err (2 ^ k) P.basis.decomposeLen) P.n)
    (draws (pair (rgswLaw L.mask L.err (2 ^ k) P.basis.decomposeLen)
      (rgswLaw L.mask L.err (2 ^ k) P.basis.decomposeLen)) P.n)

theorem prob_bind_mean {α β : Type} (p : PMF α) (r : α → PMF β) (A : Set β) (F : α → ℝ≥0∞)
    (h : ∀ a ∈ p.support, (r a).toOuterMeasure A ≤ F a) : (p.bind r).toOuterMeasure A ≤ mean p F := by
  classical
  rw [prob_eq, mean_bind]
  refine mean_mono fun a ha => ?_
  rw [← prob_eq]
  exact h a ha

theorem prob_at_most_one {α : Type} (p : PMF α) (A : Set α) : p.toOuterMeasure A ≤ 1 := by
  classical
  rw [prob_eq]
  refine le_trans (mean_mono (g := fun _ => 1) fun a _ => ?_) (mean_const _ _).le
  split <;> simp

/-- Of the exponential moments of a number, those of its magnitude. -/
theorem mean_eexp_abs {α : Type} {p : PMF α} {n : α → ℤ} {V : ℝ}
    (h : ∀ t : ℝ, (mean p fun x => eexp (t * n x)) ≤ eexp (V * t ^ 2 / 2)) (t : ℝ) :
    (mean p fun x => eexp (t * (n x).natAbs)) ≤ 2 * eexp (V * t ^ 2 / 2) := by
  have h2 := h (-t)
  rw [neg_sq] at h2
  refine le_trans (mean_mono (g := fun x => eexp (t * n x) + eexp (-t * n x)) fun x _ => ?_) ?_
  · rw [Nat.cast_natAbs, Int.cast_abs]
    rcases abs_cases (n x : ℝ) with ⟨h, -⟩ | ⟨h, -⟩
    · rw [h]; exact le_self_add
    · rw [h, mul_neg, ← neg_mul]; exact le_add_self
  · rw [mean_add, two_mul]
    exact add_le_add (h t) h2

/-- If the bound `a - r |n|` of a number with variance `V` depends on an independent number `n` with variance `V'`, the bounds
of the probabilities are on average that of the sum of the two numbers. -/
theorem mean_tuned {α : Type} {p : PMF α} {n : α → ℤ} {V V' r a : ℝ} (hV : 0 < V) (hV' : 0 ≤ V')
    (h : ∀ t : ℝ, (mean p fun x => eexp (t * n x)) ≤ eexp (V' * t ^ 2 / 2)) :
    (mean p fun x => 2 * eexp (V * (a / (V + r ^ 2 * V')) ^ 2 / 2 - a / (V + r ^ 2 * V') * (a - r * (n x).natAbs))) ≤
      2 * gaussTail (V + r ^ 2 * V') a := by
  have hW : 0 < V + r ^ 2 * V' := by positivity
  obtain ⟨l, hl⟩ : ∃ l, l = a / (V + r ^ 2 * V') := ⟨_, rfl⟩
  rw [← hl]
  have e : ∀ x, 2 * eexp (V * l ^ 2 / 2 - l * (a - r * (n x).natAbs)) =
      2 * eexp (V * l ^ 2 / 2 - l * a) * eexp (l * r * (n x).natAbs) := fun x => by
    rw [mul_assoc, ← eexp_add]
    congr 2
    ring
  simp only [e]
  rw [mean_mul_left]
  refine (mul_le_mul_right (mean_eexp_abs h (l * r)) _).trans (le_of_eq ?_)
  unfold gaussTail
  rw [show 2 * eexp (V * l ^ 2 / 2 - l * a) * (2 * eexp (V' * (l * r) ^ 2 / 2)) =
    2 * (2 * (eexp (V * l ^ 2 / 2 - l * a) * eexp (V' * (l * r) ^ 2 / 2))) by ring, ← eexp_add,
    ENNReal.ofReal_mul (by norm_num), show ENNReal.ofReal 2 = 2 by norm_num]
  unfold eexp
  congr 4
  rw [hl]
  field_simp
  ring

section
variable {w : Nat} {R : Ctx} {P : Params} {Q k m : Nat} [Fact Q.Prime] (G : GateParams w R P Q k m)
variable [NeZero Q] (hS : StepsOk R P Q k m) (hst : P.steps = .brKsMs) (bits : Nat)
    (hB : Basis.new R.w Q bits = some P.basis) {t t' : Nat} (ht : t ≤ k) (hq : (2 ^ t * (2 ^ bits - 1)) ^ 2 ^ t < Q)
    (ht' : t' ≤ Nat.clog 2 P.n ∧ (2 ^ t' * (2 ^ P.keySwitchBits - 1)) ^ 2 ^ t' < Q)
    (dk : KeyDraws) (hg : GaussOk P Q dk) (pack : KeyPack) (hp : KeyPack.new R P dk = some pack)
    (Z : List ℤ) (hZ : KeyWords Q pack.ring Z)
    (hZt : P.ringKeyType ≠ .gaussian → Z = pack.ring.map ternaryDigit)
    (L : KeyLaws) (v vL vR : ℝ) (hL : L.Ok P Q k m v vL vR)
    (hm : L.mask = draws (uniformBelow Q) (2 ^ k))
    (hm' : L.maskRlwe = draws (uniformBelow Q) (2 ^ Nat.clog 2 P.n))
    (V : ℝ) (hV : (((pack.lwe.map ternaryDigit).map fun z => z ^ 2).sum : ℤ) ≤ 12 * V)
include G hS hst hB ht hq ht' hg hp hZ hZt hL hm hm' hV

omit ht hq ht' hm in
theorem out_rounding_tuned (c : LWE) (hc : LWEReduced (2 ^ m) P.n c) (lut : List Nat) (hl : Reduced Q (2 ^ k) lut)
    (Good : List BlindRotation.RgswDraw × List (BlindRotation.RgswDraw × BlindRotation.RgswDraw) → Prop)
    (Tf : List BlindRotation.RgswDraw × List (BlindRotation.RgswDraw × BlindRotation.RgswDraw) → Nat)
    (F : List BlindRotation.RgswDraw × List (BlindRotation.RgswDraw × BlindRotation.RgswDraw) → ℝ≥0∞)
    (h1 : ∀ x, Good x → gaussTail V (Tf x) ≤ F x) (h2 : ∀ x, ¬ Good x → 1 ≤ F x) :
    (evalLaw w R P Q k m L).toOuterMeasure
      {d | ∃ K, EvalKey.new w R P pack d = some K ∧ Good (d.binary, d.ternary) ∧ (K.Nondegenerate Q k c lut →
        K.OutRounding Q m (pack.lwe.map ternaryDigit) Z (1 + 2 * Tf (d.binary, d.ternary)) c lut)}ᶜ ≤
    mean (rotationDraws P k L) F := by
  unfold evalLaw
  refine prob_bind_mean _ _ _ F fun x hx => ?_
  by_cases hx' : Good x
  · refine le_trans (prob_mono ?_) ((out_rounding_fixed G hS hst bits hB dk hg pack hp Z hZ hZt L v vL vR hL hm' c hc lut hl V hV
      (Tf x) x hx).trans (h1 x hx'))
    intro d hd hbad hgood
    obtain ⟨y, -, rfl⟩ := (PMF.mem_support_map_iff _ _ _).1 hd
    obtain ⟨K, eK, h⟩ := hgood
    exact hbad ⟨K, eK, hx', h⟩
  · exact le_trans (prob_at_most_one _ _) (h2 x hx')

theorem rounding_tuned (c : LWE) (hc : LWEReduced (2 ^ m) P.n c) (lut : List Nat) (hl : Reduced Q (2 ^ k) lut)
    (hu : TableUnit Q (2 ^ k) lut)
    (Good : List BlindRotation.RgswDraw × List (BlindRotation.RgswDraw × BlindRotation.RgswDraw) → Prop)
    (Tf : List BlindRotation.RgswDraw × List (BlindRotation.RgswDraw × BlindRotation.RgswDraw) → Nat)
    (F : List BlindRotation.RgswDraw × List (BlindRotation.RgswDraw × BlindRotation.RgswDraw) → ℝ≥0∞)
    (hF1 : ∀ x, Good x → gaussTail V (Tf x) ≤ F x) (hF2 : ∀ x, ¬ Good x → 1 ≤ F x) :
    (evalLaw w R P Q k m L).toOuterMeasure
      {d | ∃ K, EvalKey.new w R P pack d = some K ∧ Good (d.binary, d.ternary) ∧
        K.OutRounding Q m (pack.lwe.map ternaryDigit) Z (1 + 2 * Tf (d.binary, d.ternary)) c lut}ᶜ ≤
    mean (rotationDraws P k L) F + accTail P Q k t t' := by
  have C : Config R.w Q R.M := ⟨G.field.even, G.field.conf⟩
  have hQ := C.two_le
  have hk : 0 < k := by have := G.two_le; omega
  obtain ⟨pack', ep, hlen, hw, hb, hr, hn, hrk, hms⟩ := C52_key_pack G hS dk hg
  obtain rfl := Option.some.inj (ep.symm.trans hp)
  have hcS : LWEReduced (2 ^ m) (pack'.lwe.map ternaryDigit).length c := by rw [List.length_map, hlen]; exact hc
  -- the runs
  have hrun : ∀ d ∈ (evalLaw w R P Q k m L).support, ∃ K c' acc, EvalKey.new w R P pack' d = some K ∧
      GateParams K.w K.R K.P Q k m ∧ K.w = w ∧ K.P = P ∧ K.R = R ∧
      K.Valid Q k m pack'.lwe pack'.ring (pack'.lwe.map ternaryDigit) Z Q (Q + 2 ^ m) ∧
      K.switchIn c = some c' ∧ K.accumulate c' lut = some acc ∧ Reduced Q (2 ^ k) acc.a ∧ Reduced Q (2 ^ k) acc.b := by
    intro d hd
    obtain ⟨rot, sw, e1, e2, hv⟩ := evaluation_key G hS bits hB dk hg pack' ep Z hZ hZt Q (Q + 2 ^ m) d
      (evalLaw_ok (w := w) (by omega) hL hd)
    obtain ⟨c₀, -, -, ec, hc0, -⟩ := switchIn_spec (K := ⟨w, R, P, rot, sw⟩) G
      (pack'.lwe.map ternaryDigit) hcS (Int.ModEq.refl _)
    obtain ⟨r, er, _, _, hred⟩ := rotate_spec (K := ⟨w, R, P, rot, sw⟩) G hv hc0 hl
    obtain ⟨acc, ea, hra, hrb, -⟩ := addEighth_spec (K := ⟨w, R, P, rot, sw⟩) (z := pack'.ring) G hred.a hred.b
    refine ⟨⟨w, R, P, rot, sw⟩, c₀, acc, ?_, G, rfl, rfl, rfl, hv, ec, ?_, hra, hrb⟩
    · unfold EvalKey.new
      rw [mbind e1, mbind e2]; rfl
    · unfold EvalKey.accumulate
      rw [mbind er, ea]
  have hacc := fun X hX => C75_accumulator G hS bits hB ht hq dk hg pack' ep L v vL vR hL hm c hc lut hl hu X hX
  unfold accTail
  rw [if_pos hst]
  have h1 := out_rounding_tuned G hS hst bits hB dk hg pack' ep Z hZ hZt L v vL vR hL hm' V hV c hc lut hl Good Tf F hF1 hF2
  obtain ⟨X, hXd⟩ : ∃ X : Set (List Nat), X = {l | l ≠ Poly.zero (2 ^ k) ∧ ¬NoCommonRoot (switchDigit Q
    (2 ^ Nat.clog 2 P.n) (2 ^ k) P.keySwitchBits l) (2 ^ (k - Nat.clog 2 P.n)) (rlweLevels R P Q)} := ⟨_, rfl⟩
  have h2 := hacc X (by rw [hXd]; exact fun h => h.1 rfl)
  have hS' := hS
  unfold StepsOk at hS'
  rw [hst] at hS'
  obtain ⟨k', B, hk', hkk, g1, g2, F', eB⟩ := hS'
  have hclog := clog_eq g1 g2
  have hlv : rlweLevels R P Q = B.decomposeLen := by unfold rlweLevels; rw [eB]; rfl
  have hX' : (draws (uniformBelow Q) (2 ^ k)).toOuterMeasure X ≤ rootTail Q (2 ^ Nat.clog 2 P.n) t' := by
    refine le_trans (prob_mono ?_) (chunk_root_prob (m := 2 ^ (Nat.clog 2 P.n - t')) (N := 2 ^ k)
      (bits := P.keySwitchBits) (len := B.decomposeLen) (cnt := 2 ^ (k - Nat.clog 2 P.n))
      (by rw [← pow_add]; congr 1; have := ht'.1; omega) (Nat.two_pow_pos _)
      (Nat.pow_le_pow_right (by decide) (by omega)) ht'.2
      (len_bounds (by have := C.four_mul_lt; omega) (by omega) eB).1 (Nat.two_pow_pos _))
    intro l _ h
    rw [hXd, hlv] at h
    exact h.2
  refine le_trans (prob_mono ?_) ((MeasureTheory.measure_union_le _ _).trans
    ((add_le_add h1 (h2.trans (add_le_add_left hX' _))).trans_eq (by ring)))
  intro d hd hbad
  by_contra hgood
  simp only [Set.mem_union, not_or, Set.notMem_compl_iff] at hgood
  obtain ⟨⟨K, eK, hG, hK⟩, hgood⟩ := hgood
  obtain ⟨K', c', acc, eK', G', hw, hP, hR, hv, ec, ea, hra, hrb⟩ := hrun d hd
  obtain rfl := Option.some.inj (eK.symm.trans eK')
  refine hbad ⟨K, eK, hG, ?_⟩
  have huniq : ∀ c1 acc1, K.switchIn c = some c1 → K.accumulate c1 lut = some acc1 → acc1 = acc := by
    intro c1 acc1 e1 e2
    obtain rfl := Option.some.inj (ec.symm.trans e1)
    exact Option.some.inj (e2.symm.trans ea)
  by_cases hz : acc.a = Poly.zero (2 ^ k)
  · refine zero_out_rounding G' hv (by rw [hP]; exact hst) (fun c1 acc1 e1 e2 => ?_) _
    obtain rfl := huniq c1 acc1 e1 e2
    exact ⟨hz, hra, hrb⟩
  · refine hK fun c1 acc1 e1 e2 => ?_
    obtain rfl := huniq c1 acc1 e1 e2
    by_contra hnd
    refine hgood ⟨K, c', acc1, eK, ec, ea, ?_⟩
    rw [hXd]
    rw [hP, hR] at hnd
    exact ⟨hz, hnd⟩


/-- C104: one bootstrapping. Noises of the rotation, of the key switching and of the rounding that together leave a noise of
at most `η`, except with the stated probability. -/
theorem C104_run (hV0 : 0 < V) (κ : Nat) (η : ℤ) (hA : 0 ≤ budget Q m κ η)
    (c : LWE) (hc : LWEReduced (2 ^ m) P.n c) (lut : List Nat) (hl : Reduced Q (2 ^ k) lut)
    (hu : TableUnit Q (2 ^ k) lut) :
    (evalLaw w R P Q k m L).toOuterMeasure
      {d | ∃ K, EvalKey.new w R P pack d = some K ∧ ∃ Λ : Level, Λ.inp = inError k m (pack.lwe.map ternaryDigit) ∧
        outError P.steps Q m Λ ≤ 4 * Q * η ∧
        K.RunNoise Q k m pack.lwe pack.ring (pack.lwe.map ternaryDigit) Z Λ c lut}ᶜ ≤
    switchTail w R P Q k m vL vR κ + (tunedTail P Q k m v V κ η + accTail P Q k t t') := by
  obtain ⟨n1, n2, hm1, hmm, hd⟩ := run_noise_split G hS bits hB dk hg pack hp Z hZ hZt L v vL vR hL c hc lut hl
  have hr0 : 0 ≤ rotationVariance P k v := by
    unfold rotationVariance
    have := hL.nonneg
    split_ifs <;> positivity
  have hs0 : 0 ≤ switchVariance w R P Q k m vL vR := by
    unfold switchVariance
    have := hL.nonnegLwe
    have := hL.nonnegRlwe
    split <;> positivity
  have hQ0 : (0 : ℤ) < Q := by exact_mod_cast (Fact.out : Q.Prime).pos
  have hQr : (0 : ℝ) < Q := by exact_mod_cast hQ0
  have h1 : (evalLaw w R P Q k m L).toOuterMeasure {d | (n2 d).natAbs ≤ κ}ᶜ ≤ switchTail w R P Q k m vL vR κ := by
    have h := two_sided (evalLaw w R P Q k m L) (fun d => (n2 d : ℝ)) hs0 (T := κ) (fun t => by
      have := hmm 0 t
      simpa using this) (Nat.cast_nonneg κ)
    have e : switchTail w R P Q k m vL vR κ = gaussTail (switchVariance w R P Q k m vL vR) κ := by
      unfold switchTail switchVariance
      rw [hst]
    rw [e]
    refine le_trans (prob_mono ?_) h
    intro d _ hbad
    simp only [Set.mem_compl_iff, Set.mem_ofPred_eq, not_le] at hbad ⊢
    rw [← Int.cast_abs, ← Nat.cast_natAbs]
    exact_mod_cast hbad
  -- the rounding
  obtain ⟨N, hN⟩ : ∃ N : List BlindRotation.RgswDraw × List (BlindRotation.RgswDraw × BlindRotation.RgswDraw) → ℤ,
    N = fun x => 4 * Q * η - 2 * Q - 2 ^ m * (4 * ((n1 x).natAbs + κ) + 7) := ⟨_, rfl⟩
  obtain ⟨l, hl'⟩ : ∃ l, l = budget Q m κ η / (V + (2 ^ m / Q) ^ 2 * rotationVariance P k v) := ⟨_, rfl⟩
  have hl0 : 0 ≤ l := by rw [hl']; positivity
  have hNr : ∀ x, (N x : ℝ) = 4 * Q * (budget Q m κ η - 2 ^ m / Q * (n1 x).natAbs + 1) := fun x => by
    rw [hN]
    dsimp only
    generalize (n1 x).natAbs = y
    unfold budget
    push_cast
    field_simp
    ring
  have h2 := rounding_tuned G hS hst bits hB ht hq ht' dk hg pack hp Z hZ hZt L v vL vR hL hm hm' V hV c hc lut hl hu
    (fun x => 0 ≤ N x) (fun x => (N x / (4 * Q)).toNat)
    (fun x => 2 * eexp (V * l ^ 2 / 2 - l * (budget Q m κ η - 2 ^ m / Q * (n1 x).natAbs)))
    (fun x hx => by
      unfold gaussTail eexp
      rw [show (2 : ℝ≥0∞) = ENNReal.ofReal 2 by norm_num, ← ENNReal.ofReal_mul (by norm_num)]
      refine ENNReal.ofReal_le_ofReal (mul_le_mul_of_nonneg_left (Real.exp_le_exp.2 ?_) (by norm_num))
      have hT : budget Q m κ η - 2 ^ m / Q * (n1 x).natAbs ≤ ((N x / (4 * Q)).toNat : ℝ) := by
        have e1 : (((N x / (4 * Q)).toNat : ℤ) : ℝ) = ((N x / (4 * Q) : ℤ) : ℝ) := by
          rw [Int.toNat_of_nonneg (Int.ediv_nonneg hx (by linarith))]
        have e2 : N x < 4 * Q * (N x / (4 * Q) + 1) := by
          have := Int.lt_ediv_add_one_mul_self (N x) (by linarith : (0 : ℤ) < 4 * Q)
          linarith
        have e3 : (N x : ℝ) < 4 * Q * (((N x / (4 * Q) : ℤ) : ℝ) + 1) := by exact_mod_cast e2
        rw [hNr, ← e1] at e3
        have e4 := lt_of_mul_lt_mul_left e3 (by positivity)
        rw [Int.cast_natCast] at e4
        linarith
      have h3 := mul_le_mul_of_nonneg_left hT hl0
      have h4 : -(((N x / (4 * Q)).toNat : ℝ) ^ 2 / (2 * V)) ≤ V * l ^ 2 / 2 - l * ((N x / (4 * Q)).toNat : ℝ) := by
        have : 0 ≤ (((N x / (4 * Q)).toNat : ℝ) - V * l) ^ 2 / (2 * V) := by positivity
        have e5 : (((N x / (4 * Q)).toNat : ℝ) - V * l) ^ 2 / (2 * V) =
          ((N x / (4 * Q)).toNat : ℝ) ^ 2 / (2 * V) - l * ((N x / (4 * Q)).toNat : ℝ) + V * l ^ 2 / 2 := by
          field_simp
          ring
        linarith
      linarith)
    (fun x hx => by
      have h3 : (N x : ℝ) < 0 := by exact_mod_cast not_le.1 hx
      rw [hNr] at h3
      have h4 : budget Q m κ η - 2 ^ m / Q * (n1 x).natAbs + 1 < 0 := by
        by_contra h
        have := mul_nonneg (by positivity : (0 : ℝ) ≤ 4 * Q) (not_lt.1 h)
        linarith
      have h5 : 0 ≤ l * -(budget Q m κ η - 2 ^ m / Q * (n1 x).natAbs) := mul_nonneg hl0 (by linarith)
      have h6 : 1 ≤ eexp (V * l ^ 2 / 2 - l * (budget Q m κ η - 2 ^ m / Q * (n1 x).natAbs)) := by
        unfold eexp
        rw [ENNReal.one_le_ofReal]
        refine Real.one_le_exp ?_
        have : 0 ≤ V * l ^ 2 / 2 := by positivity
        linarith
      calc (1 : ℝ≥0∞) ≤ 2 * 1 := by norm_num
        _ ≤ _ := mul_le_mul_right h6 _)
  rw [hl'] at h2
  have h3 := h2.trans (add_le_add_left (mean_tuned hV0 hr0 hm1) _)
  unfold tunedTail
  refine le_trans (prob_mono ?_) ((MeasureTheory.measure_union_le _ _).trans (add_le_add h1 h3))
  intro d hdd hbad
  by_contra hgood
  simp only [Set.mem_union, not_or, Set.notMem_compl_iff] at hgood
  obtain ⟨hκ, K, eK, hG, hK⟩ := hgood
  obtain ⟨K', eK', hrun⟩ := hd d hdd
  obtain rfl := Option.some.inj (eK.symm.trans eK')
  refine hbad ⟨K, eK, _, rfl, ?_, hrun _ hK⟩
  rw [hst]
  unfold outError
  dsimp only
  have e1 := Int.ediv_mul_le (N (d.binary, d.ternary)) (by linarith : (4 * Q : ℤ) ≠ 0)
  rw [Int.toNat_of_nonneg (Int.ediv_nonneg hG (by linarith))]
  have e2 : ((n2 d).natAbs : ℤ) ≤ κ := by exact_mod_cast hκ
  have e3 := mul_le_mul_of_nonneg_left e2 (by positivity : (0 : ℤ) ≤ 2 ^ m)
  have e4 : N (d.binary, d.ternary) =
    4 * Q * η - 2 * Q - 2 ^ m * (4 * ((n1 (d.binary, d.ternary)).natAbs + κ) + 7) := by rw [hN]
  linarith

variable (hV0 : 0 < V) (κ : Nat) (η : ℤ) (hA : 0 ≤ budget Q m κ η)
include hV0 hA

theorem gate_tuned (c : LWE) (hc : LWEReduced (2 ^ m) P.n c) (lut : Ctx → Nat → Nat → Option (List Nat))
    (hlut : ∀ step l, P.lutStep = some step → lut R P.ringDimension step = some l →
      Reduced Q (2 ^ k) l ∧ TableUnit Q (2 ^ k) l)
    (gate : EvalKey → Option LWE) (x : Bool)
    (hgate : ∀ (rot : RotationKey) (sw : SwitchKey) (Λ : Level), Λ.inp = inError k m (pack.lwe.map ternaryDigit) →
      EvalKey.Valid ⟨w, R, P, rot, sw⟩ Q k m pack.lwe pack.ring (pack.lwe.map ternaryDigit) Z Q (Q + 2 ^ m) →
      (∀ step l, P.lutStep = some step → lut R P.ringDimension step = some l →
          EvalKey.RunNoise ⟨w, R, P, rot, sw⟩ Q k m pack.lwe pack.ring (pack.lwe.map ternaryDigit) Z Λ c l) →
      EvalKey.Refreshed ⟨w, R, P, rot, sw⟩ Q m pack.lwe Λ (gate ⟨w, R, P, rot, sw⟩) x) :
    (evalLaw w R P Q k m L).toOuterMeasure {d | ∃ K, EvalKey.new w R P pack d = some K ∧
      ∃ out, gate K = some out ∧ Encrypts (2 ^ m) pack.lwe η out x}ᶜ ≤
    switchTail w R P Q k m vL vR κ + (tunedTail P Q k m v V κ η + accTail P Q k t t') := by
  have C : Config R.w Q R.M := ⟨G.field.even, G.field.conf⟩
  have hQ := C.two_le
  have hQ0 : (0 : ℤ) < 4 * Q := by
    have : (0 : ℤ) < Q := by exact_mod_cast (Fact.out : Q.Prime).pos
    linarith
  have hval : ∀ d ∈ (evalLaw w R P Q k m L).support, ∃ rot sw,
      EvalKey.new w R P pack d = some ⟨w, R, P, rot, sw⟩ ∧
      EvalKey.Valid ⟨w, R, P, rot, sw⟩ Q k m pack.lwe pack.ring (pack.lwe.map ternaryDigit) Z Q
        (Q + 2 ^ m) := fun d hd => by
    obtain ⟨rot, sw, e1, e2, V⟩ := evaluation_key G hS bits hB dk hg pack hp Z hZ hZt Q (Q + 2 ^ m) d
      (evalLaw_ok (w := w) (by omega) hL hd)
    refine ⟨rot, sw, ?_, V⟩
    unfold EvalKey.new
    rw [mbind e1, mbind e2]; rfl
  have hfin : ∀ (rot : RotationKey) (sw : SwitchKey) (Λ : Level), outError P.steps Q m Λ ≤ 4 * Q * η →
      EvalKey.Refreshed ⟨w, R, P, rot, sw⟩ Q m pack.lwe Λ (gate ⟨w, R, P, rot, sw⟩) x →
      ∃ out, gate ⟨w, R, P, rot, sw⟩ = some out ∧ Encrypts (2 ^ m) pack.lwe η out x := by
    rintro rot sw Λ hΛ ⟨out, e, eo, ho, hp, hb, -⟩
    refine ⟨out, eo, ho, e, ?_, hp⟩
    have h1 := hb.trans hΛ
    rw [abs_mul, abs_of_pos hQ0] at h1
    exact le_of_mul_le_mul_left h1 hQ0
  by_cases hex : ∃ step l, P.lutStep = some step ∧ lut R P.ringDimension step = some l
  · obtain ⟨step, l, es, el⟩ := hex
    refine le_trans (prob_mono ?_)
      (C104_run G hS hst bits hB ht hq ht' dk hg pack hp Z hZ hZt L v vL vR hL hm hm' V hV hV0 κ η hA c hc l
        (hlut step l es el).1 (hlut step l es el).2)
    intro d hd hbad hgood
    refine hbad ?_
    obtain ⟨K, eK, Λ, hin, hle, h2⟩ := hgood
    obtain ⟨rot, sw, eK', V⟩ := hval d hd
    obtain rfl := Option.some.inj (eK.symm.trans eK')
    refine ⟨_, eK, hfin rot sw Λ hle (hgate rot sw Λ hin V fun step' l' es' el' => ?_)⟩
    obtain rfl : step = step' := Option.some.inj (es.symm.trans es')
    obtain rfl : l = l' := Option.some.inj (el.symm.trans el')
    exact h2
  · refine le_trans (le_of_eq ?_) zero_le
    rw [PMF.toOuterMeasure_apply_eq_zero_iff, Set.disjoint_left]
    intro d hd hbad
    obtain ⟨rot, sw, eK, V⟩ := hval d hd
    refine hbad ⟨_, eK, hfin rot sw ⟨0, 0, inError k m (pack.lwe.map ternaryDigit), 0⟩ ?_
      (hgate rot sw _ rfl V fun step l es el => absurd ⟨step, l, es, el⟩ hex)⟩
    rw [hst]
    have h1 : (0 : ℝ) < Q := by exact_mod_cast (Fact.out : Q.Prime).pos
    have h2 : (2 ^ m * 7 : ℝ) ≤ 4 * Q * η := by
      have h3 := mul_nonneg (by positivity : (0 : ℝ) ≤ 4 * Q) hA
      have h4 : 4 * Q * budget Q m κ η = 4 * Q * η - 6 * Q - 2 ^ m * (4 * κ + 7) := by
        unfold budget
        field_simp
        ring
      have h5 : (0 : ℝ) ≤ 2 ^ m * (4 * κ) := by positivity
      linarith
    have h3 : (2 ^ m * 7 : ℤ) ≤ 4 * Q * η := by exact_mod_cast h2
    unfold outError
    simpa using h3

theorem sum_tuned (c0 c1 : LWE) (h0 : LWEReduced (2 ^ m) P.n c0) (h1 : LWEReduced (2 ^ m) P.n c1)
    (lut : Ctx → Nat → Nat → Option (List Nat))
    (hlut : ∀ step l, P.lutStep = some step → lut R P.ringDimension step = some l →
      Reduced Q (2 ^ k) l ∧ TableUnit Q (2 ^ k) l)
    (gate : EvalKey → Option LWE) (x : Bool)
    (hgate : ∀ (rot : RotationKey) (sw : SwitchKey) (Λ : Level), Λ.inp = inError k m (pack.lwe.map ternaryDigit) →
      EvalKey.Valid ⟨w, R, P, rot, sw⟩ Q k m pack.lwe pack.ring (pack.lwe.map ternaryDigit) Z Q (Q + 2 ^ m) →
      EvalKey.SumNoise ⟨w, R, P, rot, sw⟩ Q k m pack.lwe pack.ring (pack.lwe.map ternaryDigit) Z Λ lut c0 c1 →
      EvalKey.Refreshed ⟨w, R, P, rot, sw⟩ Q m pack.lwe Λ (gate ⟨w, R, P, rot, sw⟩) x) :
    (evalLaw w R P Q k m L).toOuterMeasure {d | ∃ K, EvalKey.new w R P pack d = some K ∧
      ∃ out, gate K = some out ∧ Encrypts (2 ^ m) pack.lwe η out x}ᶜ ≤
    switchTail w R P Q k m vL vR κ + (tunedTail P Q k m v V κ η + accTail P Q k t t') := by
  obtain ⟨O, eO, hO⟩ := gate_ops (K := ⟨w, R, P, .binary [], .none⟩) G
  obtain ⟨c, ec, -, hc, -⟩ := C33_add (2 ^ m) P.n O hO c0 c1 h0 h1
  refine gate_tuned G hS hst bits hB ht hq ht' dk hg pack hp Z hZ hZt L v vL vR hL hm hm' V hV hV0 κ η hA c hc lut hlut gate x
    fun rot sw Λ hi V h => hgate rot sw Λ hi V ?_
  intro O' c' step l eO' ec' es el
  obtain rfl := Option.some.inj (eO.symm.trans eO')
  obtain rfl := Option.some.inj (ec.symm.trans ec')
  exact h step l es el

theorem diff_tuned (c0 c1 : LWE) (h0 : LWEReduced (2 ^ m) P.n c0) (h1 : LWEReduced (2 ^ m) P.n c1)
    (lut : Ctx → Nat → Nat → Option (List Nat))
    (hlut : ∀ step l, P.lutStep = some step → lut R P.ringDimension step = some l →
      Reduced Q (2 ^ k) l ∧ TableUnit Q (2 ^ k) l)
    (gate : EvalKey → Option LWE) (x : Bool)
    (hgate : ∀ (rot : RotationKey) (sw : SwitchKey) (Λ : Level), Λ.inp = inError k m (pack.lwe.map ternaryDigit) →
      EvalKey.Valid ⟨w, R, P, rot, sw⟩ Q k m pack.lwe pack.ring (pack.lwe.map ternaryDigit) Z Q (Q + 2 ^ m) →
      EvalKey.DiffNoise ⟨w, R, P, rot, sw⟩ Q k m pack.lwe pack.ring (pack.lwe.map ternaryDigit) Z Λ lut c0 c1 →
      EvalKey.Refreshed ⟨w, R, P, rot, sw⟩ Q m pack.lwe Λ (gate ⟨w, R, P, rot, sw⟩) x) :
    (evalLaw w R P Q k m L).toOuterMeasure {d | ∃ K, EvalKey.new w R P pack d = some K ∧
      ∃ out, gate K = some out ∧ Encrypts (2 ^ m) pack.lwe η out x}ᶜ ≤
    switchTail w R P Q k m vL vR κ + (tunedTail P Q k m v V κ η + accTail P Q k t t') := by
  obtain ⟨O, eO, hO⟩ := gate_ops (K := ⟨w, R, P, .binary [], .none⟩) G
  have h2 : 2 < 2 ^ m := by
    have := G.lwe.lt
    calc 2 < 2 ^ 2 := by decide
      _ ≤ 2 ^ m := Nat.pow_le_pow_right (by decide) (by omega)
  obtain ⟨c, ec, -, hc, -⟩ := C33_sub (2 ^ m) P.n O hO c0 c1 h0 h1
  obtain ⟨c', ec', hc', -⟩ := (C33_scalar_neg (2 ^ m) P.n O hO c hc 2 h2).1
  refine gate_tuned G hS hst bits hB ht hq ht' dk hg pack hp Z hZ hZt L v vL vR hL hm hm' V hV hV0 κ η hA c' hc' lut hlut gate x
    fun rot sw Λ hi V h => hgate rot sw Λ hi V ?_
  intro O1 c1 c1' step l eO1 ec1 ec1' es el
  obtain rfl := Option.some.inj (eO.symm.trans eO1)
  obtain rfl := Option.some.inj (ec.symm.trans ec1)
  obtain rfl := Option.some.inj (ec'.symm.trans ec1')
  exact h step l es el

variable (ary : Nat) (hary : 2 ≤ ary)
    (hη : 8 * ary * 2 ^ k * η + 2 * 2 ^ m * inError k m (pack.lwe.map ternaryDigit) < 2 ^ k * 2 ^ m)
include hary hη

/-- C104: one gate on ciphertexts of noise at most `η`. -/
theorem C104_gate (c : Nat → LWE) (b : Nat → Bool) (hc : ∀ i, Encrypts (2 ^ m) pack.lwe η (c i) (b i))
    (X : Circuit) (hX : X.Single ary) :
    (evalLaw w R P Q k m L).toOuterMeasure {d | ∃ K, EvalKey.new w R P pack d = some K ∧
      ∃ out, X.run K c = some out ∧ Encrypts (2 ^ m) pack.lwe η out (X.eval b)}ᶜ ≤
    switchTail w R P Q k m vL vR κ + (tunedTail P Q k m v V κ η + accTail P Q k t t') := by
  have hlen := pack_length G hS dk hg pack hp
  have hred : ∀ i, LWEReduced (2 ^ m) P.n (c i) := fun i => hlen ▸ (hc i).1
  have hin := inError_nonneg k m (pack.lwe.map ternaryDigit)
  choose e he hp' using fun i => (hc i).2
  have hη0 : 0 ≤ η := (abs_nonneg _).trans (he 0)
  have hk0 : (0 : ℤ) ≤ 8 * 2 ^ k := by positivity
  have h2η : 2 * η ≤ ary * η := mul_le_mul_of_nonneg_right (by exact_mod_cast hary) hη0
  have hcond : ∀ x : ℤ, x ≤ ary * η →
      8 * 2 ^ k * x + 2 * 2 ^ m * inError k m (pack.lwe.map ternaryDigit) < 2 ^ k * 2 ^ m := fun x hx => by
    have := mul_le_mul_of_nonneg_left hx hk0
    linarith
  have hsum : ∀ i j, 8 * 2 ^ k * |e i + e j| + 2 * 2 ^ m * inError k m (pack.lwe.map ternaryDigit) < 2 ^ k * 2 ^ m :=
    fun i j => hcond _ (by linarith [abs_add_le (e i) (e j), he i, he j])
  have hdiff : ∀ i j, 8 * 2 ^ k * |e i - e j| + 2 ^ m * inError k m (pack.lwe.map ternaryDigit) < 2 ^ k * 2 ^ m :=
    fun i j => by
      have h3 : 0 ≤ 2 ^ m * inError k m (pack.lwe.map ternaryDigit) := by positivity
      linarith [hcond |e i - e j| (by linarith [abs_sub (e i) (e j), he i, he j])]
  have hl : ∀ i, LWEReduced (2 ^ m) pack.lwe.length (c i) := fun i => by rw [hlen]; exact hred i
  unfold Circuit.Single at hX
  split at hX
  · rename_i i
    refine le_trans (le_of_eq ?_) zero_le
    rw [PMF.toOuterMeasure_apply_eq_zero_iff, Set.disjoint_left]
    intro d hd hbad
    have C : Config R.w Q R.M := ⟨G.field.even, G.field.conf⟩
    have hQ := C.two_le
    obtain ⟨rot, sw, e1, e2, -⟩ := evaluation_key G hS bits hB dk hg pack hp Z hZ hZt Q (Q + 2 ^ m) d
      (evalLaw_ok (w := w) (by omega) hL hd)
    obtain ⟨o, eo, ho, hpo⟩ := C44_not (K := ⟨w, R, P, rot, sw⟩) G (hc i).1 (hp' i)
    refine hbad ⟨⟨w, R, P, rot, sw⟩, ?_, o, ?_, ho, -e i, by rw [abs_neg]; exact he i, hpo⟩
    · unfold EvalKey.new
      rw [mbind e1, mbind e2]; rfl
    · rw [Circuit.run, mbind (show Circuit.run _ c (.input i) = some (c i) from rfl)]
      exact eo
  · rename_i i j
    exact sum_tuned G hS hst bits hB ht hq ht' dk hg pack hp Z hZ hZt L v vL vR hL hm hm' V hV hV0 κ η hA _ _ (hred i) (hred j)
      Lut.nand (fun step l es h => lut_facts G es (.inl h)) (fun K => K.nand (c i) (c j)) _ fun rot sw Λ hi V hrun =>
      C44_nand G V (hl i) (hl j) (hp' i) (hp' j) (by rw [hi]; exact hsum i j) hrun
  · rename_i i j
    exact sum_tuned G hS hst bits hB ht hq ht' dk hg pack hp Z hZ hZt L v vL vR hL hm hm' V hV hV0 κ η hA _ _ (hred i) (hred j)
      Lut.andMajority (fun step l es h => lut_facts G es (.inr (.inl h))) (fun K => K.and (c i) (c j)) _
      fun rot sw Λ hi V hrun => C44_and G V (hl i) (hl j) (hp' i) (hp' j) (by rw [hi]; exact hsum i j) hrun
  · rename_i i j
    exact sum_tuned G hS hst bits hB ht hq ht' dk hg pack hp Z hZ hZt L v vL vR hL hm hm' V hV hV0 κ η hA _ _ (hred i) (hred j)
      Lut.or (fun step l es h => lut_facts G es (.inr (.inr (.inl h)))) (fun K => K.or (c i) (c j)) _
      fun rot sw Λ hi V hrun => C44_or G V (hl i) (hl j) (hp' i) (hp' j) (by rw [hi]; exact hsum i j) hrun
  · rename_i i j
    exact sum_tuned G hS hst bits hB ht hq ht' dk hg pack hp Z hZ hZt L v vL vR hL hm hm' V hV hV0 κ η hA _ _ (hred i) (hred j)
      Lut.nor (fun step l es h => lut_facts G es (.inr (.inr (.inr (.inl h))))) (fun K => K.nor (c i) (c j)) _
      fun rot sw Λ hi V hrun => C44_nor G V (hl i) (hl j) (hp' i) (hp' j) (by rw [hi]; exact hsum i j) hrun
  · rename_i i j
    exact diff_tuned G hS hst bits hB ht hq ht' dk hg pack hp Z hZ hZt L v vL vR hL hm hm' V hV hV0 κ η hA _ _ (hred i) (hred j)
      Lut.xor (fun step l es h => lut_facts G es (.inr (.inr (.inr (.inr (.inl h)))))) (fun K => K.xor (c i) (c j)) _
      fun rot sw Λ hi V hrun => C44_xor G V (hl i) (hl j) (hp' i) (hp' j) (by rw [hi]; exact hdiff i j) hrun
  · rename_i i j
    have := diff_tuned G hS hst bits hB ht hq ht' dk hg pack hp Z hZ hZt L v vL vR hL hm hm' V hV hV0 κ η hA _ _ (hred i) (hred j)
      Lut.xnor (fun step l es h => lut_facts G es (.inr (.inr (.inr (.inr (.inr h)))))) (fun K => K.xnor (c i) (c j)) _
      fun rot sw Λ hi V hrun => C44_xnor G V (hl i) (hl j) (hp' i) (hp' j) (by rw [hi]; exact hdiff i j) hrun
    rw [show (!(b i ^^ b j)) = (b i == b j) by cases b i <;> cases b j <;> rfl] at this
    exact this
  · rename_i i j r
    have h3η : 3 * η ≤ ary * η := mul_le_mul_of_nonneg_right (by exact_mod_cast hX) hη0
    obtain ⟨O, eO, hO⟩ := gate_ops (K := ⟨w, R, P, .binary [], .none⟩) G
    obtain ⟨x, ex, -, hx, -⟩ := C33_add (2 ^ m) P.n O hO (c i) (c j) (hred i) (hred j)
    obtain ⟨y, -, ey, hy, -⟩ := C33_add (2 ^ m) P.n O hO x (c r) hx (hred r)
    refine gate_tuned G hS hst bits hB ht hq ht' dk hg pack hp Z hZ hZt L v vL vR hL hm hm' V hV hV0 κ η hA y hy Lut.andMajority
      (fun step l es h => lut_facts G es (.inr (.inl h))) (fun K => K.majority (c i) (c j) (c r)) _ fun rot sw Λ hi V h => ?_
    refine C44_majority G V (hl i) (hl j) (hl r) (hp' i) (hp' j) (hp' r)
      (by rw [hi]; exact hcond _ (by linarith [abs_add_three (e i) (e j) (e r), he i, he j, he r])) ?_
    intro O' x' y' step l eO' ex' ey' es el
    obtain rfl := Option.some.inj (eO.symm.trans eO')
    obtain rfl := Option.some.inj (ex.symm.trans ex')
    obtain rfl := Option.some.inj (ey.symm.trans ey')
    exact h step l es el
  · exact hX.elim

/-- C104: circuits of any depth with a new evaluation key for each layer. There are at most `g t` gates in layer `t`. -/
theorem C104_layers (c : Nat → LWE) (b : Nat → Bool) (hc : ∀ i, Encrypts (2 ^ m) pack.lwe η (c i) (b i))
    (plan : Nat → (Nat → LWE) → List Circuit) (g : Nat → Nat)
    (hplan : ∀ t c, (plan t c).length ≤ g t ∧ ∀ X ∈ plan t c, X.Single ary) (D : Nat) :
    (renewedLaw ((evalLaw w R P Q k m L).map fun d => EvalKey.new w R P pack d) plan D 0 c).toOuterMeasure
      {r | ∃ log, r = some log ∧ AllRight ((P.lwe w).decrypt .bool pack.lwe) b log}ᶜ ≤
    (∑ i ∈ range D, g i : Nat) * (switchTail w R P Q k m vL vR κ + (tunedTail P Q k m v V κ η + accTail P Q k t t')) := by
  rw [show ∑ i ∈ range D, g i = ∑ i ∈ range D, g (0 + i) by simp]
  refine layers_bound (q := 2 ^ m) (sk := pack.lwe) (η := η) (ary := ary) ?_ ?_ ?_ plan g hplan D 0 c b hc
  · intro K hK
    obtain ⟨d, hd, rfl⟩ := (PMF.mem_support_map_iff _ _ _).1 hK
    have C : Config R.w Q R.M := ⟨G.field.even, G.field.conf⟩
    have hQ := C.two_le
    obtain ⟨rot, sw, e1, e2, -⟩ := evaluation_key G hS bits hB dk hg pack hp Z hZ hZt Q (Q + 2 ^ m) d
      (evalLaw_ok (w := w) (by omega) hL hd)
    refine ⟨⟨w, R, P, rot, sw⟩, ?_⟩
    unfold EvalKey.new
    rw [mbind e1, mbind e2]; rfl
  · exact fun c x h => encrypts_decrypt G pack ary hary η hη c x h
  · intro c b hc X hX
    rw [PMF.toOuterMeasure_map_apply]
    refine le_trans (prob_mono ?_) (C104_gate G hS hst bits hB ht hq ht' dk hg pack hp Z hZ hZt L v vL vR hL hm hm' V hV hV0 κ η
      hA ary hary hη c b hc X hX)
    intro d _ hbad hgood
    obtain ⟨K, eK, h⟩ := hgood
    exact hbad ⟨K, eK, h⟩

end
end Verif.Props
