import Verif.SpecSums
import Verif.Props.Secrecy
import Verif.Props.GaussianDefaults

/-! # C95: sums of fresh ciphertexts -/

namespace Verif.Props
open Spec
open scoped ENNReal

/-- The error of the sum: the errors of the encryptions with their factors. -/
noncomputable def errLaw (q : Nat) (χ : PMF ℤ) : List Term → PMF ℤ
  | [] => PMF.pure 0
  | s :: l => χ.bind fun z => (errLaw q χ l).map fun e => s.factor q * z + e

theorem errLaw_mgf {q : Nat} {χ : PMF ℤ} {v : ℝ} (h : SubGaussianInt χ v) (t : ℝ) : ∀ l : List Term,
    (mean (errLaw q χ l) fun e => eexp (t * e)) ≤ eexp (v * sumSquares q l * t ^ 2 / 2)
  | [] => by simp [errLaw, mean_pure, sumSquares, eexp_zero]
  | s :: l => by
    have ih := errLaw_mgf (q := q) h t l
    rw [errLaw, mean_bind]
    have e1 : ∀ z : ℤ, (mean ((errLaw q χ l).map fun e => s.factor q * z + e) fun e : ℤ => eexp (t * e)) =
        eexp (t * s.factor q * z) * mean (errLaw q χ l) fun e => eexp (t * e) := fun z => by
      rw [mean_map, ← mean_mul_left]
      refine mean_congr fun e _ => ?_
      rw [← eexp_add]
      congr 1
      push_cast
      ring
    simp only [e1]
    rw [mean_mul_right]
    have h1 : (mean χ fun z => eexp (t * s.factor q * z)) ≤ eexp (v * (t * s.factor q) ^ 2 / 2) := h (t * s.factor q)
    refine (mul_le_mul' h1 ih).trans (le_of_eq ?_)
    rw [← eexp_add]
    congr 1
    simp only [sumSquares, List.map_cons, List.sum_cons]
    push_cast
    ring

/-- Chernoff's bound for one side, with the boundary. -/
theorem one_sided_le {α : Type} (p : PMF α) (X : α → ℝ) {V T : ℝ} (hV : 0 < V)
    (h : ∀ t : ℝ, (mean p fun a => eexp (t * X a)) ≤ eexp (V * t ^ 2 / 2)) (hT : 0 ≤ T) :
    p.toOuterMeasure {a | T ≤ X a} ≤ eexp (-(T ^ 2 / (2 * V))) := by
  classical
  rw [prob_eq]
  have ht : 0 ≤ T / V := div_nonneg hT hV.le
  calc (mean p fun a => if a ∈ {a | T ≤ X a} then 1 else 0)
      ≤ mean p fun a => eexp (T / V * X a) * eexp (-(T / V * T)) := by
        refine mean_mono fun a _ => ?_
        rw [← eexp_add]
        split_ifs with ha
        · rw [← eexp_zero]
          refine eexp_mono ?_
          have : T / V * T ≤ T / V * X a := mul_le_mul_of_nonneg_left ha ht
          linarith
        · exact zero_le
    _ = (mean p fun a => eexp (T / V * X a)) * eexp (-(T / V * T)) := mean_mul_right _ _ _
    _ ≤ eexp (V * (T / V) ^ 2 / 2) * eexp (-(T / V * T)) := mul_le_mul' (h _) le_rfl
    _ = eexp (-(T ^ 2 / (2 * V))) := by
        rw [← eexp_add]
        congr 1
        field_simp
        ring

/-- Chernoff's bound for both sides, with the boundary. -/
theorem two_sided_le {α : Type} (p : PMF α) (X : α → ℝ) {V T : ℝ} (hV : 0 ≤ V)
    (h : ∀ t : ℝ, (mean p fun a => eexp (t * X a)) ≤ eexp (V * t ^ 2 / 2)) (hT : 0 ≤ T) :
    p.toOuterMeasure {a | T ≤ |X a|} ≤ gaussTail V T := by
  classical
  rcases hV.eq_or_lt with rfl | hV
  · unfold gaussTail
    rw [prob_eq]
    calc _ ≤ mean p fun _ => 1 := mean_mono fun a _ => by split_ifs <;> simp
      _ = 1 := mean_const _ _
      _ ≤ _ := by simp
  have h1 := one_sided_le p X hV h hT
  have h2 := one_sided_le p (fun a => -X a) hV (fun t => by
    have := h (-t)
    simpa using this) hT
  have hsub : {a | T ≤ |X a|} ⊆ {a | T ≤ X a} ∪ {a | T ≤ -X a} := by
    intro a ha
    rcases le_abs.1 (show T ≤ |X a| from ha) with h | h
    · exact Or.inl h
    · exact Or.inr h
  calc p.toOuterMeasure {a | T ≤ |X a|} ≤ p.toOuterMeasure ({a | T ≤ X a} ∪ {a | T ≤ -X a}) :=
        p.toOuterMeasure.mono hsub
    _ ≤ _ := MeasureTheory.measure_union_le _ _
    _ ≤ eexp (-(T ^ 2 / (2 * V))) + eexp (-(T ^ 2 / (2 * V))) := add_le_add h1 h2
    _ = _ := by
        rw [gaussTail, eexp, ← ENNReal.ofReal_add (Real.exp_nonneg _) (Real.exp_nonneg _)]
        congr 1
        ring

section
variable (P : LWEParams) (i k n : Nat) [NeZero P.q] (h : LWEParamsOk P i k) (χ : PMF ℤ)
  (hχ : ∀ z ∈ χ.support, NoiseInRange (2 ^ i) (2 ^ k) z) (sk : List Nat) (hs : sk.length = n)
include h hχ hs

omit [NeZero P.q] hχ hs in
/-- One step: the phase after the step. -/
theorem term_phase {M : PowOf2} (hM : PowOf2.new (2 ^ k) = some M) (s : Term) (hv : s.Valid (2 ^ i) (2 ^ k))
    (sum x : LWE) (h1 : LWEReduced (2 ^ k) n sum) (h2 : LWEReduced (2 ^ k) n x) :
    ∃ r, s.apply (PowOf2.ops P.w M) sum x = some r ∧ LWEReduced (2 ^ k) n r ∧
      lwePhase (2 ^ k) sk r.a r.b = lwePhase (2 ^ k) sk sum.a sum.b +
        ((s.factor (2 ^ k) : ℤ) : ZMod (2 ^ k)) * lwePhase (2 ^ k) sk x.a x.b := by
  have hO := powOf2_isModOps (w := P.w) h.fits hM
  cases s with
  | add m =>
    obtain ⟨r, -, e, hr, hp⟩ := C33_add _ n _ hO sum x h1 h2
    exact ⟨r, e, hr, by rw [hp sk]; simp [Term.factor]⟩
  | sub m =>
    obtain ⟨r, -, e, hr, hp⟩ := C33_sub _ n _ hO sum x h1 h2
    exact ⟨r, e, hr, by rw [hp sk]; simp [Term.factor, sub_eq_add_neg]⟩
  | scaled c m =>
    obtain ⟨r, e, hr, hp⟩ := C33_add_mul_scalar _ n _ hO sum x h1 h2 c hv.1
    exact ⟨r, e, hr, by rw [hp sk]; simp [Term.factor, centred_cast]⟩

/-- The outcome of the program is a ciphertext whose phase is the message of the sum with an error of the law of the
weighted sum. -/
theorem sum_coupled (G : Option LWE → ℝ≥0∞) : ∀ (l : List Term), (∀ s ∈ l, s.Valid (2 ^ i) (2 ^ k)) →
    ∀ (H : ℤ → ℝ≥0∞) (sum : LWE), LWEReduced (2 ^ k) n sum → ∀ (m z : ℤ),
    lwePhase (2 ^ k) sk sum.a sum.b = ((m * (2 ^ k / 2 ^ i : Nat) + z : ℤ) : ZMod (2 ^ k)) →
    (∀ (c : LWE) (e : ℤ), LWEReduced (2 ^ k) n c → lwePhase (2 ^ k) sk c.a c.b =
      (((m + (l.map fun s => s.factor (2 ^ k) * (s.message : ℤ)).sum) * (2 ^ k / 2 ^ i : Nat) + (z + e) : ℤ) : ZMod (2 ^ k)) →
      G (some c) ≤ H e) →
    mean (sumLaw P n χ sk l (some sum)) G ≤ mean (errLaw (2 ^ k) χ l) H
  | [], _, H, sum, hr, m, z, hp, hG => by
    rw [sumLaw, errLaw, mean_pure, mean_pure]
    exact hG sum 0 hr (by rw [hp]; simp)
  | s :: l, hv, H, sum, hr, m, z, hp, hG => by
    obtain ⟨M, hM, eO⟩ := h.ops
    have hvs := hv s (by simp)
    have hm : s.message < 2 ^ i := by
      cases s with
      | add m => exact hvs
      | sub m => exact hvs
      | scaled c m => exact hvs.2
    rw [sumLaw, errLaw, mean_bind, mean_bind]
    unfold encryptLaw
    rw [mean_bind]
    refine le_trans (mean_mono (g := fun _ => mean χ fun z' => mean ((errLaw (2 ^ k) χ l).map fun e =>
      s.factor (2 ^ k) * z' + e) H) fun a ha => ?_) (mean_const _ _).le
    rw [mean_map]
    refine mean_mono fun z' hz' => ?_
    obtain ⟨hal, har⟩ := mem_support_draws ha
    obtain ⟨x, ex, hx, -, hxp, -⟩ := C31_encrypt_decrypt P i k n h sk a hs hal.ge (fun y hy => by
      have := har y hy
      unfold uniformBelow at this
      rw [PMF.support_map] at this
      obtain ⟨b, -, rfl⟩ := this
      rw [← h.q]; exact b.2) s.message z' hm (hχ z' hz')
    obtain ⟨r, er, hrr, hrp⟩ := term_phase P i k n h sk hM s hvs sum x hr hx
    rw [ex, show (do s.apply (← P.ops) (← some sum) (← some x)) = some r by rw [mbind eO]; exact er, mean_map]
    refine sum_coupled G l (fun s hs => hv s (by simp [hs])) _ r hrr (m + s.factor (2 ^ k) * s.message)
      (z + s.factor (2 ^ k) * z') ?_ fun c e hc hcp => hG c _ hc ?_
    · rw [hrp, hp, hxp]
      generalize 2 ^ k / 2 ^ i = d
      push_cast
      ring
    · rw [hcp]
      simp only [List.map_cons, List.sum_cons]
      congr 1
      ring

/-- C95: a program encrypts any number of messages and adds, subtracts or adds multiples of the ciphertexts to a
ciphertext of `m₀` with the error `z₀`. If the errors of encryption are sub-Gaussian with parameter `v`, then the result
does not decrypt to the sum of the messages with their factors, modulo `t`, with probability at most
`2 exp(-T²/2V)`, where `V` is `v` times the sum of the squares of the factors and `T = q/2t - |z₀|`. -/
theorem C95_sum (v : ℝ) (hv : 0 ≤ v) (hsub : SubGaussianInt χ v) (sum : LWE) (hsum : LWEReduced P.q n sum) (m₀ : Nat)
    (z₀ : ℤ) (hp : lwePhase P.q sk sum.a sum.b = (m₀ * (P.q / P.t) : Nat) + (z₀ : ZMod P.q))
    (hz : 2 * P.t * |z₀| ≤ P.q) (l : List Term) (hl : ∀ s ∈ l, s.Valid P.t P.q) (msg : Plain.Msg)
    (hf : Fits msg (sumMessage P.t P.q m₀ l)) :
    (sumLaw P n χ sk l (some sum)).toOuterMeasure
        {r | r.bind (P.decrypt msg sk) ≠ some (sumMessage P.t P.q m₀ l)} ≤
      gaussTail (v * sumSquares P.q l) ((P.q : ℝ) / (2 * P.t) - |(z₀ : ℝ)|) := by
  classical
  rw [h.t, h.q] at *
  have ht : (0 : ℝ) < 2 ^ i := by positivity
  have hT : 0 ≤ ((2 ^ k : Nat) : ℝ) / (2 * (2 ^ i : Nat)) - |(z₀ : ℝ)| := by
    rw [sub_nonneg, le_div_iff₀ (by positivity)]
    have : |z₀| * (2 * ((2 ^ i : Nat) : ℤ)) ≤ ((2 ^ k : Nat) : ℤ) := by rw [mul_comm]; exact hz
    exact_mod_cast this
  have hsq : 0 ≤ sumSquares (2 ^ k) l := by
    unfold sumSquares
    refine List.sum_nonneg fun x hx => ?_
    obtain ⟨s, -, rfl⟩ := List.mem_map.1 hx
    positivity
  refine le_trans ?_ (two_sided_le (errLaw (2 ^ k) χ l) (fun e => (e : ℝ))
    (mul_nonneg hv (by exact_mod_cast hsq)) (fun t => errLaw_mgf hsub t l) hT)
  rw [prob_eq, prob_eq]
  refine sum_coupled P i k n h χ hχ sk hs _ l hl _ sum hsum m₀ z₀ (by
    rw [hp]; generalize 2 ^ k / 2 ^ i = d; push_cast; ring) fun c e hc hcp => ?_
  by_cases he : ((2 ^ k : Nat) : ℝ) / (2 * (2 ^ i : Nat)) - |(z₀ : ℝ)| ≤ |(e : ℝ)|
  · rw [if_pos (show e ∈ {a : ℤ | _ ≤ |(a : ℝ)|} from he)]
    split <;> simp
  · rw [if_neg]
    · exact zero_le
    · refine not_not.2 ?_
      show P.decrypt msg sk c = _
      refine C31_decrypt P i k n h sk hs c hc _ (z₀ + e) ?_ ?_ ?_ msg hf
      · unfold sumMessage
        have := Int.emod_lt_of_pos ((m₀ : ℤ) + (l.map fun s => s.factor (2 ^ k) * (s.message : ℤ)).sum)
          (show (0 : ℤ) < (2 ^ i : Nat) by positivity)
        omega
      · rw [not_le, lt_sub_iff_add_lt, lt_div_iff₀ (by positivity)] at he
        have h1 : |z₀ + e| ≤ |e| + |z₀| := by rw [add_comm]; exact abs_add_le _ _
        have h2 : (|e| + |z₀|) * (2 * (2 ^ i : Nat)) < ((2 ^ k : Nat) : ℤ) := by exact_mod_cast he
        have h3 := abs_le.1 h1
        have hi : (0 : ℤ) < (2 ^ i : Nat) := by positivity
        constructor <;> nlinarith
      · rw [hcp]
        unfold sumMessage
        set S := (m₀ : ℤ) + (l.map fun s => s.factor (2 ^ k) * (s.message : ℤ)).sum with hS
        have hmod := Int.emod_nonneg S (show ((2 ^ i : Nat) : ℤ) ≠ 0 by positivity)
        have hk : 2 ^ k = 2 ^ i * (2 ^ k / 2 ^ i) := (Nat.mul_div_cancel' (pow_dvd_pow 2 h.lt.le)).symm
        have e1 : S = S % (2 ^ i : Nat) + (2 ^ i : Nat) * (S / (2 ^ i : Nat)) := (Int.emod_add_mul_ediv S _).symm
        have e2 : (((S % (2 ^ i : Nat)).toNat : Nat) : ZMod (2 ^ k)) = ((S % (2 ^ i : Nat) : ℤ) : ZMod (2 ^ k)) := by
          rw [← Int.cast_natCast, Int.toNat_of_nonneg hmod]
        have e3 : (((2 ^ i : Nat) : ZMod (2 ^ k))) * ((2 ^ k / 2 ^ i : Nat) : ZMod (2 ^ k)) = 0 := by
          rw [← Nat.cast_mul, ← hk, ZMod.natCast_self]
        rw [Nat.cast_mul, e2]
        conv_lhs => rw [e1]
        clear e1 e2 hcp hmod
        generalize S % (2 ^ i : Nat) = A
        generalize S / (2 ^ i : Nat) = B
        generalize 2 ^ k / 2 ^ i = d at e3
        generalize hu : ((2 ^ i : Nat) : ZMod (2 ^ k)) = u at e3
        have hu' : (((2 ^ i : Nat) : ℤ) : ZMod (2 ^ k)) = u := by rw [Int.cast_natCast, hu]
        rw [Int.cast_add, Int.cast_mul, Int.cast_add, Int.cast_mul, hu', Int.cast_natCast]
        linear_combination (B : ZMod (2 ^ k)) * e3

end

/-- C95: the errors of the rounded normal sampler of encryption, truncated at `D`, are such errors, with the parameter
`(τ + 1/2)²`. -/
theorem C95_sampler {δ : PMF ℚ} {τ : ℝ} (hδ : Deviates δ τ) {D : ℚ} (hτ : 0 < τ) (hD : 2 * τ < D) :
    SubGaussianInt ((within δ D).map nearestAway) ((τ + 1 / 2) ^ 2) := by
  obtain ⟨q, hq⟩ := exists_nat_gt (2 * D + 1)
  have hex := exists_accepted hδ hτ hD
  have hD0 : 0 < D := by
    have : (0 : ℝ) < D := by linarith
    exact_mod_cast this
  have hq0 : 0 < q := by
    have : (0 : ℚ) < q := by linarith
    exact_mod_cast this
  have h0 := (C71_subgaussian hδ hτ hD q hq).mgf
  intro t
  refine le_trans (le_of_eq ?_) (h0 t)
  change mean ((within δ D).map nearestAway) (fun e : ℤ => eexp (t * e)) =
    mean (gaussLaw q δ D) (fun x => eexp (t * centred q x))
  unfold gaussLaw
  rw [mean_map, mean_map]
  refine mean_congr fun x hx => ?_
  obtain ⟨hx1, -⟩ := within_support hex hx
  obtain ⟨h1, z, hz, h2⟩ := (isSample_iff hq0 x _).2 rfl
  have hr : IsRounded x (nearestAway x) := by rw [← nearestAway_eq]; exact roundAway_spec x
  rw [isRounded_unique hz hr] at h2
  rw [centred_eq h1 _ h2]
  have h3 := hr.1
  have h4 : |(nearestAway x : ℚ)| ≤ |x| + 1 / 2 := by
    have := abs_add_le ((nearestAway x : ℚ) - x) x
    rw [sub_add_cancel] at this
    linarith
  have h5 : 2 * |(nearestAway x : ℚ)| < q := by linarith
  exact_mod_cast h5

theorem sampler_range {δ : PMF ℚ} {τ : ℝ} (hδ : Deviates δ τ) {D : ℚ} (hτ : 0 < τ) (hD : 2 * τ < D) (z : ℤ)
    (hz : z ∈ ((within δ D).map nearestAway).support) : |(z : ℚ)| < D + 1 / 2 := by
  rw [PMF.support_map] at hz
  obtain ⟨x, hx, rfl⟩ := hz
  obtain ⟨hx1, -⟩ := within_support (exists_accepted hδ hτ hD) hx
  have hr : IsRounded x (nearestAway x) := by rw [← nearestAway_eq]; exact roundAway_spec x
  have h3 := hr.1
  have := abs_add_le ((nearestAway x : ℚ) - x) x
  rw [sub_add_cancel] at this
  linarith

-- The modulus 1024, four messages and the standard deviation 16/5 of the default parameters, in any dimension and for
-- every key: the sum of ten ciphertexts, two of them subtracted and one three times added, fails with probability at
-- most 2 e^-30, although the worst case of the errors would not be decryptable
example (n : Nat) (sk : List Nat) (hs : sk.length = n) :
    ((@sumLaw ⟨16, 4, 1024⟩ n ⟨by decide⟩ ((within (normalDeviates (16 / 5) 40) 19).map nearestAway) sk
      (List.replicate 7 (Term.add 1) ++ [Term.sub 1, Term.sub 3, Term.scaled 3 1])
      (some ⟨List.replicate n 0, 0⟩)).toOuterMeasure
        {r | r.bind (LWEParams.decrypt ⟨16, 4, 1024⟩ (.uint 8) sk) ≠ some 2}) ≤
      ENNReal.ofReal (2 * Real.exp (-30)) := by
  have hN : NeZero (LWEParams.mk 16 4 1024).q := ⟨by decide⟩
  have hd : Deviates (normalDeviates (16 / 5) 40) (16 / 5) := by
    have := C71_normal (16 / 5) 40
    push_cast at this
    exact this
  have hχ : ∀ z ∈ ((within (normalDeviates (16 / 5) 40) 19).map nearestAway).support,
      NoiseInRange (2 ^ 2) (2 ^ 10) z := fun z hz => by
    have := sampler_range hd (by norm_num) (by norm_num) z hz
    have h1 : |(z : ℚ)| < 20 := by linarith
    have h2 : |z| < 20 := by exact_mod_cast h1
    have := abs_lt.1 h2
    constructor <;> push_cast <;> omega
  have := C95_sum ⟨16, 4, 1024⟩ 2 10 n ⟨rfl, rfl, by decide, by decide, by decide⟩ _ hχ sk hs _ (sq_nonneg _)
    (C95_sampler hd (by norm_num) (by norm_num)) ⟨List.replicate n 0, 0⟩
    ⟨⟨by simp, fun x hx => by rw [List.eq_of_mem_replicate hx]; decide⟩, show 0 < 1024 by decide⟩ 0 0 ?_ (by decide)
    (List.replicate 7 (Term.add 1) ++ [Term.sub 1, Term.sub 3, Term.scaled 3 1]) ?_ (.uint 8) ?_
  · have e : sumMessage 4 1024 0 (List.replicate 7 (Term.add 1) ++ [Term.sub 1, Term.sub 3, Term.scaled 3 1]) = 2 := by
      decide
    have e2 : sumSquares 1024 (List.replicate 7 (Term.add 1) ++ [Term.sub 1, Term.sub 3, Term.scaled 3 1]) = 18 := by
      decide
    dsimp only at this
    rw [e, e2] at this
    refine this.trans (ENNReal.ofReal_le_ofReal ?_)
    have : Real.exp (-((((1024 : Nat) : ℝ) / (2 * (4 : Nat)) - |((0 : ℤ) : ℝ)|) ^ 2 /
        (2 * ((16 / 5 + 1 / 2) ^ 2 * ((18 : ℤ) : ℝ))))) ≤ Real.exp (-30) := Real.exp_le_exp.2 (by norm_num)
    linarith
  · have : ∀ (n : Nat) (s : List Nat), Spec.dot (List.replicate n 0) s = 0 := fun n => by
      induction n with
      | zero => intro s; cases s <;> rfl
      | succ n ih => intro s; cases s with
        | nil => rfl
        | cons a s => simp [List.replicate_succ, Spec.dot, ih s]
    simp [lwePhase, this]
  · intro s hs
    rcases List.mem_append.1 hs with hs | hs
    · rw [List.eq_of_mem_replicate hs]
      show 1 < 4
      decide
    · rcases List.mem_cons.1 hs with rfl | hs
      · show 1 < 4
        decide
      rcases List.mem_cons.1 hs with rfl | hs
      · show 3 < 4
        decide
      rw [List.mem_singleton.1 hs]
      show 3 < 1024 ∧ 1 < 4
      decide
  · show sumMessage 4 1024 0 (List.replicate 7 (Term.add 1) ++ [Term.sub 1, Term.sub 3, Term.scaled 3 1]) < 2 ^ 8
    decide

end Verif.Props
