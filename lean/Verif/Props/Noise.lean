import Verif.Lemmas.Noise
import Verif.Props.Luts
import Verif.SpecBootstrap

/-!
# C59: the noise of a blind rotation

Concrete cases that meet the hypotheses are in `Props/NoiseDefaults.lean`.
-/

namespace Verif
open Spec Props Finset

section
variable {q : Nat} {u : PMF (List Nat)} {χ : PMF Nat} {v : ℝ}

theorem rgswLaw_ok (h : SubGaussian q χ v) {n len : Nat} (hu : ∀ a ∈ u.support, Reduced q n a)
    {d : BlindRotation.RgswDraw} (hd : d ∈ (rgswLaw u χ n len).support) :
    DrawsOk q n d.1 ∧ DrawsOk q n d.2 ∧ len ≤ d.1.length ∧ len ≤ d.2.length := by
  obtain ⟨h1, h2⟩ := mem_support_pair hd
  obtain ⟨h3, h4⟩ := sampleLaw_ok h hu h1
  obtain ⟨h5, h6⟩ := sampleLaw_ok h hu h2
  exact ⟨h3, h5, h4.ge, h6.ge⟩

theorem rgswLaw_mgf (h : SubGaussian q χ v) (hv : 0 ≤ v) (n len b : Nat) (D D' : Nat → Nat → ℤ)
    (hD : ∀ j i, |D j i| ≤ b) (hD' : ∀ j i, |D' j i| ≤ b) (t : ℝ) :
    (mean (rgswLaw u χ n len) fun d =>
      eexp (t * linearNoise q n len D d.1 + t * linearNoise q n len D' d.2)) ≤
      eexp (2 * len * n * b ^ 2 * v * t ^ 2 / 2) := by
  refine (mean_eexp_pair _ _ _ _ (linearNoise_mgf h hv len b D hD t)
    (linearNoise_mgf h hv len b D' hD' t)).trans (eexp_mono (le_of_eq ?_))
  ring

theorem monoZ_keeps [Fact (1 < q)] (n : Nat) [NeZero n] (ρ : ℤ) (b : Nat) (p : Rq (ZMod q) n)
    (h : p.Bounded b) : (Rq.monoZ ρ * p).Bounded b := h.monoZ_mul ρ

variable {R : Ctx} {k : Nat} [Fact q.Prime]

theorem binary_step_noise (hk : 0 < k) (F : TableField R.w q R.M R.tbl k) (bits : Nat) (B : Basis)
    (hB : Basis.new R.w q bits = some B) (s sn : List Nat) (hs : Reduced q (2 ^ k) s)
    (hsn : Poly.toNtt R.w R.M R.tbl s = some sn) (h : SubGaussian q χ v) (hv : 0 ≤ v)
    (hu : ∀ a ∈ u.support, Reduced q (2 ^ k) a) (x : Nat) :
    StepNoise q (2 ^ k) (Rq.ofWords q (2 ^ k) s) (rgswLaw u χ (2 ^ k) B.decomposeLen)
      (2 * B.decomposeLen * (2 ^ k : Nat) * (2 ^ bits - 1 : Nat) ^ 2 * v) (Nat.two_pow_pos k)
      (BlindRotation.binaryKey R sn B x) (BlindRotation.binaryStep R (2 ^ k)) (binaryDigit x) := by
  have h1q : Fact (1 < q) := ⟨(Fact.out : q.Prime).one_lt⟩
  intro a φ st ρ ha hst
  have hz : binaryDigit x = 0 ∨ binaryDigit x = 1 := by
    unfold binaryDigit; split <;> simp
  obtain ⟨la, lb, hstep⟩ := binary_step_error hk F bits B hB _ φ a ha st hst (binaryDigit x) hz
  obtain ⟨D, hD, eD⟩ := gadget_linear bits B.decomposeLen (Rq.monoZ ρ) (monoZ_keeps (q := q) (2 ^ k) ρ) la
    (Nat.two_pow_pos k)
  obtain ⟨D', hD', eD'⟩ := gadget_linear bits B.decomposeLen (Rq.monoZ ρ) (monoZ_keeps (q := q) (2 ^ k) ρ) lb
    (Nat.two_pow_pos k)
  refine ⟨fun d => linearNoise q (2 ^ k) B.decomposeLen D d.1 + linearNoise q (2 ^ k) B.decomposeLen D' d.2,
    fun t => ?_, fun d hd => ?_⟩
  · refine le_trans (le_of_eq ?_) (rgswLaw_mgf (u := u) h hv (2 ^ k) B.decomposeLen _ D D' hD hD' t)
    congr 1
    funext d
    congr 1
    push_cast; ring
  · obtain ⟨h1, h2, h3, h4⟩ := rgswLaw_ok h hu hd
    obtain ⟨⟨g, e, hg⟩, ⟨g', e', hg'⟩⟩ := C37_ntt_samples hk F bits B hB s sn hs hsn d.1 d.2 h1 h2 h3 h4
    have : ∃ y, BlindRotation.binaryKey R sn B x d = some y ∧
        y.Encrypts R q (2 ^ k) bits (Rq.ofWords q (2 ^ k) s)
          (Rq.const ((binaryDigit x : ℤ) : ZMod q)) (drawErrors q (2 ^ k) d.1)
          (drawErrors q (2 ^ k) d.2) := by
      unfold BlindRotation.binaryKey binaryDigit
      by_cases hx : x = 0
      · rw [if_pos hx, if_pos hx, Int.cast_zero, Rq.const_zero]
        exact ⟨g, e, hg⟩
      · rw [if_neg hx, if_neg hx, Int.cast_one]
        exact ⟨g', e', hg'⟩
    obtain ⟨y, ey, hy⟩ := this
    obtain ⟨st', es, hi⟩ := hstep _ _ y hy
    refine ⟨y, st', ey, es, _, hi, ?_⟩
    rw [mul_add, Rq.add_co, eD, eD', Int.cast_add]

theorem ternary_step_noise (hk : 0 < k) (hk' : k ≤ 31) (F : TableField R.w q R.M R.tbl k) (bits : Nat)
    (B : Basis) (hB : Basis.new R.w q bits = some B) (s sn : List Nat) (hs : Reduced q (2 ^ k) s)
    (hsn : Poly.toNtt R.w R.M R.tbl s = some sn) (tb : Table) (htb : R.tbl k = some tb)
    (h : SubGaussian q χ v) (hv : 0 ≤ v)
    (hu : ∀ a ∈ u.support, Reduced q (2 ^ k) a) (x : Nat) :
    StepNoise q (2 ^ k) (Rq.ofWords q (2 ^ k) s)
      (pair (rgswLaw u χ (2 ^ k) B.decomposeLen) (rgswLaw u χ (2 ^ k) B.decomposeLen))
      (4 * B.decomposeLen * (2 ^ k : Nat) * (2 ^ bits - 1 : Nat) ^ 2 * v) (Nat.two_pow_pos k)
      (BlindRotation.ternaryKey R sn B x) (BlindRotation.ternaryStep R tb (2 ^ k)) (ternaryDigit x) := by
  have h1q : Fact (1 < q) := ⟨(Fact.out : q.Prime).one_lt⟩
  intro a φ st ρ ha hst
  have hz : ternaryDigit x = 0 ∨ ternaryDigit x = 1 ∨ ternaryDigit x = -1 := by
    unfold ternaryDigit; split
    · simp
    · split <;> simp
  obtain ⟨la, lb, hstep⟩ := ternary_step_error hk hk' F bits B hB _ φ a ha tb htb st hst (ternaryDigit x) hz
  have hneg : ∀ (b : Nat) (p : Rq (ZMod q) (2 ^ k)), p.Bounded b →
      (Rq.monoZ ρ * -Rq.mono (2 * 2 ^ k - a) * p).Bounded b := fun b p hp => by
    rw [mul_assoc, neg_mul]
    exact (hp.mono_mul _).neg.monoZ_mul ρ
  obtain ⟨D0, hD0, e0⟩ := gadget_linear bits B.decomposeLen _ (monoZ_keeps (q := q) (2 ^ k) ρ) la
    (Nat.two_pow_pos k)
  obtain ⟨D1, hD1, e1⟩ := gadget_linear bits B.decomposeLen _ (monoZ_keeps (q := q) (2 ^ k) ρ) lb
    (Nat.two_pow_pos k)
  obtain ⟨D2, hD2, e2⟩ := gadget_linear bits B.decomposeLen _ hneg la (Nat.two_pow_pos k)
  obtain ⟨D3, hD3, e3⟩ := gadget_linear bits B.decomposeLen _ hneg lb (Nat.two_pow_pos k)
  refine ⟨fun d => (linearNoise q (2 ^ k) B.decomposeLen D0 d.1.1 +
      linearNoise q (2 ^ k) B.decomposeLen D1 d.1.2) + (linearNoise q (2 ^ k) B.decomposeLen D2 d.2.1 +
      linearNoise q (2 ^ k) B.decomposeLen D3 d.2.2), fun t => ?_, fun d hd => ?_⟩
  · refine le_trans (le_of_eq ?_) ((mean_eexp_pair _ _ _ _
      (rgswLaw_mgf (u := u) h hv (2 ^ k) B.decomposeLen _ D0 D1 hD0 hD1 t)
      (rgswLaw_mgf (u := u) h hv (2 ^ k) B.decomposeLen _ D2 D3 hD2 hD3 t)).trans (eexp_mono (le_of_eq ?_)))
    · congr 1
      funext d
      congr 1
      push_cast; ring
    · ring
  · obtain ⟨hd1, hd2⟩ := mem_support_pair hd
    obtain ⟨h1, h2, h3, h4⟩ := rgswLaw_ok h hu hd1
    obtain ⟨h5, h6, h7, h8⟩ := rgswLaw_ok h hu hd2
    obtain ⟨⟨g, e, hg⟩, ⟨g', e', hg'⟩⟩ := C37_ntt_samples hk F bits B hB s sn hs hsn d.1.1 d.1.2 h1 h2 h3 h4
    obtain ⟨⟨f, ef, hf⟩, ⟨f', ef', hf'⟩⟩ := C37_ntt_samples hk F bits B hB s sn hs hsn d.2.1 d.2.2 h5 h6 h7 h8
    have hone : (Rq.const (1 : ZMod q) : Rq (ZMod q) (2 ^ k)) = 1 := rfl
    have : ∃ y, BlindRotation.ternaryKey R sn B x d = some y ∧
        y.1.Encrypts R q (2 ^ k) bits (Rq.ofWords q (2 ^ k) s)
          (Rq.const (if ternaryDigit x = 1 then 1 else 0)) (drawErrors q (2 ^ k) d.1.1)
          (drawErrors q (2 ^ k) d.1.2) ∧
        y.2.Encrypts R q (2 ^ k) bits (Rq.ofWords q (2 ^ k) s)
          (Rq.const (if ternaryDigit x = -1 then 1 else 0)) (drawErrors q (2 ^ k) d.2.1)
          (drawErrors q (2 ^ k) d.2.2) := by
      unfold BlindRotation.ternaryKey ternaryDigit
      by_cases hx : x = 1
      · rw [if_pos hx, if_pos hx, if_pos rfl, if_neg (by omega), Rq.const_zero, hone]
        exact ⟨(g', f), by rw [mbind e', mbind ef]; rfl, hg', hf⟩
      · rw [if_neg hx, if_neg hx]
        by_cases hx0 : x = 0
        · rw [if_pos hx0, if_pos hx0, if_neg (by omega), if_neg (by omega), Rq.const_zero]
          exact ⟨(g, f), by rw [mbind e, mbind ef]; rfl, hg, hf⟩
        · rw [if_neg hx0, if_neg hx0, if_neg (by omega), if_pos rfl, Rq.const_zero, hone]
          exact ⟨(g, f'), by rw [mbind e, mbind ef']; rfl, hg, hf'⟩
    obtain ⟨y, ey, hy1, hy2⟩ := this
    obtain ⟨st', es, hi⟩ := hstep _ _ _ _ y hy1 hy2
    refine ⟨y, st', ey, es, _, hi, ?_⟩
    have hsplit : ∀ (l : List Nat) (p p' : Nat → Rq (ZMod q) (2 ^ k)) (M : Rq (ZMod q) (2 ^ k)),
        gadgetError q (2 ^ k) bits B.decomposeLen l (fun j => p j + p' j * M) =
        gadgetError q (2 ^ k) bits B.decomposeLen l p + M * gadgetError q (2 ^ k) bits B.decomposeLen l p' := by
      intro l p p' M
      unfold gadgetError
      rw [mul_sum, ← sum_add_distrib]
      exact sum_congr rfl fun j _ => by ring
    rw [hsplit, hsplit, mul_add, mul_add, mul_add, ← mul_assoc, ← mul_assoc, Rq.add_co, Rq.add_co, Rq.add_co,
      e0, e1, e2, e3]
    push_cast; ring

/-- The rotation as a function of the draws of its key: on the support it is the table entry at the phase of
the input plus a noise, whose mean of exponentials is bounded. -/
theorem rotate_noise (hk : 0 < k) (F : TableField R.w q R.M R.tbl k) {K α : Type}
    (s : List Nat) (p : PMF α) (C : ℝ) (digit : Nat → ℤ) (gen : Nat → α → Option K)
    (generate : List Nat → List α → Option (List K)) (h0 : ∀ l, generate [] l = some [])
    (h1 : ∀ x xs d ds, generate (x :: xs) (d :: ds) =
      (gen x d).bind fun g => (generate xs ds).bind fun gs => some (g :: gs))
    (step : BlindRotation.State → K → Nat → Option BlindRotation.State)
    (hstep : ∀ x, StepNoise q (2 ^ k) (Rq.ofWords q (2 ^ k) s) p C (Nat.two_pow_pos k) (gen x) step (digit x))
    (secret : List Nat) (lut : List Nat) (hl : Reduced q (2 ^ k) lut) (c : LWE)
    (hlen : c.a.length = secret.length) (ha : ∀ x ∈ c.a, x < 2 * 2 ^ k) (hb : c.b < 2 * 2 ^ k) :
    ∃ noise : List α → ℤ,
      (∀ t : ℝ, (mean (draws p secret.length) fun l => eexp (t * noise l)) ≤
        eexp (secret.length * C * t ^ 2 / 2)) ∧
      ∃ l', BlindRotation.rotateLut R lut c.b = some l' ∧ l'.length = 2 ^ k ∧
      ∀ l ∈ (draws p secret.length).support, ∃ key st, generate secret l = some key ∧
        BlindRotation.loop step key c.a (BlindRotation.init l') = some st ∧
        ringPhase0 q (2 ^ k) s st.acc (Nat.two_pow_pos k) =
          tableAt q (2 ^ k) lut (intPhase (secret.map digit) c.a c.b) + ((noise l : ℤ) : ZMod q) := by
  obtain ⟨l, el, hl'⟩ : ∃ l, BlindRotation.rotateLut R lut c.b = some l ∧ Reduced q (2 ^ k) l ∧
      Rq.ofWords q (2 ^ k) l = Rq.ofWords q (2 ^ k) lut * Rq.monoZ (-(c.b : ℤ)) := by
    obtain ⟨t, hq, E⟩ := F.env hk
    subst hq
    obtain ⟨l, el, h⟩ := rotateLut_spec E (rep_exists hl) hb
    exact ⟨l, el, rep_iff.1 h⟩
  obtain ⟨noise, hm, hn⟩ := loop_noise (2 ^ k) (Nat.two_pow_pos k) (Rq.ofWords q (2 ^ k) s) p C digit gen
    generate h0 h1 step hstep secret c.a hlen ha _ _ (init_inv (2 ^ k) _ l hl'.1)
  refine ⟨noise, hm, l, el, hl'.1.1, fun d hd => ?_⟩
  obtain ⟨key, st, ek, -, e, Δ, hi, hΔ⟩ := hn d hd
  refine ⟨key, st, ek, e, ?_⟩
  have := hi.acc.phase
  unfold ringPhase0
  rw [this, Rq.add_co, hΔ, ← rotated_co_zero (Nat.two_pow_pos k), hl'.2, intPhase, neg_sub, sub_eq_add_neg, Rq.monoZ_add]
  congr 2
  ring

theorem rotate_tail {α : Type} {p : PMF α} {noise : α → ℤ} {V T : ℝ} (hV : 0 ≤ V) (hT : 0 ≤ T)
    (hm : ∀ t : ℝ, (mean p fun l => eexp (t * noise l)) ≤ eexp (V * t ^ 2 / 2)) (A : Set α)
    (h : ∀ l ∈ p.support, |(noise l : ℝ)| ≤ T → l ∈ A) : p.toOuterMeasure Aᶜ ≤ gaussTail V T := by
  refine le_trans (prob_mono fun l hl hA => ?_) (two_sided p (fun l => (noise l : ℝ)) hV hm hT)
  by_contra hc
  exact hA (h l hl (not_lt.1 hc))

end
end Verif

namespace Verif.Props
open Spec

section
variable {R : Ctx} {q k : Nat} [Fact q.Prime] {u : PMF (List Nat)} {χ : PMF Nat} {v : ℝ}

/-- C59: with a fresh binary key whose errors are sub-Gaussian with parameter `v`, blind rotation of a given
ciphertext succeeds and its noise is at most `T`, except with the probability that a normal variable exceeds
`T` whose variance is the number of products of a digit and an error times the largest square of a digit. The
bound grows with the square root of the number of products; that of C38 grows with the number. -/
theorem C59_binary (hk : 0 < k) (F : TableField R.w q R.M R.tbl k) (bits : Nat) (B : Basis)
    (hB : Basis.new R.w q bits = some B) (s sn : List Nat) (hs : Reduced q (2 ^ k) s)
    (hsn : Poly.toNtt R.w R.M R.tbl s = some sn) (secret : List Nat)
    (h : SubGaussian q χ v) (hv : 0 ≤ v) (hu : ∀ a ∈ u.support, Reduced q (2 ^ k) a)
    (lut : List Nat) (hl : Reduced q (2 ^ k) lut) (c : LWE) (hlen : c.a.length = secret.length)
    (ha : ∀ x ∈ c.a, x < 2 * 2 ^ k) (hb : c.b < 2 * 2 ^ k) (T : ℝ) (hT : 0 ≤ T) :
    (draws (rgswLaw u χ (2 ^ k) B.decomposeLen) secret.length).toOuterMeasure
      {d | ∃ key r, BlindRotation.binaryGenerate R sn B secret d = some key ∧
        BlindRotation.binary R key lut c = some r ∧
        ∃ e : ℤ, |(e : ℝ)| ≤ T ∧ ringPhase0 q (2 ^ k) s r (Nat.two_pow_pos k) =
          tableAt q (2 ^ k) lut (intPhase (secret.map binaryDigit) c.a c.b) + (e : ZMod q)}ᶜ ≤
    gaussTail (secret.length * (2 * B.decomposeLen * (2 ^ k : Nat) * (2 ^ bits - 1 : Nat) ^ 2 * v)) T := by
  obtain ⟨noise, hm, l', el, hll, hd⟩ := rotate_noise hk F s _ _ binaryDigit
    (BlindRotation.binaryKey R sn B) (BlindRotation.binaryGenerate R sn B) (fun l => by cases l <;> rfl)
    (fun _ _ _ _ => rfl) (BlindRotation.binaryStep R (2 ^ k))
    (binary_step_noise hk F bits B hB s sn hs hsn h hv hu) secret lut hl c hlen ha hb
  refine rotate_tail (by positivity) hT hm _ fun l hls hT => ?_
  obtain ⟨key, st, ek, es, hp⟩ := hd l hls
  refine ⟨key, st.acc, ek, ?_, noise l, hT, hp⟩
  unfold BlindRotation.binary
  rw [mbind el, hll, mbind es]; rfl

/-- C59: the same with a fresh ternary key; its two ciphertexts per digit double the variance. -/
theorem C59_ternary (hk : 0 < k) (hk' : k ≤ 31) (F : TableField R.w q R.M R.tbl k) (bits : Nat) (B : Basis)
    (hB : Basis.new R.w q bits = some B) (s sn : List Nat) (hs : Reduced q (2 ^ k) s)
    (hsn : Poly.toNtt R.w R.M R.tbl s = some sn) (secret : List Nat)
    (h : SubGaussian q χ v) (hv : 0 ≤ v) (hu : ∀ a ∈ u.support, Reduced q (2 ^ k) a)
    (lut : List Nat) (hl : Reduced q (2 ^ k) lut) (c : LWE) (hlen : c.a.length = secret.length)
    (ha : ∀ x ∈ c.a, x < 2 * 2 ^ k) (hb : c.b < 2 * 2 ^ k) (T : ℝ) (hT : 0 ≤ T) :
    (draws (pair (rgswLaw u χ (2 ^ k) B.decomposeLen) (rgswLaw u χ (2 ^ k) B.decomposeLen))
      secret.length).toOuterMeasure
      {d | ∃ key r, BlindRotation.ternaryGenerate R sn B secret d = some key ∧
        BlindRotation.ternary R key lut c = some r ∧
        ∃ e : ℤ, |(e : ℝ)| ≤ T ∧ ringPhase0 q (2 ^ k) s r (Nat.two_pow_pos k) =
          tableAt q (2 ^ k) lut (intPhase (secret.map ternaryDigit) c.a c.b) + (e : ZMod q)}ᶜ ≤
    gaussTail (secret.length * (4 * B.decomposeLen * (2 ^ k : Nat) * (2 ^ bits - 1 : Nat) ^ 2 * v)) T := by
  obtain ⟨tb, htb, htf⟩ : ∃ t, R.tbl k = some t ∧ Poly.tableFor R.tbl (2 ^ k) = some t := by
    obtain ⟨t, _, E⟩ := F.env hk
    exact ⟨t, E.tb, E.tableFor⟩
  obtain ⟨noise, hm, l', el, hll, hd⟩ := rotate_noise hk F s _ _ ternaryDigit
    (BlindRotation.ternaryKey R sn B) (BlindRotation.ternaryGenerate R sn B) (fun l => by cases l <;> rfl)
    (fun _ _ _ _ => rfl) (BlindRotation.ternaryStep R tb (2 ^ k))
    (ternary_step_noise hk hk' F bits B hB s sn hs hsn tb htb h hv hu) secret lut hl c hlen ha hb
  refine rotate_tail (by positivity) hT hm _ fun l hls hT => ?_
  obtain ⟨key, st, ek, es, hp⟩ := hd l hls
  refine ⟨key, st.acc, ek, ?_, noise l, hT, hp⟩
  unfold BlindRotation.ternary
  rw [hl.1, mbind htf, mbind el, hll, mbind es]; rfl

end
end Verif.Props
