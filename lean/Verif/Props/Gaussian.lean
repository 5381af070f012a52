import Verif.Model.Gaussian
import Verif.SpecGaussian
import Verif.Lemmas.F64
import Verif.Props.Sample
import Verif.Props.LWE
import Verif.SpecRing

/-! # C53: Gaussian samplers -/

namespace Verif.Props
open Spec F64 Gaussian

theorem round_spec {x : ℚ} (hx : 0 ≤ x) :
    0 ≤ F64.round x ∧ |(F64.round x : ℚ) - x| ≤ 1 / 2 ∧
      (|(F64.round x : ℚ) - x| = 1 / 2 → x < F64.round x) := by
  obtain ⟨h1, h2⟩ := floor_bounds (x + 1 / 2)
  have h0 : (0 : ℤ) ≤ (x + 1 / 2).floor := le_floor (by push_cast; linarith)
  unfold F64.round
  refine ⟨h0, abs_le.2 ⟨by linarith, by linarith⟩, fun h => ?_⟩
  rcases abs_cases (((x + 1 / 2).floor : ℚ) - x) with ⟨e, -⟩ | ⟨e, -⟩ <;> rw [e] at h <;> linarith

theorem roundAway_spec (x : ℚ) : IsRounded x (roundAway x) := by
  unfold roundAway IsRounded
  split
  · next h =>
    obtain ⟨h0, h1, h2⟩ := round_spec (x := -x) (by linarith)
    have e : |((-F64.round (-x) : ℤ) : ℚ) - x| = |(F64.round (-x) : ℚ) - -x| := by
      rw [← abs_neg]; congr 1; push_cast; ring
    have h0' : (0 : ℚ) ≤ F64.round (-x) := by exact_mod_cast h0
    rw [e]
    refine ⟨h1, fun h' => ?_⟩
    rw [abs_of_neg h]; push_cast; rw [abs_neg, abs_of_nonneg h0']
    exact h2 h'
  · next h =>
    obtain ⟨h0, h1, h2⟩ := round_spec (x := x) (by linarith)
    have h0' : (0 : ℚ) ≤ F64.round x := by exact_mod_cast h0
    refine ⟨h1, fun h' => ?_⟩
    rw [abs_of_nonneg (by linarith : 0 ≤ x), abs_of_nonneg h0']
    exact h2 h'

theorem isRounded_not_lt {x : ℚ} {y z : ℤ} (hy : IsRounded x y) (hz : IsRounded x z) : ¬ y < z := by
  intro h
  have a := abs_le.1 hy.1
  have b := abs_le.1 hz.1
  have h' : (y : ℚ) + 1 ≤ z := by exact_mod_cast h
  have e1 : (y : ℚ) = x - 1 / 2 := by linarith
  have e2 : (z : ℚ) = x + 1 / 2 := by linarith
  have c := hy.2 (by rw [e1]; norm_num)
  have d := hz.2 (by rw [e2]; norm_num)
  rw [e1] at c; rw [e2] at d
  have hi : (0 : ℚ) ≤ y ∨ (y : ℚ) ≤ -1 := by
    rcases le_or_gt 0 y with h | h
    · left; exact_mod_cast h
    · right; have : y ≤ -1 := by omega
      exact_mod_cast this
  rcases hi with hi | hi
  · rw [abs_of_nonneg (by linarith), abs_of_nonneg (by linarith)] at c; linarith
  · rw [abs_of_nonpos (by linarith), abs_of_nonpos (by linarith)] at d; linarith

/-- The rounded number is unique. -/
theorem isRounded_unique {x : ℚ} {y z : ℤ} (hy : IsRounded x y) (hz : IsRounded x z) : y = z := by
  have := isRounded_not_lt hy hz
  have := isRounded_not_lt hz hy
  omega

theorem isRounded_abs_le {x : ℚ} {z : ℤ} (h : IsRounded x z) {E : ℕ} (hx : |x| < E + 1 / 2) : |z| ≤ E := by
  have h1 : |(z : ℚ)| ≤ |(z : ℚ) - x| + |x| := by
    have := abs_add_le ((z : ℚ) - x) x
    rwa [sub_add_cancel] at this
  have h2 : |(z : ℚ)| < E + 1 := by linarith [h.1]
  have h3 : (|z| : ℤ) < E + 1 := by exact_mod_cast h2
  omega

theorem discrete_residue {w q : ℕ} {z : ℤ} (hq : q < 2 ^ w) (hz : z.natAbs ≤ q) :
    ∃ v, discreteGaussian w q z = some v ∧ v ≤ q ∧ (v : ZMod q) = (z : ZMod q) ∧
      (z.natAbs < q → v < q) := by
  have hmin : min z.natAbs (2 ^ w - 1) = z.natAbs := by omega
  unfold discreteGaussian
  rw [hmin]
  split
  · next hneg =>
    refine ⟨q - z.natAbs, subC_eq (by omega), by omega, ?_, by omega⟩
    rw [Nat.cast_sub hz, ZMod.natCast_self, zero_sub]
    have : z = -(z.natAbs : ℤ) := by omega
    conv_rhs => rw [this]
    simp
  · next hpos =>
    refine ⟨z.natAbs, rfl, hz, ?_, id⟩
    have : z = (z.natAbs : ℤ) := by omega
    conv_rhs => rw [this]
    simp

/-- An accepted deviate lies within the limit of the sampler, although the test is made with a rounded
difference. -/
theorem accept_within {s : Sampler} (hs : Representable s.maxDev) {x : ℚ}
    (h : rnd |x - s.mean| < s.maxDev) : |x - s.mean| < s.maxDev := by
  by_contra hc
  rw [not_lt] at hc
  rcases (abs_nonneg (x - s.mean)).eq_or_lt with h0 | h0
  · rw [← h0] at h hc
    have : rnd 0 = 0 := by unfold rnd; simp
    rw [this] at h; linarith
  · exact absurd (le_rnd h0 hs hc) (not_le.2 h)

theorem abs_deviate {s : Sampler} {x B : ℚ} (h : |x - s.mean| < s.maxDev) (hB : |s.mean| + s.maxDev ≤ B) :
    |x| < B := by
  have := abs_add_le (x - s.mean) s.mean
  rw [sub_add_cancel] at this
  linarith

theorem natAbs_lt_of_rounded {x : ℚ} {z : ℤ} (h : IsRounded x z) {q : ℕ} (hx : |x| < q - 1 / 2) :
    z.natAbs < q := by
  have hq : 1 ≤ q := by
    by_contra hc
    have : q = 0 := by omega
    subst this
    have := abs_nonneg x
    push_cast at hx; linarith
  have := isRounded_abs_le h (E := q - 1) (by rw [Nat.cast_sub hq]; push_cast; linarith)
  rw [Int.abs_eq_natAbs] at this
  omega

/-- C53: `new` accepts every non-negative standard deviation, and only those; a positive one is truncated
at six standard deviations, up to the rounding of the product. `new_with_max` also needs a limit above the
standard deviation, and keeps it as given. -/
theorem C53_new (mean stdDev maxDev : ℚ) :
    (Gaussian.new mean stdDev = none ↔ stdDev < 0) ∧
    (∀ s, Gaussian.new mean stdDev = some s → s.mean = mean ∧ s.stdDev = stdDev ∧
      (0 < stdDev → Representable s.maxDev ∧ |s.maxDev - 6 * stdDev| ≤ 6 * stdDev / 2 ^ 53) ∧
      (stdDev = 0 → s.maxDev = 0)) ∧
    (newWithMax mean stdDev maxDev = none ↔ ¬ (0 ≤ stdDev ∧ stdDev < maxDev)) ∧
    (∀ s, newWithMax mean stdDev maxDev = some s → s.mean = mean ∧ s.stdDev = stdDev ∧ s.maxDev = maxDev) := by
  refine ⟨?_, fun s hs => ?_, ?_, fun s hs => ?_⟩
  · unfold Gaussian.new; dsimp only; split <;> simp_all
  · unfold Gaussian.new at hs
    dsimp only at hs
    split at hs
    · exact absurd hs (by simp)
    · obtain rfl := Option.some.inj hs
      refine ⟨rfl, rfl, fun h => ?_, fun h => ?_⟩
      · have h6 : 0 < stdDev * 6 := by linarith
        refine ⟨rnd_representable h6, ?_⟩
        have := rnd_error h6
        rw [mul_comm 6 stdDev]
        exact this
      · show rnd (stdDev * 6) = 0
        rw [h]; unfold rnd; simp
  · unfold newWithMax
    split
    · next h => simp only [true_iff]; rintro ⟨a, b⟩; rcases h with h | h <;> linarith
    · next h =>
      rw [not_or, not_le, not_lt] at h
      simp [h.1, h.2]
  · unfold newWithMax at hs
    split at hs
    · exact absurd hs (by simp)
    · obtain rfl := Option.some.inj hs; exact ⟨rfl, rfl, rfl⟩

/-- C53: a sample for LWE is the residue of the first deviate that passes the test, rounded; that deviate
lies within the limit around the mean. Deviates that fail are consumed, and no sample is returned while all
deviates fail. The modulus must leave room for the limit. -/
theorem C53_lwe (w q : ℕ) (hq : q < 2 ^ w) (s : Sampler) (hs : Representable s.maxDev)
    (hr : |s.mean| + s.maxDev ≤ q - 1 / 2) :
    ∀ pre : List ℚ, (∀ x ∈ pre, s.maxDev ≤ rnd |x - s.mean|) →
      lwe w q s pre = some none ∧
      ∀ (x : ℚ) (post : List ℚ), rnd |x - s.mean| < s.maxDev →
        |x - s.mean| < s.maxDev ∧
        ∃ e, lwe w q s (pre ++ x :: post) = some (some (e, post)) ∧ IsSample q x e
  | [], _ => by
    refine ⟨rfl, fun x post hx => ?_⟩
    have h1 := accept_within hs hx
    have h2 := abs_deviate h1 hr
    have h3 := roundAway_spec x
    have h4 := natAbs_lt_of_rounded h3 h2
    obtain ⟨v, e, -, h5, h6⟩ := discrete_residue hq h4.le
    refine ⟨h1, v, ?_, h6 h4, _, h3, h5⟩
    rw [List.nil_append, lwe, if_pos (by simpa [accept] using hx), mbind e]
    rfl
  | y :: ys, hp => by
    obtain ⟨h1, h2⟩ := C53_lwe w q hq s hs hr ys fun x hx => hp x (List.mem_cons_of_mem _ hx)
    have hy : ¬ accept s y = true := by
      have := hp y (List.mem_cons_self ..)
      simpa [accept] using this
    refine ⟨by rw [lwe, if_neg hy, h1], fun x post hx => ?_⟩
    obtain ⟨h3, e, h4, h5⟩ := h2 x post hx
    exact ⟨h3, e, by rw [List.cons_append, lwe, if_neg hy, h4], h5⟩

theorem element_sample {w q : ℕ} (hw : w % 2 = 0) {M : Barrett} (hM : Fp.config w q = some M)
    {s : Sampler} (hs : Representable s.maxDev) (hr : |s.mean| + s.maxDev ≤ q) {x : ℚ}
    (hx : rnd |x - s.mean| < s.maxDev) : ∃ e, element w M x = some e ∧ IsSample q x e := by
  obtain ⟨hval, hqv⟩ := Barrett.new_valid hw (config_new hM)
  have hlt := hval.lt_word
  rw [hqv] at hlt
  have h2 := abs_deviate (accept_within hs hx) hr
  have h3 := roundAway_spec x
  have h4 : (roundAway x).natAbs ≤ q := by
    have := isRounded_abs_le h3 (E := q) (by linarith)
    rw [Int.abs_eq_natAbs] at this; omega
  obtain ⟨v, e, h5, h6, -⟩ := discrete_residue hlt h4
  have h0 : 0 < q := by
    have := (Barrett.new_cond (config_new hM)).1; omega
  refine ⟨v % q, ?_, Nat.mod_lt _ h0, _, h3, by rw [ZMod.natCast_mod]; exact h6⟩
  rw [element, hqv, mbind e]
  exact C49_new w q hw M hM v (by omega)

/-- C53: a sample for a field is the residue of the first deviate that passes the test, rounded. The limit
may reach up to the modulus. -/
theorem C53_field (w q : ℕ) (hw : w % 2 = 0) (M : Barrett) (hM : Fp.config w q = some M) (s : Sampler)
    (hs : Representable s.maxDev) (hr : |s.mean| + s.maxDev ≤ q) :
    ∀ pre : List ℚ, (∀ x ∈ pre, s.maxDev ≤ rnd |x - s.mean|) →
      field w M s pre = some none ∧
      ∀ (x : ℚ) (post : List ℚ), rnd |x - s.mean| < s.maxDev →
        |x - s.mean| < s.maxDev ∧
        ∃ e, field w M s (pre ++ x :: post) = some (some (e, post)) ∧ IsSample q x e
  | [], _ => by
    refine ⟨rfl, fun x post hx => ?_⟩
    obtain ⟨v, e, h⟩ := element_sample hw hM hs hr hx
    refine ⟨accept_within hs hx, v, ?_, h⟩
    rw [List.nil_append, field, if_pos (by simpa [accept] using hx), mbind e]
    rfl
  | y :: ys, hp => by
    obtain ⟨h1, h2⟩ := C53_field w q hw M hM s hs hr ys fun x hx => hp x (List.mem_cons_of_mem _ hx)
    have hy : ¬ accept s y = true := by
      have := hp y (List.mem_cons_self ..)
      simpa [accept] using this
    refine ⟨by rw [field, if_neg hy, h1], fun x post hx => ?_⟩
    obtain ⟨h3, e, h4, h5⟩ := h2 x post hx
    exact ⟨h3, e, by rw [List.cons_append, field, if_neg hy, h4], h5⟩

/-- The deviates that pass the test. -/
def passing (s : Sampler) (xs : List ℚ) : List ℚ := xs.filter fun x => decide (rnd |x - s.mean| < s.maxDev)

/-- Either all deviates fail, or there is a first one that passes. -/
theorem passing_split (s : Sampler) : ∀ xs : List ℚ,
    (passing s xs = [] ∧ ∀ x ∈ xs, s.maxDev ≤ rnd |x - s.mean|) ∨
    ∃ pre x post, xs = pre ++ x :: post ∧ (∀ y ∈ pre, s.maxDev ≤ rnd |y - s.mean|) ∧
      rnd |x - s.mean| < s.maxDev ∧ passing s xs = x :: passing s post
  | [] => Or.inl ⟨rfl, by simp⟩
  | x :: xs => by
    by_cases hx : rnd |x - s.mean| < s.maxDev
    · exact Or.inr ⟨[], x, xs, rfl, by simp, hx, by simp [passing, hx]⟩
    · have e : passing s (x :: xs) = passing s xs := by simp [passing, hx]
      rcases passing_split s xs with ⟨h1, h2⟩ | ⟨pre, y, post, h1, h2, h3, h4⟩
      · refine Or.inl ⟨by rw [e, h1], fun y hy => ?_⟩
        rcases List.mem_cons.1 hy with rfl | hy
        · exact not_lt.1 hx
        · exact h2 y hy
      · refine Or.inr ⟨x :: pre, y, post, by rw [h1]; rfl, fun z hz => ?_, h3, by rw [e, h4]⟩
        rcases List.mem_cons.1 hz with rfl | hz
        · exact not_lt.1 hx
        · exact h2 z hz

/-- C53: the coefficients of a random polynomial are the residues of the first `n` deviates that pass the
test, each rounded, in order; no polynomial is returned while fewer than `n` pass. -/
theorem C53_field_vec (w q : ℕ) (hw : w % 2 = 0) (M : Barrett) (hM : Fp.config w q = some M) (s : Sampler)
    (hs : Representable s.maxDev) (hr : |s.mean| + s.maxDev ≤ q) :
    ∀ (n : ℕ) (xs : List ℚ),
      ((passing s xs).length < n → fieldVec w M s n xs = some none) ∧
      (n ≤ (passing s xs).length → ∃ v, fieldVec w M s n xs = some (some v) ∧
        List.Forall₂ (IsSample q) ((passing s xs).take n) v)
  | 0, xs => ⟨fun h => absurd h (by omega), fun _ => ⟨[], rfl, by simp⟩⟩
  | n + 1, xs => by
    rcases passing_split s xs with ⟨h1, h2⟩ | ⟨pre, x, post, h1, h2, h3, h4⟩
    · have h := (C53_field w q hw M hM s hs hr xs h2).1
      refine ⟨fun _ => ?_, fun hn => absurd hn (by rw [h1]; simp)⟩
      rw [fieldVec, mbind h]; rfl
    · obtain ⟨-, e, h5, h6⟩ := (C53_field w q hw M hM s hs hr pre h2).2 x post h3
      obtain ⟨i1, i2⟩ := C53_field_vec w q hw M hM s hs hr n post
      rw [h4, h1]
      refine ⟨fun hn => ?_, fun hn => ?_⟩
      · rw [fieldVec, mbind h5]
        show (fieldVec w M s n post >>= _) = _
        rw [mbind (i1 (by simpa using hn))]; rfl
      · obtain ⟨v, h7, h8⟩ := i2 (by simpa using hn)
        refine ⟨e :: v, ?_, by rw [List.take_succ_cons]; exact List.Forall₂.cons h6 h8⟩
        rw [fieldVec, mbind h5]
        show (fieldVec w M s n post >>= _) = _
        rw [mbind h7]; rfl

/-- Each coefficient of a vector of centred binomial draws is the residue of an integer of at most 21. -/
theorem cbd_vec_small (w q : ℕ) (hw : w % 2 = 0) (M : Barrett) (h : Fp.config w q = some M)
    (hq21 : 21 < q) (bytes : ℕ → ℕ) (hb : ∀ i, bytes i < 2 ^ 8) :
    ∀ (length i : ℕ), ∃ v, Sample.cbdVec w M bytes length i = some v ∧ v.length = length ∧
      ∀ e ∈ v, e < q ∧ ∃ z : ℤ, |z| ≤ 21 ∧ (z : ZMod q) = (e : ZMod q)
  | 0, _ => ⟨[], rfl, rfl, by simp⟩
  | k + 1, i => by
    obtain ⟨v, hv, hl, hm⟩ := cbd_vec_small w q hw M h hq21 bytes hb k (i + 1)
    obtain ⟨e, he, hlt, d, -, hd, hz⟩ := C19_cbd_partial w q hw M h hq21.le (bytes (6 * i)) (bytes (6 * i + 1))
      (bytes (6 * i + 2)) (bytes (6 * i + 3)) (bytes (6 * i + 4)) (bytes (6 * i + 5)) (hb _) (hb _)
      (hb _) (hb _)
    refine ⟨e :: v, ?_, by simp [hl], ?_⟩
    · simp only [Sample.cbdVec, he, hv, Option.bind_eq_bind, Option.bind_some]; rfl
    · intro x hx
      rcases List.mem_cons.1 hx with rfl | hx
      · exact ⟨hlt, d, hd, hz.symm⟩
      · exact hm x hx

theorem bounded_of_small {q n E : ℕ} {v : List ℕ} (hl : v.length = n)
    (h : ∀ e ∈ v, ∃ z : ℤ, |z| ≤ E ∧ (z : ZMod q) = (e : ZMod q)) : (Rq.ofWords q n v).Bounded E := by
  intro i
  have hi : i.val < v.length := by rw [hl]; exact i.isLt
  obtain ⟨z, h1, h2⟩ := h v[i.val] (List.getElem_mem _)
  refine ⟨z, h1, ?_⟩
  show (z : ZMod q) = Spec.coeff q v i.val
  rw [h2, Spec.coeff, List.getD_eq_getElem _ _ hi]

theorem forall₂_small {q E : ℕ} {xs : List ℚ} {v : List ℕ} (h : List.Forall₂ (IsSample q) xs v)
    (hx : ∀ x ∈ xs, |x| < E + 1 / 2) :
    v.length = xs.length ∧ ∀ e ∈ v, e < q ∧ ∃ z : ℤ, |z| ≤ E ∧ (z : ZMod q) = (e : ZMod q) := by
  induction h with
  | nil => exact ⟨rfl, by simp⟩
  | cons h1 h2 ih =>
    obtain ⟨hl, hm⟩ := ih fun x hx' => hx x (List.mem_cons_of_mem _ hx')
    refine ⟨by simp [hl], fun e he => ?_⟩
    rcases List.mem_cons.1 he with rfl | he
    · obtain ⟨h3, z, h4, h5⟩ := h1
      exact ⟨h3, z, isRounded_abs_le h4 (hx _ (List.mem_cons_self ..)), h5.symm⟩
    · exact hm e he

/-- C53: a noise polynomial made with the sampler of the parameters has `n` canonical coefficients, each the
residue of an integer of at most six standard deviations, rounded (21 for the deviation 3.2, which is drawn
from the centred binomial distribution instead). -/
theorem C53_polynomial (w q : ℕ) (hw : w % 2 = 0) (M : Barrett) (hM : Fp.config w q = some M)
    (stdDev : ℚ) (h0 : 0 < stdDev) (E : ℕ) (hE : 6 * stdDev + 6 * stdDev / 2 ^ 53 ≤ E + 1 / 2)
    (hq : E < q) (h21 : stdDev = rnd (16 / 5) → 21 ≤ E) :
    ∃ s, noise stdDev = some s ∧
      ∀ (n : ℕ) (bytes : ℕ → ℕ) (xs : List ℚ), (∀ i, bytes i < 2 ^ 8) →
        n ≤ (passing s xs).length →
        ∃ v, polynomial w M s n bytes xs = some (some v) ∧ Reduced q n v ∧
          (Rq.ofWords q n v).Bounded E := by
  obtain ⟨-, hnew, -, -⟩ := C53_new 0 stdDev 0
  have e : noise stdDev = some ⟨0, stdDev, F64.mul stdDev 6, cbdEnable 0 stdDev⟩ := by
    unfold noise Gaussian.new; dsimp only; rw [if_neg (by linarith)]
  refine ⟨_, e, ?_⟩
  obtain ⟨-, -, h1, -⟩ := hnew _ e
  obtain ⟨hrep, herr⟩ := h1 h0
  set s : Sampler := ⟨0, stdDev, F64.mul stdDev 6, cbdEnable 0 stdDev⟩ with hs
  have hmean : s.mean = 0 := rfl
  have hmax : s.maxDev ≤ E + 1 / 2 := by have := (abs_le.1 herr).2; linarith
  have hqE : (E : ℚ) + 1 ≤ q := by exact_mod_cast hq
  intro n bytes xs hb hn
  unfold polynomial
  split
  · next hc =>
    have h3 : stdDev = rnd (16 / 5) := by
      have : cbdEnable 0 stdDev = true := hc
      simpa [cbdEnable] using this
    have h4 := h21 h3
    obtain ⟨v, ev, hl, hv⟩ := cbd_vec_small w q hw M hM (by omega) bytes hb n 0
    refine ⟨v, by rw [mbind ev]; rfl, ⟨hl, fun x hx => (hv x hx).1⟩, bounded_of_small hl fun x hx => ?_⟩
    obtain ⟨-, z, h5, h6⟩ := hv x hx
    exact ⟨z, by have : (21 : ℤ) ≤ E := by exact_mod_cast h4
                 omega, h6⟩
  · obtain ⟨v, ev, hv⟩ := (C53_field_vec w q hw M hM s hrep
      (by rw [hmean, abs_zero]; linarith) n xs).2 hn
    obtain ⟨hl, hm⟩ := forall₂_small (E := E) hv fun x hx => by
      have h5 := List.mem_of_mem_take hx
      have h6 : rnd |x - s.mean| < s.maxDev := by simpa [passing] using (List.mem_filter.1 h5).2
      have h7 := accept_within hrep h6
      rw [hmean, sub_zero] at h7
      linarith
    have hl' : v.length = n := by rw [hl, List.length_take]; omega
    exact ⟨v, ev, ⟨hl', fun x hx => (hm x hx).1⟩, bounded_of_small hl' fun x hx => (hm x hx).2⟩

/-- C53: encryption noise. A deviate accepted by the sampler of the parameters rounds to an integer of at
most six standard deviations. -/
theorem C53_encryption_noise (stdDev : ℚ) (h0 : 0 < stdDev) (E : ℕ)
    (hE : 6 * stdDev + 6 * stdDev / 2 ^ 53 ≤ E + 1 / 2) :
    ∃ s, noise stdDev = some s ∧ ∀ x, accept s x = true → |roundAway x| ≤ E := by
  obtain ⟨-, hnew, -, -⟩ := C53_new 0 stdDev 0
  have e : noise stdDev = some ⟨0, stdDev, F64.mul stdDev 6, cbdEnable 0 stdDev⟩ := by
    unfold noise Gaussian.new; dsimp only; rw [if_neg (by linarith)]
  refine ⟨_, e, fun x hx => ?_⟩
  obtain ⟨hm, -, h1, -⟩ := hnew _ e
  obtain ⟨hrep, herr⟩ := h1 h0
  have hx' := accept_within hrep (by simpa [accept] using hx)
  rw [hm, sub_zero] at hx'
  exact isRounded_abs_le (roundAway_spec x) (by have := (abs_le.1 herr).2; linarith)

theorem isRounded_neg {x : ℚ} {z : ℤ} (h : IsRounded x z) : IsRounded (-x) (-z) := by
  have e : |((-z : ℤ) : ℚ) - -x| = |(z : ℚ) - x| := by
    rw [← abs_neg]; congr 1; push_cast; ring
  refine ⟨by rw [e]; exact h.1, fun h' => ?_⟩
  rw [abs_neg]; push_cast; rw [abs_neg]
  exact h.2 (by rw [← e]; exact h')

theorem isSample_neg {q : ℕ} {x : ℚ} {e e' : ℕ} (h : IsSample q x e) (h' : IsSample q (-x) e') :
    (e' : ZMod q) = -(e : ZMod q) := by
  obtain ⟨-, z, h1, h2⟩ := h
  obtain ⟨-, z', h3, h4⟩ := h'
  rw [h4, h2, isRounded_unique h3 (isRounded_neg h1)]
  push_cast; rfl

/-- C53: with mean 0 the samplers are symmetric: the deviates of opposite sign give the opposite residue,
and consume as many deviates. -/
theorem C53_symmetric (w q : ℕ) (hq : q < 2 ^ w) (s : Sampler) (hs : Representable s.maxDev)
    (hm : s.mean = 0) (hr : s.maxDev ≤ q - 1 / 2) (xs ys : List ℚ) (e : ℕ)
    (h : lwe w q s xs = some (some (e, ys))) :
    ∃ e', lwe w q s (xs.map (-·)) = some (some (e', ys.map (-·))) ∧ (e' : ZMod q) = -(e : ZMod q) := by
  have hr' : |s.mean| + s.maxDev ≤ q - 1 / 2 := by rw [hm, abs_zero]; linarith
  rcases passing_split s xs with ⟨-, h2⟩ | ⟨pre, x, post, h1, h2, h3, -⟩
  · rw [(C53_lwe w q hq s hs hr' xs h2).1] at h; simp at h
  · obtain ⟨-, e1, h4, h5⟩ := (C53_lwe w q hq s hs hr' pre h2).2 x post h3
    rw [h1, h4] at h
    simp only [Option.some.injEq, Prod.mk.injEq] at h
    obtain ⟨rfl, rfl⟩ := h
    have hneg : ∀ y : ℚ, |-y - s.mean| = |y - s.mean| := fun y => by
      rw [hm, sub_zero, sub_zero, abs_neg]
    obtain ⟨-, e2, h6, h7⟩ := (C53_lwe w q hq s hs hr' (pre.map (-·)) (fun y hy => by
      obtain ⟨y', hy', rfl⟩ := List.mem_map.1 hy
      rw [hneg]; exact h2 y' hy')).2 (-x) (post.map (-·)) (by rw [hneg]; exact h3)
    refine ⟨e2, ?_, isSample_neg h5 h7⟩
    rw [h1, List.map_append, List.map_cons]; exact h6

/-- C53: a standard deviation of zero is accepted by `new`, but then no deviate is ever accepted, so sampling
does not return. -/
theorem C53_zero_deviation (mean : ℚ) :
    ∃ s, Gaussian.new mean 0 = some s ∧ ∀ (w q : ℕ) (M : Barrett) (xs : List ℚ),
      lwe w q s xs = some none ∧ field w M s xs = some none := by
  refine ⟨⟨mean, 0, F64.mul 0 6, cbdEnable mean 0⟩, by unfold Gaussian.new; simp, fun w q M xs => ?_⟩
  have h0 : F64.mul 0 6 = 0 := by unfold F64.mul rnd; simp
  have hnn : ∀ x : ℚ, 0 ≤ rnd |x - mean| := fun x => by
    rcases (abs_nonneg (x - mean)).eq_or_lt with h | h
    · rw [← h]; unfold rnd; simp
    · exact le_rnd h ⟨0, 0, by norm_num, by simp⟩ h.le
  have ha : ∀ x, ¬ accept ⟨mean, 0, F64.mul 0 6, cbdEnable mean 0⟩ x = true := fun x => by
    simp only [accept, h0, decide_eq_true_eq, not_lt]
    exact hnn x
  induction xs with
  | nil => exact ⟨rfl, rfl⟩
  | cons x xs ih => exact ⟨by rw [lwe, if_neg (ha x), ih.1], by rw [field, if_neg (ha x), ih.2]⟩

/-- The sampler with deviation 3.2. -/
def sampler32 : Sampler := ⟨0, rnd (16 / 5), F64.mul (rnd (16 / 5)) 6, true⟩

/-- C53 without room for the limit: with modulus 4 the deviate 5 gives the word 5, which is not a residue,
and the deviate -5 overflows; in the field of 3 elements the deviate -5 overflows. -/
theorem C53_violations :
    Gaussian.new 0 (rnd (16 / 5)) = some sampler32 ∧
    lwe 16 4 sampler32 [5] = some (some (5, [])) ∧ lwe 16 4 sampler32 [-5] = none ∧
    (∃ M, Fp.config 32 3 = some M ∧ field 32 M sampler32 [-5] = none) := by
  refine ⟨?_, by decide +kernel, by decide +kernel, ⟨3, 0x55555555, 0x55555555⟩, by decide +kernel, by decide +kernel⟩
  unfold Gaussian.new sampler32
  dsimp only
  rw [if_neg (by decide +kernel)]
  congr 2
  decide +kernel

/-- C53: a polynomial of Gaussian errors takes its coefficients from the deviates that pass the test, one
after the other, unless the sampler was created with mean `0` and deviation `3.2`. -/
theorem C53_polynomial_deviates (w q : ℕ) (hw : w % 2 = 0) (M : Barrett) (hM : Fp.config w q = some M)
    (mean stdDev maxDev : ℚ) (h : mean ≠ 0 ∨ stdDev ≠ rnd (16 / 5)) (s : Sampler)
    (hs : Gaussian.new mean stdDev = some s ∨ newWithMax mean stdDev maxDev = some s)
    (hrep : Representable s.maxDev) (hr : |mean| + s.maxDev ≤ q) (n : ℕ) (bytes : ℕ → ℕ) (xs : List ℚ)
    (hn : n ≤ (passing s xs).length) :
    ∃ v, polynomial w M s n bytes xs = some (some v) ∧
      List.Forall₂ (IsSample q) ((passing s xs).take n) v := by
  have hc : s.cbd = false ∧ s.mean = mean := by
    have hf : cbdEnable mean stdDev = false := by
      unfold cbdEnable
      rcases h with h | h <;> simp [h]
    rcases hs with hs | hs
    · unfold Gaussian.new at hs
      dsimp only at hs
      split at hs
      · exact absurd hs (by simp)
      · obtain rfl := Option.some.inj hs
        exact ⟨hf, rfl⟩
    · unfold newWithMax at hs
      split at hs
      · exact absurd hs (by simp)
      · obtain rfl := Option.some.inj hs
        exact ⟨hf, rfl⟩
  unfold polynomial
  rw [if_neg (by rw [hc.1]; simp)]
  exact (C53_field_vec w q hw M hM s hrep (by rw [hc.2]; exact hr) n xs).2 hn

-- mean 3, deviation 2: the deviates 4.4 and 2.6 are taken, 40 is not
example : ∃ s v, Gaussian.new 3 2 = some s ∧
    polynomial 32 ⟨132120577, 2 ^ 64 / 132120577 % 2 ^ 32, 2 ^ 64 / 132120577 / 2 ^ 32⟩ s 2 (fun _ => 0) [22/5, 40, 13/5] = some (some v) ∧
    List.Forall₂ (IsSample 132120577) [22/5, 13/5] v := by
  have hs : Gaussian.new 3 2 = some ⟨3, 2, 12, false⟩ := by
    have h1 : F64.mul 2 6 = 12 := by decide +kernel
    have h2 : cbdEnable 3 2 = false := by decide +kernel
    unfold Gaussian.new
    dsimp only
    rw [h1, h2, if_neg (by norm_num)]
  obtain ⟨v, h1, h2⟩ := C53_polynomial_deviates 32 132120577 rfl ⟨132120577, 2 ^ 64 / 132120577 % 2 ^ 32, 2 ^ 64 / 132120577 / 2 ^ 32⟩
    (by decide +kernel) 3 2 0 (Or.inl (by norm_num)) ⟨3, 2, 12, false⟩ (Or.inl hs)
    ⟨12, 0, by norm_num, by norm_num⟩ (by norm_num) 2 (fun _ => 0) [22/5, 40, 13/5] (by decide +kernel)
  exact ⟨_, v, hs, h1, by
    have : (passing ⟨3, 2, 12, false⟩ [22/5, 40, 13/5]).take 2 = [22/5, 13/5] := by decide +kernel
    rwa [this] at h2⟩

/-- The default parameters of the crate (bool/src/bfhe/parameters.rs 14, 18, 22): encryption noise of at most
19 and ring and key switching noise of at most 38. -/
example : ∃ s, noise (rnd (16 / 5)) = some s ∧ ∀ x, accept s x = true → |roundAway x| ≤ 19 :=
  C53_encryption_noise (rnd (16 / 5)) (by decide +kernel) 19 (by decide +kernel)

example : ∃ s, noise (rnd (32 / 5)) = some s ∧
      ∀ (n : ℕ) (bytes : ℕ → ℕ) (xs : List ℚ), (∀ i, bytes i < 2 ^ 8) →
        n ≤ (passing s xs).length →
        ∃ v, polynomial 32 ⟨132120577, 2 ^ 64 / 132120577 % 2 ^ 32, 2 ^ 64 / 132120577 / 2 ^ 32⟩ s n bytes xs = some (some v) ∧
          Reduced 132120577 n v ∧ (Rq.ofWords 132120577 n v).Bounded 38 :=
  C53_polynomial 32 132120577 rfl _ (by decide +kernel) (rnd (32 / 5)) (by decide +kernel) 38
    (by decide +kernel) (by norm_num) (by decide +kernel)

/-- The limit of the sampler is a float, and there is room for it modulo 1024. -/
example : Representable sampler32.maxDev ∧ |sampler32.mean| + sampler32.maxDev ≤ (1024 : ℕ) - 1 / 2 :=
  ⟨rnd_representable (by decide +kernel), by decide +kernel⟩

/-- A rejected deviate is skipped, ties are rounded away from zero, and the rest is left for later samples. -/
example : lwe 16 1024 sampler32 [20, -7 / 2, 1] = some (some (1020, [1])) ∧
    lwe 16 1024 sampler32 [5 / 2, 1] = some (some (3, [1])) ∧
    passing sampler32 [20, -7 / 2, 97 / 5, 1] = [-7 / 2, 1] ∧
    fieldVec 32 ⟨132120577, 2 ^ 64 / 132120577 % 2 ^ 32, 2 ^ 64 / 132120577 / 2 ^ 32⟩ sampler32 2 [20, -7 / 2, 97 / 5, 1] = some (some [132120573, 1]) := by
  refine ⟨by decide +kernel, by decide +kernel, by decide +kernel, by decide +kernel⟩

end Verif.Props
