import Verif.Lemmas.Random
import Verif.Props.BlindRotation

/-!
# Noise as a linear form of the drawn errors
-/

namespace Verif
open Spec Props Finset
open scoped ENNReal

theorem Spec.centred_cast (q v : Nat) : ((centred q v : ℤ) : ZMod q) = v := by
  unfold centred
  split <;> simp

section
variable {q n : Nat}

theorem sum_co (f : Nat → Rq (ZMod q) n) [NeZero n] [Nontrivial (ZMod q)] (k : Nat) (i : Fin n) :
    (∑ j ∈ range k, f j).co i = ∑ j ∈ range k, (f j).co i := by
  induction k with
  | zero => rfl
  | succ k ih => rw [sum_range_succ, sum_range_succ, Rq.add_co, ih]

/-- The constant coefficient of a product with small coefficients. -/
theorem mul_co_zero_centred {P : Rq (ZMod q) n} {b : Nat} (hP : P.Bounded b) (hn : 0 < n) :
    ∃ D : Nat → ℤ, (∀ i, |D i| ≤ b) ∧ ∀ l : List Nat, (P * Rq.ofWords q n l).co ⟨0, hn⟩ =
      ((∑ i ∈ range n, D i * centred q (l.getD i 0) : ℤ) : ZMod q) := by
  choose z hz ez using hP.seq
  refine ⟨fun i => if i = 0 then z 0 else -z (n - i), fun i => ?_, fun l => ?_⟩
  · dsimp only
    split
    · exact hz 0
    · rw [abs_neg]; exact hz _
  · rw [Rq.mul_co_zero, Int.cast_sum]
    refine sum_congr rfl fun i hi => ?_
    rw [Rq.seq_lt _ (mem_range.1 hi), Int.cast_mul, centred_cast]
    congr 1
    dsimp only
    split
    · exact (ez 0).symm
    · rw [Int.cast_neg, ez]

/-- A linear form of the errors of `len` draws of `n` words. -/
def linearNoise (q n len : Nat) (D : Nat → Nat → ℤ) (l : List Draw) : ℤ :=
  ∑ j ∈ range len, ∑ i ∈ range n, D j i * centred q ((l.getD j ([], [])).2.getD i 0)

theorem gadget_linear [NeZero n] [Nontrivial (ZMod q)] (bits len : Nat) (P : Rq (ZMod q) n)
    (hP : ∀ (b : Nat) (p : Rq (ZMod q) n), p.Bounded b → (P * p).Bounded b) (la : List Nat)
    (hn : 0 < n) : ∃ D : Nat → Nat → ℤ, (∀ j i, |D j i| ≤ (2 ^ bits - 1 : Nat)) ∧
      ∀ l : List Draw, (P * gadgetError q n bits len la (drawErrors q n l)).co ⟨0, hn⟩ =
        ((linearNoise q n len D l : ℤ) : ZMod q) := by
  choose D hD eD using fun j => mul_co_zero_centred (hP _ _ (digitPoly_bounded q n bits la j)) hn
  refine ⟨D, hD, fun l => ?_⟩
  unfold gadgetError linearNoise
  rw [mul_sum, sum_co, Int.cast_sum]
  refine sum_congr rfl fun j _ => ?_
  rw [← mul_assoc]
  exact eD j _

variable {u : PMF (List Nat)} {χ : PMF Nat} {v : ℝ}

theorem Spec.SubGaussian.scaled (h : SubGaussian q χ v) (hv : 0 ≤ v) {b : Nat} (D : ℤ) (hD : |D| ≤ b) (t : ℝ) :
    (mean χ fun x => eexp (t * (D * centred q x))) ≤ eexp (b ^ 2 * v * t ^ 2 / 2) := by
  have := h.mgf (t * D)
  simp only [mul_assoc] at this
  refine le_trans this (eexp_mono ?_)
  have h1 : (D : ℝ) ^ 2 ≤ (b : ℝ) ^ 2 := by
    refine sq_le_sq' ?_ ?_
    · exact_mod_cast (abs_le.1 hD).1
    · exact_mod_cast (abs_le.1 hD).2
  nlinarith [mul_le_mul_of_nonneg_left h1 (mul_nonneg hv (sq_nonneg t))]

theorem linearNoise_mgf (h : SubGaussian q χ v) (hv : 0 ≤ v) (len b : Nat) (D : Nat → Nat → ℤ)
    (hD : ∀ j i, |D j i| ≤ b) (t : ℝ) :
    (mean (draws (sampleLaw u χ n) len) fun l => eexp (t * linearNoise q n len D l)) ≤
      eexp (len * n * b ^ 2 * v * t ^ 2 / 2) := by
  have key := mean_eexp_draws (sampleLaw u χ n) (([], []) : Draw) len
    (fun j d => t * ((∑ i ∈ range n, D j i * centred q (d.2.getD i 0) : ℤ) : ℝ))
    (fun _ => n * (b ^ 2 * v * t ^ 2 / 2)) (fun j _ => ?_)
  · refine le_trans (le_of_eq ?_) (key.trans (eexp_mono ?_))
    · congr 1
      funext l
      unfold linearNoise
      rw [Int.cast_sum, mul_sum]
    · rw [sum_const, card_range, nsmul_eq_mul]
      exact le_of_eq (by ring)
  · unfold sampleLaw
    rw [mean_pair]
    refine le_trans (le_of_eq (mean_const u (mean (draws χ n) fun b =>
      eexp (t * ((∑ i ∈ range n, D j i * centred q (b.getD i 0) : ℤ) : ℝ))))) ?_
    have := mean_eexp_draws χ 0 n (fun i x => t * ((D j i : ℝ) * centred q x))
      (fun _ => b ^ 2 * v * t ^ 2 / 2) (fun i _ => h.scaled hv (D j i) (hD j i) t)
    refine le_trans (le_of_eq ?_) (this.trans (eexp_mono ?_))
    · congr 1
      funext l
      rw [Int.cast_sum, mul_sum]
      congr 1
      refine sum_congr rfl fun i _ => ?_
      push_cast; ring
    · rw [sum_const, card_range, nsmul_eq_mul]

theorem sampleLaw_ok (h : SubGaussian q χ v) (hu : ∀ a ∈ u.support, Reduced q n a) {len : Nat}
    {l : List Draw} (hl : l ∈ (draws (sampleLaw u χ n) len).support) :
    DrawsOk q n l ∧ l.length = len := by
  obtain ⟨h1, h2⟩ := mem_support_draws hl
  refine ⟨fun d hd => ?_, h1⟩
  obtain ⟨h3, h4⟩ := mem_support_pair (h2 d hd)
  obtain ⟨h5, h6⟩ := mem_support_draws h4
  exact ⟨hu _ h3, h5, fun x hx => h.lt x (h6 x hx)⟩

end

section
variable {q : Nat} [Fact q.Prime]

/-- One step with a random key element: it multiplies by `X^(a z)` up to an error whose constant coefficient,
after any further rotation, is sub-Gaussian with parameter `C`. -/
def StepNoise {K α : Type} (q n : Nat) (s : Rq (ZMod q) n) (p : PMF α) (C : ℝ) (hn : 0 < n)
    (gen : α → Option K) (step : BlindRotation.State → K → Nat → Option BlindRotation.State)
    (z : ℤ) : Prop :=
  ∀ (a : Nat) (φ : Rq (ZMod q) n) (st : BlindRotation.State) (ρ : ℤ), a < 2 * n →
    BlindRotation.Inv q n s φ st →
    ∃ δ : α → ℤ, (∀ t : ℝ, (mean p fun d => eexp (t * δ d)) ≤ eexp (C * t ^ 2 / 2)) ∧
      ∀ d ∈ p.support, ∃ g st', gen d = some g ∧ step st g a = some st' ∧
        ∃ Δ : Rq (ZMod q) n, BlindRotation.Inv q n s (Rq.monoZ (a * z) * φ + Δ) st' ∧
          (Rq.monoZ ρ * Δ).co ⟨0, hn⟩ = ((δ d : ℤ) : ZMod q)

/-- The whole loop with independent key elements. -/
theorem loop_noise {K α : Type} (n : Nat) [NeZero n] [Nontrivial (ZMod q)] (hn : 0 < n)
    (s : Rq (ZMod q) n) (p : PMF α) (C : ℝ) (digit : Nat → ℤ) (gen : Nat → α → Option K)
    (generate : List Nat → List α → Option (List K)) (h0 : ∀ l, generate [] l = some [])
    (h1 : ∀ x xs d ds, generate (x :: xs) (d :: ds) =
      (gen x d).bind fun g => (generate xs ds).bind fun gs => some (g :: gs))
    (step : BlindRotation.State → K → Nat → Option BlindRotation.State)
    (hstep : ∀ x, StepNoise q n s p C hn (gen x) step (digit x)) :
    ∀ (xs a : List Nat), a.length = xs.length → (∀ x ∈ a, x < 2 * n) →
    ∀ (φ : Rq (ZMod q) n) (st : BlindRotation.State), BlindRotation.Inv q n s φ st →
    ∃ noise : List α → ℤ,
      (∀ t : ℝ, (mean (draws p xs.length) fun l => eexp (t * noise l)) ≤
        eexp (xs.length * C * t ^ 2 / 2)) ∧
      ∀ l ∈ (draws p xs.length).support, ∃ key st', generate xs l = some key ∧
        key.length = xs.length ∧ BlindRotation.loop step key a st = some st' ∧
        ∃ Δ : Rq (ZMod q) n, BlindRotation.Inv q n s
          (Rq.monoZ (List.zipWith (fun (x : Nat) z => (x : ℤ) * z) a (xs.map digit)).sum * φ + Δ) st' ∧
          Δ.co ⟨0, hn⟩ = ((noise l : ℤ) : ZMod q) := by
  intro xs
  induction xs with
  | nil =>
    intro a ha _ φ st hst
    obtain rfl : a = [] := List.length_eq_zero_iff.1 (by simpa using ha)
    refine ⟨fun _ => 0, fun t => ?_, fun l _ => ⟨[], st, h0 l, rfl, rfl, 0, ?_, ?_⟩⟩
    · simp [mean_const, eexp_zero]
    · simpa [Rq.monoZ_zero] using hst
    · simp [Rq.zero_co]
  | cons x xs ih =>
    intro a ha hlt φ st hst
    cases a with
    | nil => simp at ha
    | cons a as =>
      set S := (List.zipWith (fun (x : Nat) z => (x : ℤ) * z) as (xs.map digit)).sum with hS
      obtain ⟨δ, hδ, hd⟩ := hstep x a φ st S (hlt a (by simp)) hst
      have has : as.length = xs.length := by simpa using ha
      have hlt' : ∀ x ∈ as, x < 2 * n := fun x hx => hlt x (List.mem_cons_of_mem _ hx)
      -- for each first draw, the noise of the remaining ones
      have hrest : ∀ d : α, ∃ noise : List α → ℤ,
          (∀ t : ℝ, (mean (draws p xs.length) fun l => eexp (t * noise l)) ≤
            eexp (xs.length * C * t ^ 2 / 2)) ∧
          (d ∈ p.support → ∀ l ∈ (draws p xs.length).support, ∃ key st',
            generate (x :: xs) (d :: l) = some key ∧ key.length = xs.length + 1 ∧
            BlindRotation.loop step key (a :: as) st = some st' ∧
            ∃ Δ : Rq (ZMod q) n, BlindRotation.Inv q n s
              (Rq.monoZ (a * digit x + S) * φ + Δ) st' ∧
              Δ.co ⟨0, hn⟩ = ((δ d + noise l : ℤ) : ZMod q)) := by
        intro d
        by_cases hdp : d ∈ p.support
        · obtain ⟨g, st1, eg, e1, Δ1, hst1, hc1⟩ := hd d hdp
          obtain ⟨noise, hm, hl⟩ := ih as has hlt' _ st1 hst1
          refine ⟨noise, hm, fun _ l hls => ?_⟩
          obtain ⟨key, st2, ek, hkl, e2, Δ2, hst2, hc2⟩ := hl l hls
          refine ⟨g :: key, st2, ?_, by simp [hkl], ?_, Rq.monoZ S * Δ1 + Δ2, ?_, ?_⟩
          · rw [h1, eg, ek]; rfl
          · rw [BlindRotation.loop, mbind e1, e2]
          · convert hst2 using 1
            rw [add_comm, Rq.monoZ_add]
            ring
          · rw [Rq.add_co, hc1, hc2]; push_cast; ring
        · obtain ⟨noise, hm, -⟩ := ih as has hlt' φ st hst
          exact ⟨noise, hm, fun h => absurd h hdp⟩
      choose rest hm hr using hrest
      refine ⟨fun l => match l with | [] => 0 | d :: l => δ d + rest d l, fun t => ?_, fun l hl => ?_⟩
      · rw [List.length_cons, mean_draws_succ]
        calc (mean p fun d => mean (draws p xs.length) fun l => eexp (t * ((δ d + rest d l : ℤ) : ℝ)))
            ≤ mean p fun d => eexp (t * δ d) * eexp (xs.length * C * t ^ 2 / 2) := by
              refine mean_mono fun d _ => ?_
              refine le_trans (le_of_eq ?_) (mul_le_mul' le_rfl (hm d t))
              rw [← mean_mul_left]
              congr 1
              funext l
              rw [← eexp_add]
              congr 1
              push_cast; ring
          _ ≤ eexp (C * t ^ 2 / 2) * eexp (xs.length * C * t ^ 2 / 2) := by
              rw [mean_mul_right]
              exact mul_le_mul' (hδ t) le_rfl
          _ = _ := by
              rw [← eexp_add]
              congr 1
              push_cast; ring
      · obtain ⟨hlen, hmem⟩ := mem_support_draws hl
        cases l with
        | nil => simp at hlen
        | cons d l =>
          rw [List.length_cons, draws] at hl
          simp only [PMF.mem_support_bind_iff, PMF.mem_support_pure_iff] at hl
          obtain ⟨d', hd', l', hl', e⟩ := hl
          obtain ⟨rfl, rfl⟩ := List.cons.inj e
          obtain ⟨key, st', h2, h3, h4, Δ, h5, h6⟩ := hr d hd' l hl'
          refine ⟨key, st', h2, h3, h4, Δ, ?_, h6⟩
          rwa [List.map_cons, List.zipWith_cons_cons, List.sum_cons]

end
end Verif
