import Verif.Props.Prime
import Verif.Lemmas.StrongLiars
import Verif.Lemmas.Random
import Verif.SpecPrime

/-!
# C69: error probability of the primality test
-/

namespace Verif.Props
open Verif.Prime Barrett Spec
open scoped ENNReal

theorem mem_support_witnessLaw {n a : Nat} (hn : 4 ≤ n) (h : a ∈ (witnessLaw n).support) : 3 ≤ a ∧ a ≤ n - 1 := by
  have hne : (Finset.Icc 3 (n - 1)).Nonempty := ⟨3, by simp; omega⟩
  rw [witnessLaw, dif_pos hne, PMF.mem_support_uniformOfFinset_iff, Finset.mem_Icc] at h
  exact h

/-- The strong liars. -/
def liars (n : Nat) : Set Nat := {a | StrongLiar n a}

/-- The lists whose first `k` elements are strong liars. -/
def firstLiars (n k : Nat) : Set (List Nat) := {l | ∀ i, i < k → StrongLiar n (l.getD i 3)}

/-- A uniform witness is a strong liar with probability at most a quarter. -/
theorem liar_prob {n : Nat} (hn : 5 ≤ n) (hnp : ¬ n.Prime) (h5 : ∀ p, p.Prime → p ∣ n → 5 ≤ p) :
    (witnessLaw n).toOuterMeasure (liars n) ≤ 1 / 4 := by
  classical
  have hne : (Finset.Icc 3 (n - 1)).Nonempty := ⟨3, by simp; omega⟩
  rw [witnessLaw, dif_pos hne, PMF.toOuterMeasure_uniformOfFinset_apply]
  set s := (Finset.Icc 3 (n - 1)).filter (· ∈ liars n) with hs
  have h1 : StrongLiar n 1 := by
    by_cases h0 : n - 1 = 0
    · omega
    · obtain ⟨r, q, hq, hd⟩ := Nat.exists_eq_two_pow_mul_odd h0
      exact ⟨r, q, Nat.odd_iff.1 hq, hd, Or.inl (by rw [one_pow, Nat.mod_eq_of_lt (by omega)])⟩
  have hc := Liars.liars_card (n := n) (by omega) hnp h5 (insert 1 s) (by
    intro a ha
    rcases Finset.mem_insert.1 ha with rfl | ha
    · exact ⟨by omega, h1⟩
    · rw [hs, Finset.mem_filter, Finset.mem_Icc] at ha
      exact ⟨by omega, ha.2⟩)
  rw [Finset.card_insert_of_notMem (by simp [hs])] at hc
  have ht := Nat.totient_lt n (by omega)
  have hcard : (Finset.Icc 3 (n - 1)).card = n - 3 := by rw [Nat.card_Icc]; omega
  have hle : 4 * s.card ≤ n - 3 := by omega
  rw [hcard]
  have hpos : ((n - 3 : Nat) : ℝ≥0∞) ≠ 0 := by
    rw [Ne, Nat.cast_eq_zero]; omega
  rw [ENNReal.div_le_iff hpos (ENNReal.natCast_ne_top _), one_div, ← ENNReal.div_eq_inv_mul,
    ENNReal.le_div_iff_mul_le (by simp) (by simp), mul_comm]
  exact_mod_cast hle

/-- A composite that is reported prime has no factor below 5. -/
theorem accepted_factors {w n : Nat} {M : Barrett} (hM : Barrett.new w n = some M) (hev : w % 2 = 0)
    (h64 : 64 ≤ n) {rounds : Nat} {draw : Nat → Nat} (h : probablyPrime w M rounds draw = some true) :
    ∀ p, p.Prime → p ∣ n → 5 ≤ p := by
  obtain ⟨ho, ht⟩ := accepted_prelude hM hev h64 h
  intro p hp hdv
  have h2 : p ≠ 2 := by
    rintro rfl
    exact ho (Nat.mod_eq_zero_of_dvd hdv)
  have h3 : p ≠ 3 := by
    rintro rfl
    rw [List.any_eq_false] at ht
    exact ht 3 (by decide) (by simpa using Nat.mod_eq_zero_of_dvd hdv)
  have h4 : p ≠ 4 := by rintro rfl; exact absurd hp (by decide)
  have := hp.two_le
  omega

/-- The witnesses of a drawn list are in range. -/
theorem witness_range {n k : Nat} (hn : 4 ≤ n) {l : List Nat} (hl : l ∈ (draws (witnessLaw n) k).support) (i : Nat) :
    3 ≤ l.getD (i - 1) 3 ∧ l.getD (i - 1) 3 ≤ n - 1 := by
  have hl := (mem_support_draws hl).2
  rw [List.getD_eq_getElem?_getD]
  by_cases hi : i - 1 < l.length
  · rw [List.getElem?_eq_getElem hi]
    exact mem_support_witnessLaw hn (hl _ (List.getElem_mem hi))
  · rw [List.getElem?_eq_none (by omega)]
    simp; omega

/-- An upper bound for the acceptance probability of a composite: all of a set of drawn witnesses have to lie. -/
theorem acceptProb_le {w n : Nat} {M : Barrett} (hM : Barrett.new w n = some M) (hev : w % 2 = 0)
    (hnp : ¬ n.Prime) {rounds k : Nat} (hr : 1 ≤ rounds) (hk : k ≤ rounds - 1)
    (hsound : ∀ draw : Nat → Nat, (∀ i, 3 ≤ draw i ∧ draw i ≤ n - 1) →
      probablyPrime w M rounds draw = some true → ∀ i, 1 ≤ i → i ≤ k → StrongLiar n (draw i)) :
    acceptProb w n M rounds ≤ (1 / 4) ^ k := by
  classical
  unfold acceptProb
  rcases Nat.lt_or_ge n 64 with h64 | h64
  · have : {l : List Nat | probablyPrime w M rounds (fun i => l.getD (i - 1) 3) = some true} = ∅ := by
      ext l
      simp [C15_exact_below_64 hM hev h64 rounds, hnp]
    rw [this]
    simp
  by_cases hex : ∃ draw, probablyPrime w M rounds draw = some true
  swap
  · have : {l : List Nat | probablyPrime w M rounds (fun i => l.getD (i - 1) 3) = some true} = ∅ := by
      ext l
      simp only [Set.mem_ofPred_eq, Set.mem_empty_iff_false, iff_false]
      exact fun h => hex ⟨_, h⟩
    rw [this]
    simp
  obtain ⟨d0, hd0⟩ := hex
  have hp := liar_prob (by omega) hnp (accepted_factors hM hev h64 hd0)
  have key : ∀ (j k : Nat), (draws (witnessLaw n) (k + j)).toOuterMeasure
      (firstLiars n k) ≤ (1 / 4) ^ k := by
    intro j k
    induction k with
    | zero =>
      rw [prob_eq]
      refine le_trans (mean_mono (g := fun _ => 1) fun l _ => by split <;> simp) ?_
      unfold mean
      simp [PMF.tsum_coe]
    | succ k ih =>
      rw [prob_eq] at ih hp ⊢
      rw [Nat.add_right_comm, mean_draws_succ]
      refine le_trans (mean_mono (g := fun x => (if x ∈ liars n then 1 else 0) *
        mean (draws (witnessLaw n) (k + j)) fun l =>
          if l ∈ firstLiars n k then 1 else 0) fun x _ => le_of_eq ?_) ?_
      · rw [← mean_mul_left]
        refine mean_congr fun l _ => ?_
        have hiff : (x :: l) ∈ firstLiars n (k + 1) ↔
            x ∈ liars n ∧ l ∈ firstLiars n k := by
          constructor
          · intro h
            exact ⟨h 0 (by omega), fun i hi => h (i + 1) (by omega)⟩
          · rintro ⟨h1, h2⟩ i hi
            rcases i with _ | i
            · exact h1
            · exact h2 i (by omega)
        by_cases hx : x ∈ liars n
        · by_cases hl : l ∈ firstLiars n k
          · rw [if_pos (hiff.2 ⟨hx, hl⟩), if_pos hx, if_pos hl, one_mul]
          · rw [if_neg (fun h => hl (hiff.1 h).2), if_pos hx, if_neg hl, one_mul]
        · rw [if_neg (fun h => hx (hiff.1 h).1), if_neg hx, zero_mul]
      rw [mean_mul_right, pow_succ']
      exact mul_le_mul' hp ih
  have hk2 : k + (rounds - 1 - k) = rounds - 1 := by omega
  have key := key (rounds - 1 - k) k
  rw [hk2] at key
  refine le_trans ?_ key
  rw [prob_eq, prob_eq]
  refine mean_mono fun l hl => ?_
  by_cases h : probablyPrime w M rounds (fun i => l.getD (i - 1) 3) = some true
  · have hs := hsound _ (witness_range (by omega) hl) h
    have hm : l ∈ firstLiars n k := by
      intro i hi
      exact hs (i + 1) (by omega) (by omega)
    rw [if_pos hm]
    split <;> simp
  · rw [if_neg (show l ∉ _ from h)]
    exact zero_le

/-- C69, what holds: for composites `n = 3 mod 4` the error probability is at most `(1/4)^(rounds - 1)`.
Missing from the documented bound: one factor `1/4`, because the first witness is always 2
(`C69_first_round`), and the composites `n = 1 mod 4` (`C69_violation`). -/
theorem C69_error_partial {w n : Nat} {M : Barrett} (hM : Barrett.new w n = some M) (hev : w % 2 = 0)
    (hnp : ¬ n.Prime) (h3 : n % 4 = 3) {rounds : Nat} (hr : 1 ≤ rounds) :
    acceptProb w n M rounds ≤ (1 / 4) ^ (rounds - 1) := by
  refine acceptProb_le hM hev hnp hr (le_refl _) ?_
  intro draw hdraw h i h1 h2
  have := C16_composite_3mod4_partial hM hev h3 rounds draw hdraw hnp h i (by omega)
  rwa [if_neg (by omega)] at this

/-- The check of a derived field: a prime modulus is always confirmed, a composite one that is `3` modulo 4 with
probability at most `(1/4)^19`. -/
theorem C69_is_prime_field_partial {w n : Nat} {M : Barrett} (hM : Barrett.new w n = some M) (hev : w % 2 = 0) :
    (n.Prime → ∀ draw : Nat → Nat, (∀ i, 3 ≤ draw i ∧ draw i ≤ n - 1) → isPrimeField w M draw = some true) ∧
    (¬ n.Prime → n % 4 = 3 → (draws (witnessLaw n) 19).toOuterMeasure
      {l | isPrimeField w M (fun i => l.getD (i - 1) 3) = some true} ≤ (1 / 4) ^ 19) :=
  ⟨fun hp draw hdraw => C15_prime_accepted hM hev hp 20 draw hdraw,
    fun hnp h3 => C69_error_partial hM hev hnp h3 (rounds := 20) (by norm_num)⟩

/-- For the other composites the error probability is at most a quarter with two rounds or more, provided that the
first round does not reach `-1` by squaring. -/
theorem C69_two_rounds_partial {w n r q : Nat} {M : Barrett} (hM : Barrett.new w n = some M) (hev : w % 2 = 0)
    (hnp : ¬ n.Prime) (hq : q % 2 = 1) (hd : n - 1 = 2 ^ r * q)
    (hsq : ∀ j, 0 < j → j < r → 2 ^ (2 ^ j * q) % n ≠ n - 1) {rounds : Nat} (hr : 2 ≤ rounds) :
    acceptProb w n M rounds ≤ 1 / 4 := by
  rw [← pow_one (1 / 4 : ℝ≥0∞)]
  refine acceptProb_le hM hev hnp (by omega) (by omega) ?_
  intro draw hdraw h i h1 h2
  obtain rfl : i = 1 := by omega
  have h64 := (C16_composite_partial hM hev hnp rounds (by omega) draw hdraw h).1
  obtain ⟨ho, ht⟩ := accepted_prelude hM hev h64 h
  obtain ⟨r', q', hr1, hq', hd', e⟩ := probablyPrime_rounds (rounds := rounds) hM hev hdraw h64 ho ht
  obtain ⟨rfl, rfl⟩ := two_pow_odd_unique (hd'.symm.trans hd) hq' hq
  rw [e] at h
  have h : pureRounds n r' q' draw rounds 0 = true := by simpa using h
  obtain ⟨k, rfl⟩ : ∃ k, rounds = k + 1 + 1 := ⟨rounds - 2, by omega⟩
  have hw : witness draw 0 = 2 := rfl
  unfold pureRounds at h
  cases hc : pureRound n r' q' (witness draw 0) with
  | next =>
    rw [hc] at h
    have := pureRounds_first h64 hr1 hq' hd' h
    simpa [witness] using this
  | leave =>
    exfalso
    rw [hw] at hc
    unfold pureRound at hc
    split at hc
    · cases hc
    · obtain ⟨j, j1, j2, j3⟩ := pureLoop_leave (by omega) _ _ hc
      refine hsq j (by omega) (by omega) ?_
      rw [← j3, ← Nat.pow_mod, ← pow_mul, mul_comm]
  | composite =>
    rw [hc] at h
    cases h

/-- The first witness does not depend on chance: `42799 = 127 * 337`, which is `3` modulo 4, is reported prime with
probability 1 by one round, so the documented bound `1/4` is false of the code there too. -/
theorem C69_first_round {w : Nat} {M : Barrett} (hM : Barrett.new w 42799 = some M) (hev : w % 2 = 0) :
    acceptProb w 42799 M 1 = 1 ∧ ¬ DocumentedBound w 42799 M 1 := by
  have h1 : acceptProb w 42799 M 1 = 1 := by
    unfold acceptProb
    rw [PMF.toOuterMeasure_apply_eq_one_iff]
    intro l hl
    obtain ⟨r, q, _, hq, hd, e⟩ := probablyPrime_rounds (rounds := 1) hM hev (witness_range (by norm_num) hl)
      (by norm_num) (by norm_num) (by decide)
    obtain ⟨rfl, rfl⟩ := two_pow_odd_unique (hd.symm.trans (by norm_num : 42799 - 1 = 2 ^ 1 * 21399)) hq (by norm_num)
    change probablyPrime w M 1 _ = some true
    rw [e]
    have h : pureRound 42799 1 21399 2 = .next := by decide +kernel
    simp only [pureRounds, witness, ne_eq, not_true_eq_false, ↓reduceIte, h]
  refine ⟨h1, fun h => ?_⟩
  have := h (by norm_num)
  rw [h1, pow_one] at this
  exact absurd this (not_le.2 (by norm_num))

/-- The documented bound is false of the code: the composite `49141 = 157 * 313` is reported prime with
probability 1, however many rounds are asked for. -/
theorem C69_violation {w : Nat} {M : Barrett} (hM : Barrett.new w 49141 = some M) (hev : w % 2 = 0) (rounds : Nat) :
    acceptProb w 49141 M rounds = 1 ∧ (1 ≤ rounds → ¬ DocumentedBound w 49141 M rounds) := by
  have h1 : acceptProb w 49141 M rounds = 1 := by
    unfold acceptProb
    rw [PMF.toOuterMeasure_apply_eq_one_iff]
    intro l hl
    exact (C16_violation hM hev rounds _ (witness_range (by norm_num) hl)).2.2
  refine ⟨h1, fun hr h => ?_⟩
  have := h (by norm_num)
  rw [h1] at this
  exact absurd this (not_le.2 (pow_lt_one₀ zero_le (by norm_num) (by omega)))

/-! Non-vacuity: composites that base 2 does not expose and that meet the hypotheses of the partial theorems. -/

example : ∃ M, Barrett.new 32 42799 = some M ∧ ¬ Nat.Prime 42799 ∧ 42799 % 4 = 3 ∧
    acceptProb 32 42799 M 20 ≤ (1 / 4) ^ 19 :=
  ⟨_, (by decide +kernel : Barrett.new 32 42799 =
      some ⟨42799, 2 ^ 32 * 2 ^ 32 / 42799 % 2 ^ 32, 2 ^ 32 * 2 ^ 32 / 42799 / 2 ^ 32⟩), by norm_num, by norm_num,
    C69_error_partial (by decide +kernel) (by norm_num) (by norm_num) (by norm_num) (by norm_num)⟩
-- 220729 = 103 * 2143 is 1 modulo 4 and passes the round of base 2 at once
example : ∃ M, Barrett.new 32 220729 = some M ∧ ¬ Nat.Prime 220729 ∧ 220729 % 4 = 1 ∧ StrongLiar 220729 2 ∧
    acceptProb 32 220729 M 2 ≤ 1 / 4 :=
  ⟨_, (by decide +kernel : Barrett.new 32 220729 =
      some ⟨220729, 2 ^ 32 * 2 ^ 32 / 220729 % 2 ^ 32, 2 ^ 32 * 2 ^ 32 / 220729 / 2 ^ 32⟩), by norm_num, by norm_num,
    ⟨3, 27591, by norm_num, by norm_num, by decide +kernel⟩,
    C69_two_rounds_partial (r := 3) (q := 27591) (by decide +kernel) (by norm_num) (by norm_num) (by norm_num)
      (by norm_num) (by
        intro j h1 h2
        have : j = 1 ∨ j = 2 := by omega
        rcases this with rfl | rfl <;> decide +kernel) (by norm_num)⟩

end Verif.Props
