import Verif.Lemmas.Prime
import Mathlib.Tactic.NormNum.Prime

/-!
# C15, C16: primality test
-/

namespace Verif.Props
open Prime Barrett Spec

/-- The result of the test above the table, in terms of rounds on residues. -/
theorem probablyPrime_rounds {w n : Nat} {M : Barrett} (hM : Barrett.new w n = some M)
    (hev : w % 2 = 0) {rounds : Nat} {draw : Nat → Nat}
    (hdraw : ∀ i, 3 ≤ draw i ∧ draw i ≤ n - 1) (h64 : 64 ≤ n) (hodd : n % 2 ≠ 0)
    (htd : trialDivisors.any (fun d => n % d == 0) = false) :
    ∃ r q, 1 ≤ r ∧ q % 2 = 1 ∧ n - 1 = 2 ^ r * q ∧
      probablyPrime w M rounds draw = some (pureRounds n r q draw rounds 0) := by
  obtain ⟨v, hval⟩ := new_valid hev hM
  have h4 := v.lt_word
  obtain ⟨h1, h2, h3⟩ := trailingZeros_spec (w := w) (x := n - 1) (by omega) (by omega)
  refine ⟨trailingZeros w (n - 1), (n - 1) / 2 ^ trailingZeros w (n - 1), ?_, h3, h2, ?_⟩
  · by_contra h
    have h0 : trailingZeros w (n - 1) = 0 := by omega
    rw [h0] at h3
    simp at h3; omega
  · subst hval
    unfold probablyPrime
    simp only [htd]
    rw [if_neg (by omega), if_neg (by omega), if_neg hodd, if_neg (by simp)]
    rw [subC, if_pos (by omega)]
    simp only [Option.bind_eq_bind, Option.bind_some]
    rw [shrC, if_pos h1]
    simp only [Option.bind_some]
    exact roundLoop_eq v hdraw (Nat.lt_of_le_of_lt (Nat.div_le_self _ _) (by omega)) h64 _ _

theorem pureRounds_prime {n r q : Nat} (hp : Nat.Prime n) (hn : 64 ≤ n) (hr : 1 ≤ r)
    (hq : q % 2 = 1) (hd : n - 1 = 2 ^ r * q) {draw : Nat → Nat}
    (hdraw : ∀ i, 3 ≤ draw i ∧ draw i ≤ n - 1) :
    ∀ k i, pureRounds n r q draw k i = true
  | 0, _ => rfl
  | k + 1, i => by
    have hw : witness draw i < n ∧ 0 < witness draw i := by
      unfold witness; have := hdraw i; split <;> omega
    have h := (pureRound_iff (by omega) hq hr hd).2
      (strongLiar_of_prime hp (by omega) (a := witness draw i)
        (by rw [Nat.mod_eq_of_lt hw.1]; omega))
    unfold pureRounds
    generalize pureRound n r q (witness draw i) = z at h
    cases z
    · exact pureRounds_prime hp hn hr hq hd hdraw k (i + 1)
    · rfl
    · exact absurd rfl h

theorem trial_prime {n : Nat} (hp : Nat.Prime n) (hn : 64 ≤ n) :
    trialDivisors.any (fun d => n % d == 0) = false := by
  rw [List.any_eq_false]
  intro d hd h
  have hdv : d ∣ n := Nat.dvd_of_mod_eq_zero (by simpa using h)
  have hb : ∀ d ∈ trialDivisors, 2 ≤ d ∧ d < 64 := by decide
  rcases (Nat.dvd_prime hp).1 hdv with h1 | h1
  · have := (hb d hd).1; omega
  · have := (hb d hd).2; omega

/-- C15: a prime modulus is never reported composite, for every number of rounds and whatever
values in `[3, n - 1]` the generator delivers. -/
theorem C15_prime_accepted {w n : Nat} {M : Barrett} (hM : Barrett.new w n = some M)
    (hev : w % 2 = 0) (hp : Nat.Prime n) (rounds : Nat) (draw : Nat → Nat)
    (hdraw : ∀ i, 3 ≤ draw i ∧ draw i ≤ n - 1) :
    probablyPrime w M rounds draw = some true := by
  have hval : M.value = n := (new_valid hev hM).2
  have hp2 := hp.two_le
  rcases Nat.lt_or_ge n 64 with h | h
  · subst hval
    unfold probablyPrime
    simp only
    rw [if_neg (by omega), if_pos h]
    simp [(mask_prime _ h).2 hp]
  · have hodd : n % 2 ≠ 0 := by
      intro h0
      rcases (Nat.dvd_prime hp).1 (Nat.dvd_of_mod_eq_zero h0) with h1 | h1 <;> omega
    obtain ⟨r, q, hr, hq, hd, e⟩ := probablyPrime_rounds (rounds := rounds) hM hev hdraw h hodd
      (trial_prime hp h)
    rw [e, pureRounds_prime hp h hr hq hd hdraw]

/-- Below 64 the answer is exact. -/
theorem C15_exact_below_64 {w n : Nat} {M : Barrett} (hM : Barrett.new w n = some M)
    (hev : w % 2 = 0) (hn : n < 64) (rounds : Nat) (draw : Nat → Nat) :
    probablyPrime w M rounds draw = some (decide (Nat.Prime n)) := by
  have hval : M.value = n := (new_valid hev hM).2
  subst hval
  unfold probablyPrime
  simp only
  by_cases h : M.value = 0
  · rw [if_pos h, h]; simp [Nat.not_prime_zero]
  · rw [if_neg h, if_pos hn]
    congr 1
    exact decide_eq_decide.2 (mask_prime _ hn)

/-- Every answer is a boolean: the test never panics on a constructed modulus. -/
theorem C15_total {w n : Nat} {M : Barrett} (hM : Barrett.new w n = some M) (hev : w % 2 = 0)
    (rounds : Nat) (draw : Nat → Nat) (hdraw : ∀ i, 3 ≤ draw i ∧ draw i ≤ n - 1) :
    ∃ b, probablyPrime w M rounds draw = some b := by
  rcases Nat.lt_or_ge n 64 with h | h
  · exact ⟨_, C15_exact_below_64 hM hev h rounds draw⟩
  · by_cases hodd : n % 2 = 0
    · refine ⟨false, ?_⟩
      have hval : M.value = n := (new_valid hev hM).2
      subst hval
      unfold probablyPrime
      simp only
      rw [if_neg (by omega), if_neg (by omega), if_pos hodd]
    · cases htd : trialDivisors.any (fun d => n % d == 0)
      · obtain ⟨r, q, _, _, _, e⟩ := probablyPrime_rounds (rounds := rounds) hM hev hdraw h hodd htd
        exact ⟨_, e⟩
      · refine ⟨false, ?_⟩
        have hval : M.value = n := (new_valid hev hM).2
        subst hval
        unfold probablyPrime
        simp only [htd]
        rw [if_neg (by omega), if_neg (by omega), if_neg hodd]
        simp

/-- C16 (full statement, as a predicate on the model): a composite odd modulus above the table
that is reported prime makes every round's witness a strong liar. -/
def CompositeNeedsLiars (w n : Nat) (M : Barrett) (rounds : Nat) (draw : Nat → Nat) : Prop :=
  ¬ Nat.Prime n → probablyPrime w M rounds draw = some true →
    ∀ i, i < rounds → StrongLiar n (if i = 0 then 2 else draw i)

theorem pureRounds_first {n r q : Nat} (hn : 64 ≤ n) (hr : 1 ≤ r)
    (hq : q % 2 = 1) (hd : n - 1 = 2 ^ r * q) {draw : Nat → Nat} {k i : Nat}
    (h : pureRounds n r q draw (k + 1) i = true) : StrongLiar n (witness draw i) := by
  apply (pureRound_iff (by omega) hq hr hd).1
  intro hc
  unfold pureRounds at h
  rw [hc] at h
  exact absurd h (by simp)

/-- With `r = 1` the early exit cannot happen and every witness must lie. -/
theorem pureRounds_all {n q : Nat} (hn : 64 ≤ n) (hq : q % 2 = 1) (hd : n - 1 = 2 ^ 1 * q)
    {draw : Nat → Nat} : ∀ (k i : Nat), pureRounds n 1 q draw k i = true →
      ∀ j, j < k → StrongLiar n (witness draw (i + j))
  | 0, _, _, j, hj => by omega
  | k + 1, i, h, j, hj => by
    rcases j with _ | j
    · exact pureRounds_first hn (le_refl _) hq hd h
    · have hnext : pureRounds n 1 q draw k (i + 1) = true := by
        unfold pureRounds at h
        unfold pureRound at h
        split at h
        · next heq => exact h
        · next heq =>
          split at heq
          · exact absurd heq (by simp)
          · simp [pureLoop] at heq
        · exact absurd h (by simp)
      have := pureRounds_all hn hq hd k (i + 1) hnext j (by omega)
      rwa [show i + (j + 1) = i + 1 + j by omega]

/-- The prelude of the test: an accepted modulus from 64 on is odd and survives trial division. -/
theorem accepted_prelude {w n : Nat} {M : Barrett} (hM : Barrett.new w n = some M)
    (hev : w % 2 = 0) {rounds : Nat} {draw : Nat → Nat} (h64 : 64 ≤ n)
    (h : probablyPrime w M rounds draw = some true) :
    n % 2 ≠ 0 ∧ trialDivisors.any (fun d => n % d == 0) = false := by
  have hval : M.value = n := (new_valid hev hM).2
  subst hval
  unfold probablyPrime at h
  simp only at h
  rw [if_neg (by omega), if_neg (by omega)] at h
  split at h
  · exact absurd h (by simp)
  · next ho =>
    refine ⟨ho, ?_⟩
    split at h
    · exact absurd h (by simp)
    · next ht => simpa using ht

/-- C16, what holds: a composite that is reported prime after at least one round has 2 as a strong
liar, has no prime factor up to 53, and is at least `64`. Missing: the same for the later
witnesses, which fails because a round ending at `n - 1` leaves the whole loop
(`C16_violation`). -/
theorem C16_composite_partial {w n : Nat} {M : Barrett} (hM : Barrett.new w n = some M)
    (hev : w % 2 = 0) (hn : ¬ Nat.Prime n) (rounds : Nat) (hr : 1 ≤ rounds) (draw : Nat → Nat)
    (hdraw : ∀ i, 3 ≤ draw i ∧ draw i ≤ n - 1)
    (h : probablyPrime w M rounds draw = some true) :
    64 ≤ n ∧ StrongLiar n 2 ∧ ∀ p, Nat.Prime p → p ≤ 53 → ¬ p ∣ n := by
  have h64 : 64 ≤ n := by
    by_contra hlt
    rw [C15_exact_below_64 hM hev (by omega)] at h
    simp [hn] at h
  obtain ⟨ho, ht⟩ := accepted_prelude hM hev h64 h
  obtain ⟨r, q, hr1, hq, hd, e⟩ := probablyPrime_rounds (rounds := rounds) hM hev hdraw h64 ho ht
  rw [h] at e
  obtain ⟨k, rfl⟩ : ∃ k, rounds = k + 1 := ⟨rounds - 1, by omega⟩
  refine ⟨h64, ?_, ?_⟩
  · have := pureRounds_first h64 hr1 hq hd (Option.some.inj e).symm
    simpa [witness] using this
  · intro p hp hle hdv
    have hmem : ∀ p, p ≤ 53 → (p = 2 ∨ p ∈ trialDivisors ∨ ¬ (Nat.minFac p = p ∧ 2 ≤ p)) := by
      decide +kernel
    rcases hmem p hle with h1 | h1 | h1
    · subst h1; exact ho (Nat.mod_eq_zero_of_dvd hdv)
    · rw [List.any_eq_false] at ht
      exact ht p h1 (by simpa using Nat.mod_eq_zero_of_dvd hdv)
    · exact h1 ⟨hp.minFac_eq, hp.two_le⟩

/-- C16 in full when `n = 3 mod 4`. -/
theorem C16_composite_3mod4_partial {w n : Nat} {M : Barrett} (hM : Barrett.new w n = some M)
    (hev : w % 2 = 0) (h3 : n % 4 = 3) (rounds : Nat) (draw : Nat → Nat)
    (hdraw : ∀ i, 3 ≤ draw i ∧ draw i ≤ n - 1) : CompositeNeedsLiars w n M rounds draw := by
  intro hn h i hi
  have h64 := (C16_composite_partial hM hev hn rounds (by omega) draw hdraw h).1
  obtain ⟨ho, ht⟩ := accepted_prelude hM hev h64 h
  obtain ⟨r, q, hr1, hq, hd, e⟩ := probablyPrime_rounds (rounds := rounds) hM hev hdraw h64 ho ht
  have hr : r = 1 := by
    obtain ⟨t, rfl⟩ : ∃ t, r = t + 1 := ⟨r - 1, by omega⟩
    rcases t with _ | t
    · rfl
    · exfalso
      have : n - 1 = 4 * (2 ^ t * q) := by rw [hd]; ring
      omega
  subst hr
  rw [h] at e
  have := pureRounds_all h64 hq hd rounds 0 (Option.some.inj e).symm i hi
  unfold witness at this
  rcases i with _ | i
  · simpa using this
  · simpa using this

/-- C16 in full for a single round. -/
theorem C16_composite_one_round_partial {w n : Nat} {M : Barrett}
    (hM : Barrett.new w n = some M) (hev : w % 2 = 0) (draw : Nat → Nat)
    (hdraw : ∀ i, 3 ≤ draw i ∧ draw i ≤ n - 1) : CompositeNeedsLiars w n M 1 draw := by
  intro hn h i hi
  obtain rfl : i = 0 := by omega
  exact (C16_composite_partial hM hev hn 1 (le_refl _) draw hdraw h).2.1

/-- C16 is false of the code: `49141 = 157 * 313` is reported prime by every number of rounds and
every random generator, although 3 (a legal draw) is not a strong liar. A round that reaches `n - 1`
by squaring leaves the round loop instead of going to the next round. -/
theorem C16_violation {w : Nat} {M : Barrett} (hM : Barrett.new w 49141 = some M)
    (hev : w % 2 = 0) (rounds : Nat) (draw : Nat → Nat)
    (hdraw : ∀ i, 3 ≤ draw i ∧ draw i ≤ 49141 - 1) :
    ¬ Nat.Prime 49141 ∧ ¬ StrongLiar 49141 3 ∧ probablyPrime w M rounds draw = some true := by
  have hdec : ∀ {r q : Nat}, q % 2 = 1 → 49141 - 1 = 2 ^ r * q → r = 2 ∧ q = 12285 := by
    intro r q hq hd
    exact two_pow_odd_unique (hd.symm.trans (by norm_num : 49141 - 1 = 2 ^ 2 * 12285)) hq
      (by norm_num)
  refine ⟨by norm_num, ?_, ?_⟩
  · rintro ⟨r, q, hq, hd, h⟩
    obtain ⟨rfl, rfl⟩ := hdec hq hd
    revert h
    decide +kernel
  · obtain ⟨r, q, _, hq, hd, e⟩ := probablyPrime_rounds (rounds := rounds) hM hev hdraw
      (by norm_num) (by norm_num) (by decide)
    obtain ⟨rfl, rfl⟩ := hdec hq hd
    rw [e]
    rcases rounds with _ | k
    · rfl
    · have h : pureRound 49141 2 12285 2 = .leave := by decide +kernel
      simp only [pureRounds, witness, ne_eq, not_true_eq_false, ↓reduceIte, h]

/-- So the full statement fails on `u64` for two rounds when the generator draws 3. -/
theorem C16_negation : ∃ M, Barrett.new 64 49141 = some M ∧
    ¬ CompositeNeedsLiars 64 49141 M 2 (fun _ => 3) := by
  have hs : (Barrett.new 64 49141).isSome := by decide +kernel
  obtain ⟨M, hM⟩ := Option.isSome_iff_exists.1 hs
  obtain ⟨h1, h2, h3⟩ := C16_violation hM (by norm_num) 2 (fun _ => 3) (by intro _; norm_num)
  exact ⟨M, hM, fun h => h2 (h h1 h3 1 (by norm_num))⟩

/-! Non-vacuity: concrete moduli meeting the hypotheses. -/

example : ∃ M, Barrett.new 16 101 = some M ∧ Nat.Prime 101 ∧
    probablyPrime 16 M 3 (fun i => i + 5) = some true :=
  ⟨⟨101, 2 ^ 16 * 2 ^ 16 / 101 % 2 ^ 16, 2 ^ 16 * 2 ^ 16 / 101 / 2 ^ 16⟩, by decide +kernel,
    by norm_num, by decide +kernel⟩
-- a composite that base 2 exposes, and one that base 2 accepts but 3 exposes (`3 mod 4`)
example : ∃ M, Barrett.new 16 3481 = some M ∧
    probablyPrime 16 M 3 (fun i => i + 5) = some false :=
  ⟨⟨3481, 2 ^ 16 * 2 ^ 16 / 3481 % 2 ^ 16, 2 ^ 16 * 2 ^ 16 / 3481 / 2 ^ 16⟩, by decide +kernel,
    by decide +kernel⟩
example : ∃ M, Barrett.new 32 42799 = some M ∧ 42799 % 4 = 3 ∧
    probablyPrime 32 M 1 (fun _ => 3) = some true ∧
    probablyPrime 32 M 2 (fun _ => 3) = some false :=
  ⟨⟨42799, 2 ^ 32 * 2 ^ 32 / 42799 % 2 ^ 32, 2 ^ 32 * 2 ^ 32 / 42799 / 2 ^ 32⟩, by decide +kernel,
    by norm_num, by decide +kernel, by decide +kernel⟩

end Verif.Props
