import Verif.Props.Prime
import Verif.Props.BabyBear
import Verif.Props.Goldilocks
import Verif.Props.Sample
import Verif.Props.Basis
import Verif.Props.Native
import Verif.Props.RGSW
import Verif.Props.Concrete
import Verif.Props.Params

/-!
# C84: where the code departs from its documentation, exactly

Each theorem gives a condition on the inputs that is necessary and sufficient for the result to be the documented one.
-/

namespace Verif.Props

section prime
open Verif.Prime Barrett Spec

/-- The power `a^q` with which a round for `n = 2^r q + 1` begins is `1` or `-1`. -/
def EndsAtOnce (n q a : Nat) : Prop := a ^ q % n = 1 ∨ a ^ q % n = n - 1

theorem pureRounds_iff {n r q : Nat} (hn : 64 ≤ n) (hr : 1 ≤ r) (hq : q % 2 = 1) (hd : n - 1 = 2 ^ r * q)
    {draw : Nat → Nat} : ∀ (k i : Nat), pureRounds n r q draw k i = true ↔
      ∀ j, j < k → (∀ l, l < j → EndsAtOnce n q (witness draw (i + l))) → StrongLiar n (witness draw (i + j))
  | 0, _ => by simp [pureRounds]
  | k + 1, i => by
    have hc := pureRound_iff (a := witness draw i) (by omega : 2 < n) hq hr hd
    have hnext : pureRound n r q (witness draw i) = .next ↔ EndsAtOnce n q (witness draw i) := by
      unfold pureRound EndsAtOnce
      split
      · next h => exact ⟨fun _ => h, fun _ => rfl⟩
      · next h => exact ⟨fun e => absurd e (pureLoop_next _ _), fun e => absurd e h⟩
    have hs : ∀ j, i + (j + 1) = i + 1 + j := fun j => by omega
    unfold pureRounds
    cases hz : pureRound n r q (witness draw i) with
    | next =>
      rw [hz] at hc hnext
      have h0 := hc.1 (by simp)
      have h1 := hnext.1 rfl
      simp only
      rw [pureRounds_iff hn hr hq hd k (i + 1)]
      constructor
      · intro H j hj hl
        rcases j with _ | j
        · exact h0
        · rw [hs]
          refine H j (by omega) fun l hlj => ?_
          have := hl (l + 1) (by omega)
          rwa [hs] at this
      · intro H j hj hl
        have := H (j + 1) (by omega) fun l hlj => ?_
        · rwa [hs] at this
        · rcases l with _ | l
          · exact h1
          · rw [hs]; exact hl l (by omega)
    | leave =>
      rw [hz] at hc hnext
      have h0 := hc.1 (by simp)
      have h1 : ¬ EndsAtOnce n q (witness draw i) := fun h => absurd (hnext.2 h) (by simp)
      simp only [true_iff]
      intro j hj hl
      rcases j with _ | j
      · exact h0
      · exact absurd (hl 0 (by omega)) h1
    | composite =>
      rw [hz] at hc
      simp only [Bool.false_eq_true, false_iff]
      intro H
      exact hc.2 (H 0 (by omega) (by intro l hl; omega)) rfl

/-- C84: the answer of `probably_prime` for a modulus from 64 on, exactly. It is positive if and only if no prime up to 53
divides the modulus and every witness is a strong liar for it, up to and including the first one that needs a squaring:
later witnesses are not looked at. -/
theorem C84_probably_prime {w n : Nat} {M : Barrett} (hM : Barrett.new w n = some M) (hev : w % 2 = 0) (h64 : 64 ≤ n)
    (r q : Nat) (hq : q % 2 = 1) (hd : n - 1 = 2 ^ r * q) (rounds : Nat) (draw : Nat → Nat)
    (hdraw : ∀ i, 3 ≤ draw i ∧ draw i ≤ n - 1) :
    probablyPrime w M rounds draw = some true ↔
      (∀ p, Nat.Prime p → p ≤ 53 → ¬ p ∣ n) ∧
      ∀ i, i < rounds →
        (∀ j, j < i → EndsAtOnce n q (if j = 0 then 2 else draw j)) → StrongLiar n (if i = 0 then 2 else draw i) := by
  have hwit : ∀ i, witness draw (0 + i) = if i = 0 then 2 else draw i := by
    intro i; unfold witness; rw [Nat.zero_add]; split_ifs <;> simp_all
  have hmem : ∀ p, p ≤ 53 → (p = 2 ∨ p ∈ trialDivisors ∨ ¬ (Nat.minFac p = p ∧ 2 ≤ p)) := by decide +kernel
  have hpr : ∀ p ∈ trialDivisors, Nat.minFac p = p ∧ 2 ≤ p ∧ p ≤ 53 := by decide +kernel
  have hrounds : n % 2 ≠ 0 → trialDivisors.any (fun d => n % d == 0) = false →
      (probablyPrime w M rounds draw = some true ↔ ∀ i, i < rounds →
        (∀ j, j < i → EndsAtOnce n q (if j = 0 then 2 else draw j)) → StrongLiar n (if i = 0 then 2 else draw i)) := by
    intro ho ht
    obtain ⟨r', q', hr1, hq', hd', e⟩ := probablyPrime_rounds (rounds := rounds) hM hev hdraw h64 ho ht
    obtain ⟨rfl, rfl⟩ := two_pow_odd_unique (hd.symm.trans hd') hq hq'
    rw [e, Option.some.injEq, pureRounds_iff h64 hr1 hq hd]
    simp only [hwit]
  constructor
  · intro h
    obtain ⟨ho, ht⟩ := accepted_prelude hM hev h64 h
    refine ⟨fun p hp hle hdv => ?_, (hrounds ho ht).1 h⟩
    rcases hmem p hle with h1 | h1 | h1
    · subst h1; exact ho (Nat.mod_eq_zero_of_dvd hdv)
    · rw [List.any_eq_false] at ht
      exact ht p h1 (by simpa using Nat.mod_eq_zero_of_dvd hdv)
    · exact h1 ⟨hp.minFac_eq, hp.two_le⟩
  · rintro ⟨h1, h2⟩
    refine (hrounds (fun h0 => h1 2 Nat.prime_two (by omega) (Nat.dvd_of_mod_eq_zero h0)) ?_).2 h2
    rw [List.any_eq_false]
    intro d hd' hz
    obtain ⟨a, b, c⟩ := hpr d hd'
    exact h1 d (Nat.prime_def_minFac.2 ⟨b, a⟩) c (Nat.dvd_of_mod_eq_zero (by simpa using hz))

end prime

section babybear
open BabyBear

/-- C84: in the Baby Bear field exponentiation is right exactly for exponents other than 0. For the exponent 0 the result
stands for 943718400, whatever the base. -/
theorem C84_babybear_exp (a x : Nat) (ha : a < P) (hx : fromMonty a = some x) (E e : Nat) (he : e < 2 ^ E) :
    ((∃ c, BabyBear.expReduce E a e = some c ∧ fromMonty c = some (x ^ e % P)) ↔ e ≠ 0) ∧
    (BabyBear.expReduce E a 0).bind fromMonty = some 943718400 := by
  refine ⟨?_, by
    rw [show BabyBear.expReduce E a 0 = some 1 by rw [BabyBear.expReduce, expReduceWith, if_pos rfl], Option.bind_some]
    exact C06_babybear_exp_zero_witness.2⟩
  constructor
  · rintro ⟨c, hc, h⟩ rfl
    have : BabyBear.expReduce E a 0 = some 1 := by rw [BabyBear.expReduce, expReduceWith, if_pos rfl]
    rw [this] at hc
    obtain rfl := Option.some.inj hc
    rw [C06_babybear_exp_zero_witness.2, pow_zero] at h
    exact absurd h (by decide)
  · intro h0
    obtain ⟨_, c, hc, _, h⟩ := C06_babybear_exp_partial a x ha hx 0 E e he h0
    exact ⟨c, hc, h⟩

end babybear

/-- C84: the Barrett dot product is right exactly when the entries after the last full block of 16 contribute zero. -/
theorem C84_barrett_dot (w m : Nat) (hw : w % 2 = 0) (M : Barrett) (h : Barrett.new w m = some M) (a b : List Nat)
    (hlen : a.length = b.length) (ha : ∀ x ∈ a, x < m) (hb : ∀ x ∈ b, x < m) :
    Barrett.dotProduct w M a b = some (Spec.dot a b % m) ↔
      Spec.dot (a.drop (16 * (a.length / 16))) (b.drop (16 * (a.length / 16))) % m = 0 := by
  rw [C08_barrett_dot_prefix w m hw M h a b hlen ha hb, Option.some.injEq]
  have hsplit : ∀ (k : Nat) (x y : List Nat), Spec.dot x y = Spec.dot (x.take k) (y.take k) + Spec.dot (x.drop k) (y.drop k) := by
    intro k
    induction k with
    | zero => intro x y; simp [Spec.dot]
    | succ k ih =>
      intro x y
      rcases x with _ | ⟨x, xs⟩
      · simp [Spec.dot]
      · rcases y with _ | ⟨y, ys⟩
        · simp [Spec.dot]
        · simp only [List.take_succ_cons, List.drop_succ_cons, Spec.dot, ih xs ys]
          ring
  conv_lhs => rhs; rw [hsplit (16 * (a.length / 16)) a b]
  generalize Spec.dot (a.take _) (b.take _) = u
  generalize Spec.dot (a.drop _) (b.drop _) = v
  constructor
  · intro e
    have : u + v ≡ u + 0 [MOD m] := by unfold Nat.ModEq; rw [Nat.add_zero]; exact e.symm
    exact Nat.ModEq.add_left_cancel' u this
  · intro e
    rw [Nat.add_mod, e, Nat.add_zero, Nat.mod_mod]

section goldilocks
open Goldilocks

/-- C84: Goldilocks words. Reduction is canonical exactly for words other than the modulus; negation panics exactly above
the modulus; and an inverse is reported, although there is none, exactly for the modulus itself. -/
theorem C84_goldilocks (a : Nat) (ha : a < 2 ^ 64) :
    (Goldilocks.reduce a = some (a % P) ↔ a ≠ P) ∧
    (Goldilocks.negReduce a = none ↔ P < a) ∧
    ((∃ r, tryInverse a = some (some r) ∧ a * r % P ≠ 1) ↔ a = P) := by
  obtain ⟨h1, h2⟩ := C13_canonical_partial a ha
  refine ⟨⟨?_, h1⟩, ⟨?_, ?_⟩, ?_, ?_⟩
  · rintro e rfl
    rw [C13_violations.1, Nat.mod_self] at e
    exact absurd e (by decide)
  · intro e
    by_contra hc
    obtain ⟨r, er, _⟩ := h2 (by omega)
    rw [e] at er; exact absurd er (by simp)
  · intro h
    unfold Goldilocks.negReduce
    rw [if_neg (by omega), subC, if_neg (by omega)]
  · rintro ⟨r, er, hr⟩
    by_contra hc
    by_cases h0 : a % P = 0
    · have hd : P ∣ a := Nat.dvd_of_mod_eq_zero h0
      obtain ⟨c, rfl⟩ := hd
      have hP : 2 ^ 64 < 2 * P := by decide
      have hc2 : c < 2 := by
        by_contra h
        have : P * 2 ≤ P * c := Nat.mul_le_mul_left _ (by omega)
        omega
      have : c = 0 ∨ c = 1 := by omega
      rcases this with rfl | rfl
      · rw [Nat.mul_zero] at er
        simp [tryInverse] at er
      · exact hc (Nat.mul_one _)
    · obtain ⟨r', er', _, _, hr'⟩ := C12_inverse a ha h0
      rw [er] at er'
      obtain rfl := Option.some.inj (Option.some.inj er')
      exact hr hr'
  · rintro rfl
    obtain ⟨_, _, _, r, hr⟩ := C13_violations
    refine ⟨r, hr, ?_⟩
    rw [Nat.mul_mod_right]
    decide

/-- C84: the sum of two canonical Goldilocks values is canonical exactly when it is below the modulus or overflows the
word; otherwise it is the plain sum. So the negation of a sum panics exactly for sums between the two. -/
theorem C84_goldilocks_sum (a b : Nat) (ha : a < P) (hb : b < P) :
    Goldilocks.addReduce a b = some (if a + b < 2 ^ 64 then a + b else a + b - P) ∧
    ((∃ s, Goldilocks.addReduce a b = some s ∧ s < P) ↔ a + b < P ∨ 2 ^ 64 ≤ a + b) ∧
    ((∃ s, Goldilocks.addReduce a b = some s ∧ Goldilocks.negReduce s = none) ↔ P < a + b ∧ a + b < 2 ^ 64) := by
  have hp : P + EPSILON = 2 ^ 64 := by decide
  have hE : EPSILON < P := by decide
  have h0 : 0 < P := by decide
  have key : Goldilocks.addReduce a b = some (if a + b < 2 ^ 64 then a + b else a + b - P) := by
    unfold Goldilocks.addReduce
    by_cases h : a + b < 2 ^ 64
    · rw [if_pos h, overflowingAdd_lt h]
      dsimp only
      rw [mbind mul_toNat_false']
      rw [overflowingAdd_lt (by simpa using h)]
      simp
    · rw [if_neg h, overflowingAdd_ge (by omega) (by omega)]
      dsimp only
      rw [mbind (mul_toNat_true' (by omega))]
      rw [overflowingAdd_lt (by omega)]
      simp only [Bool.false_eq_true, if_false]
      generalize (2 : Nat) ^ 64 = W at *
      rw [show a + b - W + EPSILON = a + b - P by omega]
  generalize (2 : Nat) ^ 64 = W at *
  refine ⟨key, ?_, ?_⟩
  · rw [key]
    constructor
    · rintro ⟨s, e, hs⟩
      obtain rfl := Option.some.inj e
      split at hs <;> omega
    · intro h
      refine ⟨_, rfl, ?_⟩
      split <;> omega
  · rw [key]
    have hneg : ∀ s, Goldilocks.negReduce s = none ↔ P < s := by
      intro s
      unfold Goldilocks.negReduce subC
      split
      · next h => subst h; simp
      · split <;> simp <;> omega
    constructor
    · rintro ⟨s, e, hs⟩
      obtain rfl := Option.some.inj e
      rw [hneg] at hs
      split at hs <;> omega
    · rintro ⟨h1, h2⟩
      refine ⟨_, rfl, ?_⟩
      rw [if_pos h2, hneg]; exact h1

end goldilocks

/-- C84: a centred binomial draw panics exactly when the second half of the bytes has more than `q` ones more than the
first half. -/
theorem C84_cbd (w q : Nat) (hw : w % 2 = 0) (M : Barrett) (h : Fp.config w q = some M) (h8 : 8 ≤ w)
    (x0 x1 x2 x3 x4 x5 : Nat) :
    Sample.cbd w M x0 x1 x2 x3 x4 x5 = none ↔
      Sample.countOnes 8 x0 + Sample.countOnes 8 x1 + Sample.countOnes 8 (x2 &&& 0x1F) + q <
        Sample.countOnes 8 x3 + Sample.countOnes 8 x4 + Sample.countOnes 8 (x5 &&& 0x1F) := by
  have hn : ∀ v, v < 2 ^ w → Fp.new w M v = some (v % q) := C49_new w q hw M h
  obtain ⟨hval, hqv⟩ := Barrett.new_valid hw (config_new h)
  have hlt := hval.lt_word
  rw [hqv] at hlt
  have hc : ∀ k x, Sample.countOnes k x ≤ k := by
    intro k
    induction k with
    | zero => intro x; simp [Sample.countOnes]
    | succ k ih => intro x; have := ih (x / 2); unfold Sample.countOnes; omega
  have hW : 2 ^ 8 ≤ 2 ^ w := Nat.pow_le_pow_right (by omega) h8
  have c0 : Sample.countOnes 8 x0 + Sample.countOnes 8 x1 + Sample.countOnes 8 (x2 &&& 0x1F) ≤ 24 := by
    have := hc 8 x0; have := hc 8 x1; have := hc 8 (x2 &&& 0x1F); omega
  unfold Sample.cbd
  dsimp only
  generalize Sample.countOnes 8 x0 + Sample.countOnes 8 x1 + Sample.countOnes 8 (x2 &&& 0x1F) = a at *
  generalize Sample.countOnes 8 x3 + Sample.countOnes 8 x4 + Sample.countOnes 8 (x5 &&& 0x1F) = b at *
  rw [hqv]
  split
  · next hle => rw [hn _ (by omega)]; simp; omega
  · next hgt =>
    unfold subC
    by_cases hs : b - a ≤ q
    · rw [if_pos hs]
      simp only [Option.bind_eq_bind, Option.bind_some]
      rw [hn _ (by omega)]; simp; omega
    · rw [if_neg hs]; simp; omega

/-- C84: `decompose_at` writes a digit exactly as long as something of the value is left; the other slots keep what they
held. -/
theorem C84_decompose_at (w q bits x : Nat) (hq : q < 2 ^ w) (B : Basis) (h : Basis.new w q bits = some B)
    (dest : List Nat) :
    ∃ ds, Basis.decomposeAt w B x dest = some ds ∧ ds.length = dest.length ∧
      ∀ j, j < dest.length → ds.getD j 0 =
        if x < 2 ^ (bits * j) then dest.getD j 0 else x / 2 ^ (bits * j) % 2 ^ bits := by
  obtain ⟨_, _, hbits, hmask, hw, _, _, _⟩ := new_basis hq h
  unfold Basis.decomposeAt
  rw [hmask, hbits]
  clear h hmask hbits
  induction dest generalizing x with
  | nil => exact ⟨[], rfl, rfl, by simp⟩
  | cons v vs ih =>
    unfold Basis.writeDigits
    split
    · next h0 =>
      subst h0
      exact ⟨_, rfl, rfl, fun j hj => by rw [if_pos (Nat.two_pow_pos _)]⟩
    · next h0 =>
      obtain ⟨ds, e, hl, hds⟩ := ih (x / 2 ^ bits)
      refine ⟨x % 2 ^ bits :: ds, ?_, by simp [hl], ?_⟩
      · simp only [shrC, hw, if_true, Option.bind_eq_bind, Option.bind_some, and_mask', e]
        rfl
      · intro j hj
        rcases j with _ | j
        · simp only [Nat.mul_zero, pow_zero, Nat.div_one, List.getD_cons_zero]
          rw [if_neg (by omega)]
        · simp only [List.getD_cons_succ]
          rw [hds j (by simpa using hj), Nat.div_div_eq_div_mul, ← pow_add, show bits + bits * j = bits * (j + 1) by ring]
          refine if_congr ?_ rfl rfl
          rw [Nat.div_lt_iff_lt_mul (Nat.two_pow_pos _), ← pow_add, show bits * j + bits = bits * (j + 1) by ring]

/-- C84: division of native words is modular division exactly when it leaves no remainder. -/
theorem C84_native_div (w a b r : Nat) (ha : a < 2 ^ w) (h : Native.div a b = some r) :
    ((r : ZMod (2 ^ w)) * b = a) ↔ b ∣ a := by
  constructor
  · intro e
    have hr : r = a / b := by
      unfold Native.div at h
      split at h
      · exact absurd h (by simp)
      · exact (Option.some.inj h).symm
    rw [← Nat.cast_mul, ZMod.natCast_eq_natCast_iff'] at e
    have hle : r * b ≤ a := by rw [hr]; exact Nat.div_mul_le_self a b
    rw [Nat.mod_eq_of_lt (by omega), Nat.mod_eq_of_lt ha] at e
    exact ⟨r, by rw [← e, mul_comm]⟩
  · exact fun hd => (C63_div_partial w a b).2 r h hd

theorem mapM_none {α β : Type} {f : α → Option β} : ∀ {l : List α} {x : α}, x ∈ l → f x = none → l.mapM f = none
  | y :: l, x, hx, h => by
    rw [List.mapM_cons]
    rcases List.mem_cons.1 hx with rfl | hm
    · rw [h]; rfl
    · rw [mapM_none hm h]
      cases f y <;> rfl

section transform
open Fp Finset Spec Ntt

/-- C84: `transform_monomial` panics exactly when the coefficient and the degree are not zero and `(2n - 1) d` overflows
the index type; in all other cases it is right. -/
theorem C84_monomial (w q : Nat) [Fact q.Prime] (hw : w % 2 = 0) (M : Barrett) (h : Fp.config w q = some M) (k : Nat)
    (draws : List Nat) (hd : ∀ x ∈ draws, 2 ≤ x ∧ x < q) (t : NTTTable) (ht : generate w M k draws = some (some t))
    (c d : Nat) (hc : c < q) :
    (monomial w M t c d (2 ^ k) = none ↔ c ≠ 0 ∧ d ≠ 0 ∧ 2 ^ 64 ≤ (2 * 2 ^ k - 1) * d) ∧
    (monomial w M t c d (2 ^ k) ≠ none →
      monomial w M t c d (2 ^ k) = transform w M t (monomialCoeffs q (2 ^ k) c d)) := by
  have C : Config w q M := ⟨hw, h⟩
  obtain ⟨_, T⟩ := generate_table C hd ht
  obtain ⟨out', -, etr⟩ := C26_monomial_release w q hw M h k draws hd t ht c d hc
  have hpos := Nat.two_pow_pos k
  have hle : 2 ^ (k + 1) < 2 ^ 64 := Nat.pow_lt_pow_right (by omega) (by have := T.k_lt; omega)
  have hle2 : 2 * 2 ^ k < 2 ^ 64 := by rw [pow_succ] at hle; omega
  have hgood : ¬ (c ≠ 0 ∧ d ≠ 0 ∧ 2 ^ 64 ≤ (2 * 2 ^ k - 1) * d) →
      monomial w M t c d (2 ^ k) = transform w M t (monomialCoeffs q (2 ^ k) c d) := by
    intro hn
    by_cases hov : (2 * 2 ^ k - 1) * d < 2 ^ 64
    · obtain ⟨out, e1, e2⟩ := monomialWith_spec hw h hd ht hc monoIndex (fun i hi => by
        have hm : (2 * i + 1) * d < 2 ^ 64 := Nat.lt_of_le_of_lt (Nat.mul_le_mul_right d (by omega)) hov
        unfold monoIndex
        rw [mbind (mask_eq T.k_lt), mbind (mulC_eq (by omega)), mbind (addC_eq (by omega)), mbind (mulC_eq hm),
          Nat.and_two_pow_sub_one_eq_mod]
        rfl)
      rw [e2]; exact e1
    · -- the coefficient is zero, or the degree is
      obtain ⟨out, e1, e2⟩ := C26_monomial_release w q hw M h k draws hd t ht c d hc
      rw [e2, ← e1]
      unfold monomial monomialWith
      by_cases h0 : c = 0
      · rw [if_pos (show c = Fp.zero from h0), if_pos (show c = Fp.zero from h0)]
      · have h1 : d = 0 := by
          by_contra h1
          exact hn ⟨h0, h1, by omega⟩
        rw [if_neg (show ¬ c = Fp.zero from h0), if_neg (show ¬ c = Fp.zero from h0), if_pos h1, if_pos h1]
  have hbad : c ≠ 0 ∧ d ≠ 0 ∧ 2 ^ 64 ≤ (2 * 2 ^ k - 1) * d → monomial w M t c d (2 ^ k) = none := by
    rintro ⟨h0, h1, hov⟩
    have hmem : 2 ^ k - 1 ∈ t.rev := by
      rw [T.rev, List.mem_map]
      exact ⟨2 ^ k - 1, List.mem_range.2 (by omega), reverseBits_ones k⟩
    have hidx : monoIndex t.logN (2 ^ k - 1) d = none := by
      unfold monoIndex
      rw [T.logN, mbind (mask_eq T.k_lt), mbind (mulC_eq (by omega)), mbind (addC_eq (by omega))]
      rw [show 2 * (2 ^ k - 1) + 1 = 2 * 2 ^ k - 1 by omega]
      have : mulC 64 (2 * 2 ^ k - 1) d = none := by unfold mulC; rw [if_neg (by omega)]
      rw [this]; rfl
    obtain ⟨-, -, ⟨n1, en, -, -⟩, -⟩ :=
      C49_field_ops w q hw M h 0 0 0 0 (by omega) (by omega) (by omega) (by positivity)
    unfold monomial monomialWith
    rw [if_neg (show ¬ c = Fp.zero from h0), if_neg h1, if_neg (by rw [T.n, T.rev]; simp), mbind en]
    split_ifs <;> exact mapM_none hmem (by rw [hidx]; rfl)
  by_cases hn : c ≠ 0 ∧ d ≠ 0 ∧ 2 ^ 64 ≤ (2 * 2 ^ k - 1) * d
  · exact ⟨⟨fun _ => hn, fun _ => hbad hn⟩, fun h => absurd (hbad hn) h⟩
  · refine ⟨⟨fun e => ?_, hbad⟩, fun _ => hgood hn⟩
    rw [hgood hn, etr] at e
    exact absurd e (by simp)

theorem zmod_two : ¬ (0 : ZMod 2) = -1 ∧ ¬ (0 : ZMod 2) = 1 ∧ (1 : ZMod 2) = -1 := by decide

/-- C84: `is_primitive_root` is right exactly unless the modulus is 2 and the element is 1. -/
theorem C84_is_primitive_root (w q : Nat) [Fact q.Prime] (hw : w % 2 = 0) (M : Barrett) (h : Fp.config w q = some M)
    (r m : Nat) (hr : r < q) (hm : 2 ^ (m + 1) < 2 ^ w) :
    ∃ b, Fp.isPrimitiveRoot w M r (2 ^ (m + 1)) = some b ∧
      ((b = true ↔ orderOf (r : ZMod q) = 2 ^ (m + 1)) ↔ ¬ (q = 2 ∧ r = 1)) := by
  refine ⟨_, isPrimitiveRoot_eq ⟨hw, h⟩ hr hm, ?_⟩
  rw [decide_eq_true_iff]
  have h2 := (Fact.out : q.Prime).two_le
  by_cases hq : 2 < q
  · exact ⟨fun _ hc => by omega, fun _ => order_iff hq _⟩
  · obtain rfl : q = 2 := by omega
    have hne : (1 : Nat) ≠ 2 ^ (m + 1) := by have := Nat.one_lt_two_pow (n := m + 1) (by omega); omega
    have : r = 0 ∨ r = 1 := by omega
    rcases this with rfl | rfl
    · refine ⟨fun _ => by omega, fun _ => ?_⟩
      constructor
      · intro e
        rw [Nat.cast_zero, zero_pow (Nat.two_pow_pos m).ne'] at e
        exact absurd e zmod_two.1
      · intro e
        have hz : ((0 : Nat) : ZMod 2) ^ 2 ^ (m + 1) = 1 := by rw [← e]; exact pow_orderOf_eq_one _
        rw [Nat.cast_zero, zero_pow (Nat.two_pow_pos _).ne'] at hz
        exact absurd hz zmod_two.2.1
    · constructor
      · intro H
        exfalso
        have h1 : ((1 : Nat) : ZMod 2) ^ 2 ^ m = -1 := by rw [Nat.cast_one, one_pow]; exact zmod_two.2.2
        have := H.1 h1
        rw [Nat.cast_one, orderOf_one] at this
        exact hne this
      · intro hn; exact absurd ⟨rfl, rfl⟩ hn

/-- C84: the inverse of a polynomial is right exactly when there is one. -/
theorem C84_poly_inv (w q : Nat) [Fact q.Prime] (M : Barrett) (tbl : Nat → Option Table) (k : Nat) (hk : 0 < k)
    (F : TableField w q M tbl k) (a : List Nat) (ha : Reduced q (2 ^ k) a) :
    (∃ r, Poly.inv w M tbl a = some r ∧ Poly.mul w M tbl a r = some (1 :: List.replicate (2 ^ k - 1) 0)) ↔
      ∃ b, Reduced q (2 ^ k) b ∧ Poly.mul w M tbl a b = some (1 :: List.replicate (2 ^ k - 1) 0) := by
  obtain ⟨r, p, v, er, rr, ep, ev, hone, -⟩ := C50_inv_partial w q M tbl k hk F a ha
  constructor
  · rintro ⟨r', er', em⟩
    rw [er] at er'
    obtain rfl := Option.some.inj er'
    exact ⟨r, rr, em⟩
  · rintro ⟨b, hb, em⟩
    refine ⟨r, er, ?_⟩
    rw [ep, hone ?_]
    intro i hi hz
    obtain ⟨s, es, rs, -, va, vb, pp, e1, e2, -, e4, -, e6⟩ := C25_mul_partial w q M tbl k hk F a b ha hb
    rw [em] at es
    obtain rfl := Option.some.inj es
    rw [ev] at e1
    obtain rfl := Option.some.inj e1
    obtain ⟨t, pt, htbl, T⟩ := F.evaluates
    have hw := F.even
    have hc := F.conf
    have hval := (⟨hw, hc⟩ : Config w q M).value
    subst hval
    have htf := tableFor_eq (by have := T.k_lt; omega) htbl
    have hpos := Nat.two_pow_pos k
    have ewords : ∀ x y, Reduced M.value (2 ^ k) x → Poly.toNtt w M tbl x = some y → Reduced M.value (2 ^ k) y ∧
        ValuesAt M.value (2 ^ k) pt x y := by
      intro x y hx e
      obtain ⟨y', ey, ry, hy⟩ := T.fwd _ hx
      unfold Poly.toNtt at e
      rw [hx.1, mbind htf, ey] at e
      obtain rfl := Option.some.inj e
      exact ⟨ry, hy⟩
    obtain ⟨rv, -⟩ := ewords a v ha ev
    obtain ⟨rvb, -⟩ := ewords b vb hb e2
    obtain ⟨-, hp⟩ := ewords _ pp rs e6
    obtain ⟨p', ep', _, cp'⟩ := pointwise rv rvb (f := Fp.mul w M) (g := (· * ·)) (fun x y hx hy =>
      (C49_field_ops w M.value hw M hc x y x 0 hx hy hx (by positivity)).2.2.2.2.2.2.2.1) (by simp)
    unfold Poly.nttMul at e4
    rw [if_pos (by rw [rv.1, rvb.1]), ep'] at e4
    obtain rfl := Option.some.inj e4
    have h1 : coeff M.value p' i = 0 := by rw [cp' i, hz]; simp
    rw [hp i hi, sum_eq_single 0] at h1
    · have := (⟨hw, hc⟩ : Config w M.value M).two_le
      have : Fact (1 < M.value) := ⟨by omega⟩
      simp [coeff] at h1
    · intro m _ hm
      obtain ⟨m, rfl⟩ := Nat.exists_eq_succ_of_ne_zero hm
      have : coeff M.value (1 :: List.replicate (2 ^ k - 1) 0) (m + 1) = 0 := by
        unfold coeff
        rw [List.getD_cons_succ]
        by_cases hml : m < 2 ^ k - 1
        · rw [List.getD_eq_getElem _ _ (by simpa using hml)]; simp
        · rw [List.getD_eq_default _ _ (by simp; omega)]; simp
      rw [Nat.succ_eq_add_one, this, zero_mul]
    · intro hm; exact absurd (mem_range.2 hpos) hm

/-- C84: polynomials of one coefficient. With a table of this code base every transform back and every product panics. -/
theorem C84_size_one (w : Nat) (M : Barrett) (tbl : Nat → Option Table) (t : NTTTable) (ht : tbl 0 = some (.native t))
    (hn : t.logN = 0) (a b : List Nat) (ha : a.length = 1) :
    Poly.ofNtt w M tbl a = none ∧ Poly.mul w M tbl a b = none := by
  have htf : Poly.tableFor tbl 1 = some (.native t) := tableFor_eq (k := 0) (by omega) ht
  constructor
  · unfold Poly.ofNtt
    rw [ha, mbind htf]
    exact C24_size_one_panics w M t hn a
  · unfold Poly.mul
    split
    · rw [ha, mbind htf]
      have hz : ∀ v, Table.inverse w M (.native t) v = none := fun v => C24_size_one_panics w M t hn v
      simp only [hz, Option.bind_eq_bind]
      cases Table.transform w M (.native t) b <;> simp
    · rfl

end transform

section samples
open Spec

theorem generateLoop_overflow {R : Ctx} {sample : Nat → List Nat → List Nat → Option RLWE} {bits : Nat} :
    ∀ (cnt j : Nat) (ds : List Draw), R.w ≤ bits * (j + (cnt + 1)) →
      GadgetRLWE.generateLoop R sample (2 ^ bits) (cnt + 1) (2 ^ (bits * j)) ds = none
  | _, _, [], _ => rfl
  | cnt, j, (a, e) :: ds, h => by
    unfold GadgetRLWE.generateLoop
    cases sample (2 ^ (bits * j)) a e with
    | none => rfl
    | some r =>
      simp only [Option.bind_eq_bind, Option.bind_some]
      have e1 : 2 ^ (bits * j) * 2 ^ bits = 2 ^ (bits * (j + 1)) := by rw [← pow_add]; ring_nf
      unfold mulC
      rw [e1]
      split
      · next hlt =>
        simp only [Option.bind_some]
        have := (Nat.pow_lt_pow_iff_right (by omega : 1 < 2)).1 hlt
        rcases cnt with _ | cnt
        · rw [Nat.zero_add] at h; omega
        · rw [generateLoop_overflow cnt (j + 1) ds (by rw [show j + 1 + (cnt + 1) = j + (cnt + 1 + 1) by omega]; exact h)]
          rfl
      · rfl

/-- C84: generating gadget samples of `1` and of `-s` in coefficient form panics exactly when the powers of the basis,
the one after the last included, do not fit the word. -/
theorem C84_gadget_samples {R : Ctx} {q k : Nat} [Fact q.Prime] (hk : 0 < k) (F : TableField R.w q R.M R.tbl k)
    (bits : Nat) (B : Basis) (hB : Basis.new R.w q bits = some B) (s sn : List Nat) (hs : Reduced q (2 ^ k) s)
    (hsn : Poly.toNtt R.w R.M R.tbl s = some sn) (draws : List Draw) (hd : DrawsOk q (2 ^ k) draws)
    (hlen : B.decomposeLen ≤ draws.length) :
    (GadgetRLWE.oneSample R sn B draws = none ↔ R.w ≤ bits * B.decomposeLen) ∧
    (GadgetRLWE.negSecretSample R sn B draws = none ↔ R.w ≤ bits * B.decomposeLen) := by
  obtain ⟨-, h2⟩ := C36_samples_partial hk F bits B hB s sn hs hsn draws hd hlen
  obtain ⟨hqw, h2q⟩ : q < 2 ^ R.w ∧ 2 ≤ q := by
    obtain ⟨t, rfl, E⟩ := F.env hk
    have := E.C.four_mul_lt
    exact ⟨by omega, E.C.two_le⟩
  obtain ⟨_, _, _, _, _, hbasis, _⟩ := new_basis hqw hB
  obtain ⟨_, hl1, hlt⟩ := len_bounds hqw h2q hB
  have hov : ∀ sample, R.w ≤ bits * B.decomposeLen →
      GadgetRLWE.generateLoop R sample B.basis B.decomposeLen Fp.one draws = none := by
    intro sample h
    have e := generateLoop_overflow (R := R) (sample := sample) (bits := bits) (B.decomposeLen - 1) 0 draws
      (by rw [Nat.zero_add, Nat.sub_add_cancel hl1]; exact h)
    rw [Nat.sub_add_cancel hl1, Nat.mul_zero, pow_zero] at e
    rw [hbasis]; exact e
  refine ⟨⟨fun e => ?_, fun h => ?_⟩, fun e => ?_, fun h => ?_⟩
  · by_contra hc
    obtain ⟨⟨g, eg, -⟩, -⟩ := h2 (by omega)
    rw [e] at eg; exact absurd eg (by simp)
  · unfold GadgetRLWE.oneSample; rw [hov _ h]; rfl
  · by_contra hc
    obtain ⟨-, g, eg, -⟩ := h2 (by omega)
    rw [e] at eg; exact absurd eg (by simp)
  · unfold GadgetRLWE.negSecretSample; rw [hov _ h]; rfl

end samples

/-- C84: accepted parameters. Their plaintext modulus is at most the ciphertext modulus, and decryption panics for every
message type, key and ciphertext exactly when the two are equal. -/
theorem C84_parameters (wQ Q w : Nat) (hQ : Q < 2 ^ wQ) (hwQ : wQ ≤ 64) (hw : w ≤ 64) (p : ConstParams)
    (hN : p.ringDimension < 2 ^ 64) (hR : p.ringModulus < 2 ^ wQ) (hq : p.lweCipherModulus < 2 ^ w) (P : Params)
    (h : Params.new wQ Q p = some (.ok P)) :
    p.lwePlainModulus ≤ p.lweCipherModulus ∧
    ((∀ msg secret c, (P.lwe w).decrypt msg secret c = none) ↔ p.lwePlainModulus = p.lweCipherModulus) := by
  have hv := (C45_decision wQ Q hQ hwQ p hN hR).2.2.1 ⟨P, h⟩
  obtain ⟨_, ft, fq, _⟩ := params_new_fields h
  obtain ⟨i, hi⟩ := hv.t
  obtain ⟨k, hk⟩ := hv.q
  refine ⟨hv.le, fun H => ?_, fun e msg secret c => ?_⟩
  · by_contra hne
    have hlt : p.lwePlainModulus < p.lweCipherModulus := lt_of_le_of_ne hv.le hne
    obtain ⟨c, -, hdec⟩ := C45_accepted_partial wQ Q w hQ hwQ hw p hN hR hq P h hlt (List.replicate P.n 0)
      (List.replicate P.n 0) (by simp) (by simp) (by
        intro x hx
        rw [List.eq_of_mem_replicate hx, fq, hk]
        exact Nat.two_pow_pos k) 0 (by rw [ft, hi]; exact Nat.two_pow_pos i) 0 (by
        rw [ft, fq]
        unfold Spec.NoiseInRange
        exact ⟨by omega, by omega⟩)
    have := hdec .bool (by simp [Fits])
    rw [H] at this
    exact absurd this (by simp)
  · unfold LWEParams.decrypt
    cases h1 : (P.lwe w).ops with
    | none => rfl
    | some O =>
      rw [mbind rfl]
      cases h2 : LWEParams.phase O secret c with
      | none => rfl
      | some x =>
        rw [mbind rfl]
        show Plain.decode msg x P.t P.q = none
        rw [ft, fq, e, hk]
        exact C30_decode_equal_moduli msg x k

/-! Non-vacuity: each condition is met by one concrete input and missed by another. -/

section examples
open Spec

-- 49141 needs a squaring for the witness 2 and is a strong liar for it, not for 3; yet it is accepted
example : ∃ M, Barrett.new 32 49141 = some M ∧ 49141 - 1 = 2 ^ 2 * 12285 ∧ ¬ EndsAtOnce 49141 12285 2 ∧
    Prime.probablyPrime 32 M 2 (fun _ => 3) = some true :=
  ⟨⟨49141, 2 ^ 32 * 2 ^ 32 / 49141 % 2 ^ 32, 2 ^ 32 * 2 ^ 32 / 49141 / 2 ^ 32⟩, by decide +kernel, by norm_num,
    by unfold EndsAtOnce; decide +kernel, by decide +kernel⟩
-- for 42799 the witness 2 ends at once, so that 3 is looked at
example : ∃ M, Barrett.new 32 42799 = some M ∧ 42799 - 1 = 2 ^ 1 * 21399 ∧ EndsAtOnce 42799 21399 2 ∧
    Prime.probablyPrime 32 M 2 (fun _ => 3) = some false :=
  ⟨⟨42799, 2 ^ 32 * 2 ^ 32 / 42799 % 2 ^ 32, 2 ^ 32 * 2 ^ 32 / 42799 / 2 ^ 32⟩, by decide +kernel, by norm_num,
    by unfold EndsAtOnce; decide +kernel, by decide +kernel⟩

example : BabyBear.fromMonty (BabyBear.toMonty 5) = some 5 ∧
    (BabyBear.expReduce 64 (BabyBear.toMonty 5) 3).bind BabyBear.fromMonty = some 125 ∧
    (BabyBear.expReduce 64 (BabyBear.toMonty 5) 0).bind BabyBear.fromMonty = some 943718400 := by decide +kernel

-- entries after the block of 16 that contribute 61, and some that contribute 60
example : ∃ M, Barrett.new 8 61 = some M ∧
    Barrett.dotProduct 8 M (List.replicate 16 1 ++ [60, 1]) (List.replicate 16 2 ++ [1, 1]) = some 32 ∧
    dot (List.replicate 16 1 ++ [60, 1]) (List.replicate 16 2 ++ [1, 1]) % 61 = 32 ∧
    Barrett.dotProduct 8 M (List.replicate 16 1 ++ [60]) (List.replicate 16 2 ++ [1]) = some 32 ∧
    dot (List.replicate 16 1 ++ [60]) (List.replicate 16 2 ++ [1]) % 61 = 31 :=
  ⟨⟨61, 50, 4⟩, by decide +kernel⟩

example : Goldilocks.reduce Goldilocks.P = some Goldilocks.P ∧ Goldilocks.reduce (Goldilocks.P + 1) = some 1 ∧
    Goldilocks.negReduce (Goldilocks.P + 1) = none ∧ Goldilocks.negReduce Goldilocks.P = some 0 := by decide +kernel
example : Goldilocks.addReduce (Goldilocks.P - 1) 2 = some (Goldilocks.P + 1) ∧
    Goldilocks.addReduce (Goldilocks.P - 1) (2 ^ 32) = some (2 ^ 32 - 1) := by decide +kernel

example : ∃ M, Fp.config 8 17 = some M ∧ Sample.cbd 8 M 0 0 0 255 255 1 = some 0 ∧
    Sample.cbd 8 M 0 0 0 255 255 3 = none :=
  ⟨barrett17, by decide +kernel⟩

example : ∃ B, Basis.new 16 1000 3 = some B ∧ Basis.decomposeAt 16 B 20 [9, 9, 9, 9] = some [4, 2, 9, 9] :=
  ⟨⟨8, 4, 7, 3⟩, by decide +kernel⟩

example : Native.div 6 2 = some 3 ∧ Native.div 7 2 = some 3 := by decide

example : ∃ t, Ntt.generate 8 barrett17 1 [3] = some (some t) ∧
    Ntt.monomial 8 barrett17 t 2 (2 ^ 64 / 3) (2 ^ 1) ≠ none ∧ Ntt.monomial 8 barrett17 t 2 (2 ^ 64 / 3 + 1) (2 ^ 1) = none := by
  have : Fact (Nat.Prime 17) := ⟨by decide⟩
  refine ⟨table17 1 (by decide +kernel), table17_eq _ _, ?_, ?_⟩
  · rw [Ne, (C84_monomial 8 17 (by decide) barrett17 (by decide +kernel) 1 [3] (by simp) _ (table17_eq _ _) 2 _ (by decide)).1]
    decide
  · rw [(C84_monomial 8 17 (by decide) barrett17 (by decide +kernel) 1 [3] (by simp) _ (table17_eq _ _) 2 _ (by decide)).1]
    decide

example : ∃ M, Fp.config 8 2 = some M ∧ Fp.isPrimitiveRoot 8 M 1 (2 ^ 1) = some true ∧
    Fp.isPrimitiveRoot 8 barrett17 16 (2 ^ 1) = some true ∧ Fp.isPrimitiveRoot 8 barrett17 1 (2 ^ 1) = some false :=
  ⟨⟨2, 2 ^ 8 * 2 ^ 8 / 2 % 2 ^ 8, 2 ^ 8 * 2 ^ 8 / 2 / 2 ^ 8⟩, by decide +kernel⟩

-- an invertible polynomial; `X - 2` has no inverse, see `C50_not_invertible`
example : ∃ b, Reduced 17 4 b ∧ Poly.mul 8 barrett17 tbl17 [0, 3, 0, 0] b = some (1 :: List.replicate 3 0) :=
  ⟨[0, 0, 0, 11], ⟨rfl, by decide⟩, by decide +kernel⟩

example : ∃ t, tbl17 0 = some (.native t) ∧ t.logN = 0 := by
  refine ⟨table17 0 (by decide +kernel), ?_, by decide +kernel⟩
  have h : (Ntt.generate 8 barrett17 0 [3]).join.isSome = true := by decide +kernel
  have := table17_eq 0 h
  simp [tbl17, Table.generate, this]

-- bases 2^4 and 2^3 for the modulus 17 in words of 8 bits: `8 ≤ 4 * 2` and `3 * 2 < 8`
example : ∃ B B', Basis.new 8 17 4 = some B ∧ Basis.new 8 17 3 = some B' ∧ B.decomposeLen = 2 ∧ B'.decomposeLen = 2 ∧
    GadgetRLWE.oneSample ⟨8, barrett17, tbl17⟩ [5, 5, 14, 14] B
      [([1, 2, 3, 4], [0, 1, 0, 16]), ([5, 6, 7, 8], [1, 0, 0, 0])] = none ∧
    GadgetRLWE.oneSample ⟨8, barrett17, tbl17⟩ [5, 5, 14, 14] B'
      [([1, 2, 3, 4], [0, 1, 0, 16]), ([5, 6, 7, 8], [1, 0, 0, 0])] ≠ none :=
  ⟨⟨16, 2, 15, 4⟩, ⟨8, 2, 7, 3⟩, by decide +kernel⟩

example : (∃ P, Params.new 32 132120577 (paramsWith 4 1024 132120577) = some (.ok P) ∧
      ∃ msg secret c, (P.lwe 16).decrypt msg secret c ≠ none) ∧
    ∃ P, Params.new 32 132120577 (paramsWith 1024 1024 132120577) = some (.ok P) ∧
      ∀ msg secret c, (P.lwe 16).decrypt msg secret c = none := by
  obtain ⟨P, hP⟩ : ∃ P, Params.new 32 132120577 (paramsWith 4 1024 132120577) = some (.ok P) :=
    exists_of_accepted (by decide +kernel)
  refine ⟨⟨P, hP, ?_⟩, C45_accepts_equal_moduli⟩
  have := (C84_parameters 32 132120577 16 (by decide) (by decide) (by decide) _ (by decide) (by decide) (by decide) P hP).2
  by_contra hc
  push Not at hc
  exact absurd (this.1 hc) (by decide)

end examples

end Verif.Props
