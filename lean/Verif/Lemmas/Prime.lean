import Verif.Model.Prime
import Verif.Lemmas.Exp
import Verif.Spec
import Mathlib.FieldTheory.Finite.Basic

namespace Verif.Prime
open Spec Barrett

theorem square_eq {w : Nat} {M : Barrett} (v : Valid w M) {x : Nat} (hx : x < M.value) :
    ((wideningMulC w x x).bind fun p => reduce2 w M p.1 p.2) = some (x * x % M.value) := by
  have h4 := v.lt_word
  have hB := Nat.two_pow_pos w
  have h := mul_lt_sq (w := w) (a := x) (b := x) (by omega) (by omega)
  rw [wideningMulC_eq (by omega) (by omega)]
  simp only [Option.bind_some]
  rw [reduce2_eq v (Nat.mod_lt _ hB) (Nat.div_lt_of_lt_mul h), Nat.mod_add_div]

/-- The squaring loop on residues. -/
def pureLoop (n : Nat) : Nat → Nat → RoundEnd
  | 0, _ => .composite
  | k + 1, x =>
    if x * x % n = n - 1 then .leave else if x * x % n = 1 then .composite
    else pureLoop n k (x * x % n)

theorem squareLoop_eq {w : Nat} {M : Barrett} (v : Valid w M) :
    ∀ (k x : Nat), x < M.value →
      squareLoop w M (M.value - 1) k x = some (pureLoop M.value k x)
  | 0, _, _ => rfl
  | k + 1, x, hx => by
    have hm : 0 < M.value := by omega
    have h4 := v.lt_word
    have hB := Nat.two_pow_pos w
    have h := mul_lt_sq (w := w) (a := x) (b := x) (by omega) (by omega)
    have e : reduce2 w M (x * x % 2 ^ w) (x * x / 2 ^ w) = some (x * x % M.value) := by
      rw [reduce2_eq v (Nat.mod_lt _ hB) (Nat.div_lt_of_lt_mul h), Nat.mod_add_div]
    simp only [squareLoop, wideningMulC_eq (w := w) (a := x) (b := x) (by omega) (by omega),
      Option.bind_eq_bind, Option.bind_some, e, pureLoop]
    split
    · rfl
    · split
      · rfl
      · exact squareLoop_eq v k _ (Nat.mod_lt _ hm)

/-- The round on residues. -/
def pureRound (n r q a : Nat) : RoundEnd :=
  if a ^ q % n = 1 ∨ a ^ q % n = n - 1 then .next else pureLoop n (r - 1) (a ^ q % n)

theorem round_eq {w : Nat} {M : Barrett} (v : Valid w M) {r q a : Nat} (ha : a < M.value)
    (hq : q < 2 ^ w) : round w M (M.value - 1) r q a = some (pureRound M.value r q a) := by
  simp only [round, expReduce_eq v ha hq, Option.bind_eq_bind, Option.bind_some, pureRound]
  split
  · rfl
  · exact squareLoop_eq v _ _ (Nat.mod_lt _ (by omega))

/-- Value of the squaring loop in terms of powers of the start value. -/
theorem pureLoop_leave {n : Nat} (hn : 2 < n) : ∀ (k x : Nat),
    pureLoop n k x = .leave → ∃ j, 1 ≤ j ∧ j ≤ k ∧ x ^ (2 ^ j) % n = n - 1
  | 0, _, h => by simp [pureLoop] at h
  | k + 1, x, h => by
    unfold pureLoop at h
    split at h
    · next h1 => exact ⟨1, le_refl _, by omega, by rw [pow_one, pow_two]; exact h1⟩
    · split at h
      · exact absurd h (by simp)
      · obtain ⟨j, j1, j2, j3⟩ := pureLoop_leave hn k _ h
        refine ⟨j + 1, by omega, by omega, ?_⟩
        rw [← Nat.pow_mod, ← pow_two, ← pow_mul] at j3
        rw [pow_succ, mul_comm]; exact j3

theorem neg_one_sq {n : Nat} (hn : 2 < n) {x : Nat} (h : x % n = n - 1) : x * x % n = 1 := by
  rw [Nat.mul_mod, h]
  obtain ⟨m, rfl⟩ : ∃ m, n = m + 1 := ⟨n - 1, by omega⟩
  have : (m + 1 - 1) * (m + 1 - 1) = 1 + (m + 1) * (m - 1) := by
    obtain ⟨t, rfl⟩ : ∃ t, m = t + 1 := ⟨m - 1, by omega⟩
    simp; ring
  rw [this, Nat.add_mul_mod_self_left, Nat.mod_eq_of_lt (by omega)]

/-- Once a power is one, no later repeated square is minus one. -/
theorem one_pow_ne {n x : Nat} (hn : 2 < n) (h : x % n = 1) (j : Nat) :
    x ^ (2 ^ j) % n ≠ n - 1 := by
  rw [Nat.pow_mod, h, one_pow, Nat.mod_eq_of_lt (by omega)]; omega

theorem pureLoop_complete {n : Nat} (hn : 2 < n) : ∀ (k x j : Nat), 1 ≤ j → j ≤ k →
    x ^ (2 ^ j) % n = n - 1 → pureLoop n k x = .leave
  | 0, _, j, h1, h2, _ => by omega
  | k + 1, x, j, h1, h2, h3 => by
    unfold pureLoop
    split
    · rfl
    · next h4 =>
      obtain ⟨i, rfl⟩ : ∃ i, j = i + 1 := ⟨j - 1, by omega⟩
      have h5 : (x * x % n) ^ (2 ^ i) % n = n - 1 := by
        rw [← Nat.pow_mod, ← pow_two, ← pow_mul, ← pow_succ']; exact h3
      have hi : i ≠ 0 := by
        rintro rfl
        rw [pow_zero, pow_one, Nat.mod_mod] at h5
        exact h4 h5
      split
      · next h6 =>
        exfalso
        exact one_pow_ne hn (by rw [Nat.mod_mod]; exact h6) i h5
      · exact pureLoop_complete hn k _ i (by omega) (by omega) h5

theorem pureLoop_next {n : Nat} : ∀ (k x : Nat), pureLoop n k x ≠ .next
  | 0, _ => by simp [pureLoop]
  | k + 1, x => by
    unfold pureLoop
    split
    · simp
    · split
      · simp
      · exact pureLoop_next k _

/-- The decomposition `n - 1 = 2^r q` with odd `q` is unique. -/
theorem two_pow_odd_unique {r q r' q' : Nat} (h : 2 ^ r * q = 2 ^ r' * q') (hq : q % 2 = 1)
    (hq' : q' % 2 = 1) : r = r' ∧ q = q' := by
  have aux : ∀ {r q r' q' : Nat}, 2 ^ r * q = 2 ^ r' * q' → q % 2 = 1 → r ≤ r' → r = r' ∧ q = q' := by
    intro r q r' q' h hq hle
    obtain ⟨t, rfl⟩ : ∃ t, r' = r + t := ⟨r' - r, by omega⟩
    rw [pow_add, mul_assoc] at h
    have h := Nat.eq_of_mul_eq_mul_left (Nat.two_pow_pos r) h
    rcases t with _ | t
    · simpa using h
    · exfalso
      rw [pow_succ, mul_assoc] at h
      have : q = 2 * (2 ^ t * q') := by rw [h]; ring
      omega
  rcases Nat.le_total r r' with hle | hle
  · exact aux h hq hle
  · obtain ⟨h1, h2⟩ := aux h.symm hq' hle
    exact ⟨h1.symm, h2.symm⟩

/-- A round does not report a composite exactly when its witness is a strong liar. -/
theorem pureRound_iff {n r q a : Nat} (hn : 2 < n) (hq : q % 2 = 1) (hr : 1 ≤ r)
    (hd : n - 1 = 2 ^ r * q) : pureRound n r q a ≠ .composite ↔ StrongLiar n a := by
  have hsl : StrongLiar n a ↔ (a ^ q % n = 1 ∨ ∃ j, j < r ∧ a ^ (2 ^ j * q) % n = n - 1) := by
    constructor
    · rintro ⟨r', q', h1, h2, h3⟩
      obtain ⟨rfl, rfl⟩ := two_pow_odd_unique (hd.symm.trans h2) hq h1
      exact h3
    · intro h; exact ⟨r, q, hq, hd, h⟩
  rw [hsl]
  unfold pureRound
  have hconv : ∀ j, (a ^ q % n) ^ (2 ^ j) % n = a ^ (2 ^ j * q) % n := by
    intro j; rw [← Nat.pow_mod, ← pow_mul, mul_comm]
  split
  · next h =>
    refine ⟨fun _ => ?_, fun _ => by simp⟩
    rcases h with h | h
    · exact Or.inl h
    · exact Or.inr ⟨0, hr, by simpa using h⟩
  · next h =>
    constructor
    · intro hne
      have hl : pureLoop n (r - 1) (a ^ q % n) = .leave := by
        cases hc : pureLoop n (r - 1) (a ^ q % n) with
        | next => exact absurd hc (pureLoop_next _ _)
        | leave => rfl
        | composite => exact absurd hc hne
      obtain ⟨j, j1, j2, j3⟩ := pureLoop_leave hn _ _ hl
      exact Or.inr ⟨j, by omega, by rw [← hconv]; exact j3⟩
    · rintro (h1 | ⟨j, j1, j2⟩)
      · exact absurd (Or.inl h1) h
      · have hj : 1 ≤ j := by
          rcases j with _ | j
          · exfalso; apply h; right; simpa using j2
          · omega
        rw [pureLoop_complete hn (r - 1) _ j hj (by omega) (by rw [hconv]; exact j2)]
        simp

/-- Every base is a strong liar for a prime. -/
theorem strongLiar_of_prime {n a : Nat} (hp : Nat.Prime n) (hn : 2 < n) (ha0 : a % n ≠ 0) :
    StrongLiar n a := by
  have : Fact (Nat.Prime n) := ⟨hp⟩
  have hne : n - 1 ≠ 0 := by omega
  obtain ⟨h1, h2, h3⟩ := trailingZeros_spec (w := n) hne
    (Nat.lt_of_lt_of_le Nat.lt_two_pow_self (Nat.pow_le_pow_right (by decide) (by omega)))
  set r := trailingZeros n (n - 1)
  set q := (n - 1) / 2 ^ r
  refine ⟨r, q, h3, h2, ?_⟩
  have haz : (a : ZMod n) ≠ 0 := by
    rw [Ne, ZMod.natCast_eq_zero_iff]
    exact fun hd => ha0 (Nat.mod_eq_zero_of_dvd hd)
  have hf : (a : ZMod n) ^ (2 ^ r * q) = 1 := by
    rw [← h2]; exact ZMod.pow_card_sub_one_eq_one haz
  -- descend from the top power
  have key : ∀ i, i ≤ r → (a : ZMod n) ^ (2 ^ i * q) = 1 →
      (a : ZMod n) ^ q = 1 ∨ ∃ j, j < i ∧ (a : ZMod n) ^ (2 ^ j * q) = -1 := by
    intro i
    induction i with
    | zero => intro _ h; left; simpa using h
    | succ i ih =>
      intro hi h
      have hs : ((a : ZMod n) ^ (2 ^ i * q)) * ((a : ZMod n) ^ (2 ^ i * q)) = 1 := by
        rw [← pow_add, ← h]; congr 1; rw [pow_succ]; ring
      rcases mul_self_eq_one_iff.1 hs with h' | h'
      · rcases ih (by omega) h' with h'' | ⟨j, j1, j2⟩
        · exact Or.inl h''
        · exact Or.inr ⟨j, by omega, j2⟩
      · exact Or.inr ⟨i, by omega, h'⟩
  rcases key r (le_refl _) hf with h | ⟨j, j1, j2⟩
  · left
    have : ((a ^ q : Nat) : ZMod n) = ((1 : Nat) : ZMod n) := by push_cast; exact h
    rw [ZMod.natCast_eq_natCast_iff', Nat.mod_eq_of_lt (show 1 < n by omega)] at this
    exact this
  · right
    refine ⟨j, j1, ?_⟩
    have : ((a ^ (2 ^ j * q) : Nat) : ZMod n) = ((n - 1 : Nat) : ZMod n) := by
      rw [Nat.cast_pow, j2, Nat.cast_sub (by omega), ZMod.natCast_self]; simp
    rw [ZMod.natCast_eq_natCast_iff', Nat.mod_eq_of_lt (show n - 1 < n by omega)] at this
    exact this

/-- The witness used in round `i`. -/
def witness (draw : Nat → Nat) (i : Nat) : Nat := if i ≠ 0 then draw i else 2

/-- The round loop on residues. -/
def pureRounds (n r q : Nat) (draw : Nat → Nat) : Nat → Nat → Bool
  | 0, _ => true
  | k + 1, i =>
    match pureRound n r q (witness draw i) with
    | .next => pureRounds n r q draw k (i + 1)
    | .leave => true
    | .composite => false

theorem roundLoop_eq {w : Nat} {M : Barrett} (v : Valid w M) {r q : Nat} {draw : Nat → Nat}
    (hdraw : ∀ i, 3 ≤ draw i ∧ draw i ≤ M.value - 1) (hq : q < 2 ^ w) (h64 : 64 ≤ M.value) :
    ∀ k i, roundLoop w M (M.value - 1) r q draw k i = some (pureRounds M.value r q draw k i)
  | 0, _ => rfl
  | k + 1, i => by
    have hw : witness draw i < M.value := by
      unfold witness; have := hdraw i; split <;> omega
    have e := round_eq v (r := r) hw hq
    unfold witness at e
    simp only [roundLoop, e, Option.bind_eq_bind, Option.bind_some, pureRounds, witness]
    generalize pureRound M.value r q (if i ≠ 0 then draw i else 2) = z
    cases z
    · exact roundLoop_eq v hdraw hq h64 k (i + 1)
    · rfl
    · rfl

theorem mask_prime : ∀ v, v < 64 → (PRIME_BIT_MASK &&& 2 ^ v ≠ 0 ↔ Nat.Prime v) := by
  intro v hv
  have h : ∀ v, v < 64 → (PRIME_BIT_MASK &&& 2 ^ v ≠ 0 ↔ Nat.minFac v = v ∧ 2 ≤ v) := by
    decide +kernel
  rw [h v hv, Nat.prime_def_minFac]
  exact and_comm

end Verif.Prime
