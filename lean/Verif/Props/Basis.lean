import Verif.Model.Basis
import Verif.Lemmas.Word
import Verif.Lemmas.PowOf2
import Verif.Spec
import Mathlib.Tactic.Ring

/-! # C20, C21: gadget decomposition of a field element -/

namespace Verif.Props
open Spec

theorem new_basis {w q bits : Nat} (hq : q < 2 ^ w) {B : Basis} (h : Basis.new w q bits = some B) :
    1 ≤ bits ∧ bits ≤ w ∧ B.bits = bits ∧ B.mask = 2 ^ bits - 1 ∧ bits < w ∧
    B.basis = 2 ^ bits ∧ bits ≤ bitLen q ∧
    B.decomposeLen = ((if isPow2 q then bitLen q - 1 else bitLen q) + bits - 1) / bits := by
  have hbl : bitLen q ≤ w := by
    unfold bitLen
    split
    · omega
    · next h0 => have := (Nat.log2_lt h0).2 hq; omega
  have hmb : w - leadingZeros w q = bitLen q := by unfold leadingZeros; omega
  unfold Basis.new at h
  simp only [hmb] at h
  split at h
  · next hle =>
    have hsub : subC w bits = some (w - bits) := by simp [subC, show bits ≤ w by omega]
    have hmod : Basis.coverBits q (bitLen q) =
        some (if isPow2 q then bitLen q - 1 else bitLen q) ∨ bitLen q = 0 := by
      by_cases h0 : bitLen q = 0
      · exact Or.inr h0
      · left
        unfold Basis.coverBits
        split
        · simp [subC, show 1 ≤ bitLen q by omega]
        · rfl
    rcases hmod with hmod | h0
    · rw [hmod, hsub] at h
      simp only [Option.bind_eq_bind, Option.bind_some] at h
      unfold shrC at h
      split at h
      · next hs =>
        simp only [Option.bind_some] at h
        unfold shlC at h
        split at h
        · next hb =>
          simp only [Option.bind_some] at h
          split at h
          · exact absurd h (by simp)
          · next hb0 =>
            obtain rfl := Option.some.inj h
            refine ⟨by omega, by omega, rfl, ?_, hb, ?_, hle, rfl⟩
            · show (2 ^ w - 1) / 2 ^ (w - bits) = 2 ^ bits - 1
              have e : 2 ^ w = 2 ^ bits * 2 ^ (w - bits) := by
                rw [← Nat.pow_add]; congr 1; omega
              have hpos := Nat.two_pow_pos (w - bits)
              have hpos' := Nat.two_pow_pos bits
              rw [Nat.div_eq_iff hpos, e, Nat.sub_mul, Nat.one_mul]
              have := Nat.mul_le_mul_right (2 ^ (w - bits)) hpos'
              omega
            · show 1 * 2 ^ bits % 2 ^ w = 2 ^ bits
              rw [Nat.one_mul, Nat.mod_eq_of_lt (Nat.pow_lt_pow_right (by decide) hb)]
        · exact absurd h (by simp)
      · exact absurd h (by simp)
    · -- `bitLen q = 0`: then `bits = 0`
      have hb0 : bits = 0 := by omega
      subst hb0
      rw [hsub] at h
      simp [shrC] at h
  · exact absurd h (by simp)

/-- Numbers of digits: `len` digits of `bits` bits cover every value below `q`, and the top power of
the base is below `q`. -/
theorem len_bounds {w q bits : Nat} (hq : q < 2 ^ w) (hq2 : 2 ≤ q) {B : Basis}
    (h : Basis.new w q bits = some B) :
    q ≤ 2 ^ (bits * B.decomposeLen) ∧ 1 ≤ B.decomposeLen ∧
      2 ^ (bits * (B.decomposeLen - 1)) < q := by
  obtain ⟨h1, _, _, _, _, _, hle, hlen⟩ := new_basis hq h
  have hbl : bitLen q = Nat.log2 q + 1 := by simp [bitLen, show q ≠ 0 by omega]
  have hlo : 2 ^ Nat.log2 q ≤ q := Nat.log2_self_le (by omega)
  have hhi : q < 2 ^ (Nat.log2 q + 1) := Nat.lt_log2_self
  have hl1 : 1 ≤ Nat.log2 q := by
    by_contra hc
    rw [show Nat.log2 q = 0 by omega] at hhi
    omega
  set len := B.decomposeLen
  -- `mb` is the number of bits that must be covered
  obtain ⟨mb, hmb, hmb1, hcov, htop⟩ : ∃ mb, len = (mb + bits - 1) / bits ∧ 1 ≤ mb ∧ q ≤ 2 ^ mb ∧
      2 ^ (mb - 1) < q := by
    by_cases hp : isPow2 q = true
    · rw [if_pos hp] at hlen
      refine ⟨bitLen q - 1, hlen, by omega, ?_, ?_⟩
      · rw [hbl, Nat.add_sub_cancel]
        unfold isPow2 at hp
        simp only [Bool.and_eq_true, bne_iff_ne, beq_iff_eq] at hp
        omega
      · rw [hbl, Nat.add_sub_cancel]
        exact Nat.lt_of_lt_of_le (Nat.pow_lt_pow_right (by decide) (by omega)) hlo
    · rw [if_neg hp] at hlen
      refine ⟨bitLen q, hlen, by omega, ?_, ?_⟩
      · rw [hbl]; omega
      · rw [hbl, Nat.add_sub_cancel]
        refine lt_of_le_of_ne hlo fun he => hp ?_
        unfold isPow2
        simp only [Bool.and_eq_true, bne_iff_ne, beq_iff_eq]
        exact ⟨by omega, he⟩
  have hb0 : 0 < bits := by omega
  have hd := Nat.div_add_mod (mb + bits - 1) bits
  have hm := Nat.mod_lt (mb + bits - 1) hb0
  rw [← hmb] at hd
  have hlen1 : 1 ≤ len := by
    rw [hmb, Nat.one_le_div_iff hb0]; omega
  have hge : mb ≤ bits * len := by omega
  have hlt : bits * (len - 1) ≤ mb - 1 := by
    have : bits * (len - 1) + bits = bits * len := by
      rw [Nat.mul_sub, Nat.mul_one]
      have : bits * 1 ≤ bits * len := Nat.mul_le_mul_left _ hlen1
      omega
    omega
  exact ⟨Nat.le_trans hcov (Nat.pow_le_pow_right (by decide) hge), hlen1,
    Nat.lt_of_le_of_lt (Nat.pow_le_pow_right (by decide) hlt) htop⟩

/-- The digits of `x`, least significant first. -/
def digits (bits : Nat) : Nat → Nat → List Nat
  | 0, _ => []
  | k + 1, x => x % 2 ^ bits :: digits bits k (x / 2 ^ bits)

theorem digits_length (bits : Nat) : ∀ k x, (digits bits k x).length = k
  | 0, _ => rfl
  | k + 1, x => by simp [digits, digits_length bits k]

theorem digits_lt (bits : Nat) : ∀ k x, ∀ d ∈ digits bits k x, d < 2 ^ bits
  | 0, _ => by simp [digits]
  | k + 1, x => by
    intro d hd
    simp only [digits, List.mem_cons] at hd
    rcases hd with rfl | hd
    · exact Nat.mod_lt _ (Nat.two_pow_pos _)
    · exact digits_lt bits k _ d hd

theorem digits_zero (bits : Nat) : ∀ k, digits bits k 0 = List.replicate k 0
  | 0 => rfl
  | k + 1 => by simp [digits, digits_zero bits k, List.replicate_succ]

theorem digits_value (bits : Nat) : ∀ k x, x < 2 ^ (bits * k) → wordsValue bits (digits bits k x) = x
  | 0, x => by
    intro h
    simp only [Nat.mul_zero, pow_zero] at h
    simp only [digits, wordsValue]
    omega
  | k + 1, x => by
    intro h
    simp only [digits, wordsValue]
    rw [digits_value bits k, Nat.mod_add_div]
    rw [Nat.mul_succ, Nat.pow_add] at h
    rw [Nat.div_lt_iff_lt_mul (Nat.two_pow_pos _)]
    exact h

theorem and_mask' (x bits : Nat) : x &&& (2 ^ bits - 1) = x % 2 ^ bits := Nat.and_two_pow_sub_one_eq_mod x bits

/-- The writing loop puts the digits into the slots until the rest is zero. -/
theorem writeDigits_eq {w bits : Nat} (hb : bits < w) : ∀ (dest : List Nat) (x : Nat),
    (∀ d ∈ dest, d = 0) →
    Basis.writeDigits w (2 ^ bits - 1) bits x dest = some (digits bits dest.length x)
  | [], x, _ => rfl
  | v :: vs, x, h => by
    unfold Basis.writeDigits
    have hv : v = 0 := h v (by simp)
    have hvs : ∀ d ∈ vs, d = 0 := fun d hd => h d (by simp [hd])
    split
    · next h0 =>
      subst h0
      rw [digits_zero]
      congr 1
      exact List.eq_replicate_of_mem h
    · simp only [shrC, hb, if_true, Option.bind_eq_bind, Option.bind_some,
        writeDigits_eq hb vs _ hvs, and_mask', List.length_cons, digits]
      rfl

/-- C20: for every basis accepted by `Basis::new` and every element below the modulus, `decompose`
returns `decompose_len` digits, each below `2^bits`, whose base-`2^bits` value is the element. -/
theorem C20_decompose (w q bits x : Nat) (hq : q < 2 ^ w) (hq2 : 2 ≤ q) (B : Basis)
    (h : Basis.new w q bits = some B) (hx : x < q) :
    ∃ ds, Basis.decompose w B x = some ds ∧ ds.length = B.decomposeLen ∧
      (∀ d ∈ ds, d < 2 ^ bits) ∧ wordsValue bits ds = x := by
  obtain ⟨_, _, hbits, hmask, hw, _, _, _⟩ := new_basis hq h
  have hlen := len_bounds hq hq2 h
  refine ⟨digits bits B.decomposeLen x, ?_, digits_length _ _ _, digits_lt _ _ _,
    digits_value _ _ _ (by omega)⟩
  unfold Basis.decompose
  rw [hmask, hbits, writeDigits_eq hw _ _ (fun d hd => List.eq_of_mem_replicate hd),
    List.length_replicate]

/-- C20: taking the least significant digit `decompose_len` times gives the same digits. -/
theorem C20_stream (w q bits x : Nat) (hq : q < 2 ^ w) (B : Basis)
    (h : Basis.new w q bits = some B) :
    Basis.stream w B.mask B.bits B.decomposeLen x = Basis.decompose w B x := by
  obtain ⟨_, _, hbits, hmask, hw, _, _, _⟩ := new_basis hq h
  unfold Basis.decompose
  rw [hmask, hbits, writeDigits_eq hw _ _ (fun d hd => List.eq_of_mem_replicate hd),
    List.length_replicate]
  generalize B.decomposeLen = k
  induction k generalizing x with
  | zero => rfl
  | succ k ih =>
    simp only [Basis.stream, Basis.decomposeLsb, shrC, hw, if_true, Option.bind_eq_bind,
      Option.bind_some, ih, and_mask', digits]
    rfl

/-- C20: the powers `2^(bits*j)` for `j < decompose_len`, used for keys, are below the modulus. -/
theorem C20_powers_below_modulus (w q bits : Nat) (hq : q < 2 ^ w) (hq2 : 2 ≤ q) (B : Basis)
    (h : Basis.new w q bits = some B) (j : Nat) (hj : j < B.decomposeLen) : 2 ^ (bits * j) < q := by
  have hlen := len_bounds hq hq2 h
  exact Nat.lt_of_le_of_lt (Nat.pow_le_pow_right (by decide)
    (Nat.mul_le_mul_left _ (by omega))) hlen.2.2

/-- C20: `Basis::new` accepts exactly the sizes from 1 to the bit length of the modulus (below the
word size). -/
theorem C20_new_accepts (w q bits : Nat) (hq : q < 2 ^ w) (hq0 : q ≠ 0) :
    (Basis.new w q bits).isSome ↔ 1 ≤ bits ∧ bits ≤ bitLen q ∧ bits < w := by
  constructor
  · intro h
    obtain ⟨B, hB⟩ := Option.isSome_iff_exists.1 h
    obtain ⟨h1, _, _, _, h5, _, h7, _⟩ := new_basis hq hB
    exact ⟨h1, h7, h5⟩
  · rintro ⟨h1, h2, h3⟩
    have hbl : bitLen q ≤ w := by
      unfold bitLen
      rw [if_neg hq0]
      have := (Nat.log2_lt hq0).2 hq; omega
    have hmb : w - leadingZeros w q = bitLen q := by unfold leadingZeros; omega
    unfold Basis.new
    simp only [hmb]
    rw [if_pos h2]
    have hmod : Basis.coverBits q (bitLen q) =
        some (if isPow2 q then bitLen q - 1 else bitLen q) := by
      unfold Basis.coverBits
      split
      · simp [subC, show 1 ≤ bitLen q by omega]
      · rfl
    rw [hmod]
    simp [subC, shrC, shlC, show bits ≤ w by omega, show w - bits < w by omega, h3,
      show bits ≠ 0 by omega]

/-- C21, what holds: on a zeroed destination of `decompose_len` slots, `decompose_at` writes what
`decompose` returns. Missing: a destination with other contents (`C21_stale_digits`). -/
theorem C21_decompose_at_partial (w : Nat) (B : Basis) (x : Nat) (dest : List Nat)
    (hlen : dest.length = B.decomposeLen) (h0 : ∀ d ∈ dest, d = 0) :
    Basis.decomposeAt w B x dest = Basis.decompose w B x := by
  unfold Basis.decomposeAt Basis.decompose
  rw [List.eq_replicate_of_mem h0, hlen]

/-- C21, what holds for any destination: when the value needs all the digits (it is at least
`2^(bits*(decompose_len-1))`), the old contents do not matter. -/
theorem C21_decompose_at_large_partial (w q bits x : Nat) (hq : q < 2 ^ w) (B : Basis)
    (h : Basis.new w q bits = some B) (dest : List Nat) (hlen : dest.length = B.decomposeLen)
    (hx : 2 ^ (bits * (B.decomposeLen - 1)) ≤ x) :
    Basis.decomposeAt w B x dest = Basis.decompose w B x := by
  obtain ⟨_, _, hbits, hmask, hw, _, _, _⟩ := new_basis hq h
  unfold Basis.decomposeAt Basis.decompose
  rw [hmask, hbits, writeDigits_eq hw _ _ (fun d hd => List.eq_of_mem_replicate hd),
    List.length_replicate, ← hlen]
  rw [← hlen] at hx
  clear hlen
  induction dest generalizing x with
  | nil => rfl
  | cons v vs ih =>
    have hx0 : x ≠ 0 := by have := Nat.two_pow_pos (bits * ((v :: vs).length - 1)); omega
    unfold Basis.writeDigits
    rw [if_neg hx0]
    simp only [shrC, hw, if_true, Option.bind_eq_bind, Option.bind_some, and_mask',
      List.length_cons, digits]
    rcases vs with _ | ⟨v', vs⟩
    · rfl
    · rw [ih]
      · rfl
      · simp only [List.length_cons, Nat.add_sub_cancel] at hx ⊢
        rw [Nat.le_div_iff_mul_le (Nat.two_pow_pos _), ← Nat.pow_add]
        calc 2 ^ (bits * vs.length + bits) = 2 ^ (bits * (vs.length + 1)) := by ring_nf
          _ ≤ x := hx

/-- C21 is false of the code: decomposing 1 modulo 13 in base 2 into a destination that held ones
leaves the three higher digits at one, while `decompose` returns `[1, 0, 0, 0]`. -/
theorem C21_stale_digits : ∃ B, Basis.new 8 13 1 = some B ∧
    Basis.decompose 8 B 1 = some [1, 0, 0, 0] ∧
    Basis.decomposeAt 8 B 1 [1, 1, 1, 1] = some [1, 1, 1, 1] :=
  ⟨⟨2, 4, 1, 1⟩, by decide +kernel, by decide +kernel, by decide +kernel⟩

-- a non-power-of-two and a power-of-two modulus, with a length that is not a multiple
example : ∃ B, Basis.new 16 1000 3 = some B ∧ B.decomposeLen = 4 ∧
    Basis.decompose 16 B 999 = some [7, 4, 7, 1] := ⟨⟨8, 4, 7, 3⟩, by decide +kernel⟩
example : ∃ B, Basis.new 16 1024 5 = some B ∧ B.decomposeLen = 2 ∧
    Basis.decompose 16 B 1023 = some [31, 31] := ⟨⟨32, 2, 31, 5⟩, by decide +kernel⟩
example : Basis.new 16 1000 0 = none ∧ Basis.new 16 1000 11 = none := by decide +kernel

end Verif.Props
