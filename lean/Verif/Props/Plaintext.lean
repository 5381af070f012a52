import Verif.Model.Plaintext
import Verif.Lemmas.Poly
import Verif.SpecLWE

/-! # C30: message encoding -/

namespace Verif.Props
open Spec Plain

theorem two_pow_lt {a b : Nat} (h : a < b) : 2 ^ a < 2 ^ b := Nat.pow_lt_pow_right (by omega) h

/-- C30: for powers of two `t ≤ q` (as `u64`, `q` a ciphertext word), `encode` returns `m q/t` for
`m < t` and panics for every other message. -/
theorem C30_encode (w i k m : Nat) (hik : i ≤ k) (hkw : k < w) (hw : w ≤ 64) :
    Plain.encode w m (2 ^ i) (2 ^ k) =
      if m < 2 ^ i then some (m * (2 ^ k / 2 ^ i)) else none := by
  unfold Plain.encode
  rw [if_pos (by rw [Bool.and_eq_true]; exact ⟨isPow2_iff.2 ⟨k, rfl⟩, isPow2_iff.2 ⟨i, rfl⟩⟩)]
  split
  · next hm =>
    rw [Nat.pow_div hik (by decide), trailingZeros_two_pow (by omega)]
    have h1 : m * 2 ^ (k - i) < 2 ^ k := by
      calc m * 2 ^ (k - i) < 2 ^ i * 2 ^ (k - i) := Nat.mul_lt_mul_of_pos_right hm (Nat.two_pow_pos _)
        _ = 2 ^ k := by rw [← pow_add]; congr 1; omega
    have h2 := two_pow_lt hkw
    have h3 : 2 ^ w ≤ 2 ^ 64 := Nat.pow_le_pow_right (by omega) hw
    unfold shlC
    rw [if_pos (by omega)]
    simp only [Option.bind_eq_bind, Option.bind_some, Option.pure_def, Option.some.injEq]
    rw [trunc, Nat.mod_eq_of_lt (a := m * 2 ^ (k - i)) (by omega), Nat.mod_eq_of_lt (by omega)]
  · rfl

/-- C30: for powers of two `t < q`, `decode` rounds `c t / q` to the nearest integer (halves up)
modulo `t`, for every word `c`; so its result is below `t` and it panics only if the result does not
fit the message type. -/
theorem C30_decode_rounds (i k c : Nat) (hik : i < k) (hk : k < 64) (hc : c < 2 ^ 64) :
    Plain.decodeRaw c (2 ^ i) (2 ^ k) =
      some ((2 * c * 2 ^ i + 2 ^ k) / (2 * 2 ^ k) % 2 ^ i) := by
  unfold Plain.decodeRaw
  rw [if_pos (by rw [Bool.and_eq_true]; exact ⟨isPow2_iff.2 ⟨k, rfl⟩, isPow2_iff.2 ⟨i, rfl⟩⟩),
    Nat.pow_div hik.le (by decide), trailingZeros_two_pow (by omega)]
  obtain ⟨s, hs⟩ : ∃ s, k - i = s + 1 := ⟨k - i - 1, by omega⟩
  have hsk : s < 64 := by omega
  have hle : c / 2 ^ s ≤ c := Nat.div_le_self _ _
  rw [hs, mbind (subC_eq (show 1 ≤ s + 1 by omega)), Nat.add_sub_cancel]
  have e1 : shrC 64 c s = some (c / 2 ^ s) := by unfold shrC; rw [if_pos hsk]
  have e2 : shrC 64 (c / 2 ^ s) 1 = some (c / 2 ^ s / 2) := by
    unfold shrC; rw [if_pos (by decide)]
  rw [mbind e1, mbind e2]
  have e3 : c / 2 ^ s &&& 1 = c / 2 ^ s % 2 := Nat.and_one_is_mod _
  rw [e3, mbind (addC_eq (by
    have : (2 : Nat) ≤ 2 ^ 64 := by norm_num
    generalize (2 : Nat) ^ 64 = W at *
    omega)),
    mbind (subC_eq (Nat.two_pow_pos i))]
  simp only [Option.pure_def, Option.some.injEq, PowOf2.and_mask]
  congr 1
  have e4 : c / 2 ^ s / 2 + c / 2 ^ s % 2 = (c / 2 ^ s + 1) / 2 := by omega
  have hki : k = i + (s + 1) := by omega
  rw [e4, show c / 2 ^ s + 1 = (c + 2 ^ s) / 2 ^ s by
    rw [Nat.add_div_right _ (Nat.two_pow_pos s)], Nat.div_div_eq_div_mul]
  subst hki
  rw [show 2 * c * 2 ^ i + 2 ^ (i + (s + 1)) = (c + 2 ^ s) * (2 ^ i * 2) by ring,
    show 2 * 2 ^ (i + (s + 1)) = 2 ^ s * 2 * (2 ^ i * 2) by ring,
    Nat.mul_div_mul_right _ _ (by positivity)]

/-- The values a message type can hold. -/
def Fits : Msg → Nat → Prop
  | .bool, m => m < 2
  | .uint bits, m => m < 2 ^ bits

theorem shrink_eq (msg : Msg) (m : Nat) :
    (Fits msg m → Plain.shrink msg m = some m) ∧ (¬ Fits msg m → Plain.shrink msg m = none) := by
  cases msg with
  | bool =>
    simp only [Fits, Plain.shrink]
    constructor
    · intro h; split
      · next h0 => rw [h0]
      · rw [if_pos (by omega)]; congr 1; omega
    · intro h; rw [if_neg (by omega), if_neg (by omega)]
  | uint bits =>
    have := Nat.two_pow_pos bits
    simp only [Fits, Plain.shrink]
    constructor
    · intro h; rw [if_neg (by omega)]
    · intro h; rw [if_pos (by omega)]

/-- C30: decoding an encoded message with any noise in `[-q/(2t), q/(2t))`, added modulo `q`, gives the
message back. The message is returned by `decode` for a type that holds it; otherwise `decode`
panics. -/
theorem C30_round_trip (i k m c : Nat) (z : Int) (hik : i < k) (hk : k < 64)
    (hm : m < 2 ^ i) (hc : c < 2 ^ k) (hz : NoiseInRange (2 ^ i) (2 ^ k) z)
    (h : (c : ZMod (2 ^ k)) = (m * (2 ^ k / 2 ^ i) : Nat) + (z : ZMod (2 ^ k))) (msg : Msg) :
    Plain.decodeRaw c (2 ^ i) (2 ^ k) = some m ∧
    (Fits msg m → Plain.decode msg c (2 ^ i) (2 ^ k) = some m) ∧
    (¬ Fits msg m → Plain.decode msg c (2 ^ i) (2 ^ k) = none) := by
  have hcw : c < 2 ^ 64 := lt_trans hc (two_pow_lt hk)
  have main : Plain.decodeRaw c (2 ^ i) (2 ^ k) = some m := by
    rw [C30_decode_rounds i k c hik hk hcw]
    congr 1
    obtain ⟨s, rfl⟩ : ∃ s, k = i + (s + 1) := ⟨k - i - 1, by omega⟩
    rw [Nat.pow_div (by omega) (by decide), show i + (s + 1) - i = s + 1 by omega] at h
    unfold NoiseInRange at hz
    rw [show (2 * c * 2 ^ i + 2 ^ (i + (s + 1))) = (c + 2 ^ s) * (2 ^ i * 2) by ring,
      show 2 * 2 ^ (i + (s + 1)) = 2 ^ (s + 1) * (2 ^ i * 2) by ring,
      Nat.mul_div_mul_right _ _ (by positivity)]
    -- the congruence over the integers
    have h' : ((c : Int) : ZMod (2 ^ (i + (s + 1)))) =
        ((m * 2 ^ (s + 1) + z : Int) : ZMod (2 ^ (i + (s + 1)))) := by
      push_cast
      push_cast at h
      exact h
    rw [ZMod.intCast_eq_intCast_iff_dvd_sub] at h'
    obtain ⟨j, hj⟩ := h'
    have hT : (0 : Int) < 2 ^ i := by positivity
    have hS : (0 : Int) < 2 ^ s := by positivity
    push_cast at hj hz
    rw [show (2 : Int) ^ (i + (s + 1)) = 2 ^ i * (2 ^ s * 2) by ring] at hj hz
    have hz1 : -2 ^ s ≤ z := by
      have : 2 * 2 ^ i * (-2 ^ s) ≤ 2 * 2 ^ i * z := by linarith [hz.1]
      exact le_of_mul_le_mul_left this (by positivity)
    have hz2 : z < 2 ^ s := by
      have : 2 * 2 ^ i * z < 2 * 2 ^ i * 2 ^ s := by linarith [hz.2]
      exact lt_of_mul_lt_mul_left this (by positivity)
    have key : (((c + 2 ^ s) / 2 ^ (s + 1) : Nat) : Int) = m - 2 ^ i * j := by
      push_cast
      rw [Int.ediv_eq_iff_of_pos (by positivity)]
      rw [pow_succ]
      rw [pow_succ] at hj
      constructor <;> nlinarith
    have : (((c + 2 ^ s) / 2 ^ (s + 1) % 2 ^ i : Nat) : Int) = m := by
      rw [Int.natCast_mod, key]
      push_cast
      rw [Int.sub_mul_emod_self_left]
      exact Int.emod_eq_of_lt (by positivity) (by exact_mod_cast hm)
    exact_mod_cast this
  refine ⟨main, fun hf => ?_, fun hf => ?_⟩
  · unfold Plain.decode; rw [mbind main]; exact (shrink_eq msg m).1 hf
  · unfold Plain.decode; rw [mbind main]; exact (shrink_eq msg m).2 hf

/-- C30 needs `t < q`: for `t = q` every call of `decode` panics (the shift amount underflows). -/
theorem C30_decode_equal_moduli (msg : Msg) (c k : Nat) :
    Plain.decode msg c (2 ^ k) (2 ^ k) = none := by
  unfold Plain.decode Plain.decodeRaw
  rw [if_pos (by rw [Bool.and_eq_true]; exact ⟨isPow2_iff.2 ⟨k, rfl⟩, isPow2_iff.2 ⟨k, rfl⟩⟩),
    Nat.div_self (Nat.two_pow_pos k)]
  have : trailingZeros 64 1 = 0 := by decide
  rw [this]
  rfl

/-- The tolerated interval is exactly right: both ends for `t = 4`, `q = 64`, message 3. -/
example : Plain.encode 8 3 4 64 = some 48 ∧ Plain.encode 8 4 4 64 = none ∧
    Plain.decode (.uint 8) 55 4 64 = some 3 ∧ Plain.decode (.uint 8) 40 4 64 = some 3 ∧
    Plain.decode (.uint 8) 56 4 64 = some 0 ∧ Plain.decode (.uint 8) 39 4 64 = some 2 ∧
    Plain.decode .bool 40 4 64 = none := by decide

example : NoiseInRange 4 64 (-8) ∧ NoiseInRange 4 64 7 ∧ ¬ NoiseInRange 4 64 8 := by
  unfold NoiseInRange; decide

end Verif.Props
