import Verif.Lemmas.PowOf2

/-! # C10: power-of-two modulus (with its parts of C06 and C08) -/

namespace Verif.Props
open Spec PowOf2

/-- C10: the constructor accepts exactly the powers of two above one. -/
theorem C10_powof2_new (v : Nat) :
    PowOf2.new v ≠ none ↔ ∃ k, 1 ≤ k ∧ v = 2 ^ k := by
  unfold PowOf2.new
  constructor
  · intro h
    split at h
    · next hc =>
      obtain ⟨h1, hc⟩ := hc
      obtain ⟨k, rfl⟩ := isPow2_iff.1 hc
      refine ⟨k, ?_, rfl⟩
      by_contra hk
      rw [show k = 0 by omega] at h1; simp at h1
    · exact absurd rfl h
  · rintro ⟨k, hk, rfl⟩
    have : 2 ^ 1 ≤ 2 ^ k := Nat.pow_le_pow_right (by decide) hk
    rw [if_pos ⟨by omega, isPow2_iff.2 ⟨k, rfl⟩⟩]
    simp

/-- C10: the accessor gives the modulus back without overflow. -/
theorem C10_powof2_value (w v : Nat) (hv : v < 2 ^ w) (M : PowOf2) (h : PowOf2.new v = some M) :
    PowOf2.value w M = some v := by
  unfold PowOf2.new at h
  split at h
  · next hc =>
    simp only [Option.some.injEq] at h
    subst h
    have e : v - 1 + 1 = v := by omega
    simp only [PowOf2.value, addC, e, hv, if_true]
  · exact absurd h (by simp)

/-- C10: on arbitrary words (reduced or not), reduction and the four operations return the
canonical representative of the result in `Z/2^k`. -/
theorem C10_powof2_ring_ops (w k a b : Nat) (hkw : k < w) (M : PowOf2)
    (h : PowOf2.new (2 ^ k) = some M) (ha : a < 2 ^ w) (hb : b < 2 ^ w) :
    PowOf2.reduce M a = a % 2 ^ k ∧
    (PowOf2.addReduce w M a b < 2 ^ k ∧
      (PowOf2.addReduce w M a b : ZMod (2 ^ k)) = (a : ZMod (2 ^ k)) + b) ∧
    (PowOf2.subReduce w M a b < 2 ^ k ∧
      (PowOf2.subReduce w M a b : ZMod (2 ^ k)) = (a : ZMod (2 ^ k)) - b) ∧
    (PowOf2.negReduce w M a < 2 ^ k ∧
      (PowOf2.negReduce w M a : ZMod (2 ^ k)) = -(a : ZMod (2 ^ k))) ∧
    (PowOf2.mulReduce w M a b < 2 ^ k ∧
      (PowOf2.mulReduce w M a b : ZMod (2 ^ k)) = (a : ZMod (2 ^ k)) * b) := by
  have hM : M = ⟨2 ^ k - 1⟩ := by
    unfold PowOf2.new at h; split at h <;> simp_all
  subst hM
  have hp := Nat.two_pow_pos k
  simp only [PowOf2.reduce, PowOf2.addReduce, PowOf2.subReduce, PowOf2.negReduce,
    PowOf2.mulReduce, and_mask, ZMod.natCast_mod, cast_wrappingAdd hkw.le,
    cast_wrappingMul hkw.le, cast_wrappingSub hkw.le _ _ hb, cast_wrappingNeg hkw.le _ ha,
    Nat.mod_lt _ hp, and_self]

/-- C10, C06: exponentiation modulo a power of two. -/
theorem C10_powof2_exp (w E k a e : Nat) (hk : 1 ≤ k) (hkw : k < w) (M : PowOf2)
    (h : PowOf2.new (2 ^ k) = some M) (ha : a < 2 ^ k) (he : e < 2 ^ E) (j : Nat) :
    PowOf2.expReduce w E M a e = some (a ^ e % 2 ^ k) ∧
    PowOf2.expPowOf2Reduce w M a j = some (a ^ (2 ^ j) % 2 ^ k) := by
  have hM : M = ⟨2 ^ k - 1⟩ := by
    unfold PowOf2.new at h; split at h <;> simp_all
  subst hM
  have hp : 2 ^ 1 ≤ 2 ^ k := Nat.pow_le_pow_right (by decide) hk
  constructor
  · by_cases h0 : e = 0
    · subst h0
      simp only [PowOf2.expReduce, expReduceWith, if_true, pow_zero]
      rw [Nat.mod_eq_of_lt (by omega)]
    · obtain ⟨c, e1, hc, hφ⟩ := expReduceWith_spec (one := 1)
        (ok := fun x => decide (x ≤ 2 ^ k - 1)) (PowOf2.refines_mul hkw.le)
        (by intro x hx; simp; omega) he h0 a ha
      rw [PowOf2.expReduce, e1]
      congr 1
      exact Barrett.zmod_cast_eq hc (by simpa using hφ)
  · obtain ⟨c, e1, hc, hφ⟩ := sqTimes_spec (PowOf2.refines_mul hkw.le) j a ha
    rw [PowOf2.expPowOf2Reduce, e1]
    congr 1
    exact Barrett.zmod_cast_eq hc (by simpa using hφ)

/-- C10, C08: the dot product modulo a power of two, for every length; slices of different
lengths are rejected. -/
theorem C10_powof2_dot (w k : Nat) (hkw : k < w) (M : PowOf2)
    (h : PowOf2.new (2 ^ k) = some M) (a b : List Nat) :
    PowOf2.dotProduct w M a b =
      if a.length = b.length then some (dot a b % 2 ^ k) else none := by
  have hM : M = ⟨2 ^ k - 1⟩ := by
    unfold PowOf2.new at h; split at h <;> simp_all
  subst hM
  unfold PowOf2.dotProduct
  split
  · next hl =>
    have := PowOf2.fold_eq hkw.le a b 0 hl
    congr 1
    simp only [PowOf2.reduce, and_mask]
    rw [← ZMod.natCast_eq_natCast_iff', this]; simp
  · rfl

example : ∃ M, PowOf2.new (2 ^ 7) = some M ∧ PowOf2.subReduce 8 M 3 5 = 126 ∧
    PowOf2.expReduce 8 64 M 3 20 = some (3 ^ 20 % 2 ^ 7) ∧
    PowOf2.dotProduct 8 M [200, 100, 7] [3, 250, 9] = some ((600 + 25000 + 63) % 128) := by
  exact ⟨⟨127⟩, by decide, by decide, by decide, by decide⟩

end Verif.Props
