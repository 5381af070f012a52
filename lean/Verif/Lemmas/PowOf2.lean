import Verif.Model.PowOf2
import Verif.Lemmas.Exp
import Verif.Spec

namespace Verif
open Spec

theorem isPow2_iff {x : Nat} : isPow2 x = true ↔ ∃ k, x = 2 ^ k := by
  unfold isPow2
  constructor
  · intro h
    simp at h
    exact ⟨_, h.2.symm⟩
  · rintro ⟨k, rfl⟩
    simp [Nat.log2_two_pow]

theorem isPow2_bitLen {x k : Nat} (h : x = 2 ^ k) : bitLen x = k + 1 := by
  subst h; simp [bitLen, Nat.log2_two_pow]

theorem zmod_two_pow_mod {w k : Nat} (h : k ≤ w) (x : Nat) :
    ((x % 2 ^ w : Nat) : ZMod (2 ^ k)) = (x : ZMod (2 ^ k)) := by
  rw [ZMod.natCast_eq_natCast_iff']
  exact Nat.mod_mod_of_dvd _ (Nat.pow_dvd_pow 2 h)

theorem zmod_two_pow_self {w k : Nat} (h : k ≤ w) : (((2 ^ w : Nat)) : ZMod (2 ^ k)) = 0 := by
  rw [ZMod.natCast_eq_zero_iff]
  exact Nat.pow_dvd_pow 2 h

namespace PowOf2

theorem and_mask (x k : Nat) : x &&& (2 ^ k - 1) = x % 2 ^ k := Nat.and_two_pow_sub_one_eq_mod x k

theorem cast_wrappingMul {w k : Nat} (h : k ≤ w) (a b : Nat) :
    ((wrappingMul w a b : Nat) : ZMod (2 ^ k)) = a * b := by
  simp [wrappingMul, zmod_two_pow_mod h]

theorem cast_wrappingAdd {w k : Nat} (h : k ≤ w) (a b : Nat) :
    ((wrappingAdd w a b : Nat) : ZMod (2 ^ k)) = a + b := by
  simp [wrappingAdd, zmod_two_pow_mod h]

theorem cast_wrappingSub {w k : Nat} (h : k ≤ w) (a b : Nat) (hb : b < 2 ^ w) :
    ((wrappingSub w a b : Nat) : ZMod (2 ^ k)) = a - b := by
  rw [wrappingSub, zmod_two_pow_mod h, Nat.cast_sub (by omega), Nat.cast_add, zmod_two_pow_self h]
  simp

theorem cast_wrappingNeg {w k : Nat} (h : k ≤ w) (a : Nat) (ha : a < 2 ^ w) :
    ((wrappingNeg w a : Nat) : ZMod (2 ^ k)) = -a := by
  rw [wrappingNeg, zmod_two_pow_mod h, Nat.cast_sub (by omega), zmod_two_pow_self h]
  simp

theorem refines_mul {w k : Nat} (h : k ≤ w) :
    Refines (fun x => x < 2 ^ k) (fun x : Nat => (x : ZMod (2 ^ k)))
      (fun x y => some (mulReduce w ⟨2 ^ k - 1⟩ x y)) := by
  intro a b _ _
  refine ⟨_, rfl, ?_, ?_⟩
  · simp only [mulReduce, and_mask]; exact Nat.mod_lt _ (Nat.two_pow_pos k)
  · simp only [mulReduce, and_mask, ZMod.natCast_mod, cast_wrappingMul h]

theorem fold_eq {w k : Nat} (h : k ≤ w) : ∀ (a b : List Nat) (acc : Nat), a.length = b.length →
    (((a.zip b).foldl (fun acc xy => wrappingAdd w (wrappingMul w xy.1 xy.2) acc) acc : Nat)
      : ZMod (2 ^ k)) = dot a b + acc
  | [], [], acc, _ => by simp [dot]
  | x :: a, y :: b, acc, hl => by
    simp only [List.zip_cons_cons, List.foldl_cons]
    rw [fold_eq h a b _ (by simpa using hl), cast_wrappingAdd h, cast_wrappingMul h]
    simp only [dot]; push_cast; ring

end PowOf2
end Verif
