import Verif.Model.BabyBear
import Verif.Lemmas.Exp
import Verif.Lemmas.PowMod
import Verif.Spec
import Mathlib.FieldTheory.Finite.Basic

namespace Verif.BabyBear
open Spec

instance : Fact (Nat.Prime P) := ⟨prime_babyBear⟩

theorem monty_core {x t : Nat} (hx : x < 2013265921 * 4294967296) (ht : t < 4294967296)
    (k : Nat) (hk : x * 2281701377 = 4294967296 * k + t) :
    ∃ d : Int, (x : Int) - t * 2013265921 = 4294967296 * d ∧ d < 2013265921 ∧ -2013265921 < d :=
  ⟨k * 2013265921 - x * 1069547521, by omega, by omega, by omega⟩

theorem monty_core2 {x u : Nat} (d : Int) (hd : (x : Int) - u = 4294967296 * d)
    (h1 : d < 2013265921) (h2 : -2013265921 < d) (hx : x < 18446744073709551616) :
    ∃ r, wrappingAdd 32 (trunc 32 ((overflowingSub 64 x u).1 / 2 ^ 32))
      (if (overflowingSub 64 x u).2 then 2013265921 else 0) = r ∧ r < 2013265921 ∧
      ((r : Int) = d ∨ (r : Int) = d + 2013265921) := by
  refine ⟨_, rfl, ?_⟩
  by_cases h : x < u
  · obtain ⟨e, rfl⟩ : ∃ e : Nat, d = -(e : Int) := ⟨d.natAbs, by omega⟩
    have e1 : (overflowingSub 64 x u).1 = 4294967296 * (4294967296 - e) := by
      simp only [overflowingSub]
      rw [Nat.mod_eq_of_lt (by omega)]; omega
    have e2 : (overflowingSub 64 x u).2 = true := by simp [overflowingSub, h]
    rw [e1, e2]
    simp only [trunc, wrappingAdd, if_true]
    rw [show 4294967296 * (4294967296 - e) / 2 ^ 32 = 4294967296 - e by omega]
    omega
  · obtain ⟨e, rfl⟩ : ∃ e : Nat, d = (e : Int) := ⟨d.natAbs, by omega⟩
    have e1 : (overflowingSub 64 x u).1 = 4294967296 * e := by
      simp only [overflowingSub]
      rw [show x + 2 ^ 64 - u = 4294967296 * e + 2 ^ 64 by omega, Nat.add_mod_right,
        Nat.mod_eq_of_lt (by omega)]
    have e2 : (overflowingSub 64 x u).2 = false := by simp [overflowingSub]; omega
    rw [e1, e2]
    simp only [trunc, wrappingAdd]
    rw [show 4294967296 * e / 2 ^ 32 = e by omega]
    simp
    omega

theorem montyReduce_eq {x : Nat} (hx : x < P * 2 ^ 32) :
    ∃ r, montyReduce x = some r ∧ r < P ∧ r * 2 ^ 32 % P = x % P := by
  have ht : wrappingMul 64 x MU &&& MASK = x * MU % 2 ^ 32 := by
    rw [MASK, Nat.and_two_pow_sub_one_eq_mod, wrappingMul]
    exact Nat.mod_mod_of_dvd _ (by decide)
  have htl : x * MU % 2 ^ 32 < 2 ^ 32 := Nat.mod_lt _ (by decide)
  have hm : mulC 64 (x * MU % 2 ^ 32) P = some (x * MU % 2 ^ 32 * P) :=
    mulC_eq (by simp only [P] at *; omega)
  have hdm := (Nat.div_add_mod (x * MU) (2 ^ 32)).symm
  unfold montyReduce
  simp only [ht, hm, Option.bind_eq_bind, Option.bind_some]
  generalize x * MU % 2 ^ 32 = t at *
  generalize x * MU / 2 ^ 32 = k at *
  simp only [P, MU] at *
  obtain ⟨d, h1, h2, h3⟩ := monty_core hx htl k hdm
  obtain ⟨r, e, h4, h5⟩ := monty_core2 d (u := t * 2013265921) (by push_cast; exact h1) h2 h3
    (by omega)
  refine ⟨r, by rw [← e]; rfl, h4, ?_⟩
  clear hdm hm ht e
  omega

/-- The inverse of `2^32` modulo `P`. -/
noncomputable def RI : ZMod P := ((2 ^ 32 : Nat) : ZMod P)⁻¹

theorem R_mul_RI : ((2 ^ 32 : Nat) : ZMod P) * RI = 1 := by
  apply mul_inv_cancel₀
  rw [Ne, ZMod.natCast_eq_zero_iff]
  decide

theorem aux_mul {R : Type} [CommRing R] (a b r : R) : a * b * r * r = a * r * (b * r) := by ring
theorem aux_rot {R : Type} [CommRing R] (s p a : R) : s + (p + a) = p + s + a := by ring
theorem aux_sub {R : Type} [CommRing R] (a b r : R) : (a + (0 - b)) * r = a * r - b * r := by ring

/-- The field element a Montgomery word stands for. -/
noncomputable def den (a : Nat) : ZMod P := (a : ZMod P) * RI

theorem montyReduce_den {x : Nat} (hx : x < P * 2 ^ 32) :
    ∃ r, montyReduce x = some r ∧ r < P ∧ (r : ZMod P) = (x : ZMod P) * RI := by
  obtain ⟨r, e, h1, h2⟩ := montyReduce_eq hx
  refine ⟨r, e, h1, ?_⟩
  have : ((r * 2 ^ 32 : Nat) : ZMod P) = (x : ZMod P) := by
    rw [ZMod.natCast_eq_natCast_iff']; exact h2
  rw [← this, Nat.cast_mul, mul_assoc, R_mul_RI, mul_one]

theorem den_inj {a b : Nat} (ha : a < P) (hb : b < P) (h : den a = den b) : a = b := by
  have h' : (a : ZMod P) = b := by
    have := congrArg (· * ((2 ^ 32 : Nat) : ZMod P)) h
    simpa only [den, mul_assoc, mul_comm RI, R_mul_RI, mul_one] using this
  rw [ZMod.natCast_eq_natCast_iff', Nat.mod_eq_of_lt ha, Nat.mod_eq_of_lt hb] at h'
  exact h'

theorem fromMonty_den {a : Nat} (ha : a < 2 ^ 32) :
    ∃ r, fromMonty a = some r ∧ r < P ∧ (r : ZMod P) = den a :=
  montyReduce_den (by simp only [P]; omega)

/-- `fromMonty` on a canonical word is the least residue of its denotation. -/
theorem fromMonty_eq {a : Nat} (ha : a < 2 ^ 32) : fromMonty a = some (den a).val := by
  obtain ⟨r, e, h1, h2⟩ := fromMonty_den ha
  rw [e, ← h2, ZMod.val_natCast, Nat.mod_eq_of_lt h1]

theorem toMonty_eq {x : Nat} (hx : x < 2 ^ 32) : toMonty x < P ∧ den (toMonty x) = (x : ZMod P) := by
  have h : toMonty x = x * 2 ^ 32 % P := by
    rw [toMonty, trunc, Nat.mod_eq_of_lt (a := x * 2 ^ 32) (by omega),
      Nat.mod_eq_of_lt (Nat.lt_trans (Nat.mod_lt _ (by decide)) (by decide : P < 2 ^ 32))]
  rw [h]
  refine ⟨Nat.mod_lt _ (by decide), ?_⟩
  rw [den, ZMod.natCast_mod, Nat.cast_mul, mul_assoc, R_mul_RI, mul_one]

theorem toMonty64_eq {x : Nat} (hx : x < 2 ^ 64) :
    toMonty64 x < P ∧ den (toMonty64 x) = (x : ZMod P) := by
  have h : toMonty64 x = x * 2 ^ 32 % P := by
    rw [toMonty64, trunc, Nat.mod_eq_of_lt (a := x * 2 ^ 32) (by omega),
      Nat.mod_eq_of_lt (Nat.lt_trans (Nat.mod_lt _ (by decide)) (by decide : P < 2 ^ 32))]
  rw [h]
  refine ⟨Nat.mod_lt _ (by decide), ?_⟩
  rw [den, ZMod.natCast_mod, Nat.cast_mul, mul_assoc, R_mul_RI, mul_one]

theorem mulReduce_den {a b : Nat} (ha : a < P) (hb : b < P) :
    ∃ c, mulReduce a b = some c ∧ c < P ∧ den c = den a * den b := by
  have h1 : a * b < P * P := Nat.mul_lt_mul'' ha hb
  have h1' : a * b < P * 2 ^ 32 := Nat.lt_trans h1 (by decide)
  have h2' : a * b < 2 ^ 64 := Nat.lt_trans h1 (by decide)
  obtain ⟨r, e, h2, h3⟩ := montyReduce_den (x := a * b) h1'
  refine ⟨r, ?_, h2, ?_⟩
  · exact (bind_of_eq (mulC_eq h2') montyReduce).trans e
  · have := aux_mul (a : ZMod P) (b : ZMod P) RI
    rw [den, h3, Nat.cast_mul]; exact this

theorem refines_mul : Refines (fun x => x < P) den mulReduce := fun _ _ ha hb => mulReduce_den ha hb

theorem addReduce_den {a b : Nat} (ha : a < P) (hb : b < P) :
    ∃ c, addReduce a b = some c ∧ c < P ∧ den c = den a + den b := by
  have e : addReduce a b = some ((a + b) % P) := by
    unfold addReduce
    rw [addC_eq (by simp only [P] at *; omega)]
    simp only [Option.bind_eq_bind, Option.bind_some]
    congr 1
    simp only [P, overflowingSub, decide_eq_true_eq] at *
    split <;> omega
  refine ⟨_, e, Nat.mod_lt _ (by decide), ?_⟩
  simp only [den, ZMod.natCast_mod, Nat.cast_add, add_mul]

theorem subReduce_den {a b : Nat} (ha : a < P) (hb : b < P) :
    subReduce a b < P ∧ den (subReduce a b) = den a - den b := by
  have e : subReduce a b = (a + (P - b)) % P := by
    simp only [subReduce, P, overflowingSub, wrappingAdd, decide_eq_true_eq] at *
    split <;> omega
  rw [e]
  refine ⟨Nat.mod_lt _ (by decide), ?_⟩
  simp only [den, ZMod.natCast_mod]
  rw [Nat.cast_add, Nat.cast_sub hb.le, ZMod.natCast_self]
  exact aux_sub _ _ _

theorem den_eq_zero {a : Nat} (ha : a < P) : den a = 0 ↔ a = 0 := by
  constructor
  · intro h
    exact den_inj ha (by decide) (by rw [h]; simp [den])
  · rintro rfl; simp [den]

theorem den_ne_zero_of {a : Nat} (ha : a < P) (h : a ≠ 0) : den a ≠ 0 :=
  fun h0 => h ((den_eq_zero ha).1 h0)

theorem tryInverse_den {a : Nat} (ha : a < P) (h0 : a ≠ 0) :
    ∃ c, tryInverse a = some (some c) ∧ c < P ∧ den c = (den a)⁻¹ := by
  obtain ⟨x1, e1, l1, d1⟩ := sqTimes_spec refines_mul 8 a ha
  obtain ⟨x2, e2, l2, d2⟩ := refines_mul x1 a l1 ha
  obtain ⟨x3, e3, l3, d3⟩ := sqTimes_spec refines_mul 8 x1 l1
  obtain ⟨x4, e4, l4, d4⟩ := refines_mul x3 x2 l3 l2
  obtain ⟨x5, e5, l5, d5⟩ := sqTimes_spec refines_mul 3 x4 l4
  obtain ⟨x6, e6, l6, d6⟩ := sqTimes_spec refines_mul 5 x5 l5
  obtain ⟨x7, e7, l7, d7⟩ := refines_mul x6 a l6 ha
  obtain ⟨x8, e8, l8, d8⟩ := refines_mul x7 x5 l7 l5
  obtain ⟨x9, e9, l9, d9⟩ := refines_mul x7 x7 l7 l7
  obtain ⟨x10, e10, l10, d10⟩ := refines_mul x9 x8 l9 l8
  obtain ⟨x11, e11, l11, d11⟩ := refines_mul x9 x9 l9 l9
  obtain ⟨x12, e12, l12, d12⟩ := refines_mul x11 x10 l11 l10
  obtain ⟨x13, e13, l13, d13⟩ := sqTimes_spec refines_mul 4 x12 l12
  obtain ⟨x14, e14, l14, d14⟩ := refines_mul x13 x12 l13 l12
  refine ⟨x14, ?_, l14, ?_⟩
  · simp only [tryInverse, if_neg h0, e1, e2, e3, e4, e5, e6, e7, e8, e9, e10, e11, e12, e13, e14,
      Option.bind_eq_bind, Option.bind_some]
    rfl
  · have hz := den_ne_zero_of ha h0
    have hpow : den x14 = den a ^ (P - 2) := by
      rw [d14, d13, d12, d11, d10, d9, d8, d7, d6, d5, d4, d3, d2, d1]
      simp only [← pow_mul, ← pow_add, ← pow_succ]
      exact congrArg (den a ^ ·) (by decide)
    have hf : den a ^ (P - 1) = 1 := ZMod.pow_card_sub_one_eq_one hz
    rw [hpow]
    apply eq_inv_of_mul_eq_one_left
    rw [← pow_succ]
    exact hf

theorem dot_fold : ∀ (a b : List Nat) (acc : Nat), a.length = b.length →
    (∀ x ∈ a, x < P) → (∀ x ∈ b, x < P) → acc < P →
    ∃ c, (a.zip b).foldlM (fun acc xy => do
      let p ← mulReduce xy.1 xy.2
      addReduce p acc) acc = some c ∧ c < P ∧
      den c = ((a.zip b).map (fun xy => den xy.1 * den xy.2)).sum + den acc
  | [], [], acc, _, _, _, h => ⟨acc, rfl, h, by simp⟩
  | x :: a, y :: b, acc, hl, ha, hb, h => by
    obtain ⟨p, e1, l1, d1⟩ := mulReduce_den (ha x (by simp)) (hb y (by simp))
    obtain ⟨s, e2, l2, d2⟩ := addReduce_den l1 h
    obtain ⟨c, e3, l3, d3⟩ := dot_fold a b s (by simpa using hl)
      (fun z hz => ha z (by simp [hz])) (fun z hz => hb z (by simp [hz])) l2
    refine ⟨c, ?_, l3, ?_⟩
    · simp only [List.zip_cons_cons, List.foldlM_cons, e1, e2, Option.bind_eq_bind,
        Option.bind_some]
      exact e3
    · rw [d3, d2, d1]; simp only [List.zip_cons_cons, List.map_cons, List.sum_cons]; exact aux_rot _ _ _

end Verif.BabyBear
