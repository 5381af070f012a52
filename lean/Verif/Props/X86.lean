import Verif.Model.X86
import Verif.Props.Word
import Verif.Lemmas.Goldilocks

namespace Verif.Props

/-- C78: the x86 forms of addition with carry and subtraction with borrow return the same word and the same
flag as the portable forms, for all words of every width. -/
theorem C78_carry {w a b : Nat} (ha : a < 2 ^ w) (hb : b < 2 ^ w) (c : Bool) :
    X86.carryingAdd w a b c = carryingAdd w a b c ∧ X86.borrowingSub w a b c = borrowingSub w a b c := by
  have hf : decide (c.toNat ≠ 0) = c := by cases c <;> rfl
  have hn : ∀ o : Bool, (o.toNat != 0) = o := fun o => by cases o <;> rfl
  obtain ⟨h1, h2⟩ := carryingAdd_spec ha hb c
  obtain ⟨h3, h4⟩ := borrowingSub_spec ha hb c
  constructor
  · simp only [X86.carryingAdd, X86.addcarryIntrinsic, X86.adc, hf, hn]
    exact Prod.ext h1.symm h2.symm
  · simp only [X86.borrowingSub, X86.subborrowIntrinsic, X86.sbb, hf, hn]
    refine Prod.ext ?_ h4.symm
    have hw : 1 ≤ 2 ^ w := Nat.two_pow_pos w
    have hc : c.toNat ≤ 1 := by cases c <;> simp
    rw [h4] at h3
    generalize (borrowingSub w a b c).1 = r at h3 ⊢
    generalize c.toNat = d at h3 hc ⊢
    generalize 2 ^ w = W at *
    dsimp only
    by_cases h : a < b + d
    · simp only [h, decide_true, if_true] at h3
      have : a + W - b + W - d = r + W := by omega
      rw [this, Nat.add_mod_right, Nat.mod_eq_of_lt (by omega)]
    · simp only [h, decide_false, Bool.false_eq_true, if_false] at h3
      have : a + W - b + W - d = r + W + W := by omega
      rw [this, Nat.add_mod_right, Nat.add_mod_right, Nat.mod_eq_of_lt (by omega)]

/-- C78: addition with carry and subtraction with borrow on x86 are exact. -/
theorem C78_exact {w a b : Nat} (ha : a < 2 ^ w) (hb : b < 2 ^ w) (c : Bool) :
    (X86.carryingAdd w a b c).1 + 2 ^ w * (X86.carryingAdd w a b c).2.toNat = a + b + c.toNat ∧
    (a : Int) - b - c.toNat
      = (X86.borrowingSub w a b c).1 - ((2 ^ w : Nat) : Int) * (X86.borrowingSub w a b c).2.toNat := by
  rw [(C78_carry ha hb c).1, (C78_carry ha hb c).2]
  exact ⟨(C01_carrying_add w a b c ha hb).2, (C01_borrowing_sub w a b c ha hb).2⟩

/-- C78: the assembly of the Goldilocks reduction and the portable code return the same word and panic on the
same words, for all pairs of words. -/
theorem C78_goldilocks (x y : Nat) :
    X86.addNoCanonicalize x y = Goldilocks.addNoCanonicalize x y := by
  have hs : ∀ z : Nat, z < 2 ^ 32 → ∀ cf : Bool, (X86.sbb 32 z z cf).1 = Goldilocks.EPSILON * cf.toNat := by
    intro z hz cf
    cases cf <;> simp only [X86.sbb, Bool.toNat_true, Bool.toNat_false, Goldilocks.EPSILON] <;> omega
  have hm : ∀ cf : Bool, mulC 64 Goldilocks.EPSILON cf.toNat = some (Goldilocks.EPSILON * cf.toNat) := by
    intro cf; cases cf <;> decide +kernel
  simp only [X86.addNoCanonicalize, Goldilocks.addNoCanonicalize, hs _ (Nat.mod_lt _ (Nat.two_pow_pos 32)), hm,
    trunc, X86.adc, overflowingAdd, Bool.toNat_false, Nat.add_zero, Option.bind_eq_bind, Option.bind_some]

/-- C78: reductions of products and of 96-bit numbers do not depend on the architecture. -/
theorem C78_goldilocks_reduce :
    X86.reduce96 = Goldilocks.reduce96 ∧ X86.reduce128 = Goldilocks.reduce128 := by
  constructor
  · funext lo hi
    simp only [X86.reduce96, Goldilocks.reduce96, C78_goldilocks]
  · funext x
    simp only [X86.reduce128, Goldilocks.reduce128, C78_goldilocks]

/-- A carry in the last place of a word, a borrow from zero, and an addition that needs the adjustment. -/
example : X86.carryingAdd 64 (2 ^ 64 - 1) 0 true = (0, true) ∧ X86.borrowingSub 32 0 0 true = (2 ^ 32 - 1, true) ∧
    X86.addNoCanonicalize (2 ^ 64 - 1) 2 = some (2 ^ 32) := by decide +kernel

end Verif.Props
