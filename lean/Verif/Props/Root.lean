import Verif.Lemmas.Root
import Mathlib.Tactic.NormNum.Prime

/-! # C27: primitive roots of unity -/

namespace Verif.Props
open Fp

/-- C27: for an odd prime modulus and a power-of-two degree above 1, `is_primitive_root` accepts
exactly the residues of that multiplicative order. Missing: the modulus 2, where it accepts 1
(`C27_modulus_two`). -/
theorem C27_is_primitive_root_partial (w q : Nat) [Fact q.Prime] (hq : 2 < q) (hw : w % 2 = 0)
    (M : Barrett) (h : Fp.config w q = some M) (r m : Nat) (hr : r < q)
    (hm : 2 ^ (m + 1) < 2 ^ w) :
    ∃ b, Fp.isPrimitiveRoot w M r (2 ^ (m + 1)) = some b ∧
      (b = true ↔ orderOf (r : ZMod q) = 2 ^ (m + 1)) := by
  refine ⟨_, isPrimitiveRoot_eq ⟨hw, h⟩ hr hm, ?_⟩
  rw [decide_eq_true_iff, order_iff hq]

/-- C27: the documented preconditions are checked: a degree that is 1 or not a power of two panics. -/
theorem C27_is_primitive_root_panics (w : Nat) (M : Barrett) (r d : Nat)
    (hd : d ≤ 1 ∨ ∀ k, d ≠ 2 ^ k) : Fp.isPrimitiveRoot w M r d = none := by
  unfold Fp.isPrimitiveRoot
  split
  · rw [if_neg]
    rintro ⟨h1, h2⟩
    obtain ⟨k, hk⟩ := isPow2_iff.1 h2
    rcases hd with h | h
    · omega
    · exact h k hk
  · rfl

/-- C27: `try_primitive_root` returns an element of the requested order when the degree divides
`q - 1` and one of the first 100 draws is not a square; otherwise it returns the error. It never panics. -/
theorem C27_try_primitive_root (w q : Nat) [Fact q.Prime] (hw : w % 2 = 0)
    (M : Barrett) (h : Fp.config w q = some M) (m : Nat) (hm : 2 ^ (m + 1) < 2 ^ w)
    (draws : List Nat) (hd : ∀ x ∈ draws, 2 ≤ x ∧ x < q) :
    ((2 ^ (m + 1) ∣ q - 1 ∧ ∃ x ∈ draws.take 100, ¬ IsSquare (x : ZMod q)) →
      ∃ c, Fp.tryPrimitiveRoot w M (2 ^ (m + 1)) draws = some (some c) ∧ c < q ∧
        orderOf (c : ZMod q) = 2 ^ (m + 1)) ∧
    (¬ (2 ^ (m + 1) ∣ q - 1 ∧ ∃ x ∈ draws.take 100, ¬ IsSquare (x : ZMod q)) →
      Fp.tryPrimitiveRoot w M (2 ^ (m + 1)) draws = some none) := by
  rcases tryPrimitiveRoot_spec ⟨hw, h⟩ hm draws hd with ⟨h1, e⟩ | ⟨h1, h2, e⟩ | ⟨h1, h2, c, e, l, o⟩
  · exact ⟨fun h => absurd h.1 h1, fun _ => e⟩
  · refine ⟨fun h => ?_, fun _ => e⟩
    obtain ⟨x, hx, hn⟩ := h.2
    exact absurd (h2 x hx) hn
  · exact ⟨fun _ => ⟨c, e, l, o⟩, fun h => absurd ⟨h1, h2⟩ h⟩

/-- C27: when `try_minimal_primitive_root` succeeds, the result is the smallest element of the
requested order; it does not depend on the draws. It succeeds exactly when `try_primitive_root`
does, and never panics. -/
theorem C27_minimal_root (w q : Nat) [Fact q.Prime] (hw : w % 2 = 0)
    (M : Barrett) (h : Fp.config w q = some M) (m : Nat) (hm : 2 ^ (m + 1) < 2 ^ w)
    (draws : List Nat) (hd : ∀ x ∈ draws, 2 ≤ x ∧ x < q) :
    ((2 ^ (m + 1) ∣ q - 1 ∧ ∃ x ∈ draws.take 100, ¬ IsSquare (x : ZMod q)) →
      ∃ r, Fp.tryMinimalPrimitiveRoot w M (2 ^ (m + 1)) draws = some (some r) ∧
        IsLeast {y : Nat | y < q ∧ orderOf (y : ZMod q) = 2 ^ (m + 1)} r) ∧
    (¬ (2 ^ (m + 1) ∣ q - 1 ∧ ∃ x ∈ draws.take 100, ¬ IsSquare (x : ZMod q)) →
      Fp.tryMinimalPrimitiveRoot w M (2 ^ (m + 1)) draws = some none) := by
  obtain ⟨t1, t2⟩ := C27_try_primitive_root w q hw M h m hm draws hd
  constructor
  · intro hc
    obtain ⟨c, e, l, o⟩ := t1 hc
    obtain ⟨r, er, lr, ro, rm⟩ := minimal_spec ⟨hw, h⟩ l o
    refine ⟨r, ?_, ⟨lr, ro⟩, fun y hy => rm y hy.1 hy.2⟩
    unfold Fp.tryMinimalPrimitiveRoot
    rw [mbind e]
    exact er
  · intro hc
    unfold Fp.tryMinimalPrimitiveRoot
    rw [mbind (t2 hc)]
    rfl

/-- C27: two runs with different random draws that both succeed return the same root. -/
theorem C27_minimal_root_canonical (w q : Nat) [Fact q.Prime] (hw : w % 2 = 0)
    (M : Barrett) (h : Fp.config w q = some M) (m : Nat) (hm : 2 ^ (m + 1) < 2 ^ w)
    (d1 d2 : List Nat) (h1 : ∀ x ∈ d1, 2 ≤ x ∧ x < q) (h2 : ∀ x ∈ d2, 2 ≤ x ∧ x < q)
    (r1 r2 : Nat) (e1 : Fp.tryMinimalPrimitiveRoot w M (2 ^ (m + 1)) d1 = some (some r1))
    (e2 : Fp.tryMinimalPrimitiveRoot w M (2 ^ (m + 1)) d2 = some (some r2)) : r1 = r2 := by
  have key : ∀ d r, (∀ x ∈ d, 2 ≤ x ∧ x < q) →
      Fp.tryMinimalPrimitiveRoot w M (2 ^ (m + 1)) d = some (some r) →
      IsLeast {y : Nat | y < q ∧ orderOf (y : ZMod q) = 2 ^ (m + 1)} r := by
    intro d r hd e
    obtain ⟨t1, t2⟩ := C27_minimal_root w q hw M h m hm d hd
    by_cases hc : 2 ^ (m + 1) ∣ q - 1 ∧ ∃ x ∈ d.take 100, ¬ IsSquare (x : ZMod q)
    · obtain ⟨r', e', hl⟩ := t1 hc
      rw [e'] at e
      simp only [Option.some.injEq] at e
      rw [← e]; exact hl
    · rw [t2 hc] at e; simp at e
  exact (key d1 r1 h1 e1).unique (key d2 r2 h2 e2)

/-- The Barrett constant of the field of 17 elements on `u8`. -/
def barrett17 : Barrett := ⟨17, 2 ^ 8 * 2 ^ 8 / 17 % 2 ^ 8, 2 ^ 8 * 2 ^ 8 / 17 / 2 ^ 8⟩

-- the square 2 is drawn before the non-square 3; the smallest element of order 8 is 2
example : Fp.config 8 17 = some barrett17 ∧
    Fp.tryPrimitiveRoot 8 barrett17 8 [2, 3] = some (some 9) ∧
    Fp.tryMinimalPrimitiveRoot 8 barrett17 8 [2, 3] = some (some 2) ∧
    Fp.tryMinimalPrimitiveRoot 8 barrett17 8 [2, 4] = some none ∧
    Fp.tryMinimalPrimitiveRoot 8 barrett17 32 [3] = some none := by decide +kernel
example : Nat.Prime 17 := by norm_num

/-- C27: for the modulus 2, where `-1 = 1`, `is_primitive_root` accepts 1 although its order is 1. -/
theorem C27_modulus_two : ∃ M, Fp.config 8 2 = some M ∧ Fp.isPrimitiveRoot 8 M 1 2 = some true ∧
    orderOf ((1 : Nat) : ZMod 2) ≠ 2 :=
  ⟨⟨2, 2 ^ 8 * 2 ^ 8 / 2 % 2 ^ 8, 2 ^ 8 * 2 ^ 8 / 2 / 2 ^ 8⟩, by decide +kernel,
    by decide +kernel, by simp⟩

end Verif.Props
