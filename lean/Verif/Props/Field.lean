import Verif.Model.Field
import Verif.Lemmas.Exp
import Verif.Props.Gcd
import Verif.Props.Barrett
import Mathlib.FieldTheory.Finite.Basic

/-!
# C49: derived field elements

These theorems are also what allows the ring-level modules to compute in `ZMod q`: on canonical words
every generated operation succeeds, is canonical and is the ring operation.
-/

namespace Verif.Props
open Barrett

theorem config_new {w q : Nat} {M : Barrett} (h : Fp.config w q = some M) :
    Barrett.new w q = some M := by
  unfold Fp.config at h
  split at h
  · exact absurd h (by simp)
  · exact h

/-- C49: the derive macro accepts exactly the moduli from 2 up to a quarter of the word range. -/
theorem C49_config (w q : Nat) (hw : w % 2 = 0) (hq : q < 2 ^ w) :
    (Fp.config w q).isSome ↔ 2 ≤ q ∧ q < 2 ^ (w - 2) := by
  constructor
  · intro h
    obtain ⟨M, hM⟩ := Option.isSome_iff_exists.1 h
    exact new_cond (config_new hM)
  · rintro ⟨h1, h2⟩
    have hlog : bitLen q ≤ w - 2 := by
      unfold bitLen
      rw [if_neg (by omega)]
      have := (Nat.log2_lt (by omega : q ≠ 0)).2 h2
      omega
    have : 2 ≤ w := by
      by_contra hc
      rw [show w - 2 = 0 by omega] at h2; simp at h2; omega
    unfold Fp.config leadingZeros
    rw [if_neg (by omega), new_eq hw h1 h2]
    rfl

/-- C49: `new(v)` is the residue of `v`, for every word `v`. -/
theorem C49_new (w q : Nat) (hw : w % 2 = 0) (M : Barrett) (h : Fp.config w q = some M) (v : Nat)
    (hv : v < 2 ^ w) : Fp.new w M v = some (v % q) := by
  obtain ⟨hval, hq⟩ := new_valid hw (config_new h)
  subst hq
  unfold Fp.new
  split
  · next hlt => rw [Nat.mod_eq_of_lt hlt]
  · exact reduce1_eq hval hv

/-- C49: deserialising a serialised canonical element returns it; whatever word is deserialised, the
result is the canonical residue of that word. -/
theorem C49_serde (w q : Nat) (hw : w % 2 = 0) (M : Barrett) (h : Fp.config w q = some M) :
    (∀ a, a < q → Fp.deserialize w M (Fp.serialize a) = some a) ∧
    ∀ word, word < 2 ^ w → ∃ a, Fp.deserialize w M word = some a ∧ a < q ∧ a = word % q := by
  have hc := new_cond (config_new h)
  obtain ⟨hval, hq⟩ := new_valid hw (config_new h)
  constructor
  · intro a ha
    have := C49_new w q hw M h a (by have := hval.lt_word; omega)
    rw [Nat.mod_eq_of_lt ha] at this
    exact this
  · intro word hword
    exact ⟨_, C49_new w q hw M h word hword, Nat.mod_lt _ (by omega), rfl⟩

/-- C49: the generated constants and operations on canonical elements are those of `ZMod q`, stay
canonical and never panic. -/
theorem C49_field_ops (w q : Nat) (hw : w % 2 = 0) (M : Barrett) (h : Fp.config w q = some M)
    (a b c e : Nat) (ha : a < q) (hb : b < q) (hc : c < q) (he : e < 2 ^ w) :
    (Fp.zero < q ∧ (Fp.zero : ZMod q) = 0) ∧
    (Fp.one < q ∧ (Fp.one : ZMod q) = 1) ∧
    (∃ r, Fp.negOne M = some r ∧ r < q ∧ (r : ZMod q) = -1) ∧
    (∃ r, Fp.add w M a b = some r ∧ r < q ∧ (r : ZMod q) = (a : ZMod q) + b) ∧
    (∃ r, Fp.sub w M a b = some r ∧ r < q ∧ (r : ZMod q) = (a : ZMod q) - b) ∧
    (∃ r, Fp.subAssign w M a b = some r ∧ r < q ∧ (r : ZMod q) = (a : ZMod q) - b) ∧
    (∃ r, Fp.neg M a = some r ∧ r < q ∧ (r : ZMod q) = -(a : ZMod q)) ∧
    (∃ r, Fp.mul w M a b = some r ∧ r < q ∧ (r : ZMod q) = (a : ZMod q) * b) ∧
    (∃ r, Fp.pow w M a e = some r ∧ r < q ∧ (r : ZMod q) = (a : ZMod q) ^ e) ∧
    (∃ r, Fp.addMul w M c a b = some r ∧ r < q ∧ (r : ZMod q) = (c : ZMod q) + a * b) := by
  have hn := config_new h
  obtain ⟨hval, hq⟩ := new_valid hw hn
  obtain ⟨o1, o2, o3, o4⟩ := C05_barrett_ring_ops w q hw M hn a b ha hb
  have h4 := hval.lt_word
  have h2 := hval.two_le
  subst hq
  refine ⟨⟨by unfold Fp.zero; omega, by simp [Fp.zero]⟩, ⟨by unfold Fp.one; omega, by simp [Fp.one]⟩,
    ?_, o1, o2, ?_, o3, o4, ?_, ?_⟩
  · refine ⟨M.value - 1, by simp [Fp.negOne, subC, show 1 ≤ M.value by omega], by omega, ?_⟩
    rw [Nat.cast_sub (by omega), ZMod.natCast_self]; simp
  · obtain ⟨r, hr, hrest⟩ := o2
    refine ⟨r, ?_, hrest⟩
    have e := C05_sub_reduce w M.value a b h4 ha hb
    unfold subReduceB at hr
    unfold Fp.subAssign
    rw [e.2, ← e.1]; exact hr
  · refine ⟨a ^ e % M.value, expReduce_eq hval ha he, Nat.mod_lt _ (by omega), ?_⟩
    rw [ZMod.natCast_mod]; push_cast; rfl
  · refine ⟨(a * b + c) % M.value, ?_, Nat.mod_lt _ (by omega), ?_⟩
    · unfold Fp.addMul
      rw [carryingMulC_eq (by omega) (by omega) (by omega)]
      simp only [Option.bind_eq_bind, Option.bind_some]
      have := mul_add_lt_sq (B := 2 ^ w) (a := a) (b := b) (c := c) (by omega) (by omega) (by omega)
      rw [reduce2_eq hval (Nat.mod_lt _ (Nat.two_pow_pos w)) (Nat.div_lt_of_lt_mul this),
        Nat.mod_add_div]
    · rw [ZMod.natCast_mod]; push_cast; ring

/-- C49: the `fast` products are right modulo `q` and below `2q`, for all words. -/
theorem C49_fast_ops (w q : Nat) (hw : w % 2 = 0) (M : Barrett) (h : Fp.config w q = some M)
    (a b c : Nat) (ha : a < 2 ^ w) (hb : b < 2 ^ w) (hc : c < 2 ^ w) :
    (∃ r, Fp.mulFast w M a b = some r ∧ r < 2 * q ∧ r % q = a * b % q) ∧
    (∃ r, Fp.addMulFast w M c a b = some r ∧ r < 2 * q ∧ r % q = (c + a * b) % q) := by
  have hn := config_new h
  refine ⟨(C05_barrett_mul_any_words w q hw M hn a b ha hb).2, ?_⟩
  have := mul_add_lt_sq (B := 2 ^ w) ha hb hc
  obtain ⟨r, e, hr, hm⟩ := C03_lazy_reduce_two_words w q ((a * b + c) % 2 ^ w)
    ((a * b + c) / 2 ^ w) hw M hn (Nat.mod_lt _ (Nat.two_pow_pos w)) (Nat.div_lt_of_lt_mul this)
  refine ⟨r, ?_, hr, ?_⟩
  · unfold Fp.addMulFast
    rw [carryingMulC_eq ha hb hc]
    exact e
  · rw [hm, Nat.mod_add_div, Nat.add_comm]

/-- C49: over a prime modulus, `inv` and `/` are the field inverse and division, for every nonzero
divisor. -/
theorem C49_field_division (w q : Nat) [hp : Fact (Nat.Prime q)] (hw : w % 2 = 0) (M : Barrett)
    (h : Fp.config w q = some M) (a b : Nat) (ha : a < q) (hb : b < q) (hb0 : b ≠ 0) :
    (∃ r, Fp.inv w M b = some r ∧ r < q ∧ (r : ZMod q) = (b : ZMod q)⁻¹) ∧
    (∃ r, Fp.div w M a b = some r ∧ r < q ∧ (r : ZMod q) = (a : ZMod q) / b) := by
  have hn := config_new h
  have hcond := new_cond hn
  obtain ⟨hval, hq⟩ := new_valid hw hn
  have h4 := hval.lt_word
  have hbz : (b : ZMod q) ≠ 0 := by
    rw [Ne, ZMod.natCast_eq_zero_iff]
    exact fun hd => absurd (Nat.le_of_dvd (by omega) hd) (by omega)
  constructor
  · obtain ⟨r, e1, e2, e3⟩ := (C49_field_ops w q hw M h b b b (q - 2) hb hb hb
      (by omega)).2.2.2.2.2.2.2.2.1
    refine ⟨r, ?_, e2, ?_⟩
    · simp only [Fp.inv, subC, hq, if_pos hcond.1, Option.bind_eq_bind, Option.bind_some, e1]
    · rw [e3]
      apply eq_inv_of_mul_eq_one_left
      rw [← pow_succ, show q - 2 + 1 = q - 1 by omega]
      exact ZMod.pow_card_sub_one_eq_one hbz
  · have hco : Nat.Coprime b q := by
      rw [Nat.coprime_comm, Nat.Prime.coprime_iff_not_dvd hp.out]
      exact fun hd => absurd (Nat.le_of_dvd (by omega) hd) (by omega)
    obtain ⟨x, x1, x2, x3, x4⟩ := (C07_inverse_partial w b q hcond.2 (by omega) hb).1 hco
    obtain ⟨r, e1, e2, e3⟩ := (C05_barrett_ring_ops w q hw M hn a x ha x2).2.2.2
    refine ⟨r, ?_, e2, ?_⟩
    · simp only [Fp.div, hq, x4, Option.bind_eq_bind, Option.bind_some, e1]
    · rw [e3, div_eq_mul_inv]
      congr 1
      apply eq_inv_of_mul_eq_one_left
      have : ((b * x : Nat) : ZMod q) = ((1 : Nat) : ZMod q) := by
        rw [ZMod.natCast_eq_natCast_iff', x3, Nat.mod_eq_of_lt (by omega)]
      push_cast at this
      rw [mul_comm]; exact this

/-- C49: dividing by zero panics. -/
theorem C49_division_by_zero (w q : Nat) (hw : w % 2 = 0) (M : Barrett)
    (h : Fp.config w q = some M) (a : Nat) : Fp.div w M a 0 = none := by
  obtain ⟨_, hq⟩ := new_valid hw (config_new h)
  have := (C07_inverse_zero w q (by have := new_cond (config_new h); omega))
  simp [Fp.div, hq, this]

example : ∃ M, Fp.config 8 61 = some M ∧ Fp.new 8 M 200 = some 17 ∧ Fp.add 8 M 60 5 = some 4 ∧
    Fp.sub 8 M 3 5 = some 59 ∧ Fp.inv 8 M 7 = some 35 ∧ Fp.div 8 M 3 7 = some 44 ∧
    Fp.addMul 8 M 5 60 59 = some 7 :=
  ⟨⟨61, 2 ^ 8 * 2 ^ 8 / 61 % 2 ^ 8, 2 ^ 8 * 2 ^ 8 / 61 / 2 ^ 8⟩, by decide +kernel⟩
example : Fp.config 8 64 = none ∧ Fp.config 8 1 = none := by decide +kernel

end Verif.Props
