import Verif.Props.NTT
import Verif.Props.Cache
import Verif.Lemmas.Random
import Verif.SpecPrime

/-!
# C70: the random search for transform roots fails with negligible probability
-/

namespace Verif.Props
open Spec Cache Fp
open scoped ENNReal

theorem mem_support_candidateLaw {q a : Nat} (hq : 2 < q) (h : a ∈ (candidateLaw q).support) : 2 ≤ a ∧ a < q := by
  have hne : (Finset.Icc 2 (q - 1)).Nonempty := ⟨2, by simp; omega⟩
  rw [candidateLaw, dif_pos hne, PMF.mem_support_uniformOfFinset_iff, Finset.mem_Icc] at h
  omega

/-- The words that are squares modulo `q`. -/
def squares (q : Nat) : Set Nat := {x | IsSquare (x : ZMod q)}

/-- At most half of the non-zero residues are squares. -/
theorem squares_card {q : Nat} [hp : Fact q.Prime] (hq : 2 < q) (s : Finset Nat)
    (hs : ∀ a ∈ s, 0 < a ∧ a < q ∧ IsSquare (a : ZMod q)) : 2 * s.card ≤ q - 1 := by
  classical
  let H : Subgroup (ZMod q)ˣ := (powMonoidHom 2 : (ZMod q)ˣ →* (ZMod q)ˣ).range
  have hH : H ≠ ⊤ := by
    intro h
    have hsurj : Function.Surjective (powMonoidHom 2 : (ZMod q)ˣ →* (ZMod q)ˣ) := MonoidHom.range_eq_top.1 h
    have hinj := Finite.injective_iff_surjective.2 hsurj
    have h1 : (-1 : (ZMod q)ˣ) = 1 := hinj (by simp)
    have : Fact (2 < q) := ⟨hq⟩
    exact ZMod.neg_one_ne_one (n := q) (by simpa using congrArg Units.val h1)
  have hi := Subgroup.one_lt_index_of_ne_top hH
  have hmem : ∀ a ∈ s, ∃ x : (ZMod q)ˣ, x ∈ H ∧ (x : ZMod q) = (a : ZMod q) := by
    intro a ha
    obtain ⟨h0, h1, y, hy⟩ := hs a ha
    have ha0 : (a : ZMod q) ≠ 0 := by
      rw [Ne, ZMod.natCast_eq_zero_iff]
      intro hd
      have := Nat.le_of_dvd h0 hd
      omega
    have hy0 : y ≠ 0 := by
      rintro rfl
      exact ha0 (by simpa using hy)
    refine ⟨Units.mk0 y hy0 ^ 2, ⟨Units.mk0 y hy0, rfl⟩, ?_⟩
    rw [Units.val_pow_eq_pow_val, Units.val_mk0, pow_two, hy]
  choose! f hf1 hf2 using hmem
  have hinj : s.card ≤ Nat.card H := by
    have h1 : s.card ≤ (Finset.univ.filter fun x : (ZMod q)ˣ => x ∈ H).card := by
      refine Finset.card_le_card_of_injOn f (fun a ha => by simpa using hf1 a ha) ?_
      intro a ha b hb hab
      have h1 := hf2 a ha
      rw [hab, hf2 b hb] at h1
      have := (ZMod.natCast_eq_natCast_iff' b a q).1 h1
      rw [Nat.mod_eq_of_lt (hs a ha).2.1, Nat.mod_eq_of_lt (hs b hb).2.1] at this
      exact this.symm
    rw [Nat.card_eq_fintype_card, Fintype.card_subtype]
    exact h1
  have hc := Subgroup.card_mul_index H
  rw [Nat.card_eq_fintype_card (α := (ZMod q)ˣ), ZMod.card_units_eq_totient, Nat.totient_prime hp.1] at hc
  rw [← hc]
  nlinarith

/-- A candidate is a square with probability at most a half. -/
theorem square_prob {q : Nat} [hp : Fact q.Prime] (hq : 2 < q) :
    (candidateLaw q).toOuterMeasure (squares q) ≤ 1 / 2 := by
  classical
  have hne : (Finset.Icc 2 (q - 1)).Nonempty := ⟨2, by simp; omega⟩
  rw [candidateLaw, dif_pos hne, PMF.toOuterMeasure_uniformOfFinset_apply]
  set s := (Finset.Icc 2 (q - 1)).filter (· ∈ squares q) with hs
  have hc := squares_card hq (insert 1 s) (by
    intro a ha
    rcases Finset.mem_insert.1 ha with rfl | ha
    · exact ⟨by omega, by omega, 1, by simp⟩
    · rw [hs, Finset.mem_filter, Finset.mem_Icc] at ha
      exact ⟨by omega, by omega, ha.2⟩)
  rw [Finset.card_insert_of_notMem (by simp [hs])] at hc
  have hcard : (Finset.Icc 2 (q - 1)).card = q - 2 := by rw [Nat.card_Icc]; omega
  have hle : 2 * s.card ≤ q - 2 := by omega
  rw [hcard]
  have hpos : ((q - 2 : Nat) : ℝ≥0∞) ≠ 0 := by
    rw [Ne, Nat.cast_eq_zero]; omega
  rw [ENNReal.div_le_iff hpos (ENNReal.natCast_ne_top _), one_div, ← ENNReal.div_eq_inv_mul,
    ENNReal.le_div_iff_mul_le (by simp) (by simp), mul_comm]
  exact_mod_cast hle

/-- All candidates are squares. -/
def allSquares (q : Nat) : Set (List Nat) := {l | ∀ x ∈ l, IsSquare (x : ZMod q)}

theorem allSquares_prob {q : Nat} [hp : Fact q.Prime] (hq : 2 < q) :
    ∀ k, (draws (candidateLaw q) k).toOuterMeasure (allSquares q) ≤ (1 / 2) ^ k
  | 0 => by
    rw [prob_eq, mean_draws_zero, pow_zero]
    split <;> simp
  | k + 1 => by
    have ih := allSquares_prob hq k
    have h := square_prob hq
    classical
    rw [prob_eq] at ih h ⊢
    rw [mean_draws_succ]
    refine le_trans (mean_mono (g := fun x => (if x ∈ squares q then 1 else 0) *
      mean (draws (candidateLaw q) k) fun l => if l ∈ allSquares q then 1 else 0) fun x _ => le_of_eq ?_) ?_
    · rw [← mean_mul_left]
      refine mean_congr fun l _ => ?_
      have hiff : (x :: l) ∈ allSquares q ↔ x ∈ squares q ∧ l ∈ allSquares q := List.forall_mem_cons
      by_cases hx : x ∈ squares q
      · by_cases hl : l ∈ allSquares q
        · rw [if_pos (hiff.2 ⟨hx, hl⟩), if_pos hx, if_pos hl, one_mul]
        · rw [if_neg (fun h => hl (hiff.1 h).2), if_pos hx, if_neg hl, one_mul]
      · rw [if_neg (fun h => hx (hiff.1 h).1), if_neg hx, zero_mul]
    · rw [mean_mul_right, pow_succ']
      exact mul_le_mul' h ih

theorem prob_le_of_support {α : Type} (p : PMF α) {A B : Set α} (h : ∀ a ∈ p.support, a ∈ A → a ∈ B) :
    p.toOuterMeasure A ≤ p.toOuterMeasure B := by
  classical
  rw [prob_eq, prob_eq]
  refine mean_mono fun a ha => ?_
  by_cases hA : a ∈ A
  · rw [if_pos hA, if_pos (h a ha hA)]
  · rw [if_neg hA]; exact zero_le

/-- C70: when the degree `2^(m+1)` divides `q - 1`, the search for a primitive root with its 100 uniform candidates
does not return one of the requested order with probability at most `2^-100`. -/
theorem C70_search (w q : Nat) [hp : Fact q.Prime] (hw : w % 2 = 0) (M : Barrett) (h : Fp.config w q = some M)
    (m : Nat) (hm : 2 ^ (m + 1) < 2 ^ w) (hd : 2 ^ (m + 1) ∣ q - 1) :
    (draws (candidateLaw q) 100).toOuterMeasure
      {l | ¬ ∃ c, Fp.tryPrimitiveRoot w M (2 ^ (m + 1)) l = some (some c) ∧ c < q ∧
        orderOf (c : ZMod q) = 2 ^ (m + 1)} ≤ (1 / 2) ^ 100 := by
  have hlt := pow2_dvd_lt hp.1.two_le hd
  have hq : 2 < q := by have := Nat.one_lt_two_pow (n := m + 1) (by omega); omega
  refine le_trans (prob_le_of_support _ fun l hl hA => ?_) (allSquares_prob hq 100)
  intro x hx
  by_contra hns
  exact hA ((C27_try_primitive_root w q hw M h m hm l
    fun y hy => mem_support_candidateLaw hq ((mem_support_draws hl).2 y hy)).1
    ⟨hd, x, by rwa [List.take_of_length_le (mem_support_draws hl).1.le], hns⟩)

/-- C70: for a size whose double divides `q - 1` (and fits `usize`), generating the transform table fails with
probability at most `2^-100`. -/
theorem C70_generate (w q : Nat) [hp : Fact q.Prime] (hw : w % 2 = 0) (M : Barrett) (h : Fp.config w q = some M)
    (k : Nat) (hk : k < 63) (hd : 2 ^ (k + 1) ∣ q - 1) :
    (draws (candidateLaw q) 100).toOuterMeasure {l | ¬ ∃ t, Ntt.generate w M k l = some (some t)} ≤
      (1 / 2) ^ 100 := by
  have hlt := pow2_dvd_lt hp.1.two_le hd
  have hq : 2 < q := by have := Nat.one_lt_two_pow (n := k + 1) (by omega); omega
  have hkw : 2 ^ (k + 1) < 2 ^ w := by
    have := Config.four_mul_lt ⟨hw, h⟩
    omega
  refine le_trans (prob_le_of_support _ fun l hl hA => ?_) (allSquares_prob hq 100)
  intro x hx
  by_contra hns
  obtain ⟨t, ht, _⟩ := (C23_generate w q hw M h k hk hkw l
    fun y hy => mem_support_candidateLaw hq ((mem_support_draws hl).2 y hy)).1
    ⟨hd, x, by rwa [List.take_of_length_le (mem_support_draws hl).1.le], hns⟩
  exact hA ⟨t, ht⟩

/-- C70: so a request for the table of such a size returns a table in every state that is not poisoned, except with
probability at most `2^-100` (and always when the table is already there). -/
theorem C70_get (w q : Nat) [hp : Fact q.Prime] (hw : w % 2 = 0) (M : Barrett) (h : Fp.config w q = some M)
    (k : Nat) (hk : k < 63) (hd : 2 ^ (k + 1) ∣ q - 1) (s : Cache.State NTTTable) (hs : s.poisoned = false) :
    (draws (candidateLaw q) 100).toOuterMeasure
      {l | ¬ ∃ t, (getTable s k [(k, genTable w M k l)]).2 = .ok t} ≤ (1 / 2) ^ 100 := by
  refine le_trans (prob_le_of_support _ fun l _ hA => ?_) (C70_generate w q hw M h k hk hd)
  rintro ⟨t, ht⟩
  apply hA
  have hg : genTable w M k l = .ok t := by unfold genTable; rw [ht]
  by_cases hpk : ∃ u, peek s k = some u
  · obtain ⟨u, hu⟩ := hpk
    refine ⟨u, ?_⟩
    unfold getTable
    rw [hu]
  · refine C28_get_succeeds s hs k _ ⟨by simp, fun j => ?_⟩ (by simp [hg])
    simp only [List.map_cons, List.map_nil, List.mem_singleton]
    constructor
    · rintro rfl
      refine ⟨rfl, fun hkey => hpk ?_⟩
      rw [peek_eq]
      exact Option.ne_none_iff_exists'.1 fun hn => (find_none_iff _ _).1 hn hkey
    · exact fun h => h.1

/-! Non-vacuity: the default ring modulus and size. -/

example : ∃ M, Fp.config 32 132120577 = some M ∧
    (draws (candidateLaw 132120577) 100).toOuterMeasure {l | ¬ ∃ t, Ntt.generate 32 M 10 l = some (some t)} ≤
      (1 / 2) ^ 100 := by
  have hs : (Fp.config 32 132120577).isSome := by decide +kernel
  obtain ⟨M, hM⟩ := Option.isSome_iff_exists.1 hs
  have : Fact (Nat.Prime 132120577) := ⟨by norm_num⟩
  exact ⟨M, hM, C70_generate 32 132120577 (by norm_num) M hM 10 (by norm_num) (by norm_num)⟩

-- the bound is about a search that can fail: 4 and 9 are squares
example : Ntt.generate 8 barrett17 2 [4, 9] = some none ∧ (Ntt.generate 8 barrett17 2 [4, 9, 3]).join.isSome := by
  have : Fact (Nat.Prime 17) := ⟨by decide⟩
  constructor
  · exact (C23_generate 8 17 (by norm_num) barrett17 (by decide) 2 (by norm_num) (by norm_num) [4, 9] (by decide)).2
      (by
        rintro ⟨_, x, hx, h⟩
        replace hx := List.mem_of_mem_take hx
        simp only [List.mem_cons, List.not_mem_nil, or_false] at hx
        rcases hx with rfl | rfl
        · exact h ⟨2, by norm_num⟩
        · exact h ⟨3, by norm_num⟩)
  · decide +kernel

end Verif.Props
