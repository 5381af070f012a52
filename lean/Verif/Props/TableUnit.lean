import Verif.SpecUnit
import Verif.Props.AccLoop
import Verif.Props.FailureRounding

/-!
# C75: the tables of the gates are units

Concrete cases that meet the hypotheses are in `Props/AccDefaults.lean`.
-/

namespace Verif.Props
open Fp Finset Spec Ntt

theorem sum_steps {A : Type} [AddCommMonoid A] {step : Nat} (hs : 0 < step) (f : Nat → A)
    (hf : ∀ i, i % step ≠ 0 → f i = 0) (N : Nat) : ∑ i ∈ range (step * N), f i = ∑ j ∈ range N, f (step * j) := by
  induction N with
  | zero => simp
  | succ N ih =>
    rw [mul_add, mul_one, sum_range_add, ih, sum_range_succ]
    congr 1
    rw [sum_eq_single 0, add_zero]
    · intro x hx h0
      refine hf _ ?_
      rw [Nat.mul_add_mod, Nat.mod_eq_of_lt (mem_range.1 hx)]
      exact h0
    · intro h
      exact absurd (mem_range.2 hs) h

theorem split_getD {n step mid v0 v1 : Nat} {lut : List Nat} (h : Lut.split n step mid v0 v1 = some lut)
    (hsm : step ∣ mid) {i : Nat} (hi : i < n) :
    lut.getD i 0 = if i % step = 0 then (if i < mid then v0 else v1) else 0 := by
  unfold Lut.split at h
  split at h
  · cases h
  · next hc =>
    obtain ⟨hs, hm⟩ := not_or.1 hc
    obtain rfl := Option.some.inj h
    have hl : (Lut.fill step v0 ((Poly.zero n).take mid)).length = mid := by
      simp [Lut.fill, Poly.zero]; omega
    by_cases him : i < mid
    · rw [List.getD_append _ _ _ _ (by rw [hl]; exact him), if_pos him]
      unfold Lut.fill Poly.zero
      rw [List.getD_eq_getElem _ _ (by simp; omega), List.getElem_mapIdx]
      simp [Fp.zero]
    · rw [List.getD_append_right _ _ _ _ (by rw [hl]; omega), if_neg him, hl]
      unfold Lut.fill Poly.zero
      rw [List.getD_eq_getElem _ _ (by simp; omega), List.getElem_mapIdx]
      have : (i - mid) % step = i % step := by
        obtain ⟨m, rfl⟩ := hsm
        conv_rhs => rw [show i = i - step * m + step * m by omega]
        rw [Nat.add_mul_mod_self_left]
      rw [this]
      simp [Fp.zero]

section
variable {q : Nat} [Fact q.Prime]

theorem split_unit {n step mid v0 v1 : Nat} {lut : List Nat} (h : Lut.split n step mid v0 v1 = some lut)
    (hsm : step ∣ mid) (hsn : step ∣ n) (hm : mid ≤ n) (hs : 0 < step) (hodd : q % 2 = 1) (h0 : (v0 : ZMod q) ≠ 0)
    (h1 : (v1 : ZMod q) = -(v0 : ZMod q)) : TableUnit q n lut := by
  intro r hr
  have e : ∑ i ∈ range n, (lut.getD i 0 : ZMod q) * r ^ i =
      ∑ i ∈ range n, if i % step = 0 then (if i < mid then (v0 : ZMod q) else v1) * r ^ i else 0 :=
    sum_congr rfl fun i hi => by
      rw [split_getD h hsm (mem_range.1 hi)]
      split <;> [split <;> rfl; simp]
  rw [e]
  obtain ⟨M, rfl⟩ := hsm
  obtain ⟨N, rfl⟩ := hsn
  have hMN : M ≤ N := Nat.le_of_mul_le_mul_left hm hs
  rw [sum_steps hs _ (fun i hi => if_neg hi)]
  have e2 : ∑ j ∈ range N, (if step * j % step = 0 then (if step * j < step * M then (v0 : ZMod q) else v1) *
      r ^ (step * j) else 0) = ∑ j ∈ range N, (if j < M then (v0 : ZMod q) else -v0) * (r ^ step) ^ j :=
    sum_congr rfl fun j _ => by
      rw [if_pos (Nat.mul_mod_right _ _), h1, pow_mul]
      simp [hs]
  rw [e2]
  rw [pow_mul] at hr
  generalize r ^ step = x at hr ⊢
  intro hz
  have key : ∀ K, M ≤ K → (1 - x) * ∑ j ∈ range K, (if j < M then (v0 : ZMod q) else -v0) * x ^ j =
      v0 * (1 - 2 * x ^ M + x ^ K) := by
    intro K hK
    induction K, hK using Nat.le_induction with
    | base =>
      rw [sum_congr rfl fun j hj => by rw [if_pos (mem_range.1 hj)], ← mul_sum]
      have := mul_neg_geom_sum x M
      linear_combination (v0 : ZMod q) * this
    | succ K hK ih =>
      rw [sum_range_succ, mul_add, ih, if_neg (by omega)]
      ring
  have := key N hMN
  rw [hz, hr, mul_zero] at this
  have h2 : (2 : ZMod q) ≠ 0 := by
    intro h
    have : ((2 : Nat) : ZMod q) = 0 := by exact_mod_cast h
    rw [ZMod.natCast_eq_zero_iff] at this
    have := Nat.le_of_dvd (by decide) this
    have := (Fact.out : q.Prime).two_le
    omega
  have hx : x ≠ 0 := by
    rintro rfl
    rw [zero_pow_eq] at hr
    split at hr
    · exact h2 (by linear_combination hr)
    · exact one_ne_zero (by linear_combination hr : (1 : ZMod q) = 0)
  have : (v0 : ZMod q) * (2 * x ^ M) = 0 := by linear_combination this
  exact mul_ne_zero h0 (mul_ne_zero h2 (pow_ne_zero _ hx)) this

end

section
variable {K : EvalKey} {Q k m : Nat} [Fact Q.Prime] (G : GateParams K.w K.R K.P Q k m)
include G

/-- C75: the tables of all gates are units. -/
theorem C75_tables {step : Nat} (es : K.P.lutStep = some step) {l : List Nat}
    (h : Lut.nand K.R K.P.ringDimension step = some l ∨
      Lut.andMajority K.R K.P.ringDimension step = some l ∨
      Lut.or K.R K.P.ringDimension step = some l ∨ Lut.nor K.R K.P.ringDimension step = some l ∨
      Lut.xor K.R K.P.ringDimension step = some l ∨ Lut.xnor K.R K.P.ringDimension step = some l) :
    TableUnit Q (2 ^ k) l := by
  intro r hr
  revert r
  obtain ⟨s', es', h0, hd, -⟩ := C42_step K.P k m G.two_le (by have := G.le; omega) (by have := G.lwe.lt; omega)
    G.ring G.lwe.q
  obtain rfl : step = s' := Option.some.inj (es.symm.trans es')
  have C : Config K.R.w Q K.R.M := ⟨G.field.even, G.field.conf⟩
  have hodd := table_odd (by have := G.two_le; omega) G.field
  intro r hr
  have h8 : 8 ≤ Q := by
    have ho : orderOf r = 2 ^ (k + 1) := orderOf_eq_prime_pow (by
      rw [hr]
      have : Fact (2 < Q) := ⟨lt_of_le_of_ne (Fact.out : Q.Prime).two_le (by omega)⟩
      exact ZMod.neg_one_ne_one) (by rw [pow_succ, pow_mul, hr]; ring)
    have hr0 : r ≠ 0 := by
      rintro rfl
      rw [zero_pow (by positivity)] at hr
      exact one_ne_zero (by linear_combination hr : (1 : ZMod Q) = 0)
    have h1 := orderOf_dvd_of_pow_eq_one (ZMod.pow_card_sub_one_eq_one hr0)
    have h2 := Nat.le_of_dvd (by have := (Fact.out : Q.Prime).two_le; omega) h1
    rw [ho] at h2
    have : 2 ^ 3 ≤ 2 ^ (k + 1) := Nat.pow_le_pow_right (by decide) (by have := G.two_le; omega)
    omega
  revert r
  change TableUnit Q (2 ^ k) l
  obtain ⟨v, v', ev, ev', hv, hv', cv, cv'⟩ := eighth_spec C
  have hne : ((Q / 8 : Nat) : ZMod Q) ≠ 0 := by
    intro h
    rw [ZMod.natCast_eq_zero_iff] at h
    have := Nat.le_of_dvd (by omega) h
    omega
  have e1 : (v : ZMod Q) = ((Q / 8 : Nat) : ZMod Q) := by rw [cv]; simp [signedEighth]
  have e2 : (v' : ZMod Q) = -((Q / 8 : Nat) : ZMod Q) := by rw [cv']; simp [signedEighth]
  have n1 : (v : ZMod Q) ≠ 0 := e1 ▸ hne
  have n2 : (v' : ZMod Q) ≠ 0 := e2 ▸ neg_ne_zero.2 hne
  have o1 : (v' : ZMod Q) = -(v : ZMod Q) := by rw [e1, e2]
  have o2 : (v : ZMod Q) = -(v' : ZMod Q) := by rw [o1, neg_neg]
  have g4 : 4 ∣ 2 ^ k := pow_dvd_pow 2 G.two_le
  rw [G.ring] at h
  generalize 2 ^ k = n at *
  obtain ⟨j, rfl⟩ := g4
  rw [Nat.mul_div_cancel_left _ (by omega)] at hd
  have p2 : 4 * j / 2 = 2 * j := by omega
  have p4 : 4 * j / 4 = j := by omega
  have p24 : 2 * j + j = 3 * j := by omega
  rcases h with h | h | h | h | h | h
  · unfold Lut.nand Lut.nandAndMajority at h
    rw [mbind ev, mbind ev', p2, p4, p24] at h
    exact split_unit h (hd.mul_left 3) (hd.mul_left 4) (by omega) h0 hodd n1 o1
  · unfold Lut.andMajority Lut.nandAndMajority at h
    rw [mbind ev', mbind ev, p2, p4, p24] at h
    exact split_unit h (hd.mul_left 3) (hd.mul_left 4) (by omega) h0 hodd n2 o2
  · unfold Lut.or Lut.orNor at h
    rw [mbind ev, mbind ev', p4] at h
    exact split_unit h hd (hd.mul_left 4) (by omega) h0 hodd n2 o2
  · unfold Lut.nor Lut.orNor at h
    rw [mbind ev', mbind ev, p4] at h
    exact split_unit h hd (hd.mul_left 4) (by omega) h0 hodd n1 o1
  · unfold Lut.xor Lut.xorXnor at h
    rw [mbind ev, mbind ev', p2] at h
    exact split_unit h (hd.mul_left 2) (hd.mul_left 4) (by omega) h0 hodd n2 o2
  · unfold Lut.xnor Lut.xorXnor at h
    rw [mbind ev', mbind ev, p2] at h
    exact split_unit h (hd.mul_left 2) (hd.mul_left 4) (by omega) h0 hodd n1 o1

end
end Verif.Props
