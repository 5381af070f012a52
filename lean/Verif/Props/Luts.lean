import Verif.Model.Gates
import Verif.SpecGates
import Verif.Props.BlindRotation

namespace Verif.Props
open Fp Finset Spec Ntt

/-! ## Reading a table -/

/-- The constant coefficient of the rotated table is the entry at the angle of the rotation. -/
theorem rotated_co_zero {Q n : Nat} [NeZero n] [Nontrivial (ZMod Q)] (hn : 0 < n) (lut : List Nat)
    (φ : ℤ) : (Rq.ofWords Q n lut * Rq.monoZ (-φ)).co ⟨0, hn⟩ = tableAt Q n lut φ := by
  have h2 : ((2 * n : ℕ) : ℤ) ≠ 0 := by positivity
  have hr0 := Int.emod_nonneg φ h2
  have hr1 := Int.emod_lt_of_pos φ (show (0 : ℤ) < (2 * n : ℕ) by positivity)
  obtain ⟨r, hr⟩ : ∃ r : Nat, φ % (2 * n : ℕ) = r := ⟨_, (Int.toNat_of_nonneg hr0).symm⟩
  have hlt : r < 2 * n := by rw [hr] at hr1; exact_mod_cast hr1
  have hz : (Rq.monoZ (-φ) : Rq (ZMod Q) n) = Rq.mono (2 * n - r) := by
    rw [Rq.mono_sub_two_n hlt.le]
    unfold Rq.monoZ
    rw [← hr]
    congr 2
    exact (Int.ModEq.neg (Int.mod_modEq φ _)).symm
  have hseq : ∀ p : Rq (ZMod Q) n, p.co ⟨0, hn⟩ = p.seq 0 := fun p => (Rq.seq_lt _ hn).symm
  have hco : ∀ i, i < n → (Rq.ofWords Q n lut).seq i = coeff Q lut i := fun i hi => Rq.seq_lt _ hi
  unfold tableAt
  simp only [hr, Int.toNat_natCast]
  rw [hz, mul_comm, hseq]
  by_cases h0 : r = 0
  · subst h0
    rw [Nat.sub_zero, Rq.mono_two_n, one_mul, if_pos hn, hco _ hn]
  · by_cases h1 : r ≤ n
    · have : (Rq.mono (2 * n - r) : Rq (ZMod Q) n) * Rq.ofWords Q n lut =
          -(Rq.mono (n - r) * Rq.ofWords Q n lut) := by
        rw [show 2 * n - r = n + (n - r) by omega, Rq.mono_add, Rq.mono_n]; ring
      rw [this, ← hseq]
      change -(Rq.mono (n - r) * Rq.ofWords Q n lut).co ⟨0, hn⟩ = _
      rw [hseq, Rq.mono_mul_seq (by omega) _ hn]
      by_cases h2 : r = n
      · rw [if_neg (by omega), if_neg (by omega), hco _ (by omega), h2]
        congr 2; omega
      · rw [if_pos (by omega), if_pos (by omega), neg_neg, hco _ (by omega)]
        congr 1; omega
    · rw [Rq.mono_mul_seq (by omega) _ hn, if_pos (by omega), if_neg (by omega), hco _ (by omega)]
      congr 2; omega

/-! ## The entries of a table -/

theorem fill_getD {step v x : Nat} (l : Nat) {i : Nat} (hi : i < l) (hs : i % step = 0) :
    (Lut.fill step v (List.replicate l x)).getD i 0 = v := by
  unfold Lut.fill
  rw [List.getD_eq_getElem _ _ (by simpa using hi), List.getElem_mapIdx, if_pos hs]

theorem fill_length (step v : Nat) (l : List Nat) : (Lut.fill step v l).length = l.length := by
  simp [Lut.fill]

theorem fill_lt {Q step v : Nat} {l : List Nat} (hv : v < Q) (hl : ∀ x ∈ l, x < Q) :
    ∀ x ∈ Lut.fill step v l, x < Q := by
  intro x hx
  unfold Lut.fill at hx
  obtain ⟨i, h, rfl⟩ := List.mem_mapIdx.1 hx
  split
  · exact hv
  · exact hl _ (List.getElem_mem _)

/-- A table of two values is read at multiples of the step, in four arcs. -/
theorem split_spec {Q n step mid v0 v1 : Nat} (hs : 0 < step) (hm : mid ≤ n) (hsm : step ∣ mid)
    (hsn : step ∣ n) (h0 : v0 < Q) (h1 : v1 < Q) :
    ∃ lut, Lut.split n step mid v0 v1 = some lut ∧ Reduced Q n lut ∧
      ∀ (φ : ℤ), (step : ℤ) ∣ φ → ∀ r : Nat, φ % (2 * n : ℕ) = r → r < 2 * n →
        tableAt Q n lut φ = if r < mid then (v0 : ZMod Q) else if r < n then (v1 : ZMod Q)
          else if r < n + mid then -(v0 : ZMod Q) else -(v1 : ZMod Q) := by
  have e : Lut.split n step mid v0 v1 = some (Lut.fill step v0 (List.replicate mid 0) ++
      Lut.fill step v1 (List.replicate (n - mid) 0)) := by
    unfold Lut.split
    rw [if_neg (by omega)]
    simp only [Poly.zero, Fp.zero, List.take_replicate, List.drop_replicate, Nat.min_eq_left hm]
  have hQ : 0 < Q := by omega
  have hget : ∀ i, i < n → step ∣ i → (Lut.fill step v0 (List.replicate mid 0) ++
      Lut.fill step v1 (List.replicate (n - mid) 0)).getD i 0 = if i < mid then v0 else v1 := by
    intro i hi hd
    by_cases h : i < mid
    · rw [if_pos h, List.getD_append _ _ _ _ (by rw [fill_length, List.length_replicate]; exact h)]
      exact fill_getD _ h (Nat.mod_eq_zero_of_dvd hd)
    · rw [if_neg h, List.getD_append_right _ _ _ _
        (by rw [fill_length, List.length_replicate]; omega), fill_length, List.length_replicate]
      exact fill_getD _ (by omega) (Nat.mod_eq_zero_of_dvd (Nat.dvd_sub hd hsm))
  refine ⟨_, e, ⟨?_, ?_⟩, ?_⟩
  · rw [List.length_append, fill_length, fill_length, List.length_replicate, List.length_replicate]
    omega
  · have hz : ∀ l, ∀ x ∈ List.replicate l 0, x < Q := fun l x hx => by
      rw [List.eq_of_mem_replicate hx]; exact hQ
    intro x hx
    rcases List.mem_append.1 hx with h | h
    · exact fill_lt h0 (hz _) x h
    · exact fill_lt h1 (hz _) x h
  · intro φ hφ r hr hlt
    have hd : step ∣ r := by
      have : (step : ℤ) ∣ φ % (2 * n : ℕ) := by
        rw [Int.emod_def]
        exact dvd_sub hφ (Dvd.dvd.mul_right
          (Int.natCast_dvd_natCast.2 (Dvd.dvd.mul_left hsn 2)) _)
      rw [hr] at this
      exact Int.natCast_dvd_natCast.1 this
    unfold tableAt coeff
    simp only [hr, Int.toNat_natCast]
    by_cases h : r < n
    · rw [if_pos h, hget r h hd]
      by_cases h' : r < mid
      · rw [if_pos h', if_pos h']
      · rw [if_neg h', if_neg h', if_pos h]
    · have hm' : ¬ r < mid := by omega
      rw [if_neg h, hget (r - n) (by omega) (Nat.dvd_sub hd hsn), if_neg hm', if_neg h]
      by_cases h' : r < n + mid
      · rw [if_pos (show r - n < mid by omega), if_pos h']
      · rw [if_neg (show ¬ r - n < mid by omega), if_neg h']

/-! ## The values -/

theorem eighth_spec {R : Ctx} {Q : Nat} (C : Config R.w Q R.M) :
    ∃ v v', Lut.eighth R = some v ∧ Lut.negEighth R = some v' ∧ v < Q ∧ v' < Q ∧
      (v : ZMod Q) = signedEighth Q true ∧ (v' : ZMod Q) = signedEighth Q false := by
  have hQ := C.two_le
  have hw := C.four_mul_lt
  have h3 : 3 < R.w := by
    by_contra h
    have : 2 ^ R.w ≤ 2 ^ 3 := Nat.pow_le_pow_right (by omega) (by omega)
    omega
  have hlt : Q / 8 < Q := Nat.div_lt_self (by omega) (by omega)
  have hle : Q / 8 ≤ Q := hlt.le
  have e1 : Lut.eighth R = some (Q / 8) := by
    unfold Lut.eighth shrC
    rw [if_pos h3, C.value]
    change Fp.new R.w R.M (Q / 8) = _
    rw [C49_new R.w Q C.even R.M C.conf _ (by omega), Nat.mod_eq_of_lt hlt]
  have e2 : Lut.negEighth R = some ((Q - Q / 8) % Q) := by
    unfold Lut.negEighth
    rw [mbind e1, C.value, mbind (subC_eq hle), C49_new R.w Q C.even R.M C.conf _ (by omega)]
  refine ⟨_, _, e1, e2, hlt, Nat.mod_lt _ (by omega), rfl, ?_⟩
  rw [ZMod.natCast_mod, Nat.cast_sub hle, ZMod.natCast_self, zero_sub]
  rfl

theorem nearBy_emod {n d : Nat} (hn : 0 < n) (hd : 1 ≤ d) {c φ : ℤ} (h : NearBy n d c φ)
    (h1 : -(n : ℤ) ≤ c) (h2 : c ≤ 2 * n) :
    ∃ r : Nat, φ % (2 * n : ℕ) = r ∧ r < 2 * n ∧ ∃ e : ℤ, -(n : ℤ) ≤ d * e ∧ d * e < n ∧
      ((r : ℤ) = c + e ∨ (r : ℤ) = c + e + 2 * n ∨ (r : ℤ) = c + e - 2 * n) := by
  obtain ⟨e, he, l, u⟩ := h
  have hpos : (0 : ℤ) < (2 * n : ℕ) := by positivity
  have hr0 := Int.emod_nonneg (c + e) hpos.ne'
  have hr1 := Int.emod_lt_of_pos (c + e) hpos
  obtain ⟨r, hr⟩ : ∃ r : Nat, (c + e) % (2 * n : ℕ) = r := ⟨_, (Int.toNat_of_nonneg hr0).symm⟩
  refine ⟨r, by rw [← hr]; exact he, by rw [hr] at hr1; exact_mod_cast hr1, e, l, u, ?_⟩
  have hle : -(n : ℤ) ≤ e := by nlinarith
  have hue : e < n := by nlinarith
  have hdiv := Int.emod_add_mul_ediv (c + e) (2 * n : ℕ)
  rw [hr] at hdiv hr0 hr1
  obtain ⟨j, hj⟩ : ∃ j, j = (c + e) / (2 * n : ℕ) := ⟨_, rfl⟩
  rw [← hj] at hdiv
  push_cast at hdiv hr1
  have hn' : (0 : ℤ) < n := by exact_mod_cast hn
  have j1 : j ≤ 1 := by
    by_contra hlt
    have : 2 * (2 * (n : ℤ)) ≤ 2 * n * j := by nlinarith
    omega
  have j2 : -1 ≤ j := by
    by_contra hlt
    have : 2 * n * j ≤ -2 * (2 * (n : ℤ)) := by nlinarith
    omega
  rcases (show j = 0 ∨ j = 1 ∨ j = -1 by omega) with rfl | rfl | rfl
  · left; linarith
  · right; right; linarith
  · right; left; linarith

/-! ## The three shapes of tables, for opposite values `x` and `-x` -/

section
variable {Q n step v0 v1 : Nat} {x : ZMod Q} (hn : 0 < n) (h4 : 4 ∣ n) (hs : 0 < step)
  (hsd : step ∣ n / 4) (h0 : v0 < Q) (h1 : v1 < Q) (c0 : (v0 : ZMod Q) = x) (c1 : (v1 : ZMod Q) = -x)
include hn h4 hs hsd h0 h1 c0 c1

theorem nandAndMajority_spec : ∃ lut, Lut.nandAndMajority n step v0 v1 = some lut ∧
    Reduced Q n lut ∧ ∀ (s : Nat) (φ : ℤ), s ≤ 3 → (step : ℤ) ∣ φ →
      NearBy n 4 ((s * (n / 2) : Nat) : ℤ) φ → tableAt Q n lut φ = if s ≤ 1 then x else -x := by
  obtain ⟨m, rfl⟩ := h4
  rw [Nat.mul_div_cancel_left _ (by omega)] at hsd
  have e2 : 4 * m / 2 = 2 * m := by omega
  have e4 : 4 * m / 4 = m := by omega
  obtain ⟨lut, e, hr, h⟩ := split_spec (n := 4 * m) (mid := 3 * m) hs (by omega)
    (Dvd.dvd.mul_left hsd 3) (Dvd.dvd.mul_left hsd 4) h0 h1
  refine ⟨lut, ?_, hr, fun s φ hs3 hφ hnear => ?_⟩
  · unfold Lut.nandAndMajority
    rw [e2, e4, show 2 * m + m = 3 * m by omega]; exact e
  · have hc : s * (4 * m / 2) ≤ 3 * (2 * m) := by rw [e2]; exact Nat.mul_le_mul_right _ hs3
    obtain ⟨c, hcs⟩ : ∃ c, c = s * (4 * m / 2) := ⟨_, rfl⟩
    rw [← hcs] at hnear hc
    obtain ⟨r, er, hlt, ε, l, u, hrε⟩ := nearBy_emod hn (by omega) hnear (by omega) (by omega)
    rw [h φ hφ r er hlt, c0, c1, neg_neg]
    have hcases : s = 0 ∨ s = 1 ∨ s = 2 ∨ s = 3 := by omega
    rcases hcases with hv | hv | hv | hv <;> rw [hv] at hcs <;>
      (split_ifs <;> first | rfl | omega)

theorem orNor_spec : ∃ lut, Lut.orNor n step v1 v0 = some lut ∧
    Reduced Q n lut ∧ ∀ (s : Nat) (φ : ℤ), s ≤ 3 → (step : ℤ) ∣ φ →
      NearBy n 4 ((s * (n / 2) : Nat) : ℤ) φ →
      tableAt Q n lut φ = if s = 1 ∨ s = 2 then -x else x := by
  obtain ⟨m, rfl⟩ := h4
  rw [Nat.mul_div_cancel_left _ (by omega)] at hsd
  have e2 : 4 * m / 2 = 2 * m := by omega
  have e4 : 4 * m / 4 = m := by omega
  obtain ⟨lut, e, hr, h⟩ := split_spec (n := 4 * m) (mid := m) hs (by omega)
    hsd (Dvd.dvd.mul_left hsd 4) h0 h1
  refine ⟨lut, ?_, hr, fun s φ hs3 hφ hnear => ?_⟩
  · unfold Lut.orNor
    rw [e4]; exact e
  · have hc : s * (4 * m / 2) ≤ 3 * (2 * m) := by rw [e2]; exact Nat.mul_le_mul_right _ hs3
    obtain ⟨c, hcs⟩ : ∃ c, c = s * (4 * m / 2) := ⟨_, rfl⟩
    rw [← hcs] at hnear hc
    obtain ⟨r, er, hlt, ε, l, u, hrε⟩ := nearBy_emod hn (by omega) hnear (by omega) (by omega)
    rw [h φ hφ r er hlt, c0, c1, neg_neg]
    have hcases : s = 0 ∨ s = 1 ∨ s = 2 ∨ s = 3 := by omega
    rcases hcases with hv | hv | hv | hv <;> rw [hv] at hcs <;>
      (split_ifs <;> first | rfl | omega)

theorem xorXnor_spec : ∃ lut, Lut.xorXnor n step v1 v0 = some lut ∧
    Reduced Q n lut ∧ ∀ (s : ℤ) (φ : ℤ), (s = 0 ∨ s = 1 ∨ s = -1) → (step : ℤ) ∣ φ →
      NearBy n 2 (s * n) φ → tableAt Q n lut φ = if s = 0 then x else -x := by
  obtain ⟨m, rfl⟩ := h4
  rw [Nat.mul_div_cancel_left _ (by omega)] at hsd
  have e2 : 4 * m / 2 = 2 * m := by omega
  obtain ⟨lut, e, hr, h⟩ := split_spec (n := 4 * m) (mid := 2 * m) hs (by omega)
    (Dvd.dvd.mul_left hsd 2) (Dvd.dvd.mul_left hsd 4) h0 h1
  refine ⟨lut, ?_, hr, fun s φ hs3 hφ hnear => ?_⟩
  · unfold Lut.xorXnor
    rw [e2]; exact e
  · have hc : -((4 * m : Nat) : ℤ) ≤ s * (4 * m : Nat) ∧ s * (4 * m : Nat) ≤ (4 * m : Nat) := by
      rcases hs3 with rfl | rfl | rfl <;> omega
    obtain ⟨c, hcs⟩ : ∃ c, c = s * ((4 * m : Nat) : ℤ) := ⟨_, rfl⟩
    rw [← hcs] at hnear hc
    obtain ⟨r, er, hlt, ε, l, u, hrε⟩ := nearBy_emod hn (by omega) hnear hc.1 (by omega)
    rw [h φ hφ r er hlt, c0, c1, neg_neg]
    rcases hs3 with hv | hv | hv <;> rw [hv] at hcs <;>
      (split_ifs <;> first | rfl | omega)

end

/-! ## The gates -/

section
variable {R : Ctx} {Q n step : Nat} (C : Config R.w Q R.M) (hn : 0 < n) (h4 : 4 ∣ n) (hs : 0 < step)
  (hsd : step ∣ n / 4)
include C hn h4 hs hsd

/-- C42: the table of `nand`, read at a multiple of the step within an eighth of a turn of the sum of
the encoded inputs. -/
theorem C42_nand : ∃ lut, Lut.nand R n step = some lut ∧ Reduced Q n lut ∧
    ∀ (a b : Bool) (φ : ℤ), (step : ℤ) ∣ φ →
      NearBy n 4 (((a.toNat + b.toNat) * (n / 2) : Nat) : ℤ) φ →
      tableAt Q n lut φ = signedEighth Q (!(a && b)) := by
  obtain ⟨v, v', ev, ev', hv, hv', cv, cv'⟩ := eighth_spec C
  obtain ⟨lut, e, hr, h⟩ := nandAndMajority_spec hn h4 hs hsd hv hv' cv cv'
  refine ⟨lut, by unfold Lut.nand; rw [mbind ev, mbind ev', e], hr, fun a b φ hd hφ => ?_⟩
  rw [h _ φ (by cases a <;> cases b <;> decide) hd hφ]
  cases a <;> cases b <;> rfl

/-- C42: `and`. -/
theorem C42_and : ∃ lut, Lut.andMajority R n step = some lut ∧ Reduced Q n lut ∧
    ∀ (a b : Bool) (φ : ℤ), (step : ℤ) ∣ φ →
      NearBy n 4 (((a.toNat + b.toNat) * (n / 2) : Nat) : ℤ) φ →
      tableAt Q n lut φ = signedEighth Q (a && b) := by
  obtain ⟨v, v', ev, ev', hv, hv', cv, cv'⟩ := eighth_spec C
  obtain ⟨lut, e, hr, h⟩ := nandAndMajority_spec hn h4 hs hsd hv' hv cv'
    (cv.trans (neg_neg _).symm)
  refine ⟨lut, by unfold Lut.andMajority; rw [mbind ev', mbind ev, e], hr, fun a b φ hd hφ => ?_⟩
  rw [h _ φ (by cases a <;> cases b <;> decide) hd hφ]
  cases a <;> cases b <;> simp [signedEighth]

/-- C42: `majority`, whose table is that of `and`. -/
theorem C42_majority : ∃ lut, Lut.andMajority R n step = some lut ∧ Reduced Q n lut ∧
    ∀ (a b c : Bool) (φ : ℤ), (step : ℤ) ∣ φ →
      NearBy n 4 (((a.toNat + b.toNat + c.toNat) * (n / 2) : Nat) : ℤ) φ →
      tableAt Q n lut φ = signedEighth Q (maj a b c) := by
  obtain ⟨v, v', ev, ev', hv, hv', cv, cv'⟩ := eighth_spec C
  obtain ⟨lut, e, hr, h⟩ := nandAndMajority_spec hn h4 hs hsd hv' hv cv'
    (cv.trans (neg_neg _).symm)
  refine ⟨lut, by unfold Lut.andMajority; rw [mbind ev', mbind ev, e], hr, fun a b c φ hd hφ => ?_⟩
  rw [h _ φ (by cases a <;> cases b <;> cases c <;> decide) hd hφ]
  cases a <;> cases b <;> cases c <;> simp [signedEighth, maj]

/-- C42: `or`. -/
theorem C42_or : ∃ lut, Lut.or R n step = some lut ∧ Reduced Q n lut ∧
    ∀ (a b : Bool) (φ : ℤ), (step : ℤ) ∣ φ →
      NearBy n 4 (((a.toNat + b.toNat) * (n / 2) : Nat) : ℤ) φ →
      tableAt Q n lut φ = signedEighth Q (a || b) := by
  obtain ⟨v, v', ev, ev', hv, hv', cv, cv'⟩ := eighth_spec C
  obtain ⟨lut, e, hr, h⟩ := orNor_spec hn h4 hs hsd hv' hv cv' (cv.trans (neg_neg _).symm)
  refine ⟨lut, by unfold Lut.or; rw [mbind ev, mbind ev', e], hr, fun a b φ hd hφ => ?_⟩
  rw [h _ φ (by cases a <;> cases b <;> decide) hd hφ]
  cases a <;> cases b <;> simp [signedEighth]

/-- C42: `nor`. -/
theorem C42_nor : ∃ lut, Lut.nor R n step = some lut ∧ Reduced Q n lut ∧
    ∀ (a b : Bool) (φ : ℤ), (step : ℤ) ∣ φ →
      NearBy n 4 (((a.toNat + b.toNat) * (n / 2) : Nat) : ℤ) φ →
      tableAt Q n lut φ = signedEighth Q (!(a || b)) := by
  obtain ⟨v, v', ev, ev', hv, hv', cv, cv'⟩ := eighth_spec C
  obtain ⟨lut, e, hr, h⟩ := orNor_spec hn h4 hs hsd hv hv' cv cv'
  refine ⟨lut, by unfold Lut.nor; rw [mbind ev', mbind ev, e], hr, fun a b φ hd hφ => ?_⟩
  rw [h _ φ (by cases a <;> cases b <;> decide) hd hφ]
  cases a <;> cases b <;> simp [signedEighth]

/-- C42: `xor`, read within a quarter of a turn of twice the difference of the encoded inputs. -/
theorem C42_xor : ∃ lut, Lut.xor R n step = some lut ∧ Reduced Q n lut ∧
    ∀ (a b : Bool) (φ : ℤ), (step : ℤ) ∣ φ →
      NearBy n 2 (((a.toNat : ℤ) - b.toNat) * n) φ →
      tableAt Q n lut φ = signedEighth Q (a ^^ b) := by
  obtain ⟨v, v', ev, ev', hv, hv', cv, cv'⟩ := eighth_spec C
  obtain ⟨lut, e, hr, h⟩ := xorXnor_spec hn h4 hs hsd hv' hv cv' (cv.trans (neg_neg _).symm)
  refine ⟨lut, by unfold Lut.xor; rw [mbind ev, mbind ev', e], hr, fun a b φ hd hφ => ?_⟩
  rw [h _ φ (by cases a <;> cases b <;> decide) hd hφ]
  cases a <;> cases b <;> simp [signedEighth]

/-- C42: `xnor`. -/
theorem C42_xnor : ∃ lut, Lut.xnor R n step = some lut ∧ Reduced Q n lut ∧
    ∀ (a b : Bool) (φ : ℤ), (step : ℤ) ∣ φ →
      NearBy n 2 (((a.toNat : ℤ) - b.toNat) * n) φ →
      tableAt Q n lut φ = signedEighth Q (!(a ^^ b)) := by
  obtain ⟨v, v', ev, ev', hv, hv', cv, cv'⟩ := eighth_spec C
  obtain ⟨lut, e, hr, h⟩ := xorXnor_spec hn h4 hs hsd hv hv' cv cv'
  refine ⟨lut, by unfold Lut.xnor; rw [mbind ev', mbind ev, e], hr, fun a b φ hd hφ => ?_⟩
  rw [h _ φ (by cases a <;> cases b <;> decide) hd hφ]
  cases a <;> cases b <;> simp [signedEighth]

end

/-- C42: for a power-of-two ring dimension from 4 on and a power-of-two modulus from 8 on, the step is
`2N / q`, or 1 if `q` is larger than `2N`; it divides the positions where the tables change their
value. -/
theorem C42_step (P : Params) (k m : Nat) (hk : 2 ≤ k) (hk' : k ≤ 62) (hm : 3 ≤ m)
    (hN : P.ringDimension = 2 ^ k) (hq : P.q = 2 ^ m) :
    ∃ step, P.lutStep = some step ∧ 0 < step ∧ step ∣ 2 ^ k / 4 ∧
      (2 ^ m ≤ 2 * 2 ^ k → step * 2 ^ m = 2 * 2 ^ k) ∧ (2 * 2 ^ k < 2 ^ m → step = 1) := by
  have h2k : 2 * 2 ^ k = 2 ^ (k + 1) := by rw [pow_succ]; omega
  have hlt : 2 ^ (k + 1) < 2 ^ 64 := Nat.pow_lt_pow_right (by omega) (by omega)
  have htw : shlC 64 (2 ^ k) 1 = some (2 ^ (k + 1)) := by
    unfold shlC
    rw [if_pos (by omega), pow_one, Nat.mul_comm, h2k, Nat.mod_eq_of_lt hlt]
  have hqp := Nat.two_pow_pos m
  unfold Params.lutStep
  rw [hN, mbind htw, hq, if_neg (by omega)]
  by_cases h : m ≤ k + 1
  · refine ⟨2 ^ (k + 1 - m), ?_, Nat.two_pow_pos _, ?_, fun _ => ?_, fun hlt => ?_⟩
    · rw [if_pos (Nat.mod_eq_zero_of_dvd (Nat.pow_dvd_pow 2 h)), Nat.pow_div h (by omega)]
    · rw [show (4 : Nat) = 2 ^ 2 from rfl, Nat.pow_div hk (by omega)]
      exact Nat.pow_dvd_pow 2 (by omega)
    · rw [← pow_add, h2k]; congr 1; omega
    · rw [h2k] at hlt
      exact absurd ((Nat.pow_lt_pow_iff_right (by omega)).1 hlt) (by omega)
  · have hlt' : 2 ^ (k + 1) < 2 ^ m := Nat.pow_lt_pow_right (by omega) (by omega)
    refine ⟨1, ?_, by omega, one_dvd _, fun hle => ?_, fun _ => rfl⟩
    · rw [if_neg, if_pos (Nat.mod_eq_zero_of_dvd (Nat.pow_dvd_pow 2 (by omega)))]
      rw [Nat.mod_eq_of_lt hlt']
      exact (Nat.two_pow_pos _).ne'
    · omega

/-- C42: the decision interval cannot be enlarged: on its end the table of `nand` gives the value of the
next sum. -/
theorem C42_boundary : ∃ lut, Lut.nand ⟨8, barrett17, fun _ => none⟩ 8 1 = some lut ∧
    tableAt 17 8 lut (0 * 4 - 2) = signedEighth 17 true ∧
    tableAt 17 8 lut (1 * 4 + 1) = signedEighth 17 true ∧
    tableAt 17 8 lut (1 * 4 + 2) = signedEighth 17 false := by
  refine ⟨[2, 2, 2, 2, 2, 2, 15, 15], by decide +kernel, by decide, by decide, by decide⟩

-- the modulus and the dimension of the default parameters, with the step 2
example : ∃ (M : Barrett) (lut : List Nat), Lut.nand ⟨32, M, fun _ => none⟩ 1024 2 = some lut ∧
    tableAt 132120577 1024 lut (1 * 512 + 254) = signedEighth 132120577 true ∧
    tableAt 132120577 1024 lut (2 * 512 - 256) = signedEighth 132120577 false := by
  have hc : ∃ M, Fp.config 32 132120577 = some M := Option.isSome_iff_exists.1 (by decide +kernel)
  obtain ⟨M, hM⟩ := hc
  obtain ⟨lut, e, _, h⟩ := C42_nand (R := ⟨32, M, fun _ => none⟩) (n := 1024) (step := 2)
    ⟨show 32 % 2 = 0 by decide, hM⟩ (by decide) (by decide) (by decide) (by decide)
  exact ⟨M, lut, e, h true false _ (by decide) ⟨254, by decide, by decide, by decide⟩,
    h true true _ (by decide) ⟨-256, by decide, by decide, by decide⟩⟩

-- the two parameter sets of the library
example (P : Params) (h1 : P.ringDimension = 1024) (h2 : P.q = 1024) : P.lutStep = some 2 := by
  simp [Params.lutStep, h1, h2, shlC]

example (P : Params) (h1 : P.ringDimension = 1024) (h2 : P.q = 2 ^ 14) : P.lutStep = some 1 := by
  simp [Params.lutStep, h1, h2, shlC]

end Verif.Props
