import Verif.Model.FieldEq
import Verif.Model.Root
import Verif.Props.Field
import Verif.Props.Shoup
import Verif.Props.Basis
import Verif.Props.KeySwitchLWE

/-!
# C65: comparisons of field elements, precomputed factors and low-end digits

An element stands for the residue `(a : ZMod q)` of its stored word. An element is canonical if its word is
below `q`; every ordinary operation of C49 returns canonical elements.
-/

namespace Verif.Props
open Barrett

/-- C65: on canonical elements `==` and the tests decide equality of the residues they stand for. -/
theorem C65_tests_partial (w q : Nat) (hw : w % 2 = 0) (M : Barrett) (h : Fp.config w q = some M)
    (a b : Nat) (ha : a < q) (hb : b < q) :
    (Fp.eq a b = true ↔ (a : ZMod q) = b) ∧
    (Fp.isZero a = true ↔ (a : ZMod q) = 0) ∧
    (Fp.isOne a = true ↔ (a : ZMod q) = 1) ∧
    (∃ t, Fp.isNegOne M a = some t ∧ (t = true ↔ (a : ZMod q) = -1)) := by
  obtain ⟨hval, rfl⟩ := new_valid hw (config_new h)
  have h2 := hval.two_le
  have key : ∀ c < M.value, (a == c) = true ↔ (a : ZMod M.value) = (c : ℕ) := by
    intro c hc
    rw [ZMod.natCast_eq_natCast_iff, Nat.ModEq, Nat.mod_eq_of_lt ha, Nat.mod_eq_of_lt hc, beq_iff_eq]
  refine ⟨key b hb, ?_, ?_, a == M.value - 1, ?_, ?_⟩
  · simpa [Fp.isZero] using key 0 (by omega)
  · simpa [Fp.isOne] using key 1 (by omega)
  · unfold Fp.isNegOne
    rw [subC_eq (by omega)]; rfl
  · have := key (M.value - 1) (by omega)
    rw [this, Nat.cast_sub (by omega), ZMod.natCast_self]; simp

/-- C65: the full claim fails: the product of two canonical elements by `mul_fast` can be the zero
residue while `is_zero` and `== zero` deny it. -/
theorem C65_tests_violation :
    ¬ ∀ (w q : Nat) (M : Barrett), w % 2 = 0 → Fp.config w q = some M → ∀ a b r : Nat, a < q → b < q →
      Fp.mulFast w M a b = some r →
      (Fp.isZero r = true ↔ (r : ZMod q) = 0) ∧ (Fp.eq r Fp.zero = true ↔ (r : ZMod q) = 0) := by
  intro h
  have e : ∃ M, Fp.config 8 60 = some M ∧ Fp.mulFast 8 M 30 2 = some 60 := by decide +kernel
  obtain ⟨M, hM, hm⟩ := e
  have := (h 8 60 M (by decide) hM 30 2 60 (by decide) (by decide) hm).1.2 (by decide)
  exact absurd this (by decide)

/-- C65: `cmp` is the order of the canonical representatives; it is a total order in which `max` is the
greatest and the default the least element. -/
theorem C65_order (w q : Nat) (hw : w % 2 = 0) (M : Barrett) (h : Fp.config w q = some M)
    (a b : Nat) (ha : a < q) (hb : b < q) :
    (Fp.cmp a b = .lt ↔ (a : ZMod q).val < (b : ZMod q).val) ∧
    (Fp.cmp a b = .eq ↔ Fp.eq a b = true) ∧
    Fp.cmp b a = (Fp.cmp a b).swap ∧
    (∃ m, Fp.max M = some m ∧ m < q ∧ Fp.cmp a m ≠ .gt ∧ (m : ZMod q) = -1) ∧
    Fp.cmp a Fp.default ≠ .lt ∧ Fp.default = Fp.zero := by
  obtain ⟨hval, rfl⟩ := new_valid hw (config_new h)
  have h2 := hval.two_le
  refine ⟨?_, ?_, ?_, ⟨M.value - 1, ?_, by omega, ?_, ?_⟩, ?_, rfl⟩
  · rw [ZMod.val_natCast_of_lt ha, ZMod.val_natCast_of_lt hb]
    exact Nat.compare_eq_lt
  · unfold Fp.cmp Fp.eq
    rw [Nat.compare_eq_eq, beq_iff_eq]
  · exact (Nat.compare_swap a b).symm
  · unfold Fp.max; exact subC_eq (by omega)
  · unfold Fp.cmp; rw [Ne, Nat.compare_eq_gt]; omega
  · rw [Nat.cast_sub (by omega), ZMod.natCast_self]; simp
  · unfold Fp.cmp Fp.default; rw [Ne, Nat.compare_eq_lt]; omega

/-- C65: converting an element to a precomputed factor and back is the identity, and multiplying by the
factor is the multiplication of the field, for every word on the left. -/
theorem C65_roots (w q : Nat) (hw : w % 2 = 0) (M : Barrett) (h : Fp.config w q = some M)
    (a x : Nat) (ha : a < q) (hx : x < 2 ^ w) :
    ∃ r p, Fp.toRoot w M a = some r ∧ Fp.fromRoot r = a ∧
      Fp.mulRoot w M x r = some p ∧ p < q ∧ (p : ZMod q) = x * a := by
  obtain ⟨hval, rfl⟩ := new_valid hw (config_new h)
  have h2 := hval.two_le
  have hc := hval.four_mul_lt
  have e : Fp.toRoot w M a = some ⟨a, trunc w (a * 2 ^ w / M.value)⟩ := by
    unfold Fp.toRoot Shoup.new; rw [if_pos ha]
  refine ⟨_, _, e, rfl, C09_shoup_mul w a M.value x (by omega) hx _ e, Nat.mod_lt _ (by omega), ?_⟩
  rw [ZMod.natCast_mod]; push_cast; ring

example : ∃ M, Fp.config 8 17 = some M ∧ Fp.isNegOne M 16 = some true ∧ Fp.cmp 3 16 = .lt ∧
    (Fp.toRoot 8 M 5).bind (Fp.mulRoot 8 M 7) = some 1 := by decide +kernel

/-! ## Digits from the low end -/

theorem newWord_cover {w q bits : Nat} (hq : q < 2 ^ w) {B : Basis} (h : Basis.newWord w bits q = some B) :
    1 ≤ bits ∧ bits < w ∧ B.bits = bits ∧ B.mask = 2 ^ bits - 1 ∧ q ≤ 2 ^ (bits * B.decomposeLen) := by
  have hbl : bitLen q ≤ w := by
    unfold bitLen
    split
    · omega
    · next h0 => have := (Nat.log2_lt h0).2 hq; omega
  have hmb : w - leadingZeros w q = bitLen q := by unfold leadingZeros; omega
  unfold Basis.newWord at h
  simp only [hmb] at h
  obtain ⟨mb, hm, h⟩ := Option.bind_eq_some_iff.1 h
  have hcov : q ≤ 2 ^ mb ∧ mb ≤ bitLen q := by
    unfold Basis.coverBits at hm
    split at hm
    · next hp =>
      obtain ⟨k, rfl⟩ := isPow2_iff.1 hp
      have hb : bitLen (2 ^ k) = k + 1 := by simp [bitLen, Nat.log2_two_pow]
      rw [hb, subC_eq (by omega)] at hm
      obtain rfl := Option.some.inj hm
      rw [hb]; exact ⟨le_of_eq (by simp), by omega⟩
    · obtain rfl := Option.some.inj hm
      refine ⟨?_, le_refl _⟩
      unfold bitLen
      split
      · next h0 => omega
      · exact (Nat.lt_log2_self).le
  split at h
  · simp at h
  · next h1 =>
    split at h
    · simp at h
    · next h2 =>
      rw [mbind (shlC_one_pow (by omega)), mbind (subC_eq Nat.one_le_two_pow)] at h
      obtain rfl := Option.some.inj h
      exact ⟨by omega, by omega, rfl, rfl,
        hcov.1.trans (Nat.pow_le_pow_right (by decide) (ceil_cover (by omega)))⟩

/-- C65: one call replaces the whole destination by the lowest digits and the data by what remains;
it panics only if the lengths differ. -/
theorem C65_lsb_step (w q bits : Nat) (hq : q < 2 ^ w) (B : Basis) (hB : Basis.newWord w bits q = some B)
    (data dst : List Nat) :
    Lsb.decompose w B data dst =
      if dst.length = data.length then
        some (data.map (· % 2 ^ bits), data.map (· / 2 ^ bits))
      else none := by
  obtain ⟨h1, h2, h3, h4, _⟩ := newWord_cover hq hB
  unfold Lsb.decompose
  split
  · rw [Ntt.mapM_some (Lsb.digit w B) (fun p => (p % 2 ^ bits, p / 2 ^ bits)) data]
    · simp [List.unzip_eq_map, Function.comp_def]
    · intro p _
      unfold Lsb.digit shrC
      rw [h3, h4, if_pos h2, and_mask']; rfl
  · rfl

theorem lsbAll_spec (w q bits : Nat) (hq : q < 2 ^ w) (B : Basis) (hB : Basis.newWord w bits q = some B) :
    ∀ (cnt : Nat) (data dst : List Nat), dst.length = data.length →
      ∃ ds, Lsb.decomposeAll w B cnt data dst = some ds ∧ ds.length = cnt ∧
        ∀ j < cnt, ds.getD j [] = data.map fun p => p / 2 ^ (bits * j) % 2 ^ bits
  | 0, _, _, _ => ⟨[], rfl, rfl, fun _ h => absurd h (by omega)⟩
  | cnt + 1, data, dst, hl => by
    have e := C65_lsb_step w q bits hq B hB data dst
    rw [if_pos hl] at e
    obtain ⟨ds, h1, h2, h3⟩ := lsbAll_spec w q bits hq B hB cnt (data.map (· / 2 ^ bits))
      (data.map (· % 2 ^ bits)) (by simp)
    refine ⟨data.map (· % 2 ^ bits) :: ds, ?_, by simp [h2], ?_⟩
    · unfold Lsb.decomposeAll
      rw [mbind e]
      simp only
      rw [mbind h1]; rfl
    · rintro (_ | j) hj
      · simp
      · rw [List.getD_cons_succ, h3 j (by omega), List.map_map]
        apply List.map_congr_left
        intro p _
        simp only [Function.comp]
        rw [Nat.div_div_eq_div_mul, ← Nat.pow_add]
        congr 3
        ring

/-- C65: as many calls as the basis has digits write every value below the modulus out in the base: the
digits are below the base, and weighted by its powers they sum to the value. The first destination may hold
anything. -/
theorem C65_lsb (w q bits : Nat) (hq : q < 2 ^ w) (B : Basis) (hB : Basis.newWord w bits q = some B)
    (data dst : List Nat) (hl : dst.length = data.length) (hd : ∀ x ∈ data, x < q) :
    ∃ ds, Lsb.decomposeAll w B B.decomposeLen data dst = some ds ∧ ds.length = B.decomposeLen ∧
      ∀ i < data.length, (∀ j < B.decomposeLen, (ds.getD j []).getD i 0 < 2 ^ bits) ∧
        ∑ j ∈ Finset.range B.decomposeLen, (ds.getD j []).getD i 0 * 2 ^ (bits * j) = data.getD i 0 := by
  obtain ⟨ds, h1, h2, h3⟩ := lsbAll_spec w q bits hq B hB B.decomposeLen data dst hl
  obtain ⟨_, _, _, _, hcov⟩ := newWord_cover hq hB
  have hget : ∀ i < data.length, ∀ j < B.decomposeLen,
      (ds.getD j []).getD i 0 = data.getD i 0 / 2 ^ (bits * j) % 2 ^ bits := by
    intro i hi j hj
    rw [h3 j hj]
    simp [List.getD_eq_getElem?_getD, hi]
  refine ⟨ds, h1, h2, fun i hi => ⟨fun j hj => ?_, ?_⟩⟩
  · rw [hget i hi j hj]; exact Nat.mod_lt _ (Nat.two_pow_pos _)
  · rw [Finset.sum_congr rfl fun j hj => by rw [hget i hi j (Finset.mem_range.1 hj)]]
    have key : ∀ (n x : Nat), ∑ j ∈ Finset.range n, x / 2 ^ (bits * j) % 2 ^ bits * 2 ^ (bits * j) =
        x % 2 ^ (bits * n) := by
      intro n x
      induction n with
      | zero => simp [Nat.mod_one]
      | succ n ih =>
        rw [Finset.sum_range_succ, ih, Nat.mul_succ, Nat.pow_add, Nat.mod_mul]
        ring
    rw [key, Nat.mod_eq_of_lt]
    refine lt_of_lt_of_le (hd _ ?_) hcov
    rw [List.getD_eq_getElem _ _ hi]; exact List.getElem_mem hi

example : (Basis.newWord 8 3 100).bind (fun B => Lsb.decomposeAll 8 B B.decomposeLen [99, 10] [7, 7]) =
    some [[3, 2], [4, 1], [1, 0]] := by decide

end Verif.Props
