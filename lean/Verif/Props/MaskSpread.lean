import Verif.Lemmas.Norm
import Verif.Props.UniformMask

/-! # C75: the digits of uniform words rarely have a common root -/

namespace Verif.Props
open Fp Finset Spec Ntt
open scoped ENNReal

section Count

theorem mean_sum {α ι : Type} (p : PMF α) (s : Finset ι) (f : ι → α → ℝ≥0∞) :
    (mean p fun a => ∑ i ∈ s, f i a) = ∑ i ∈ s, mean p (f i) := by
  classical
  induction s using Finset.induction with
  | empty => simp [mean_const]
  | insert i s hi ih => simp only [sum_insert hi, mean_add, ih]

/-- A set that contains at most one of the translates of every vector has a small probability. -/
theorem translates_prob {q n : Nat} [NeZero q] {ι : Type} [Fintype ι] (hι : Fintype.card ι ≠ 0) (d : ι → List Nat)
    (Bad : Set (List Nat))
    (h : ∀ l ∈ (draws (uniformBelow q) n).support, ∀ i j, addW q l (d i) ∈ Bad → addW q l (d j) ∈ Bad → i = j) :
    (draws (uniformBelow q) n).toOuterMeasure Bad ≤ (Fintype.card ι : ℝ≥0∞)⁻¹ := by
  classical
  have hc : (Fintype.card ι : ℝ≥0∞) ≠ 0 := by exact_mod_cast hι
  rw [ENNReal.le_inv_iff_mul_le, prob_eq]
  have e : ∀ i : ι, (mean (draws (uniformBelow q) n) fun l => if addW q l (d i) ∈ Bad then (1 : ℝ≥0∞) else 0) =
      mean (draws (uniformBelow q) n) fun l => if l ∈ Bad then 1 else 0 := fun i =>
    uniform_shift (d i) n fun l => if l ∈ Bad then 1 else 0
  have e2 : (mean (draws (uniformBelow q) n) fun l => ∑ i : ι, if addW q l (d i) ∈ Bad then (1 : ℝ≥0∞) else 0) =
      (mean (draws (uniformBelow q) n) fun l => if l ∈ Bad then 1 else 0) * Fintype.card ι := by
    rw [mean_sum]
    simp only [e]
    rw [sum_const, card_univ, nsmul_eq_mul, mul_comm]
  rw [← e2]
  refine (mean_mono (g := fun _ => 1) fun l hl => ?_).trans_eq (mean_const _ 1)
  by_cases hex : ∃ i, addW q l (d i) ∈ Bad
  · obtain ⟨i, hi⟩ := hex
    rw [sum_eq_single i (fun j _ hj => if_neg fun hb => hj (h l hl j i hb hi)) (fun h => absurd (mem_univ _) h),
      if_pos hi]
  · rw [sum_eq_zero fun i _ => if_neg fun hb => hex ⟨i, hb⟩]
    exact zero_le

end Count

section Digits
variable {q : Nat} [Fact q.Prime]

/-- The words `v p` at the positions `m p` and zeros elsewhere. -/
def spreadWords (n m : Nat) (v : Nat → Nat) : List Nat :=
  (List.range n).map fun i => if i % m = 0 then v (i / m) else 0

theorem spreadWords_getD {n m : Nat} {v : Nat → Nat} {i : Nat} (hi : i < n) :
    (spreadWords n m v).getD i 0 = if i % m = 0 then v (i / m) else 0 := by
  rw [List.getD_eq_getElem _ _ (by simpa [spreadWords] using hi)]
  simp [spreadWords]

omit [Fact q.Prime] in
theorem digits_ext {bits len x y : Nat} (hx : x < 2 ^ (bits * len)) (hy : y < 2 ^ (bits * len))
    (h : ∀ j < len, x / 2 ^ (bits * j) % 2 ^ bits = y / 2 ^ (bits * j) % 2 ^ bits) : x = y := by
  induction len generalizing x y with
  | zero => simp at hx hy; omega
  | succ len ih =>
    have h0 := h 0 (by omega)
    simp only [mul_zero, pow_zero, Nat.div_one] at h0
    have hlt : ∀ z, z < 2 ^ (bits * (len + 1)) → z / 2 ^ bits < 2 ^ (bits * len) := fun z hz => by
      rw [Nat.div_lt_iff_lt_mul (by positivity), ← pow_add]
      exact hz.trans_eq (by ring)
    have := ih (hlt x hx) (hlt y hy) fun j hj => by
      have := h (j + 1) (by omega)
      rwa [show bits * (j + 1) = bits + bits * j by ring, pow_add, ← Nat.div_div_eq_div_mul,
        ← Nat.div_div_eq_div_mul] at this
    rw [← Nat.div_add_mod x (2 ^ bits), ← Nat.div_add_mod y (2 ^ bits), this, h0]

/-- Words that differ only at the positions `m p`, and whose digits all have the root `r`, are equal. -/
theorem digits_root_unique {n m t bits len : Nat} (hn : n = m * 2 ^ t) (hm : 0 < m)
    (hq : (2 ^ t * (2 ^ bits - 1)) ^ 2 ^ t < q) (hlen : q ≤ 2 ^ (bits * len)) {r : ZMod q} (hr : r ^ n = -1)
    {x y : List Nat} (hx : Reduced q n x) (hy : Reduced q n y) (hxy : ∀ i < n, i % m ≠ 0 → x.getD i 0 = y.getD i 0)
    (h : ∀ l ∈ [x, y], ∀ j < len, ∑ i ∈ range n, (digitPoly q n bits l j).seq i * r ^ i = 0) : x = y := by
  have hdig : ∀ (l : List Nat) j, ∑ i ∈ range n, (digitPoly q n bits l j).seq i * r ^ i =
      ∑ i ∈ range n, ((l.getD i 0 / 2 ^ (bits * j) % 2 ^ bits : Nat) : ZMod q) * r ^ i := fun l j =>
    sum_congr rfl fun i hi => by rw [Rq.seq_lt _ (mem_range.1 hi)]; rfl
  have hpos : ∀ p < 2 ^ t, x.getD (m * p) 0 = y.getD (m * p) 0 := by
    intro p hp
    have hmp : ∀ p < 2 ^ t, m * p < n := fun p hp => by rw [hn]; exact Nat.mul_lt_mul_of_pos_left hp hm
    have hlt : ∀ {l : List Nat}, Reduced q n l → ∀ p < 2 ^ t, l.getD (m * p) 0 < 2 ^ (bits * len) := fun hl p hp =>
      (hl.2 _ (getD_mem _ (by rw [hl.1]; exact hmp p hp))).trans_le hlen
    refine digits_ext (hlt hx p hp) (hlt hy p hp) fun j hj => ?_
    have hd : ∑ i ∈ range n, (((x.getD i 0 / 2 ^ (bits * j) % 2 ^ bits : Nat) : ZMod q) -
        ((y.getD i 0 / 2 ^ (bits * j) % 2 ^ bits : Nat) : ZMod q)) * r ^ i = 0 := by
      simp only [sub_mul, sum_sub_distrib]
      rw [← hdig, ← hdig, h x (by simp) j hj, h y (by simp) j hj, sub_zero]
    obtain ⟨c, hc⟩ : ∃ c : Nat → ℤ, ∀ p, c p = ((x.getD (m * p) 0 / 2 ^ (bits * j) % 2 ^ bits : Nat) : ℤ) -
      ((y.getD (m * p) 0 / 2 ^ (bits * j) % 2 ^ bits : Nat) : ℤ) := ⟨_, fun _ => rfl⟩
    have hsum : ∑ p ∈ range (2 ^ t), (c p : ZMod q) * (r ^ m) ^ p = 0 := by
      rw [← hd, hn]
      refine sum_of_injOn (fun p => m * p) (fun a _ b _ hab => Nat.eq_of_mul_eq_mul_left hm hab)
        (fun p hp => by
          simp only [coe_range, Set.mem_Iio] at hp ⊢
          exact Nat.mul_lt_mul_of_pos_left hp hm) (fun i hi hni => ?_) (fun p _ => ?_)
      · have hi' : i < n := by rw [hn]; exact mem_range.1 hi
        have : i % m ≠ 0 := fun h0 => hni ⟨i / m, by
          simp only [coe_range, Set.mem_Iio]
          rw [Nat.div_lt_iff_lt_mul hm, mul_comm]
          exact mem_range.1 hi, Nat.mul_div_cancel' (Nat.dvd_of_mod_eq_zero h0)⟩
        rw [hxy i hi' this, sub_self, zero_mul]
      · rw [hc, ← pow_mul, Int.cast_sub, Int.cast_natCast, Int.cast_natCast]
    have := small_relation t (2 ^ bits - 1) hq (r ^ m) (by rw [← pow_mul, ← hn, hr]) c (fun p _ => by
      rw [hc, abs_le]
      have h1 := Nat.mod_lt (x.getD (m * p) 0 / 2 ^ (bits * j)) (Nat.two_pow_pos bits)
      have h2 := Nat.mod_lt (y.getD (m * p) 0 / 2 ^ (bits * j)) (Nat.two_pow_pos bits)
      omega) hsum p hp
    rw [hc] at this
    omega
  refine List.ext_getElem (hx.1.trans hy.1.symm) fun i h1 h2 => ?_
  have hi : i < n := hx.1 ▸ h1
  rw [← List.getD_eq_getElem _ 0 h1, ← List.getD_eq_getElem _ 0 h2]
  by_cases h0 : i % m = 0
  · have := hpos (i / m) (by rw [Nat.div_lt_iff_lt_mul hm, mul_comm, ← hn]; exact hi)
    rwa [Nat.mul_div_cancel' (Nat.dvd_of_mod_eq_zero h0)] at this
  · exact hxy i hi h0

/-- The words `T l` of a uniform vector `l` rarely have digits with a common root, if each of them can be moved by a
translation of `l`. -/
theorem digits_root_prob [NeZero q] {n n' m t bits len : Nat} (hn : n = m * 2 ^ t) (hm : 0 < m)
    (hq : (2 ^ t * (2 ^ bits - 1)) ^ 2 ^ t < q) (hlen : q ≤ 2 ^ (bits * len)) (T : List Nat → List Nat)
    (hT : ∀ l, Reduced q n' l → Reduced q n (T l))
    (hd : ∀ v : Nat → Nat, ∃ d, ∀ l, Reduced q n' l → T (addW q l d) = addW q (T l) (spreadWords n m v)) :
    (draws (uniformBelow q) n').toOuterMeasure
      {l | ¬NoCommonRoot (fun _ j => digitPoly q n bits (T l) j) 1 len} ≤ n * ((q : ℝ≥0∞) ^ 2 ^ t)⁻¹ := by
  classical
  have hq0 : 0 < q := Nat.pos_of_ne_zero (NeZero.ne q)
  have hn0 : 0 < n := by rw [hn]; positivity
  obtain ⟨roots, hroots⟩ : ∃ s : Finset (ZMod q), s = univ.filter fun r => r ^ n = -1 := ⟨_, rfl⟩
  have hcard : roots.card ≤ n := by
    have hp : (Polynomial.X ^ n + Polynomial.C 1 : Polynomial (ZMod q)) ≠ 0 :=
      (Polynomial.monic_X_pow_add_C 1 (by omega)).ne_zero
    refine (Finset.card_le_card (t := (Polynomial.X ^ n + Polynomial.C 1 : Polynomial (ZMod q)).roots.toFinset)
      fun r hr => ?_).trans ((Multiset.toFinset_card_le _).trans ((Polynomial.card_roots' _).trans ?_))
    · rw [hroots, mem_filter] at hr
      rw [Multiset.mem_toFinset, Polynomial.mem_roots hp]
      simp [hr.2]
    · rw [Polynomial.natDegree_X_pow_add_C]
  have hone : ∀ r ∈ roots, (draws (uniformBelow q) n').toOuterMeasure
      {l | Reduced q n' l ∧ ∀ j < len, ∑ i ∈ range n, (digitPoly q n bits (T l) j).seq i * r ^ i = 0} ≤
      ((q : ℝ≥0∞) ^ 2 ^ t)⁻¹ := by
    intro r hr
    have hr' : r ^ n = -1 := by rw [hroots, mem_filter] at hr; exact hr.2
    have hci : Fintype.card (Fin (2 ^ t) → Fin q) = q ^ 2 ^ t := by simp
    choose d hd using hd
    have := translates_prob (q := q) (n := n') (ι := Fin (2 ^ t) → Fin q) (by rw [hci]; positivity)
      (fun v => d fun p => if h : p < 2 ^ t then v ⟨p, h⟩ else 0) {l | Reduced q n' l ∧
        ∀ j < len, ∑ i ∈ range n, (digitPoly q n bits (T l) j).seq i * r ^ i = 0} ?_
    · rw [hci] at this
      push_cast at this
      exact this
    · intro l hl v v' ⟨_, h1⟩ ⟨_, h2⟩
      obtain ⟨e1, e2⟩ := mem_support_draws hl
      have hl' : Reduced q n' l := ⟨e1, fun x hx => mem_support_uniformBelow (e2 x hx)⟩
      have hTl := hT l hl'
      rw [hd _ l hl'] at h1 h2
      have hred : ∀ w, Reduced q n (addW q (T l) w) := fun w => ⟨by rw [addW_length, hTl.1], fun x hx => by
        obtain ⟨i, hi, rfl⟩ := List.mem_iff_getElem.1 hx
        simp only [addW, List.getElem_mapIdx]
        exact Nat.mod_lt _ hq0⟩
      have heq := digits_root_unique hn hm hq hlen hr'
        (hred (spreadWords n m fun p => if h : p < 2 ^ t then v ⟨p, h⟩ else 0))
        (hred (spreadWords n m fun p => if h : p < 2 ^ t then v' ⟨p, h⟩ else 0)) (fun i hi h0 => by
        rw [addW_getD (by rw [hTl.1]; exact hi), addW_getD (by rw [hTl.1]; exact hi), spreadWords_getD hi,
          spreadWords_getD hi, if_neg h0, if_neg h0]) (by
        intro w hw
        simp only [List.mem_cons, List.not_mem_nil, or_false] at hw
        rcases hw with rfl | rfl
        exacts [h1, h2])
      funext p
      have hi : m * p.val < n := by rw [hn]; exact Nat.mul_lt_mul_of_pos_left p.isLt hm
      have := congrArg (fun w : List Nat => w.getD (m * p.val) 0) heq
      rw [addW_getD (by rw [hTl.1]; exact hi), addW_getD (by rw [hTl.1]; exact hi), spreadWords_getD hi,
        spreadWords_getD hi, if_pos (Nat.mul_mod_right _ _), if_pos (Nat.mul_mod_right _ _),
        Nat.mul_div_cancel_left _ hm, dif_pos p.isLt, dif_pos p.isLt] at this
      have h3 : ((v p).val : ZMod q) = (v' p).val := by
        have := congrArg (fun x : Nat => (x : ZMod q)) this
        simpa using this
      refine Fin.ext ?_
      rw [← ZMod.val_cast_of_lt (v p).isLt, ← ZMod.val_cast_of_lt (v' p).isLt, h3]
  calc (draws (uniformBelow q) n').toOuterMeasure
        {l | ¬NoCommonRoot (fun _ j => digitPoly q n bits (T l) j) 1 len}
      ≤ (draws (uniformBelow q) n').toOuterMeasure (⋃ r ∈ roots, {l | Reduced q n' l ∧
          ∀ j < len, ∑ i ∈ range n, (digitPoly q n bits (T l) j).seq i * r ^ i = 0}) := by
        refine prob_mono fun l hl hbad => ?_
        obtain ⟨e1, e2⟩ := mem_support_draws hl
        simp only [NoCommonRoot, not_forall, not_exists, not_and, not_not, Set.mem_ofPred_eq] at hbad
        obtain ⟨r, hr, h⟩ := hbad
        refine Set.mem_iUnion₂.2 ⟨r, by rw [hroots, mem_filter]; exact ⟨mem_univ _, hr⟩,
          ⟨e1, fun x hx => mem_support_uniformBelow (e2 x hx)⟩, fun j hj => h 0 (by omega) j hj⟩
    _ ≤ ∑ r ∈ roots, (draws (uniformBelow q) n').toOuterMeasure {l | Reduced q n' l ∧
          ∀ j < len, ∑ i ∈ range n, (digitPoly q n bits (T l) j).seq i * r ^ i = 0} :=
        MeasureTheory.measure_biUnion_finset_le _ _
    _ ≤ ∑ r ∈ roots, ((q : ℝ≥0∞) ^ 2 ^ t)⁻¹ := sum_le_sum hone
    _ = roots.card * ((q : ℝ≥0∞) ^ 2 ^ t)⁻¹ := by rw [sum_const, nsmul_eq_mul]
    _ ≤ n * ((q : ℝ≥0∞) ^ 2 ^ t)⁻¹ := by gcongr

end Digits
end Verif.Props
