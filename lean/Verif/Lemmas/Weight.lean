import Verif.SpecLeveled
import Verif.Lemmas.RingMono

/-! # Sums of absolute values of coefficients -/

namespace Verif.Spec.Rq
open Finset

variable {q n : Nat} {p r : Rq (ZMod q) n} {a b : Nat}

/-- The integers of a weight as a sequence. -/
theorem Weight.lift (h : Weight a p) : ∃ P : Nat → ℤ, ∑ j ∈ range n, |P j| ≤ a ∧
    ∀ j, (P j : ZMod q) = p.seq j := by
  obtain ⟨z, hz, e⟩ := h
  refine ⟨fun j => if h : j < n then z ⟨j, h⟩ else 0, ?_, fun j => ?_⟩
  · rw [Finset.sum_range]
    simpa using hz
  · unfold Rq.seq
    dsimp only
    split
    · exact e _
    · simp

theorem Weight.of_seq (P : Nat → ℤ) (h : ∑ j ∈ range n, |P j| ≤ a)
    (e : ∀ j, j < n → (P j : ZMod q) = p.seq j) : Weight a p :=
  ⟨fun i => P i.val, by rwa [← Finset.sum_range fun j => |P j|], fun i => (e i.val i.isLt).trans (seq_val p i)⟩

theorem Weight.mono (h : Weight a p) (hab : a ≤ b) : Weight b p := by
  obtain ⟨z, hz, e⟩ := h
  exact ⟨z, hz.trans (by exact_mod_cast hab), e⟩

theorem Weight.zero : Weight 0 (0 : Rq (ZMod q) n) := ⟨fun _ => 0, by simp, fun i => by simp⟩

theorem Weight.add (h : Weight a p) (h' : Weight b r) : Weight (a + b) (p + r) := by
  obtain ⟨z, hz, e⟩ := h
  obtain ⟨y, hy, e'⟩ := h'
  refine ⟨fun i => z i + y i, ?_, fun i => by push_cast; rw [e, e', add_co]⟩
  calc ∑ i, |z i + y i| ≤ ∑ i, (|z i| + |y i|) := sum_le_sum fun i _ => abs_add_le _ _
    _ = ∑ i, |z i| + ∑ i, |y i| := sum_add_distrib
    _ ≤ _ := by push_cast; exact add_le_add hz hy

theorem Weight.neg (h : Weight a p) : Weight a (-p) := by
  obtain ⟨z, hz, e⟩ := h
  exact ⟨fun i => -z i, by simpa using hz, fun i => by push_cast; rw [e, neg_co]⟩

theorem Weight.sub (h : Weight a p) (h' : Weight b r) : Weight (a + b) (p - r) := by
  have := h.add h'.neg
  rwa [show p + -r = p - r from Rq.ext fun i => by rw [add_co, neg_co, sub_co, sub_eq_add_neg]] at this

/-- A product with a polynomial of weight `a` multiplies bounds by at most `a`. -/
theorem Weight.mul_bounded (h : Weight a p) (h' : Bounded b r) : Bounded (a * b) (p * r) := by
  intro i
  obtain ⟨P, hP, eP⟩ := h.lift
  choose S hS eS using h'.seq
  refine ⟨∑ j ∈ range n, (if j ≤ i.val then P j * S (i.val - j) else -(P j * S (n + i.val - j))), ?_, ?_⟩
  · refine (abs_sum_le_sum_abs _ _).trans ?_
    refine (sum_le_sum (g := fun j => |P j| * b) fun j _ => ?_).trans ?_
    · split
      · rw [abs_mul]; exact mul_le_mul_of_nonneg_left (hS _) (abs_nonneg _)
      · rw [abs_neg, abs_mul]; exact mul_le_mul_of_nonneg_left (hS _) (abs_nonneg _)
    · rw [← sum_mul]; push_cast
      exact mul_le_mul_of_nonneg_right hP (by positivity)
  · rw [mul_co, Int.cast_sum]
    refine sum_congr rfl fun j _ => ?_
    split <;> push_cast <;> rw [eP, eS]

theorem sum_rotate (g : Nat → ℤ) {j : Nat} (hj : j < n) :
    ∑ i ∈ range n, g (if j ≤ i then i - j else n + i - j) = ∑ i ∈ range n, g i := by
  obtain ⟨m, rfl⟩ : ∃ m, n = j + m := ⟨n - j, by omega⟩
  rw [sum_range_add]
  have h1 : ∑ i ∈ range j, g (if j ≤ i then i - j else j + m + i - j) = ∑ i ∈ range j, g (m + i) :=
    sum_congr rfl fun i hi => by
      rw [if_neg (by have := mem_range.1 hi; omega), show j + m + i - j = m + i by omega]
  have h2 : ∑ i ∈ range m, g (if j ≤ j + i then j + i - j else j + m + (j + i) - j) = ∑ i ∈ range m, g i :=
    sum_congr rfl fun i _ => by rw [if_pos (by omega), show j + i - j = i by omega]
  rw [h1, h2, show j + m = m + j by omega, sum_range_add]
  ring

theorem Weight.mul (h : Weight a p) (h' : Weight b r) : Weight (a * b) (p * r) := by
  obtain ⟨P, hP, eP⟩ := h.lift
  obtain ⟨S, hS, eS⟩ := h'.lift
  refine Weight.of_seq (fun i => ∑ j ∈ range n,
    (if j ≤ i then P j * S (i - j) else -(P j * S (n + i - j)))) ?_ ?_
  · have key : ∀ i, |∑ j ∈ range n, (if j ≤ i then P j * S (i - j) else -(P j * S (n + i - j)))| ≤
        ∑ j ∈ range n, |P j| * |S (if j ≤ i then i - j else n + i - j)| := fun i => by
      refine (abs_sum_le_sum_abs _ _).trans (sum_le_sum fun j _ => ?_)
      split
      · rw [abs_mul]
      · rw [abs_neg, abs_mul]
    refine (sum_le_sum fun i _ => key i).trans ?_
    rw [sum_comm]
    have : ∀ j ∈ range n, ∑ i ∈ range n, |P j| * |S (if j ≤ i then i - j else n + i - j)| =
        |P j| * ∑ i ∈ range n, |S i| := fun j hj => by
      rw [← mul_sum, sum_rotate (fun i => |S i|) (mem_range.1 hj)]
    rw [sum_congr rfl this, ← sum_mul]
    push_cast
    exact mul_le_mul hP hS (sum_nonneg fun _ _ => abs_nonneg _) (by positivity)
  · intro i hi
    rw [seq_lt _ hi, mul_co, Int.cast_sum]
    refine sum_congr rfl fun j _ => ?_
    split <;> push_cast <;> rw [eP, eS]

theorem Weight.one [NeZero n] : Weight 1 (1 : Rq (ZMod q) n) := by
  refine ⟨fun i => if i.val = 0 then 1 else 0, ?_, fun i => ?_⟩
  · have hn := Nat.pos_of_ne_zero (NeZero.ne n)
    rw [Finset.sum_eq_single ⟨0, hn⟩]
    · simp
    · intro i _ hi
      have : i.val ≠ 0 := fun h => hi (Fin.ext h)
      simp [this]
    · simp
  · show _ = (if i.val = 0 then 1 else 0 : ZMod q)
    by_cases hi : i.val = 0 <;> simp only [hi] <;> simp

theorem weight_words {l : List Nat} (h : Reduced q n l) : Weight (l1 q l) (ofWords q n l) := by
  obtain ⟨rfl, hl⟩ := h
  refine ⟨fun i => if 2 * l[i] ≤ q then (l[i] : ℤ) else (l[i] : ℤ) - q, ?_, fun i => ?_⟩
  · have e : ∀ i : Fin l.length, |if 2 * l[i] ≤ q then (l[i] : ℤ) else (l[i] : ℤ) - q| =
        ((min l[i] (q - l[i]) : Nat) : ℤ) := fun i => by
      have := hl l[i] (List.getElem_mem _)
      split
      · rw [abs_of_nonneg (by positivity), min_eq_left (by omega)]
      · rw [abs_of_nonpos (by omega), min_eq_right (by omega)]; omega
    rw [sum_congr rfl fun i _ => e i, ← Nat.cast_sum]
    unfold l1
    rw [← Fin.sum_univ_fun_getElem]
    rfl
  · show _ = ((l.getD i.val 0 : Nat) : ZMod q)
    rw [List.getD_eq_getElem _ _ i.isLt]
    dsimp only
    split <;> simp

end Verif.Spec.Rq
