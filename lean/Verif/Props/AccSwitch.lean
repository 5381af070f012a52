import Verif.Props.AccEval

/-! # C75: the last steps of a bootstrapping for a uniform accumulator -/

namespace Verif.Props
open Fp Finset Spec Ntt
open scoped ENNReal

section
variable {q : Nat} [NeZero q]

omit [NeZero q] in
theorem sub_word {x : Nat} (hx : x < q) : (((q - x) % q : Nat) : ZMod q) = -(x : ZMod q) := by
  rw [ZMod.natCast_mod, Nat.cast_sub hx.le, ZMod.natCast_self, zero_sub]

omit [NeZero q] in
theorem coeff_addW {n : Nat} {a d : List Nat} (ha : Reduced q n a) {i : Nat} (hi : i < n) :
    coeff q (addW q a d) i = coeff q a i + coeff q d i := by
  unfold coeff
  rw [addW_getD (by rw [ha.1]; exact hi), ZMod.natCast_mod, Nat.cast_add]

theorem extract_vals {n : Nat} (hn : 0 < n) {a : List Nat} (ha : Reduced q n a) :
    Vals q n q (extractWords q n a) (extractSeq n (coeff q a)) := by
  refine Vals.of_getD (by simp [extractWords]) fun i hi => ?_
  have hget : (extractWords q n a).getD i 0 =
      if i = 0 then a.getD 0 0 else (q - a.getD (n - i) 0) % q := by
    rw [List.getD_eq_getElem _ _ (by simpa [extractWords] using hi)]
    simp [extractWords]
  have hlt : ∀ i, i < n → a.getD i 0 < q := fun i hi => ha.2 _ (getD_mem _ (by rw [ha.1]; exact hi))
  rw [hget]
  unfold extractSeq
  split
  · exact ⟨hlt _ hn, rfl⟩
  · exact ⟨Nat.mod_lt _ (Nat.pos_of_ne_zero (NeZero.ne q)), sub_word (hlt _ (by omega))⟩

/-- The extracted mask of a uniform mask is uniform. -/
theorem extract_uniform {n : Nat} (hn : 0 < n) (X : Set (List Nat)) :
    (draws (uniformBelow q) n).toOuterMeasure {l | extractWords q n l ∈ X} =
      (draws (uniformBelow q) n).toOuterMeasure X := by
  classical
  rw [prob_eq, prob_eq]
  have := uniform_of_translations (q := q) (n := n) (draws (uniformBelow q) n) (fun l => some (extractWords q n l))
    (fun W hW => ⟨fun l => addW q l (extractWords q n W), fun F => uniform_shift _ n F, fun l hl => ⟨_, rfl, ?_⟩⟩)
    (fun o => if ∃ x ∈ X, o = some x then 1 else 0)
  · have e : ∀ l : List Nat, (∃ x ∈ X, some l = some x) ↔ l ∈ X := fun l =>
      ⟨fun ⟨x, hx, e⟩ => Option.some.inj e ▸ hx, fun h => ⟨l, h, rfl⟩⟩
    simpa only [e, Set.mem_ofPred_eq] using this
  · obtain ⟨e1, e2⟩ := mem_support_draws hl
    have hl : Reduced q n l := ⟨e1, fun v hv => mem_support_uniformBelow (e2 v hv)⟩
    congr 1
    have hW' := extract_vals hn hW
    refine Vals.ext (extract_vals hn (Reduced.addW hl)) (Vals.of_getD (by rw [addW_length, hW.1]) fun i hi => ?_)
    rw [addW_getD (by rw [hW.1]; exact hi)]
    refine ⟨Nat.mod_lt _ (Nat.pos_of_ne_zero (NeZero.ne q)), ?_⟩
    rw [ZMod.natCast_mod, Nat.cast_add]
    have e1 := (extract_vals hn hl).val i hi
    rw [e1]
    have c1 : ∀ j < n, coeff q (addW q l (extractWords q n W)) j = coeff q l j + extractSeq n (coeff q W) j :=
      fun j hj => by
        rw [coeff_addW hl hj]
        congr 1
        exact hW'.val j hj
    unfold extractSeq
    by_cases h0 : i = 0
    · rw [if_pos h0, if_pos h0, c1 0 hn, h0]
      simp [extractSeq, coeff, add_comm]
    · rw [if_neg h0, if_neg h0, c1 _ (by omega)]
      unfold extractSeq
      rw [if_neg (by omega), show n - (n - i) = i by omega]
      unfold coeff
      ring

/-- The words decomposed for the first chunk are entries of the accumulator up to signs. -/
theorem chunk_vals {n N : Nat} (hn : 0 < n) (hN : n ≤ N) {l : List Nat} (hl : Reduced q N l) :
    Vals q n q (switchWords q n (extractWords q N l) 0)
      (fun i => -coeff q l (if i = 0 then 0 else N - n + i)) := by
  have he := extract_vals (by omega) hl
  refine Vals.of_getD (by simp [switchWords]) fun i hi => ?_
  have hget : (switchWords q n (extractWords q N l) 0).getD i 0 = if i = 0 then
      (q - (extractWords q N l).getD 0 0) % q else (extractWords q N l).getD (n - i) 0 := by
    rw [List.getD_eq_getElem _ _ (by simpa [switchWords] using hi)]
    simp [switchWords]
  rw [hget]
  by_cases h0 : i = 0
  · rw [if_pos h0, if_pos h0, sub_word (he.getD_lt (by omega)), he.val 0 (by omega)]
    exact ⟨Nat.mod_lt _ (Nat.pos_of_ne_zero (NeZero.ne q)), by simp [extractSeq]⟩
  · rw [if_neg h0, if_neg h0, he.val _ (by omega)]
    refine ⟨he.getD_lt (by omega), ?_⟩
    unfold extractSeq
    rw [if_neg (by omega), show N - (n - i) = N - n + i by omega]

theorem chunk_root_prob [Fact q.Prime] {n N m t bits len cnt : Nat} (hnm : n = m * 2 ^ t) (hm : 0 < m) (hN : n ≤ N)
    (hq : (2 ^ t * (2 ^ bits - 1)) ^ 2 ^ t < q) (hlen : q ≤ 2 ^ (bits * len)) (hc : 0 < cnt) :
    (draws (uniformBelow q) N).toOuterMeasure
      {l | ¬NoCommonRoot (switchDigit q n N bits l) cnt len} ≤ rootTail q n t := by
  have hn : 0 < n := by rw [hnm]; positivity
  refine le_trans (prob_mono ?_) (digits_root_prob (n' := N) hnm hm hq hlen
    (fun l => switchWords q n (extractWords q N l) 0)
    (fun l hl => ⟨(chunk_vals hn hN hl).len, (chunk_vals hn hN hl).lt⟩) fun v => ?_)
  · intro l _ h h'
    refine h fun r hr => ?_
    obtain ⟨_, _, j, hj, hne⟩ := h' r hr
    exact ⟨0, hc, j, hj, hne⟩
  · obtain ⟨d, hd⟩ : ∃ d : List Nat, ∀ i < n, coeff q d (if i = 0 then 0 else N - n + i) =
        -coeff q (spreadWords n m v) i := by
      refine ⟨(List.range N).map fun p => if p = 0 then (q - (spreadWords n m v).getD 0 0 % q) % q else
        (q - (spreadWords n m v).getD (p - (N - n)) 0 % q) % q, fun i hi => ?_⟩
      have hlt : ∀ x, x % q < q := fun x => Nat.mod_lt _ (Nat.pos_of_ne_zero (NeZero.ne q))
      unfold coeff
      rw [List.getD_eq_getElem _ _ (by split <;> simp <;> omega)]
      by_cases h0 : i = 0
      · simp only [h0, if_pos, List.getElem_map, List.getElem_range]
        rw [sub_word (hlt _), ZMod.natCast_mod]
      · simp only [h0, if_false, List.getElem_map, List.getElem_range]
        rw [if_neg (by omega), sub_word (hlt _), ZMod.natCast_mod, Nat.add_sub_cancel_left]
    refine ⟨d, fun l hl => ?_⟩
    have h1 := chunk_vals hn hN (Reduced.addW (d := d) hl)
    have h2 := chunk_vals hn hN hl
    refine Vals.ext h1 (Vals.of_getD (by rw [addW_length, h2.len]) fun i hi => ?_)
    rw [addW_getD (by rw [h2.len]; exact hi)]
    refine ⟨Nat.mod_lt _ (Nat.pos_of_ne_zero (NeZero.ne q)), ?_⟩
    rw [ZMod.natCast_mod, Nat.cast_add, h2.val i hi, coeff_addW hl (by split <;> omega), hd i hi]
    unfold coeff
    ring

omit [NeZero q] in
theorem zero_switchDigit (n N bits c j : Nat) : switchDigit q n N bits (Poly.zero N) c j = 0 := by
  have h1 : ∀ i, (Poly.zero N).getD i 0 = 0 := fun i => by
    unfold Poly.zero
    by_cases hi : i < N
    · rw [List.getD_eq_getElem _ _ (by simpa using hi)]; simp [Fp.zero]
    · rw [List.getD_eq_default _ _ (by simpa using hi)]
  have h2 : ∀ i, (extractWords q N (Poly.zero N)).getD i 0 = 0 := fun i => by
    unfold extractWords
    by_cases hi : i < N
    · rw [List.getD_eq_getElem _ _ (by simpa using hi), List.getElem_map]
      simp only [h1, Nat.sub_zero, Nat.mod_self, ite_self]
    · rw [List.getD_eq_default _ _ (by simpa using hi)]
  have h3 : ∀ i, (switchWords q n (extractWords q N (Poly.zero N)) c).getD i 0 = 0 := fun i => by
    unfold switchWords
    by_cases hi : i < n
    · rw [List.getD_eq_getElem _ _ (by simpa using hi), List.getElem_map]
      simp only [h2, Nat.sub_zero, Nat.mod_self, ite_self]
    · rw [List.getD_eq_default _ _ (by simpa using hi)]
  unfold switchDigit digitPoly
  refine Rq.ext fun i => ?_
  simp only [h3, Nat.zero_div, Nat.zero_mod, Nat.cast_zero]
  rfl

end
end Verif.Props
