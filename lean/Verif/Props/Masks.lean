import Verif.SpecMasks
import Verif.Props.WrongKey

/-! # C96: repeated masks -/

namespace Verif.Props
open Spec
open scoped ENNReal

theorem repeats_iff (l : List (Option LWE)) : Repeats l ↔ ¬ (masks l).Nodup := by
  unfold Repeats
  rw [List.nodup_iff_getElem?_ne_getElem?]
  push Not
  constructor
  · rintro ⟨i, j, a, hij, h1, h2⟩
    exact ⟨i, j, hij, (List.getElem?_eq_some_iff.1 h2).1, by rw [h1, h2]⟩
  · rintro ⟨i, j, hij, hj, e⟩
    exact ⟨i, j, _, hij, e.trans (List.getElem?_eq_getElem hj), List.getElem?_eq_getElem hj⟩

theorem zip_self {q : Nat} {O : ModOps} (hO : IsModOps q O) : ∀ l : List Nat, (∀ x ∈ l, x < q) →
    LWE.zipCollect O.sub l l = some (List.replicate l.length 0)
  | [], _ => rfl
  | x :: l, hl => by
    obtain ⟨r, e, hr, hc⟩ := hO.sub x x (hl x (by simp)) (hl x (by simp))
    have h0 : r = 0 := by
      rw [sub_self, ZMod.natCast_eq_zero_iff] at hc
      exact Nat.eq_zero_of_dvd_of_lt hc hr
    rw [LWE.zipCollect, mbind e, mbind (zip_self hO l fun y hy => hl y (by simp [hy])), h0]
    rfl

theorem dot_noMask : ∀ (n : Nat) (s : List Nat), Spec.dot (List.replicate n 0) s = 0
  | 0, s => by cases s <;> rfl
  | n + 1, [] => rfl
  | n + 1, a :: s => by simp [List.replicate_succ, Spec.dot, dot_noMask n s]

open Classical in
/-- The birthday bound for a history of answers with a part that is hard to guess. -/
theorem mask_birthday {C A : Type} (oracle : Nat → PMF C) (pick : List C → Nat) (f : C → A) (ε : ℝ≥0∞)
    (h : ∀ seen a, (mean (oracle (pick seen)) fun c => if f c = a then 1 else 0) ≤ ε) : ∀ (k : Nat) (seen : List C),
    (seen.map f).Nodup → (mean (queries oracle pick k seen) fun l => if (l.map f).Nodup then (0 : ℝ≥0∞) else 1) ≤
      ((∑ j ∈ Finset.range k, (seen.length + j) : Nat) : ℝ≥0∞) * ε
  | 0, seen, hn => by rw [queries, mean_pure, if_pos hn]; simp
  | k + 1, seen, hn => by
    rw [queries, mean_bind]
    have hle : ∀ c, (mean (queries oracle pick k (seen ++ [c])) fun l => if (l.map f).Nodup then (0 : ℝ≥0∞) else 1) ≤ 1 :=
      fun c => le_trans (mean_mono (g := fun _ => 1) fun l _ => by split <;> simp) (mean_const _ _).le
    set B : ℝ≥0∞ := ((∑ j ∈ Finset.range k, (seen.length + 1 + j) : Nat) : ℝ≥0∞) * ε with hB
    have h1 : ∀ c, (mean (queries oracle pick k (seen ++ [c])) fun l => if (l.map f).Nodup then (0 : ℝ≥0∞) else 1) ≤
        ((seen.map f).map fun a => if f c = a then (1 : ℝ≥0∞) else 0).sum + B := fun c => by
      by_cases hc : f c ∈ seen.map f
      · refine (hle c).trans (le_trans ?_ le_self_add)
        refine List.single_le_sum (fun x _ => zero_le) _ (List.mem_map.2 ⟨f c, hc, if_pos rfl⟩)
      · refine le_trans ?_ le_add_self
        have := mask_birthday oracle pick f ε h k (seen ++ [c]) (by
          rw [List.map_append, List.map_singleton, List.nodup_append]
          refine ⟨hn, List.nodup_singleton _, fun a ha b hb => ?_⟩
          rw [List.mem_singleton.1 hb]
          rintro rfl
          exact hc ha)
        rw [hB]
        simpa only [List.length_append, List.length_singleton] using this
    refine (mean_mono fun c _ => h1 c).trans ?_
    rw [mean_add, mean_const]
    have h2 : ∀ as : List A, (mean (oracle (pick seen)) fun c => (as.map fun a => if f c = a then (1 : ℝ≥0∞) else 0).sum) ≤
        as.length * ε := fun as => by
      induction as with
      | nil => simp [mean_const]
      | cons a as ih =>
        simp only [List.map_cons, List.sum_cons, List.length_cons, Nat.cast_add, Nat.cast_one, add_mul, one_mul]
        rw [mean_add, add_comm]
        exact add_le_add ih (h seen a)
    refine (add_le_add (h2 _) le_rfl).trans (le_of_eq ?_)
    rw [hB, ← add_mul, ← Nat.cast_add, List.length_map, Finset.sum_range_succ']
    congr 2
    rw [add_zero, add_comm]
    congr 1
    refine Finset.sum_congr rfl fun j _ => ?_
    ring

section
variable (P : LWEParams) (i k n : Nat) [NeZero P.q] (h : LWEParamsOk P i k) (χ : PMF ℤ)
  (sk : List Nat)
include h

open Classical in
theorem mask_guess (hχ : ∀ z ∈ χ.support, NoiseInRange P.t P.q z) (hs : sk.length = n) (m : Nat) (hm : m < P.t)
    (a : Option (List Nat)) :
    (mean (encryptLaw P n χ sk m) fun c => if c.map LWE.a = a then 1 else 0) ≤ ((P.q : ℝ≥0∞) ^ n)⁻¹ := by
  rw [C67_ciphertext_law P i k n h χ (by rw [← h.t, ← h.q]; exact hχ) sk hs m hm, mean_map]
  unfold lweSample
  rw [mean_bind]
  have e1 : ∀ x : Fin n → ZMod P.q, (mean (χ.map fun e : ℤ => (x, ∑ i, x i * keyVector P.q n sk i + (e : ZMod P.q)))
      fun y => if (some (maskMessage P.q n P.t m y)).map LWE.a = a then (1 : ℝ≥0∞) else 0) =
      if some (List.ofFn fun i => (x i).val) = a then 1 else 0 := fun x => by
    rw [mean_map]
    exact mean_const χ (if some (List.ofFn fun i => (x i).val) = a then 1 else 0)
  simp only [e1]
  by_cases hex : ∃ x : Fin n → ZMod P.q, some (List.ofFn fun i => (x i).val) = a
  · obtain ⟨x, rfl⟩ := hex
    have e2 : ∀ y : Fin n → ZMod P.q, (some (List.ofFn fun i => (y i).val) = some (List.ofFn fun i => (x i).val)) ↔ y = x :=
      fun y => by
        constructor
        · intro e
          have := List.ofFn_injective (Option.some.inj e)
          funext j
          exact ZMod.val_injective _ (congrFun this j)
        · rintro rfl; rfl
    simp only [e2]
    unfold mean
    rw [tsum_eq_single x (fun y hy => by dsimp only; rw [if_neg hy, mul_zero])]
    dsimp only
    rw [if_pos rfl, mul_one, PMF.uniformOfFintype_apply]
    simp [ZMod.card]
  · refine le_trans (mean_mono (g := fun _ => 0) fun x _ => ?_) (by rw [mean_const]; exact zero_le)
    rw [if_neg fun e => hex ⟨x, e⟩]

/-- C96: in a history of `N` encryptions, whose messages may depend on all earlier ciphertexts, two ciphertexts have the
same mask with probability at most `N (N - 1) / 2 q^n`. -/
theorem C96_masks_differ (hχ : ∀ z ∈ χ.support, NoiseInRange P.t P.q z) (hs : sk.length = n)
    (pick : List (Option LWE) → Nat) (hp : ∀ seen, pick seen < P.t) (N : Nat) :
    (queries (encryptLaw P n χ sk) pick N []).toOuterMeasure {l | Repeats l} ≤
      (N * (N - 1) / 2 : Nat) * ((P.q : ℝ≥0∞) ^ n)⁻¹ := by
  classical
  rw [prob_eq]
  have := mask_birthday (encryptLaw P n χ sk) pick (fun c => c.map LWE.a) _
    (fun seen a => by convert mask_guess P i k n h χ sk hχ hs _ (hp seen) a) N [] List.nodup_nil
  simp only [List.length_nil, zero_add] at this
  rw [Finset.sum_range_id] at this
  refine le_trans (le_of_eq (mean_congr fun l _ => ?_)) this
  simp only [Set.mem_ofPred_eq, repeats_iff, masks]
  split_ifs <;> simp_all

omit [NeZero P.q] in
/-- C96: two ciphertexts with the same mask. Their difference has a zero mask, and whoever has them gets the difference
of the messages modulo `t`: decryption with any key, for instance all zeros, returns it. -/
theorem C96_repeated_mask (hs : sk.length = n) (a : List Nat) (ha : n ≤ a.length) (hr : ∀ x ∈ a, x < P.q)
    (m₁ m₂ : Nat) (hm₁ : m₁ < P.t) (hm₂ : m₂ < P.t) (z₁ z₂ : ℤ) (hz₁ : NoiseInRange P.t P.q z₁)
    (hz₂ : NoiseInRange P.t P.q z₂) (hz : NoiseInRange P.t P.q (z₁ - z₂)) :
    ∃ O x y d, P.ops = some O ∧ P.encrypt sk a z₁ m₁ = some x ∧ P.encrypt sk a z₂ m₂ = some y ∧
      LWE.subRef O x y = some d ∧ d.a = List.replicate n 0 ∧
      ∀ (msg : Plain.Msg) (sk' : List Nat), sk'.length = n → Fits msg ((m₁ + P.t - m₂) % P.t) →
        P.decrypt msg sk' d = some ((m₁ + P.t - m₂) % P.t) := by
  rw [h.t, h.q] at *
  obtain ⟨M, hM, eO⟩ := h.ops
  have hO := powOf2_isModOps (w := P.w) h.fits hM
  obtain ⟨x, ex, hx, hxa, hxp, -⟩ := C31_encrypt_decrypt P i k n h sk a hs ha hr m₁ z₁ hm₁ hz₁
  obtain ⟨y, ey, hy, hya, hyp, -⟩ := C31_encrypt_decrypt P i k n h sk a hs ha hr m₂ z₂ hm₂ hz₂
  obtain ⟨d, ed, -, hd, hdp⟩ := C33_sub _ n _ hO x y hx hy
  have hda : d.a = List.replicate n 0 := by
    have e1 := ed
    unfold LWE.subRef at e1
    rw [if_pos (by rw [hxa, hya]), hya, ← hxa, mbind (zip_self hO x.a hx.1.2)] at e1
    obtain ⟨b, -, e2⟩ := Option.bind_eq_some_iff.1 e1
    rw [← Option.some.inj e2, ← hx.1.1]
  refine ⟨_, x, y, d, eO, ex, ey, ed, hda, fun msg sk' hs' hf => ?_⟩
  refine C31_decrypt P i k n h sk' hs' d hd _ (z₁ - z₂) (Nat.mod_lt _ (Nat.two_pow_pos i)) hz ?_ msg hf
  have e1 : lwePhase (2 ^ k) sk' d.a d.b = lwePhase (2 ^ k) sk d.a d.b := by
    unfold lwePhase
    rw [hda, dot_noMask, dot_noMask]
  rw [e1, hdp, hxp, hyp]
  have hk : 2 ^ i * (2 ^ k / 2 ^ i) = 2 ^ k := Nat.mul_div_cancel' (pow_dvd_pow 2 h.lt.le)
  have e2 : (((m₁ + 2 ^ i - m₂) % 2 ^ i * (2 ^ k / 2 ^ i) : Nat) : ZMod (2 ^ k)) + ((m₂ * (2 ^ k / 2 ^ i) : Nat) : ZMod (2 ^ k)) =
      ((m₁ * (2 ^ k / 2 ^ i) : Nat) : ZMod (2 ^ k)) := by
    have e3 : (((2 ^ i) * (2 ^ k / 2 ^ i) : Nat) : ZMod (2 ^ k)) = 0 := by rw [hk, ZMod.natCast_self]
    rcases Nat.lt_or_ge m₁ m₂ with hlt | hge
    · rw [Nat.mod_eq_of_lt (by omega), ← Nat.cast_add, ← add_mul, show m₁ + 2 ^ i - m₂ + m₂ = m₁ + 2 ^ i by omega, add_mul,
        Nat.cast_add, e3, add_zero]
    · rw [show m₁ + 2 ^ i - m₂ = m₁ - m₂ + 2 ^ i by omega, Nat.add_mod_right, Nat.mod_eq_of_lt (by omega), ← Nat.cast_add,
        ← add_mul, Nat.sub_add_cancel hge]
  rw [← e2]
  push_cast
  ring

end

-- At most 2^40 encryptions with the default parameters: two masks agree with probability at most 2^79 / 1024^512
example (sk : List Nat) (hs : sk.length = 512) (pick : List (Option LWE) → Nat) (hp : ∀ seen, pick seen < 4) (N : Nat)
    (hN : N ≤ 2 ^ 40) :
    (@queries (Option LWE) (@encryptLaw ⟨16, 4, 1024⟩ 512 ⟨by decide⟩ (PMF.uniformOfFinset {-1, 0, 1} ⟨0, by decide⟩) sk)
      pick N []).toOuterMeasure {l | Repeats l} ≤ ((2 ^ 79 : Nat) : ℝ≥0∞) * (((1024 : Nat) : ℝ≥0∞) ^ 512)⁻¹ := by
  have hz : NeZero (LWEParams.mk 16 4 1024).q := ⟨by decide⟩
  refine (C96_masks_differ ⟨16, 4, 1024⟩ 2 10 512 ⟨rfl, rfl, by decide, by decide, by decide⟩ _ sk (fun z hz => ?_) hs pick
    hp N).trans (mul_le_mul' (Nat.cast_le.2 ?_) le_rfl)
  · have hz := (PMF.mem_support_uniformOfFinset_iff _ _).1 hz
    simp only [Finset.mem_insert, Finset.mem_singleton] at hz
    unfold NoiseInRange
    rcases hz with rfl | rfl | rfl <;> decide
  · have : N * (N - 1) ≤ 2 ^ 40 * 2 ^ 40 := Nat.mul_le_mul hN ((Nat.sub_le _ _).trans hN)
    omega

-- The same mask for the messages 1 and 3: everybody reads the difference 2
example : ∃ x y d, LWEParams.encrypt ⟨16, 4, 1024⟩ [1, 0, 1] [17, 1000, 23] (-5) 1 = some x ∧
    LWEParams.encrypt ⟨16, 4, 1024⟩ [1, 0, 1] [17, 1000, 23] 9 3 = some y ∧
    LWE.subRef (PowOf2.ops 16 ⟨1023⟩) x y = some d ∧
    LWEParams.decrypt ⟨16, 4, 1024⟩ (.uint 8) [0, 0, 0] d = some 2 := by
  obtain ⟨O, x, y, d, e0, e1, e2, e3, -, h⟩ := C96_repeated_mask ⟨16, 4, 1024⟩ 2 10 3
    ⟨rfl, rfl, by decide, by decide, by decide⟩ [1, 0, 1] rfl [17, 1000, 23] (by decide) (by decide) 1 3 (by decide)
    (by decide) (-5) 9 (by unfold NoiseInRange; decide) (by unfold NoiseInRange; decide) (by unfold NoiseInRange; decide)
  refine ⟨x, y, d, e1, e2, ?_, h _ _ rfl (show 2 < 2 ^ 8 by decide)⟩
  rw [← e3, ← Option.some.inj (show some (PowOf2.ops 16 ⟨1023⟩) = some O from e0)]

end Verif.Props
