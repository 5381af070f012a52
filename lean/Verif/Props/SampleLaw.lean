import Verif.SpecSampler
import Verif.Props.NoiseLaw
import Verif.Props.KeyGen

/-! # C64: the laws of the samplers -/

namespace Verif
open Spec Props Finset
open scoped ENNReal

namespace Spec

theorem mean_uniformBelow (m : Nat) [NeZero m] (f : Nat → ℝ≥0∞) :
    mean (uniformBelow m) f = (m : ℝ≥0∞)⁻¹ * ∑ x ∈ range m, f x := by
  unfold uniformBelow
  rw [mean_map]
  unfold mean
  rw [tsum_fintype]
  simp only [PMF.uniformOfFintype_apply, Fintype.card_fin]
  rw [← mul_sum, Fin.sum_univ_eq_sum_range (fun x => f x)]

theorem pmf_ext_mean {α : Type} {p r : PMF α} (h : ∀ f : α → ℝ≥0∞, mean p f = mean r f) : p = r := by
  classical
  ext a
  have key : ∀ p : PMF α, mean p (fun x => if x = a then 1 else 0) = p a := fun p => by
    unfold mean
    rw [tsum_eq_single a (fun b hb => by simp [hb])]
    simp
  rw [← key p, ← key r, h]

theorem sum_range_split (a : Nat) (f : Nat → ℝ≥0∞) : ∀ b : Nat,
    ∑ z ∈ range (a * b), f z = ∑ x ∈ range a, ∑ y ∈ range b, f (x + a * y)
  | 0 => by simp
  | b + 1 => by
    rw [Nat.mul_succ, sum_range_add, sum_range_split a f b]
    simp only [sum_range_succ, sum_add_distrib]
    congr 1
    exact sum_congr rfl fun x _ => by rw [add_comm]

theorem uniformWord_split (a b : Nat) : uniformWord (a + b) =
    (uniformWord a).bind fun x => (uniformWord b).map fun y => x + 2 ^ a * y := by
  refine pmf_ext_mean fun f => ?_
  rw [mean_bind]
  simp only [mean_map]
  unfold uniformWord
  simp only [mean_uniformBelow]
  rw [← mul_sum, ← mul_assoc, pow_add, sum_range_split]
  congr 1
  push_cast
  rw [ENNReal.mul_inv (by simp) (by simp)]

theorem mem_support_uniformBelow {m : Nat} [NeZero m] {x : Nat} (h : x ∈ (uniformBelow m).support) : x < m := by
  unfold uniformBelow at h
  rw [PMF.support_map] at h
  obtain ⟨y, -, rfl⟩ := h
  exact y.isLt

/-- The law of the entry of a table for a uniform index of `b` bits. -/
noncomputable def entryLaw (tbl : List Nat) (b : Nat) : PMF Nat := (uniformWord b).map fun i => tbl.getD i 0

theorem map_const' {α β : Type} (p : PMF α) (c : β) : p.map (fun _ => c) = PMF.pure c := by
  rw [PMF.map]
  exact PMF.bind_const _ _

theorem fillChunk_law (tbl : List Nat) (b : Nat) : ∀ len s : Nat, b * len ≤ s →
    (uniformWord s).map (Sample.fillChunk tbl b len) = draws (entryLaw tbl b) len
  | 0, s, _ => by
    simp only [draws]
    exact map_const' _ _
  | len + 1, s, h => by
    obtain ⟨s', rfl⟩ : ∃ s', s = b + s' := ⟨s - b, by rw [Nat.mul_succ] at h; omega⟩
    have ih := fillChunk_law tbl b len s' (by rw [Nat.mul_succ] at h; omega)
    rw [draws, uniformWord_split, PMF.map_bind, entryLaw, PMF.bind_map]
    refine bind_congr_support fun x hx => ?_
    have hx := mem_support_uniformBelow hx
    rw [Function.comp, ← entryLaw, ← ih, PMF.map_comp, PMF.bind_map]
    unfold PMF.map
    congr 1
    funext y
    simp only [Function.comp, Sample.fillChunk]
    rw [Nat.add_mul_mod_self_left, Nat.mod_eq_of_lt hx, Nat.add_mul_div_left _ _ (Nat.two_pow_pos b),
      Nat.div_eq_of_lt hx, Nat.zero_add]

theorem fillChunks_shift (tbl : List Nat) (b c : Nat) (words : Nat → Nat) : ∀ k i : Nat,
    Sample.fillChunks tbl b c words k (i + 1) = Sample.fillChunks tbl b c (fun j => words (j + 1)) k i
  | 0, _ => rfl
  | k + 1, i => by rw [Sample.fillChunks, Sample.fillChunks, fillChunks_shift tbl b c words k]

theorem fill_law (tbl : List Nat) (b c s r : Nat) (hc : b * c ≤ s) (hr : b * r ≤ s) : ∀ k : Nat,
    (wordStream s (k + 1)).map (fun words => Sample.fillChunks tbl b c words k 0 ++ Sample.fillChunk tbl b r (words k)) =
      draws (entryLaw tbl b) (k * c + r)
  | 0 => by
    rw [show 0 * c + r = r by ring, ← fillChunk_law tbl b r s hr, wordStream, PMF.map_comp, draws, draws]
    simp only [PMF.pure_bind]
    rw [PMF.map_bind]
    simp only [PMF.pure_map, Sample.fillChunks, Function.comp, List.nil_append, List.getD_cons_zero]
    rfl
  | k + 1 => by
    have ih := fill_law tbl b c s r hc hr k
    rw [show (k + 1) * c + r = c + (k * c + r) by ring, draws_add, ← ih, ← fillChunk_law tbl b c s hc, wordStream,
      wordStream, PMF.map_comp, PMF.map_comp, draws, PMF.map_bind, PMF.bind_map]
    congr 1
    funext x
    rw [PMF.map_bind, Function.comp, PMF.map_comp]
    simp only [PMF.pure_map]
    unfold PMF.map
    congr 1
    funext l
    simp only [Function.comp, Sample.fillChunks, fillChunks_shift, List.getD_cons_succ, List.getD_cons_zero,
      List.append_assoc]

theorem fillVec_law (tbl : List Nat) (b c s : Nat) (h0 : 0 < c) (hc : b * c ≤ s) (len : Nat) :
    (wordStream s (len / c + 1)).map (fun words => Sample.fillVec tbl b c words len) =
      draws (entryLaw tbl b) len := by
  have h := fill_law tbl b c s (len % c) hc
    (le_trans (Nat.mul_le_mul_left _ (Nat.mod_lt _ h0).le) hc) (len / c)
  rw [Nat.mul_comm, Nat.div_add_mod] at h
  exact h

theorem map_congr_support {α β : Type} {p : PMF α} {f g : α → β} (h : ∀ a ∈ p.support, f a = g a) :
    p.map f = p.map g := by
  unfold PMF.map
  exact bind_congr_support fun a ha => by rw [Function.comp, Function.comp, h a ha]

theorem entryLaw_binary : entryLaw [0, 1] 1 = uniformBelow 2 := by
  unfold entryLaw uniformWord
  rw [← PMF.map_id (uniformBelow 2)]
  refine map_congr_support fun a ha => ?_
  have := mem_support_uniformBelow ha
  rw [pow_one] at this
  interval_cases a <;> rfl

theorem entryLaw_ternary (q : Nat) : entryLaw [0, 0, 1, q - 1] 2 = ternaryLaw q := by
  unfold entryLaw uniformWord ternaryLaw
  refine map_congr_support fun a ha => ?_
  have := mem_support_uniformBelow ha
  norm_num at this
  interval_cases a <;> rfl

end Spec

namespace Props
open Barrett

/-- C64: the laws of one bit and of one ternary value, as probabilities of the values. -/
theorem C64_values (q : Nat) (hq : 2 < q) : uniformBelow 2 0 = 1 / 2 ∧ uniformBelow 2 1 = 1 / 2 ∧
    ternaryLaw q 0 = 1 / 2 ∧ ternaryLaw q 1 = 1 / 4 ∧ ternaryLaw q (q - 1) = 1 / 4 := by
  have key : ∀ (p : PMF Nat) a, p a = mean p (fun x => if x = a then 1 else 0) := fun p a => by
    unfold mean
    rw [tsum_eq_single a (fun b hb => by simp [hb])]
    simp
  have h2 : ((4 : ℕ) : ℝ≥0∞)⁻¹ * 2 = 1 / 2 := by
    rw [show ((4 : ℕ) : ℝ≥0∞) = 2 * 2 by norm_num, ENNReal.mul_inv (by simp) (by simp), mul_assoc,
      ENNReal.inv_mul_cancel (by simp) (by simp), mul_one, one_div]
  refine ⟨?_, ?_, ?_, ?_, ?_⟩
  · rw [key, mean_uniformBelow]; simp
  · rw [key, mean_uniformBelow]; simp
  all_goals
    rw [key, ternaryLaw, mean_map, mean_uniformBelow]
    simp only [sum_range_succ, sum_range_zero]
  · simpa [show q - 1 ≠ 0 by omega, one_add_one_eq_two] using h2
  · simp [show q - 1 ≠ 1 by omega]
  · simp [show (0 : Nat) ≠ q - 1 by omega, show 1 ≠ q - 1 by omega]

/-- C64: from uniform 32-bit words the binary samplers of the two crates give independent fair bits, for every length. -/
theorem C64_binary (len : Nat) :
    ((wordStream 32 (len / 32 + 1)).map fun words => Sample.binaryVec words len) = draws (uniformBelow 2) len ∧
    ((wordStream 32 (len / 32 + 1)).map fun words => Sample.binaryValues words len) = draws (uniformBelow 2) len := by
  have h := fillVec_law [0, 1] 1 32 32 (by decide) (by decide) len
  rw [entryLaw_binary] at h
  exact ⟨h, h⟩

/-- C64: and the ternary samplers give independent ternary values. -/
theorem C64_ternary (w q : Nat) (hw : w % 2 = 0) (M : Barrett) (h : Fp.config w q = some M) (len : Nat) :
    ((wordStream 32 (len / 16 + 1)).map fun words => Sample.ternaryVec M words len) =
      (draws (ternaryLaw q) len).map some ∧
    ∀ q', 0 < q' → ((wordStream 32 (len / 16 + 1)).map fun words => Sample.ternaryValues q' words len) =
      (draws (ternaryLaw q') len).map some := by
  obtain ⟨_, hq⟩ := new_valid hw (config_new h)
  have hc := new_cond (config_new h)
  have key := fun q' => fillVec_law [0, 0, 1, q' - 1] 2 16 32 (by decide) (by decide) len
  simp only [entryLaw_ternary] at key
  constructor
  · rw [← key q, PMF.map_comp]
    congr 1
    funext words
    simp only [Sample.ternaryVec, Fp.negOne, subC, hq, show 1 ≤ q by omega, if_true,
      Option.bind_eq_bind, Option.bind_some]
    rfl
  · intro q' hq'
    rw [← key q', PMF.map_comp]
    congr 1
    funext words
    simp only [Sample.ternaryValues, subC, show 1 ≤ q' by omega, if_true, Option.bind_eq_bind, Option.bind_some]
    rfl

/-- C64: the LWE secret key is a vector of independent values of its law, and so is the binary or ternary ring key. -/
theorem C64_secret_keys (w q : Nat) (hw : w % 2 = 0) (R : Ctx) (h : Fp.config w q = some R.M) (P : Params)
    (hq : 0 < P.q) (lwe gauss : List Nat) :
    (P.lweKeyType = .binary → ((wordStream 32 (P.n / 32 + 1)).map fun words => KeyPack.lweKey P words) =
      (draws (uniformBelow 2) P.n).map some) ∧
    (P.lweKeyType = .ternary → ((wordStream 32 (P.n / 16 + 1)).map fun words => KeyPack.lweKey P words) =
      (draws (ternaryLaw P.q) P.n).map some) ∧
    (P.steps ≠ .brMs → P.ringKeyType = .binary → ∀ lw : Nat → Nat,
      ((wordStream 32 (P.ringDimension / 32 + 1)).map fun words => KeyPack.ringKey R P lwe ⟨lw, words, gauss⟩) =
        (draws (uniformBelow 2) P.ringDimension).map some) ∧
    (P.steps ≠ .brMs → P.ringKeyType = .ternary → ∀ lw : Nat → Nat,
      ((wordStream 32 (P.ringDimension / 16 + 1)).map fun words => KeyPack.ringKey R P lwe ⟨lw, words, gauss⟩) =
        (draws (ternaryLaw q) P.ringDimension).map some) := by
  have hb := fun len => C64_binary len
  have ht := fun len => C64_ternary w q hw R.M h len
  refine ⟨fun h1 => ?_, fun h1 => ?_, fun h1 h2 lw => ?_, fun h1 h2 lw => ?_⟩
  · rw [← (hb P.n).2, PMF.map_comp]
    simp only [KeyPack.lweKey, h1]
    rfl
  · rw [← (ht P.n).2 P.q hq]
    simp only [KeyPack.lweKey, h1]
  · rw [← (hb P.ringDimension).1, PMF.map_comp]
    unfold KeyPack.ringKey
    cases hs : P.steps <;> simp_all <;> rfl
  · rw [← (ht P.ringDimension).1]
    unfold KeyPack.ringKey
    cases hs : P.steps <;> simp_all

/-! ## The uniform sampler -/

theorem apply_eq_mean {α β : Type} [DecidableEq β] (p : PMF α) (f : α → β) (b : β) :
    p.map f b = mean p fun x => if f x = b then 1 else 0 := by
  have key : ∀ p : PMF β, p b = mean p (fun x => if x = b then 1 else 0) := fun p => by
    unfold mean
    rw [tsum_eq_single b (fun c hc => by simp [hc])]
    simp
  rw [key, mean_map]

/-- The probability that `n` uniform draws succeed within `k` words and give one given vector. -/
noncomputable def vecProb (a r : ℝ≥0∞) : Nat → Nat → ℝ≥0∞
  | 0, _ => 1
  | _ + 1, 0 => 0
  | n + 1, k + 1 => a * vecProb a r n k + r * vecProb a r (n + 1) k

/-- The probability that `n` uniform draws need more than `k` words. -/
noncomputable def failProb (a r : ℝ≥0∞) : Nat → Nat → ℝ≥0∞
  | 0, _ => 0
  | _ + 1, 0 => 1
  | n + 1, k + 1 => a * failProb a r n k + r * failProb a r (n + 1) k

section
variable {w s q : Nat} (hw : w % 2 = 0) (hs : w ≤ s) {M : Barrett} (h : Fp.config w q = some M)
include hw hs h

theorem uniformVec_cons {n x : Nat} (hx : x < 2 ^ s) (xs : List Nat) :
    (Sample.uniformStep s q x = some none ∧ Sample.uniformVec w s M (n + 1) (x :: xs) = Sample.uniformVec w s M (n + 1) xs) ∨
    ∃ v, v < q ∧ Sample.uniformStep s q x = some (some v) ∧ Sample.uniformVec w s M (n + 1) (x :: xs) =
      (Sample.uniformVec w s M n xs).map fun o => o.map fun l => v :: l := by
  obtain ⟨hval, hq⟩ := new_valid hw (config_new h)
  have hc := new_cond (config_new h)
  have h4 := hval.lt_word
  have hws : 2 ^ w ≤ 2 ^ s := Nat.pow_le_pow_right (by decide) hs
  have hst := uniformStep_eq (s := s) (q := q) (x := x) (by omega) (by omega) hx
  by_cases hle : 2 ^ s % q ≤ x * q % 2 ^ s
  · rw [if_pos hle] at hst
    right
    have hv := C18_uniform_range s q x _ (by omega) (by omega) hx hst
    refine ⟨_, hv, hst, ?_⟩
    have hn := C49_new w q hw M h (x * q / 2 ^ s) (by omega)
    rw [Nat.mod_eq_of_lt hv] at hn
    simp only [Sample.uniformVec, hq, hst, Option.bind_eq_bind, Option.bind_some,
      trunc, Nat.mod_eq_of_lt (show x * q / 2 ^ s < 2 ^ w by omega), hn]
    cases Sample.uniformVec w s M n xs with
    | none => rfl
    | some o => cases o <;> rfl
  · rw [if_neg hle] at hst
    left
    refine ⟨hst, ?_⟩
    simp only [Sample.uniformVec, hq, hst, Option.bind_eq_bind, Option.bind_some]

/-- No words make the sampler panic, and what it returns is canonical. -/
theorem uniformVec_some : ∀ (xs : List Nat) (n : Nat), (∀ x ∈ xs, x < 2 ^ s) →
    Sample.uniformVec w s M n xs = some none ∨ ∃ l, Sample.uniformVec w s M n xs = some (some l) ∧ Reduced q n l
  | xs, 0, _ => Or.inr ⟨[], by cases xs <;> rfl, rfl, by simp⟩
  | [], n + 1, _ => Or.inl rfl
  | x :: xs, n + 1, hx => by
    have hx' : ∀ y ∈ xs, y < 2 ^ s := fun y hy => hx y (by simp [hy])
    rcases uniformVec_cons hw hs h (n := n) (hx x (by simp)) xs with ⟨-, e⟩ | ⟨v, hv, -, e⟩
    · rw [e]; exact uniformVec_some xs (n + 1) hx'
    · rw [e]
      rcases uniformVec_some xs n hx' with e' | ⟨l, e', h1, h2⟩
      · left; rw [e']; rfl
      · right
        refine ⟨v :: l, by rw [e']; rfl, by simp [h1], ?_⟩
        intro y hy
        rcases List.mem_cons.1 hy with rfl | hy
        · exact hv
        · exact h2 y hy

theorem uniformVec_prob : ∀ (k n : Nat) (l : List Nat), Reduced q n l →
    ((draws (uniformWord s) k).map (Sample.uniformVec w s M n)) (some (some l)) =
      vecProb ((2 ^ s / q : Nat) / (2 ^ s : Nat)) ((2 ^ s % q : Nat) / (2 ^ s : Nat)) n k
  | k, 0, l, hl => by
    obtain rfl := List.eq_nil_of_length_eq_zero hl.1
    rw [vecProb, apply_eq_mean]
    simp [Sample.uniformVec, mean_const]
  | 0, n + 1, l, hl => by
    rw [vecProb, apply_eq_mean, mean_draws_zero]
    simp [Sample.uniformVec]
  | k + 1, n + 1, [], hl => by simp [Reduced] at hl
  | k + 1, n + 1, v :: l, hl => by
    have hval := new_valid hw (config_new h)
    have hc := new_cond (config_new h)
    have h4 := hval.1.lt_word
    rw [hval.2] at h4
    have hws : 2 ^ w ≤ 2 ^ s := Nat.pow_le_pow_right (by decide) hs
    have hv : v < q := hl.2 v (by simp)
    have hl' : Reduced q n l := ⟨by simpa using hl.1, fun x hx => hl.2 x (by simp [hx])⟩
    have ih1 := uniformVec_prob k n l hl'
    have ih2 := uniformVec_prob k (n + 1) (v :: l) hl
    rw [apply_eq_mean] at ih1 ih2
    rw [vecProb, apply_eq_mean, mean_draws_succ, ← ih1, ← ih2]
    unfold uniformWord
    rw [mean_uniformBelow, sum_congr rfl (g := fun x =>
      (if Sample.uniformStep s q x = some (some v) then mean (draws (uniformBelow (2 ^ s)) k) (fun xs =>
        if Sample.uniformVec w s M n xs = some (some l) then 1 else 0) else 0) +
      (if Sample.uniformStep s q x = some none then mean (draws (uniformBelow (2 ^ s)) k) (fun xs =>
        if Sample.uniformVec w s M (n + 1) xs = some (some (v :: l)) then 1 else 0) else 0))]
    · rw [sum_add_distrib, ← sum_filter, ← sum_filter, sum_const, sum_const, nsmul_eq_mul, nsmul_eq_mul,
        C18_uniform_count s q v (by omega) (by omega) hv, (C18_uniform_rejected s q (by omega) (by omega)).1]
      simp only [ENNReal.div_eq_inv_mul]
      ring
    · intro x hx
      have hx := mem_range.1 hx
      rcases uniformVec_cons hw hs h (n := n) hx [] with ⟨hst, -⟩ | ⟨v', hv', hst, -⟩
      · rw [hst]
        simp only [reduceCtorEq, if_false, zero_add, if_true, Option.some.injEq]
        congr 1; funext xs
        rcases uniformVec_cons hw hs h (n := n) hx xs with ⟨-, e⟩ | ⟨v', -, hst', -⟩
        · rw [e]
        · rw [hst] at hst'; simp at hst'
      · rw [hst]
        simp only [reduceCtorEq, if_false, add_zero, Option.some.injEq]
        have e : ∀ xs, Sample.uniformVec w s M (n + 1) (x :: xs) =
            (Sample.uniformVec w s M n xs).map fun o => o.map fun l => v' :: l := fun xs => by
          rcases uniformVec_cons hw hs h (n := n) hx xs with ⟨hst', -⟩ | ⟨v'', -, hst', e⟩
          · rw [hst] at hst'; simp at hst'
          · rw [hst] at hst'
            simp only [Option.some.injEq] at hst'
            rw [hst', e]
        split
        · next hvv =>
          subst hvv
          congr 1; funext xs
          rw [e]
          cases Sample.uniformVec w s M n xs with
          | none => rfl
          | some o => cases o <;> simp
        · next hvv =>
          have : (fun xs => if Sample.uniformVec w s M (n + 1) (x :: xs) = some (some (v :: l)) then (1 : ℝ≥0∞) else 0) =
              fun _ => 0 := by
            funext xs
            rw [e]
            cases Sample.uniformVec w s M n xs with
            | none => rfl
            | some o =>
              cases o with
              | none => rfl
              | some o => simp [hvv]
          rw [this, mean_const]

theorem uniformVec_fail : ∀ (k n : Nat), ((draws (uniformWord s) k).map (Sample.uniformVec w s M n)) (some none) =
      failProb ((2 ^ s - 2 ^ s % q : Nat) / (2 ^ s : Nat)) ((2 ^ s % q : Nat) / (2 ^ s : Nat)) n k
  | k, 0 => by
    rw [failProb, apply_eq_mean]
    simp [Sample.uniformVec, mean_const]
  | 0, n + 1 => by
    rw [failProb, apply_eq_mean, mean_draws_zero]
    simp [Sample.uniformVec]
  | k + 1, n + 1 => by
    have hval := new_valid hw (config_new h)
    have hc := new_cond (config_new h)
    have h4 := hval.1.lt_word
    rw [hval.2] at h4
    have hws : 2 ^ w ≤ 2 ^ s := Nat.pow_le_pow_right (by decide) hs
    have ih1 := uniformVec_fail k n
    have ih2 := uniformVec_fail k (n + 1)
    rw [apply_eq_mean] at ih1 ih2
    rw [failProb, apply_eq_mean, mean_draws_succ, ← ih1, ← ih2]
    unfold uniformWord
    rw [mean_uniformBelow, sum_congr rfl (g := fun x =>
      (if ¬ Sample.uniformStep s q x = some none then mean (draws (uniformBelow (2 ^ s)) k) (fun xs =>
        if Sample.uniformVec w s M n xs = some none then 1 else 0) else 0) +
      (if Sample.uniformStep s q x = some none then mean (draws (uniformBelow (2 ^ s)) k) (fun xs =>
        if Sample.uniformVec w s M (n + 1) xs = some none then 1 else 0) else 0))]
    · have hr := (C18_uniform_rejected s q (by omega) (by omega)).1
      have htot := Finset.card_filter_add_card_filter_not (s := range (2 ^ s))
        (fun x => Sample.uniformStep s q x = some none)
      rw [hr, card_range] at htot
      rw [sum_add_distrib, ← sum_filter, ← sum_filter, sum_const, sum_const, nsmul_eq_mul, nsmul_eq_mul, hr,
        show #{x ∈ range (2 ^ s) | ¬ Sample.uniformStep s q x = some none} = 2 ^ s - 2 ^ s % q by omega]
      simp only [ENNReal.div_eq_inv_mul]
      ring
    · intro x hx
      have hx := mem_range.1 hx
      rcases uniformVec_cons hw hs h (n := n) hx [] with ⟨hst, -⟩ | ⟨v', hv', hst, -⟩
      · rw [hst]
        simp only [not_true, if_false, zero_add, if_true]
        congr 1; funext xs
        rcases uniformVec_cons hw hs h (n := n) hx xs with ⟨-, e⟩ | ⟨v', -, hst', -⟩
        · rw [e]
        · rw [hst] at hst'; simp at hst'
      · rw [hst]
        simp only [reduceCtorEq, if_false, add_zero, Option.some.injEq, not_false_iff, if_true]
        congr 1; funext xs
        rcases uniformVec_cons hw hs h (n := n) hx xs with ⟨hst', -⟩ | ⟨v'', -, hst', e⟩
        · rw [hst] at hst'; simp at hst'
        · rw [e]
          cases Sample.uniformVec w s M n xs with
          | none => simp
          | some o => cases o <;> simp

end

theorem failProb_le {a r : ℝ≥0∞} (h1 : a + r = 1) (hr : r ≤ 1 / 2) : ∀ k n : Nat,
    failProb a r n k ≤ 2 ^ n * (3 / 4) ^ k
  | k, 0 => by simp [failProb]
  | 0, n + 1 => by
    simp only [failProb, pow_zero, mul_one]
    exact one_le_pow₀ (by norm_num)
  | k + 1, n + 1 => by
    rw [failProb]
    have e : a + 2 * r ≤ 2 * (3 / 4) := by
      calc a + 2 * r = (a + r) + r := by ring
        _ ≤ 1 + 1 / 2 := by rw [h1]; gcongr
        _ = 2 * (3 / 4) := by
          rw [← ENNReal.toReal_eq_toReal_iff' (by finiteness) (by finiteness)]
          rw [ENNReal.toReal_add (by finiteness) (by finiteness), ENNReal.toReal_mul]
          norm_num
    calc a * failProb a r n k + r * failProb a r (n + 1) k
        ≤ a * (2 ^ n * (3 / 4) ^ k) + r * (2 ^ (n + 1) * (3 / 4) ^ k) := by
          gcongr
          · exact failProb_le h1 hr k n
          · exact failProb_le h1 hr k (n + 1)
      _ = (a + 2 * r) * (2 ^ n * (3 / 4) ^ k) := by ring
      _ ≤ 2 * (3 / 4) * (2 ^ n * (3 / 4) ^ k) := by gcongr
      _ = _ := by ring

theorem vecProb_add_failProb {a r q : ℝ≥0∞} (h1 : q * a + r = 1) : ∀ k n : Nat,
    q ^ n * vecProb a r n k + failProb (q * a) r n k = 1
  | k, 0 => by simp [vecProb, failProb]
  | 0, n + 1 => by simp [vecProb, failProb]
  | k + 1, n + 1 => by
    rw [vecProb, failProb]
    calc q ^ (n + 1) * (a * vecProb a r n k + r * vecProb a r (n + 1) k) +
          (q * a * failProb (q * a) r n k + r * failProb (q * a) r (n + 1) k)
        = q * a * (q ^ n * vecProb a r n k + failProb (q * a) r n k) +
          r * (q ^ (n + 1) * vecProb a r (n + 1) k + failProb (q * a) r (n + 1) k) := by ring
      _ = 1 := by rw [vecProb_add_failProb h1 k n, vecProb_add_failProb h1 k (n + 1), mul_one, mul_one, h1]

/-- C64: `n` draws of the uniform sampler from a generator that delivers `k` independent uniform words of the sample
width. No outcome is a panic. All vectors of `n` residues are equally likely, with probability at most `1 / q^n`, and the
probability that the `k` words do not suffice is at most `2^n (3/4)^k`. -/
theorem C64_uniform (w s q : Nat) (hw : w % 2 = 0) (hs : w ≤ s) (M : Barrett) (h : Fp.config w q = some M)
    (n k : Nat) :
    (∀ o ∈ ((draws (uniformWord s) k).map (Sample.uniformVec w s M n)).support,
      o = some none ∨ ∃ l, o = some (some l) ∧ Reduced q n l) ∧
    (∃ p, (∀ l, Reduced q n l →
        ((draws (uniformWord s) k).map (Sample.uniformVec w s M n)) (some (some l)) = p) ∧
      (1 - 2 ^ n * (3 / 4) ^ k) / (q : ℝ≥0∞) ^ n ≤ p ∧ p ≤ 1 / (q : ℝ≥0∞) ^ n) ∧
    ((draws (uniformWord s) k).map (Sample.uniformVec w s M n)) (some none) ≤ 2 ^ n * (3 / 4) ^ k := by
  have hval := new_valid hw (config_new h)
  have hc := new_cond (config_new h)
  have h4 := hval.1.lt_word
  rw [hval.2] at h4
  have hws : 2 ^ w ≤ 2 ^ s := Nat.pow_le_pow_right (by decide) hs
  have hS := Nat.two_pow_pos s
  have hdm := Nat.div_add_mod (2 ^ s) q
  have hmod := Nat.mod_lt (2 ^ s) (show 0 < q by omega)
  have h0 : ((2 ^ s : Nat) : ℝ≥0∞) ≠ 0 := by
    rw [Ne, Nat.cast_eq_zero]; omega
  have h1 : (q : ℝ≥0∞) * ((2 ^ s / q : Nat) / (2 ^ s : Nat)) = (2 ^ s - 2 ^ s % q : Nat) / (2 ^ s : Nat) := by
    rw [← mul_div_assoc, ← Nat.cast_mul]
    congr 2
    omega
  have h2 : ((2 ^ s - 2 ^ s % q : Nat) : ℝ≥0∞) / (2 ^ s : Nat) + (2 ^ s % q : Nat) / (2 ^ s : Nat) = 1 := by
    rw [← ENNReal.add_div, ← Nat.cast_add, show 2 ^ s - 2 ^ s % q + 2 ^ s % q = 2 ^ s by omega,
      ENNReal.div_self h0 (by simp)]
  have h3 : ((2 ^ s % q : Nat) : ℝ≥0∞) / (2 ^ s : Nat) ≤ 1 / 2 := by
    rw [ENNReal.div_le_iff h0 (by simp), one_div, ← ENNReal.div_eq_inv_mul,
      ENNReal.le_div_iff_mul_le (by simp) (by simp)]
    have : 2 ^ s % q * 2 ≤ 2 ^ s := by
      have : 1 ≤ 2 ^ s / q := Nat.div_pos (by omega) (by omega)
      have : q * 1 ≤ q * (2 ^ s / q) := Nat.mul_le_mul_left _ this
      omega
    exact_mod_cast this
  have hf := failProb_le h2 h3 k n
  have hv := vecProb_add_failProb (q := q) (h1 ▸ h2) k n
  rw [h1] at hv
  have hqn : (q : ℝ≥0∞) ^ n ≠ 0 := by
    have : (q : ℝ≥0∞) ≠ 0 := by rw [Ne, Nat.cast_eq_zero]; omega
    exact pow_ne_zero _ this
  have hqt : (q : ℝ≥0∞) ^ n ≠ ⊤ := by finiteness
  refine ⟨?_, ⟨_, fun l hl => uniformVec_prob hw hs h k n l hl, ?_, ?_⟩, ?_⟩
  · intro o ho
    rw [PMF.support_map] at ho
    obtain ⟨xs, hxs, rfl⟩ := ho
    have hx := (mem_support_draws hxs).2
    exact uniformVec_some hw hs h xs n fun x hx' => mem_support_uniformBelow (hx x hx')
  · rw [ENNReal.div_le_iff hqn hqt, mul_comm (vecProb _ _ _ _), tsub_le_iff_right, ← hv]
    gcongr
  · rw [ENNReal.le_div_iff_mul_le (Or.inl hqn) (Or.inl hqt), mul_comm (vecProb _ _ _ _), ← hv]
    exact le_self_add
  · rw [uniformVec_fail hw hs h]
    exact hf

/-- C64: the one-value samplers of the two crates: one draw of `FieldUniformSampler` or `Field::random` is the first of
the draws above, and a uniform word gives one fair bit or one ternary value. -/
theorem C64_single (w s q : Nat) (hw : w % 2 = 0) (M : Barrett) (h : Fp.config w q = some M) :
    (∀ xs, Sample.uniformVec w s M 1 xs = (Sample.uniform w s M xs).map fun o => o.map fun v => [v]) ∧
    (uniformWord 32).map Sample.binary = uniformBelow 2 ∧ (uniformWord 32).map Sample.binaryValue = uniformBelow 2 ∧
    (uniformWord 32).map (Sample.ternary M) = (ternaryLaw q).map some ∧
    ∀ q', 0 < q' → (uniformWord 32).map (Sample.ternaryValue q') = (ternaryLaw q').map some := by
  obtain ⟨_, hq⟩ := new_valid hw (config_new h)
  have hc := new_cond (config_new h)
  have key : ∀ {α : Type} (b : Nat) (f : Nat → α), b ≤ 32 → ((uniformWord 32).map fun r => f (r % 2 ^ b)) =
      (uniformWord b).map f := by
    intro α b f hb
    obtain ⟨c, hc⟩ := Nat.exists_eq_add_of_le hb
    rw [hc, uniformWord_split, PMF.map_bind]
    conv_rhs => rw [PMF.map]
    refine bind_congr_support fun x hx => ?_
    have hx := mem_support_uniformBelow hx
    rw [PMF.map_comp]
    simp only [Function.comp_def, Nat.add_mul_mod_self_left, Nat.mod_eq_of_lt hx]
    exact map_const' _ _
  have bin : (uniformWord 32).map Sample.binaryValue = uniformBelow 2 := by
    have := key 1 (fun x => x) (by decide)
    simp only [pow_one] at this
    unfold Sample.binaryValue
    rw [this]
    exact PMF.map_id _
  have tern : ∀ q', (uniformWord 32).map (fun r => some ([0, 0, 1, q' - 1].getD (r % 4) 0)) =
      (ternaryLaw q').map some := fun q' => by
    have := key 2 (fun x => some ([0, 0, 1, q' - 1].getD x 0)) (by decide)
    rw [show (2 : Nat) ^ 2 = 4 by norm_num] at this
    rw [this, ← entryLaw_ternary, entryLaw, PMF.map_comp]
    rfl
  refine ⟨?_, ?_, bin, ?_, ?_⟩
  · intro xs
    induction xs with
    | nil => rfl
    | cons x xs ih =>
      simp only [Sample.uniformVec, Sample.uniform]
      cases Sample.uniformStep s M.value x with
      | none => rfl
      | some o =>
        cases o with
        | none => exact ih
        | some v =>
          simp only [Option.bind_eq_bind, Option.bind_some]
          cases Fp.new w M (trunc w v) <;> rfl
  · rw [← bin]
    exact map_congr_support fun r _ => (C19_single w q hw M h r).1
  · rw [← tern q]
    refine map_congr_support fun r _ => ?_
    simp only [Sample.ternary, Fp.negOne, subC, hq, show 1 ≤ q by omega, if_true, Option.bind_eq_bind, Option.bind_some]
    rfl
  · intro q' hq'
    rw [← tern q']
    refine map_congr_support fun r _ => ?_
    simp only [Sample.ternaryValue, subC, show 1 ≤ q' by omega, if_true, Option.bind_eq_bind, Option.bind_some]
    rfl

/-- With the field of 17 elements and words of 8 bits, 0 is rejected, 1 gives 0 and 200 gives 13. -/
example : Fp.config 8 17 = some barrett17 ∧ Sample.uniformVec 8 8 barrett17 2 [0, 1, 200, 7] = some (some [0, 13]) ∧
    Sample.uniformVec 8 8 barrett17 5 [0, 1, 200, 7] = some none := by decide +kernel
/-- A polynomial of 1024 uniform coefficients from 4096 words: the words suffice except with a small probability. -/
example (w q : Nat) (hw : w % 2 = 0) (hs : w ≤ 64) (M : Barrett) (h : Fp.config w q = some M) :
    ((draws (uniformWord 64) 4096).map (Sample.uniformVec w 64 M 1024)) (some none) ≤ 2 ^ 1024 * (3 / 4) ^ 4096 :=
  (C64_uniform w 64 q hw hs M h 1024 4096).2.2

end Props
end Verif
