import Verif.Model.Sample
import Verif.Props.Field
import Mathlib.Data.Finset.Card
import Mathlib.Order.Interval.Finset.Nat
import Mathlib.Data.Nat.Choose.Vandermonde
import Mathlib.Data.Nat.Bitwise

/-! # C18, C19: samplers -/

namespace Verif.Props
open Finset Barrett

/-- The threshold is `2^s mod q`. -/
theorem thresh_eq {s q : Nat} (hq : 1 ≤ q) (hqs : q < 2 ^ s) :
    Sample.thresh s q = some (2 ^ s % q) := by
  unfold Sample.thresh wrappingNeg
  rw [if_neg (by omega), Nat.mod_eq_of_lt (show 2 ^ s - q < 2 ^ s by omega)]
  congr 1
  conv_rhs => rw [show 2 ^ s = 2 ^ s - q + q by omega, Nat.add_mod_right]

theorem uniformStep_eq {s q x : Nat} (hq : 1 ≤ q) (hqs : q < 2 ^ s) (hx : x < 2 ^ s) :
    Sample.uniformStep s q x =
      some (if 2 ^ s % q ≤ x * q % 2 ^ s then some (x * q / 2 ^ s) else none) := by
  unfold Sample.uniformStep
  rw [thresh_eq hq hqs, wideningMulC_eq hx hqs]
  simp only [Option.bind_eq_bind, Option.bind_some]
  split <;> rfl

/-- The number of multiples of `q` in an interval of length `q*k` is `k`. -/
theorem card_multiples {q A k N : Nat} (hq : 1 ≤ q) (hN : A + q * k ≤ N * q) :
    #{x ∈ range N | A ≤ x * q ∧ x * q < A + q * k} = k := by
  obtain ⟨c, hc⟩ : ∃ c, c = (A + q - 1) / q := ⟨_, rfl⟩
  have hle : ∀ x, A ≤ x * q ↔ c ≤ x := by
    intro x
    rw [hc, Nat.div_le_iff_le_mul_add_pred (by omega), Nat.mul_comm x q]
    omega
  have hlt : ∀ x, x * q < A + q * k ↔ x < c + k := by
    intro x
    rcases Nat.lt_or_ge x k with h | h
    · have h2 : x * q < q * k := by
        rw [Nat.mul_comm q k]; exact (Nat.mul_lt_mul_right (by omega)).2 h
      exact iff_of_true (by omega) (by omega)
    · obtain ⟨y, rfl⟩ : ∃ y, x = k + y := ⟨x - k, by omega⟩
      have := hle y
      rw [Nat.add_mul, Nat.mul_comm k q]
      omega
  have : {x ∈ range N | A ≤ x * q ∧ x * q < A + q * k} = Ico c (c + k) := by
    ext x
    simp only [mem_filter, mem_range, mem_Ico, hle, hlt]
    constructor
    · exact fun h => h.2
    · intro h
      refine ⟨?_, h⟩
      have := (hlt x).2 h.2
      exact Nat.lt_of_mul_lt_mul_right (a := q) (by omega)
  rw [this, Nat.card_Ico]; omega

/-- C18: exactly `⌊2^s / q⌋` of the `2^s` sample words are mapped to each residue `r < q`. -/
theorem C18_uniform_count (s q r : Nat) (hq : 1 ≤ q) (hqs : q < 2 ^ s) (hr : r < q) :
    #{x ∈ range (2 ^ s) | Sample.uniformStep s q x = some (some r)} = 2 ^ s / q := by
  have hB := Nat.two_pow_pos s
  have hdm := Nat.div_add_mod (2 ^ s) q
  have hset : {x ∈ range (2 ^ s) | Sample.uniformStep s q x = some (some r)} =
      {x ∈ range (2 ^ s) | r * 2 ^ s + 2 ^ s % q ≤ x * q ∧
        x * q < r * 2 ^ s + 2 ^ s % q + q * (2 ^ s / q)} := by
    apply filter_congr
    intro x hx
    rw [mem_range] at hx
    rw [uniformStep_eq hq hqs hx]
    have hd := Nat.div_add_mod (x * q) (2 ^ s)
    have hm := Nat.mod_lt (x * q) hB
    rw [show r * 2 ^ s + 2 ^ s % q + q * (2 ^ s / q) = r * 2 ^ s + 2 ^ s by omega]
    by_cases hc : 2 ^ s % q ≤ x * q % 2 ^ s
    · rw [if_pos hc]
      simp only [Option.some.injEq]
      constructor
      · intro h
        rw [h, Nat.mul_comm] at hd
        omega
      · rintro ⟨h1, h2⟩
        rw [Nat.div_eq_iff hB]
        omega
    · rw [if_neg hc]
      constructor
      · intro h; simp at h
      · rintro ⟨h1, h2⟩
        exfalso
        have : x * q / 2 ^ s = r := by rw [Nat.div_eq_iff hB]; omega
        rw [this, Nat.mul_comm] at hd
        omega
  rw [hset]
  apply card_multiples hq
  have : (r + 1) * 2 ^ s ≤ q * 2 ^ s := Nat.mul_le_mul_right _ hr
  rw [Nat.add_mul, Nat.one_mul] at this
  rw [Nat.mul_comm (2 ^ s) q]
  omega

/-- C18: every accepted word gives a value below `q`. -/
theorem C18_uniform_range (s q x r : Nat) (hq : 1 ≤ q) (hqs : q < 2 ^ s) (hx : x < 2 ^ s)
    (h : Sample.uniformStep s q x = some (some r)) : r < q := by
  rw [uniformStep_eq hq hqs hx] at h
  split at h
  · simp only [Option.some.injEq] at h
    rw [← h, Nat.div_lt_iff_lt_mul (Nat.two_pow_pos s), Nat.mul_comm q]
    exact (Nat.mul_lt_mul_right (by omega)).2 hx
  · simp at h

/-- C18: exactly `2^s mod q` words, fewer than `q`, are rejected; no word panics. -/
theorem C18_uniform_rejected (s q : Nat) (hq : 1 ≤ q) (hqs : q < 2 ^ s) :
    #{x ∈ range (2 ^ s) | Sample.uniformStep s q x = some none} = 2 ^ s % q ∧ 2 ^ s % q < q ∧
    ∀ x, x < 2 ^ s → Sample.uniformStep s q x ≠ none := by
  refine ⟨?_, Nat.mod_lt _ hq, fun x hx => by rw [uniformStep_eq hq hqs hx]; simp⟩
  have htot := Finset.card_filter_add_card_filter_not (s := range (2 ^ s))
    (fun x => Sample.uniformStep s q x = some none)
  have hpart : #{x ∈ range (2 ^ s) | ¬ Sample.uniformStep s q x = some none} = q * (2 ^ s / q) := by
    have hu : {x ∈ range (2 ^ s) | ¬ Sample.uniformStep s q x = some none} =
        (range q).biUnion
          (fun r => {x ∈ range (2 ^ s) | Sample.uniformStep s q x = some (some r)}) := by
      ext x
      simp only [mem_filter, mem_biUnion, mem_range]
      constructor
      · rintro ⟨hx, hne⟩
        cases hst : Sample.uniformStep s q x with
        | none => rw [uniformStep_eq hq hqs hx] at hst; simp at hst
        | some o =>
          cases o with
          | none => exact absurd hst hne
          | some r => exact ⟨r, C18_uniform_range s q x r hq hqs hx hst, hx, rfl⟩
      · rintro ⟨r, _, hx, h⟩
        exact ⟨hx, by rw [h]; simp⟩
    rw [hu, card_biUnion]
    · rw [sum_congr rfl (fun r hr => C18_uniform_count s q r hq hqs (mem_range.1 hr))]
      simp
    · intro a _ b _ hab
      rw [Function.onFun, disjoint_left]
      intro x hxa hxb
      simp only [mem_filter] at hxa hxb
      rw [hxa.2] at hxb
      exact hab (by simpa using hxb.2)
  rw [hpart, card_range] at htot
  have := Nat.div_add_mod (2 ^ s) q
  omega

/-- C18: the sampler consumes words until one is accepted and returns its value, canonical, as a
field element. The sample word is at least as wide as the field word. -/
theorem C18_sampler (w s q : Nat) (hw : w % 2 = 0) (hs : w ≤ s) (M : Barrett)
    (h : Fp.config w q = some M) (pre post : List Nat) (x r : Nat) (hx : x < 2 ^ s)
    (hpre : ∀ y ∈ pre, y < 2 ^ s ∧ Sample.uniformStep s q y = some none)
    (hacc : Sample.uniformStep s q x = some (some r)) :
    Sample.uniform w s M (pre ++ x :: post) = some (some r) ∧ r < q := by
  obtain ⟨hval, hq⟩ := new_valid hw (config_new h)
  have hc := new_cond (config_new h)
  have h4 := hval.lt_word
  have hws : 2 ^ w ≤ 2 ^ s := Nat.pow_le_pow_right (by decide) hs
  have hr := C18_uniform_range s q x r (by omega) (by omega) hx hacc
  refine ⟨?_, hr⟩
  induction pre with
  | nil =>
    have hn := C49_new w q hw M h r (by omega)
    rw [Nat.mod_eq_of_lt hr] at hn
    simp only [List.nil_append, Sample.uniform, hq, hacc, Option.bind_eq_bind, Option.bind_some,
      trunc, Nat.mod_eq_of_lt (show r < 2 ^ w by omega), hn]
    rfl
  | cons y ys ih =>
    have hy := (hpre y (by simp)).2
    simp only [List.cons_append, Sample.uniform, hq, hy, Option.bind_eq_bind, Option.bind_some]
    exact ih (fun z hz => hpre z (by simp [hz]))

example : Sample.uniformStep 8 100 8 = some none ∧ Sample.uniformStep 8 100 5 = some (some 1) ∧ Sample.uniformStep 8 100 0 = some none := by
  decide +kernel
-- 256 = 2*100 + 56: every residue is hit twice, 56 words are rejected
example : #{x ∈ range (2 ^ 8) | Sample.uniformStep 8 100 x = some (some 99)} = 2 := by
  decide +kernel

/-! ## C19 -/

theorem fillChunk_length (tbl : List Nat) (b : Nat) : ∀ len r,
    (Sample.fillChunk tbl b len r).length = len
  | 0, _ => rfl
  | len + 1, r => by simp [Sample.fillChunk, fillChunk_length tbl b len]

theorem fillChunk_get (tbl : List Nat) (b : Nat) : ∀ len r i, i < len →
    (Sample.fillChunk tbl b len r)[i]? = some (tbl.getD (r / 2 ^ (b * i) % 2 ^ b) 0)
  | 0, _, i => by intro h; omega
  | len + 1, r, i => by
    intro h
    rcases i with _ | i
    · simp [Sample.fillChunk]
    · simp only [Sample.fillChunk, List.getElem?_cons_succ]
      rw [fillChunk_get tbl b len _ i (by omega), Nat.div_div_eq_div_mul, ← Nat.pow_add,
        show b + b * i = b * (i + 1) by ring]

theorem fillChunks_length (tbl : List Nat) (b c : Nat) (words : Nat → Nat) : ∀ k i,
    (Sample.fillChunks tbl b c words k i).length = k * c
  | 0, _ => by simp [Sample.fillChunks]
  | k + 1, i => by
    simp only [Sample.fillChunks, List.length_append, fillChunk_length,
      fillChunks_length tbl b c words k]
    ring

theorem fillChunks_get (tbl : List Nat) (b c : Nat) (hc : 0 < c) (words : Nat → Nat) :
    ∀ k i j, j < k * c → (Sample.fillChunks tbl b c words k i)[j]? =
      some (tbl.getD (words (i + j / c) / 2 ^ (b * (j % c)) % 2 ^ b) 0)
  | 0, _, j => by intro h; omega
  | k + 1, i, j => by
    intro h
    simp only [Sample.fillChunks]
    rcases Nat.lt_or_ge j c with hj | hj
    · rw [List.getElem?_append_left (by rw [fillChunk_length]; exact hj),
        fillChunk_get _ _ _ _ _ hj, Nat.div_eq_of_lt hj, Nat.mod_eq_of_lt hj, Nat.add_zero]
    · rw [List.getElem?_append_right (by rw [fillChunk_length]; exact hj), fillChunk_length,
        fillChunks_get tbl b c hc words k (i + 1) (j - c) (by rw [Nat.add_mul] at h; omega)]
      have e1 : j / c = (j - c) / c + 1 := by
        rw [show j = j - c + c by omega, Nat.add_div_right _ hc]; simp
      have e2 : j % c = (j - c) % c := by
        conv_lhs => rw [show j = j - c + c by omega, Nat.add_mod_right]
      rw [e1, e2, show i + 1 + (j - c) / c = i + ((j - c) / c + 1) by ring]

theorem fillVec_spec (tbl : List Nat) (b c : Nat) (hc : 0 < c) (words : Nat → Nat) (length : Nat) :
    (Sample.fillVec tbl b c words length).length = length ∧
    ∀ j, j < length → (Sample.fillVec tbl b c words length)[j]? =
      some (tbl.getD (words (j / c) / 2 ^ (b * (j % c)) % 2 ^ b) 0) := by
  have hdm := Nat.div_add_mod length c
  have hcm : length / c * c = c * (length / c) := Nat.mul_comm _ _
  constructor
  · simp only [Sample.fillVec, List.length_append, fillChunks_length, fillChunk_length]
    omega
  · intro j hj
    unfold Sample.fillVec
    rcases Nat.lt_or_ge j (length / c * c) with h | h
    · rw [List.getElem?_append_left (by rw [fillChunks_length]; exact h),
        fillChunks_get _ _ _ hc _ _ _ _ h, Nat.zero_add]
    · rw [List.getElem?_append_right (by rw [fillChunks_length]; exact h), fillChunks_length]
      have hlt : j - length / c * c < length % c := by omega
      rw [fillChunk_get _ _ _ _ _ hlt]
      have hrc : j - length / c * c < c := Nat.lt_trans hlt (Nat.mod_lt _ hc)
      have hj' : j = (j - length / c * c) + c * (length / c) := by omega
      have e1 : j / c = length / c := by
        rw [hj', Nat.add_mul_div_left _ _ hc, Nat.div_eq_of_lt (by omega), Nat.zero_add]
      have e2 : j % c = j - length / c * c := by
        conv_lhs => rw [hj', Nat.add_mul_mod_self_left]
        exact Nat.mod_eq_of_lt hrc
      rw [e1, e2]

/-- C19: element `j` of a binary vector of any length is bit `j mod 32` of random word `j / 32`. -/
theorem C19_binary_vec (words : Nat → Nat) (length : Nat) :
    (Sample.binaryVec words length).length = length ∧
    ∀ j, j < length → (Sample.binaryVec words length)[j]? =
      some (words (j / 32) / 2 ^ (j % 32) % 2) := by
  obtain ⟨h1, h2⟩ := fillVec_spec [Fp.zero, Fp.one] 1 32 (by decide) words length
  refine ⟨h1, fun j hj => ?_⟩
  have := h2 j hj
  rw [pow_one, Nat.one_mul] at this
  rw [Sample.binaryVec, this]
  have hlt : words (j / 32) / 2 ^ (j % 32) % 2 < 2 := Nat.mod_lt _ (by decide)
  generalize words (j / 32) / 2 ^ (j % 32) % 2 = z at hlt
  interval_cases z <;> rfl

/-- The ternary value of a 2-bit chunk: `0, 0, 1, -1` for `0, 1, 2, 3`. -/
def ternaryOf : Nat → Int
  | 2 => 1
  | 3 => -1
  | _ => 0

/-- C19: element `j` of a ternary vector of any length is the canonical representative of the value
of the 2-bit chunk `j mod 16` of random word `j / 16`; chunks 0 and 1 give 0, chunk 2 gives 1,
chunk 3 gives -1, so the weights are 2:1:1. -/
theorem C19_ternary_vec (w q : Nat) (hw : w % 2 = 0) (M : Barrett) (h : Fp.config w q = some M)
    (words : Nat → Nat) (length : Nat) :
    ∃ v, Sample.ternaryVec M words length = some v ∧ v.length = length ∧
    ∀ j, j < length → ∃ e, v[j]? = some e ∧ e < q ∧
      (e : ZMod q) = (ternaryOf (words (j / 16) / 4 ^ (j % 16) % 4) : ZMod q) := by
  obtain ⟨_, hq⟩ := new_valid hw (config_new h)
  have hc := new_cond (config_new h)
  obtain ⟨h1, h2⟩ := fillVec_spec [Fp.zero, Fp.zero, Fp.one, q - 1] 2 16 (by decide) words length
  refine ⟨_, ?_, h1, fun j hj => ⟨_, h2 j hj, ?_⟩⟩
  · simp only [Sample.ternaryVec, Fp.negOne, subC, hq, show 1 ≤ q by omega, if_true,
      Option.bind_eq_bind, Option.bind_some]
    rfl
  · rw [Nat.pow_mul, show 2 ^ 2 = 4 by norm_num]
    have hlt : words (j / 16) / 4 ^ (j % 16) % 4 < 4 := Nat.mod_lt _ (by decide)
    generalize words (j / 16) / 4 ^ (j % 16) % 4 = z at hlt
    have hneg : ((q - 1 : Nat) : ZMod q) = -1 := by
      rw [Nat.cast_sub (by omega), ZMod.natCast_self]; simp
    interval_cases z
    · simp [Fp.zero, ternaryOf]; omega
    · simp [Fp.zero, ternaryOf]; omega
    · simp [Fp.one, ternaryOf]; omega
    · refine ⟨?_, ?_⟩
      · show q - 1 < q; omega
      · show ((q - 1 : Nat) : ZMod q) = _
        rw [hneg]; simp [ternaryOf]

/-- C19: the one-element samplers use the low bits of one random word in the same way. -/
theorem C19_single (w q : Nat) (hw : w % 2 = 0) (M : Barrett) (h : Fp.config w q = some M)
    (r : Nat) : Sample.binary r = r % 2 ∧
    ∃ e, Sample.ternary M r = some e ∧ e < q ∧ (e : ZMod q) = (ternaryOf (r % 4) : ZMod q) := by
  have hb := (C19_binary_vec (fun _ => r) 1).2 0 (by decide)
  obtain ⟨v, hv, hlen, he⟩ := C19_ternary_vec w q hw M h (fun _ => r) 1
  obtain ⟨e, e1, e2, e3⟩ := he 0 (by decide)
  refine ⟨?_, e, ?_, e2, ?_⟩
  · have hlt : r % 2 < 2 := Nat.mod_lt _ (by decide)
    unfold Sample.binary
    generalize r % 2 = z at hlt
    interval_cases z <;> rfl
  · unfold Sample.ternaryVec at hv
    unfold Sample.ternary
    cases hm : Fp.negOne M with
    | none => rw [hm] at hv; simp at hv
    | some m =>
      rw [hm] at hv
      simp only [Option.bind_eq_bind, Option.bind_some] at hv ⊢
      obtain rfl := Option.some.inj hv
      have := (fillVec_spec [Fp.zero, Fp.zero, Fp.one, m] 2 16 (by decide) (fun _ => r) 1).2 0
        (by decide)
      rw [this] at e1
      simp only [Nat.zero_mod, Nat.mul_zero, pow_zero, Nat.div_one] at e1
      exact e1
  · simpa using e3

theorem countOnes_le : ∀ k x, Sample.countOnes k x ≤ k
  | 0, _ => by simp [Sample.countOnes]
  | k + 1, x => by
    have := countOnes_le k (x / 2)
    have h2 : x % 2 < 2 := Nat.mod_lt _ (by decide)
    simp only [Sample.countOnes]; omega

theorem countOnes_small : ∀ k j x, x < 2 ^ j → Sample.countOnes (j + k) x = Sample.countOnes j x
  | k, 0, x => by
    intro h
    have : x = 0 := by simpa using h
    subst this
    have : ∀ n, Sample.countOnes n 0 = 0 := by
      intro n; induction n with
      | zero => rfl
      | succ n ih => simp [Sample.countOnes, ih]
    rw [this, this]
  | k, j + 1, x => by
    intro h
    rw [show j + 1 + k = (j + k) + 1 by omega]
    simp only [Sample.countOnes]
    rw [countOnes_small k j]
    rw [pow_succ] at h; omega

theorem countOnes_append : ∀ j k x y, x < 2 ^ j →
    Sample.countOnes (j + k) (x + 2 ^ j * y) = Sample.countOnes j x + Sample.countOnes k y
  | 0, k, x, y => by
    intro h
    have : x = 0 := by simpa using h
    subst this; simp [Sample.countOnes]
  | j + 1, k, x, y => by
    intro h
    rw [show j + 1 + k = (j + k) + 1 by omega]
    simp only [Sample.countOnes]
    rw [show x + 2 ^ (j + 1) * y = x + 2 * (2 ^ j * y) by rw [pow_succ]; ring,
      Nat.add_mul_mod_self_left, Nat.add_mul_div_left _ _ (by decide),
      countOnes_append j k (x / 2) y (by rw [pow_succ] at h; omega)]
    ring

/-- C19: the centred binomial draw is the difference of the numbers of ones of two 21-bit numbers
taken from the six random bytes (low five bits of the third and sixth byte), as a canonical
residue; its magnitude is at most 21. Missing: moduli below 21, for which the code underflows on some
bytes (`C19_cbd_small_modulus`). -/
theorem C19_cbd_partial (w q : Nat) (hw : w % 2 = 0) (M : Barrett) (h : Fp.config w q = some M)
    (hq21 : 21 ≤ q) (x0 x1 x2 x3 x4 x5 : Nat) (h0 : x0 < 2 ^ 8) (h1 : x1 < 2 ^ 8)
    (h3 : x3 < 2 ^ 8) (h4 : x4 < 2 ^ 8) :
    ∃ e, Sample.cbd w M x0 x1 x2 x3 x4 x5 = some e ∧ e < q ∧
    ∃ d : Int, d = (Sample.countOnes 21 (x0 + 2 ^ 8 * (x1 + 2 ^ 8 * (x2 % 32))) : Int) -
        Sample.countOnes 21 (x3 + 2 ^ 8 * (x4 + 2 ^ 8 * (x5 % 32))) ∧
      |d| ≤ 21 ∧ (e : ZMod q) = (d : ZMod q) := by
  obtain ⟨hval, hqv⟩ := new_valid hw (config_new h)
  have hlt := hval.lt_word
  have hpop : ∀ u v z, u < 2 ^ 8 → v < 2 ^ 8 →
      Sample.countOnes 8 u + Sample.countOnes 8 v + Sample.countOnes 8 (z &&& 0x1F) =
      Sample.countOnes 21 (u + 2 ^ 8 * (v + 2 ^ 8 * (z % 32))) := by
    intro u v z hu hv
    rw [show (21 : Nat) = 8 + 13 by norm_num, countOnes_append 8 13 _ _ hu,
      show (13 : Nat) = 8 + 5 by norm_num, countOnes_append 8 5 _ _ hv]
    rw [show (0x1F : Nat) = 2 ^ 5 - 1 by norm_num, Nat.and_two_pow_sub_one_eq_mod]
    rw [show Sample.countOnes 8 (z % 2 ^ 5) = Sample.countOnes 5 (z % 2 ^ 5) from
      countOnes_small 3 5 _ (Nat.mod_lt _ (by decide)), show (2 : Nat) ^ 5 = 32 by norm_num]
    omega
  unfold Sample.cbd
  simp only [hpop x0 x1 x2 h0 h1, hpop x3 x4 x5 h3 h4]
  have ha := countOnes_le 21 (x0 + 2 ^ 8 * (x1 + 2 ^ 8 * (x2 % 32)))
  have hb := countOnes_le 21 (x3 + 2 ^ 8 * (x4 + 2 ^ 8 * (x5 % 32)))
  generalize Sample.countOnes 21 (x0 + 2 ^ 8 * (x1 + 2 ^ 8 * (x2 % 32))) = a at *
  generalize Sample.countOnes 21 (x3 + 2 ^ 8 * (x4 + 2 ^ 8 * (x5 % 32))) = b at *
  have habs : |(a : Int) - b| ≤ 21 := by rw [abs_le]; omega
  by_cases hab : b ≤ a
  · rw [if_pos hab]
    have hn := C49_new w q hw M h (a - b) (by omega)
    refine ⟨_, hn, Nat.mod_lt _ (by omega), (a : Int) - b, rfl, habs, ?_⟩
    rw [ZMod.natCast_mod, Nat.cast_sub hab]; push_cast; ring
  · rw [if_neg hab]
    have hn := C49_new w q hw M h (q - (b - a)) (by omega)
    rw [Nat.mod_eq_of_lt (by omega)] at hn
    refine ⟨q - (b - a), ?_, by omega, (a : Int) - b, rfl, habs, ?_⟩
    · simp only [subC, hqv, show b - a ≤ q by omega, if_true, Option.bind_eq_bind,
        Option.bind_some, hn]
    · rw [Nat.cast_sub (by omega), ZMod.natCast_self, Nat.cast_sub (by omega)]; push_cast; ring

/-- C19: a vector of centred binomial draws has the requested length and reduced entries. Missing: moduli
below 21. -/
theorem C19_cbd_vec_partial (w q : Nat) (hw : w % 2 = 0) (M : Barrett) (h : Fp.config w q = some M)
    (hq21 : 21 ≤ q) (bytes : Nat → Nat) (hb : ∀ i, bytes i < 2 ^ 8) :
    ∀ (length i : Nat), ∃ v, Sample.cbdVec w M bytes length i = some v ∧ v.length = length ∧
      ∀ e ∈ v, e < q
  | 0, _ => ⟨[], rfl, rfl, by simp⟩
  | k + 1, i => by
    obtain ⟨v, hv, hl, hm⟩ := C19_cbd_vec_partial w q hw M h hq21 bytes hb k (i + 1)
    obtain ⟨e, he, hlt, _⟩ := C19_cbd_partial w q hw M h hq21 (bytes (6 * i)) (bytes (6 * i + 1))
      (bytes (6 * i + 2)) (bytes (6 * i + 3)) (bytes (6 * i + 4)) (bytes (6 * i + 5)) (hb _) (hb _)
      (hb _) (hb _)
    refine ⟨e :: v, ?_, by simp [hl], ?_⟩
    · simp only [Sample.cbdVec, he, hv, Option.bind_eq_bind, Option.bind_some]; rfl
    · intro x hx
      rcases List.mem_cons.1 hx with rfl | hx
      · exact hlt
      · exact hm x hx

/-- The number of `k`-bit numbers with `j` ones. -/
theorem card_countOnes : ∀ k j, #{x ∈ range (2 ^ k) | Sample.countOnes k x = j} = Nat.choose k j
  | 0, j => by
    rcases j with _ | j
    · simp [Sample.countOnes]
    · simp [Sample.countOnes]
  | k + 1, j => by
    have hsplit : {x ∈ range (2 ^ (k + 1)) | Sample.countOnes (k + 1) x = j} =
        ({y ∈ range (2 ^ k) | Sample.countOnes k y = j}.image (fun y => 2 * y)) ∪
        ({y ∈ range (2 ^ k) | 1 + Sample.countOnes k y = j}.image (fun y => 2 * y + 1)) := by
      ext x
      simp only [mem_filter, mem_range, mem_union, mem_image, Sample.countOnes, pow_succ]
      constructor
      · rintro ⟨hx, hc⟩
        rcases Nat.mod_two_eq_zero_or_one x with h0 | h1
        · left; exact ⟨x / 2, ⟨by omega, by omega⟩, by omega⟩
        · right; exact ⟨x / 2, ⟨by omega, by omega⟩, by omega⟩
      · rintro (⟨y, ⟨hy, hc⟩, rfl⟩ | ⟨y, ⟨hy, hc⟩, rfl⟩)
        · refine ⟨by omega, ?_⟩
          rw [Nat.mul_mod_right, Nat.mul_div_cancel_left _ (by decide)]; omega
        · refine ⟨by omega, ?_⟩
          rw [show (2 * y + 1) % 2 = 1 by omega, show (2 * y + 1) / 2 = y by omega]; exact hc
    rw [hsplit, card_union_of_disjoint, card_image_of_injective _ (fun a b h => by simpa using h),
      card_image_of_injective _ (fun a b h => by simpa using h), card_countOnes k j]
    · rcases j with _ | j
      · have : {y ∈ range (2 ^ k) | 1 + Sample.countOnes k y = 0} = ∅ := by
          apply filter_false_of_mem; intro y _; omega
        rw [this]; simp
      · have : {y ∈ range (2 ^ k) | 1 + Sample.countOnes k y = j + 1} =
            {y ∈ range (2 ^ k) | Sample.countOnes k y = j} := by
          apply filter_congr; intro y _; omega
        rw [this, card_countOnes k j, Nat.choose_succ_succ, Nat.succ_eq_add_one]; omega
    · rw [disjoint_left]
      intro x hx hy
      simp only [mem_image] at hx hy
      obtain ⟨a, _, rfl⟩ := hx
      obtain ⟨b, _, hb⟩ := hy
      omega

/-- C19: of the `2^42` pairs of 21-bit numbers, `C(42, 21 + d)` have difference of ones `d`: the draw
follows the centred binomial distribution with parameter 21. -/
theorem C19_cbd_distribution (d : Int) (hd : |d| ≤ 21) :
    #{p ∈ range (2 ^ 21) ×ˢ range (2 ^ 21) |
      (Sample.countOnes 21 p.1 : Int) - Sample.countOnes 21 p.2 = d} =
    Nat.choose 42 (21 + d).toNat := by
  have gen : ∀ k : Nat, ∀ d : Int, |d| ≤ k →
      #{p ∈ range (2 ^ k) ×ˢ range (2 ^ k) |
        (Sample.countOnes k p.1 : Int) - Sample.countOnes k p.2 = d} =
      Nat.choose (k + k) (k + d).toNat := by
    intro k d hd
    rw [abs_le] at hd
    rw [Nat.add_choose_eq]
    have hset : {p ∈ range (2 ^ k) ×ˢ range (2 ^ k) |
        (Sample.countOnes k p.1 : Int) - Sample.countOnes k p.2 = d} =
        (antidiagonal (k + d).toNat).biUnion (fun ij =>
          {x ∈ range (2 ^ k) | Sample.countOnes k x = ij.1} ×ˢ
          {x ∈ range (2 ^ k) | Sample.countOnes k x = k - ij.2 ∧ ij.2 ≤ k}) := by
      ext ⟨u, v⟩
      simp only [mem_filter, mem_product, mem_biUnion, mem_antidiagonal]
      have hu := countOnes_le k u
      have hv := countOnes_le k v
      constructor
      · rintro ⟨⟨h1, h2⟩, h3⟩
        refine ⟨(Sample.countOnes k u, k - Sample.countOnes k v), ?_, ⟨h1, rfl⟩, h2, ?_, ?_⟩
        · show _ + _ = _; omega
        · show _ = k - (k - _); omega
        · show k - _ ≤ k; omega
      · rintro ⟨⟨i, j⟩, h1, ⟨h2, h3⟩, h4, h5, h6⟩
        simp only at h1 h2 h3 h4 h5 h6
        exact ⟨⟨h2, h4⟩, by omega⟩
    rw [hset, card_biUnion]
    · apply sum_congr rfl
      rintro ⟨i, j⟩ _
      rw [card_product, card_countOnes]
      congr 1
      rcases Nat.lt_or_ge k j with hj | hj
      · rw [Nat.choose_eq_zero_of_lt hj, card_eq_zero]
        apply filter_false_of_mem
        intro x _ hx
        exact absurd hx.2 (by omega)
      · rw [← Nat.choose_symm hj, ← card_countOnes]
        congr 1
        apply filter_congr
        intro x _
        simp [hj]
    · rintro ⟨i, j⟩ hij ⟨i', j'⟩ hij' hne
      rw [Function.onFun, disjoint_left]
      rintro ⟨u, v⟩ h1 h2
      simp only [mem_product, mem_filter] at h1 h2
      have hi : i = i' := h1.1.2.symm.trans h2.1.2
      have : i + j = (k + d).toNat := by simpa using hij
      have : i' + j' = (k + d).toNat := by simpa using hij'
      exact hne (by rw [Prod.mk.injEq]; omega)
  exact gen 21 d hd

example : Sample.binaryVec (fun i => if i = 0 then 2 ^ 31 + 5 else 3) 34 =
    [1, 0, 1] ++ List.replicate 28 0 ++ [1] ++ [1, 1] := by decide +kernel
example : ∃ M, Fp.config 8 61 = some M ∧
    Sample.ternaryVec M (fun _ => 0b11100100) 5 = some [0, 0, 1, 60, 0] ∧
    Sample.cbd 8 M 1 0 0 255 0 255 = some 49 :=
  ⟨⟨61, 2 ^ 8 * 2 ^ 8 / 61 % 2 ^ 8, 2 ^ 8 * 2 ^ 8 / 61 / 2 ^ 8⟩, by decide +kernel⟩

/-- C19: for a modulus of at most 21 the draw can underflow: all ones in the second half. -/
theorem C19_cbd_small_modulus (w : Nat) (M : Barrett) (hq : M.value < 21) :
    Sample.cbd w M 0 0 0 255 255 31 = none := by
  have h1 : Sample.countOnes 8 0 + Sample.countOnes 8 0 + Sample.countOnes 8 (0 &&& 0x1F) = 0 := by
    decide
  have h2 : Sample.countOnes 8 255 + Sample.countOnes 8 255 + Sample.countOnes 8 (31 &&& 0x1F) = 21 := by
    decide
  unfold Sample.cbd
  simp only [h1, h2]
  rw [if_neg (by decide)]
  simp [subC, show ¬ 21 ≤ M.value by omega]

end Verif.Props
