import Verif.Props.Noise
import Verif.Props.NoiseLaw
import Verif.Props.KeyGen

/-!
# C60: the noise of the key switchings

Concrete cases that meet the hypotheses are in `Props/NoiseDefaults.lean`.
-/

namespace Verif
open Spec Props Finset
open scoped ENNReal

namespace Spec
variable {α β : Type}

/-- One of the values. -/
theorem mean_draws_getD (p : PMF α) (d : α) (f : α → ℝ≥0∞) : ∀ {k i : Nat}, i < k →
    (mean (draws p k) fun l => f (l.getD i d)) = mean p f
  | k + 1, 0, _ => by
    rw [mean_draws_succ]
    simp only [List.getD_cons_zero, mean_const]
  | k + 1, i + 1, h => by
    rw [mean_draws_succ]
    simp only [List.getD_cons_succ]
    rw [mean_const, mean_draws_getD p d f (by omega)]

theorem prob_map (p : PMF α) (g : α → β) (A : Set β) :
    (p.map g).toOuterMeasure A = p.toOuterMeasure (g ⁻¹' A) := by
  classical
  rw [prob_eq, prob_eq, mean_map]
  rfl

theorem prob_bind_le {p : PMF α} {f : α → PMF β} {A : Set β} {c : ℝ≥0∞}
    (h : ∀ a ∈ p.support, (f a).toOuterMeasure A ≤ c) : (p.bind f).toOuterMeasure A ≤ c := by
  classical
  rw [prob_eq, mean_bind]
  calc _ ≤ mean p fun _ => c := mean_mono fun a ha => by
        have := h a ha
        rwa [prob_eq] at this
    _ = c := mean_const _ _

end Spec

theorem getD_of_all {α : Type} {p : α → Prop} {l : List α} {d : α} (h : ∀ x ∈ l, p x) (hd : p d) (i : Nat) :
    p (l.getD i d) := by
  by_cases hi : i < l.length
  · rw [List.getD_eq_getElem _ _ hi]; exact h _ (List.getElem_mem hi)
  · rw [List.getD_eq_default _ _ (by omega)]; exact hd

section
variable {q : Nat} {u : PMF (List Nat)} {χ : PMF Nat} {v : ℝ}

theorem rlweSwitchLaw_ok (hq : 0 < q) (h : SubGaussian q χ v) {n len cnt : Nat} (hu : ∀ a ∈ u.support, Reduced q n a)
    {l : List (List Draw)} (hl : l ∈ (draws (draws (sampleLaw u χ n) len) cnt).support) (c : Nat) :
    len ≤ (l.getD c (List.replicate len (List.replicate n 0, List.replicate n 0))).length ∧
    DrawsOk q n (l.getD c (List.replicate len (List.replicate n 0, List.replicate n 0))) := by
  have hz : Reduced q n (List.replicate n 0) :=
    ⟨List.length_replicate, fun x hx => by rw [List.eq_of_mem_replicate hx]; exact hq⟩
  refine getD_of_all (p := fun d : List Draw => len ≤ d.length ∧ DrawsOk q n d) (fun d hd => ?_) ?_ c
  · obtain ⟨h1, h2⟩ := sampleLaw_ok h hu ((mem_support_draws hl).2 d hd)
    exact ⟨h2.ge, h1⟩
  · refine ⟨by simp, fun d hd => ?_⟩
    rw [List.eq_of_mem_replicate hd]
    exact ⟨hz, hz⟩

theorem lweSwitchLaw_ok (hq : 0 < q) (h : SubGaussian q χ v) {n cnt N len : Nat} (hu : ∀ a ∈ u.support, Reduced q n a)
    {l : List (List (List (List Nat × Nat)))} (hl : l ∈ (draws (draws (draws (pair u χ) cnt) N) len).support)
    (j i v : Nat) : LweDrawOk q n (((l.getD j []).getD i []).getD (v - 1) (List.replicate n 0, 0)) := by
  refine getD_of_all (fun d hd => ?_) ?_ _
  · have h1 : ∀ x ∈ (l.getD j []).getD i [], x ∈ (pair u χ).support := by
      refine getD_of_all (p := fun r : List (List Nat × Nat) => ∀ x ∈ r, x ∈ (pair u χ).support)
        (fun r hr => ?_) (by simp) i
      have h2 : ∀ r ∈ l.getD j [], r ∈ (draws (pair u χ) cnt).support := by
        refine getD_of_all (p := fun r : List (List (List Nat × Nat)) =>
          ∀ x ∈ r, x ∈ (draws (pair u χ) cnt).support) (fun r hr => ?_) (by simp) j
        exact (mem_support_draws ((mem_support_draws hl).2 r hr)).2
      exact (mem_support_draws (h2 r hr)).2
    obtain ⟨h3, h4⟩ := mem_support_pair (h1 d hd)
    obtain ⟨h5, h6⟩ := hu _ h3
    exact ⟨h5.ge, h6, h.lt _ h4⟩
  · exact ⟨by simp, fun x hx => by rw [List.eq_of_mem_replicate hx]; exact hq, hq⟩

end
end Verif

namespace Verif.Props
open Spec Finset

section
variable {R : Ctx} {q k : Nat} [Fact q.Prime] {u : PMF (List Nat)} {χ : PMF Nat} {v : ℝ}

/-- The noise of RLWE key switching as a function of the draws of the key. -/
theorem rlwe_switch_noise (hk : 0 < k) (F : TableField R.w q R.M R.tbl k) (bits : Nat) (B : Basis)
    (hB : Basis.new R.w q bits = some B) (sk : List Nat) (h1 : 2 ^ (k - 1) < sk.length)
    (h2 : sk.length ≤ 2 ^ k) (cnt : Nat) (hcnt : 0 < cnt) (N : Nat) (hN : cnt * 2 ^ k = N) (hN0 : 0 < N)
    (ring ringNtt : List Nat) (hr : Reduced q N ring)
    (hrn : Poly.toNtt R.w R.M R.tbl ring = some ringNtt)
    (h : SubGaussian q χ v) (hv : 0 ≤ v) (hu : ∀ a ∈ u.support, Reduced q (2 ^ k) a)
    (x : RLWE) (ha : Reduced q N x.a) (hb : Reduced q N x.b) :
    ∃ noise : (Nat → List Draw) → ℤ,
      (∀ t : ℝ, (mean (rlweSwitchLaw u χ (2 ^ k) B.decomposeLen cnt) fun d => eexp (t * noise d)) ≤
        eexp (cnt * B.decomposeLen * (2 ^ k : Nat) * (2 ^ bits - 1 : Nat) ^ 2 * v * t ^ 2 / 2)) ∧
      ∀ d ∈ (rlweSwitchLaw u χ (2 ^ k) B.decomposeLen cnt).support,
        ∃ key y, RlweSwitch.generate R bits sk ring ringNtt d = some key ∧
        RlweSwitch.keySwitchRlwe R sk.length key x = some y ∧ (intPhase (sk.map ternaryDigit) y.a y.b : ZMod q) =
          ringPhase0 q N ring x hN0 + ((noise d : ℤ) : ZMod q) := by
  have hq2 : 2 ≤ q := (Fact.out : q.Prime).two_le
  have hone : ∀ (b : Nat) (p : Rq (ZMod q) (2 ^ k)), p.Bounded b → (1 * p).Bounded b := fun b p hp => by
    rwa [one_mul]
  choose D hD eD using fun c => gadget_linear (q := q) (n := 2 ^ k) bits B.decomposeLen 1 hone
    (switchWords q (2 ^ k) (extractWords q N x.a) c) (Nat.two_pow_pos k)
  refine ⟨fun d => ∑ c ∈ range cnt, linearNoise q (2 ^ k) B.decomposeLen (D c) (d c), fun t => ?_, fun d hd => ?_⟩
  · unfold rlweSwitchLaw
    rw [mean_map]
    have := mean_eexp_draws (draws (sampleLaw u χ (2 ^ k)) B.decomposeLen)
      (List.replicate B.decomposeLen (List.replicate (2 ^ k) 0, List.replicate (2 ^ k) 0)) cnt
      (fun c l => t * linearNoise q (2 ^ k) B.decomposeLen (D c) l)
      (fun _ => B.decomposeLen * (2 ^ k : Nat) * (2 ^ bits - 1 : Nat) ^ 2 * v * t ^ 2 / 2)
      (fun c _ => linearNoise_mgf h hv B.decomposeLen _ (D c) (hD c) t)
    refine le_trans (le_of_eq ?_) (this.trans (eexp_mono (le_of_eq ?_)))
    · congr 1
      funext l
      rw [Int.cast_sum, mul_sum]
    · rw [sum_const, card_range, nsmul_eq_mul]; ring
  · obtain ⟨l, hl, rfl⟩ := (PMF.mem_support_map_iff _ _ _).1 hd
    dsimp only
    set d := fun c => l.getD c (List.replicate B.decomposeLen (List.replicate (2 ^ k) 0, List.replicate (2 ^ k) 0))
    have hok := rlweSwitchLaw_ok (by omega) h hu hl
    obtain ⟨cr, ck⟩ := convert_keyWords hq2 sk
    obtain ⟨key, ek, hkey⟩ := C40_generate hk F bits B hB sk h1 h2 _ cr (by
      unfold KeyWords at ck; rw [ck, List.map_map]; rfl) cnt hcnt ring ringNtt (by rw [hN]; exact hr)
      (fun _ => hrn) d (fun c => (hok c).1) (fun c => (hok c).2)
    have hlen : key.length = cnt := by
      have := hkey.len
      rw [hr.1, ← hN] at this
      exact Nat.eq_of_mul_eq_mul_right (Nat.two_pow_pos k) this
    have hsw := hr.1
    subst hsw
    obtain ⟨y, ey, -, hp⟩ := C40_key_switch_rlwe hk F bits B hB sk.length h1 h2 _ cr ring _ key hkey hN0 x ha hb
    refine ⟨key, y, ek, ey, ?_⟩
    rw [← lwePhase_keyWords ck, hp, hlen]
    unfold ringPhase0 rlweSwitchError
    rw [Int.cast_sum]
    congr 1
    refine sum_congr rfl fun c _ => ?_
    rw [← eD c, one_mul]

/-- C60: RLWE key switching of a given ciphertext with a fresh key. -/
theorem C60_rlwe_switch (hk : 0 < k) (F : TableField R.w q R.M R.tbl k) (bits : Nat) (B : Basis)
    (hB : Basis.new R.w q bits = some B) (sk : List Nat) (h1 : 2 ^ (k - 1) < sk.length)
    (h2 : sk.length ≤ 2 ^ k) (cnt : Nat) (hcnt : 0 < cnt) (N : Nat) (hN : cnt * 2 ^ k = N) (hN0 : 0 < N)
    (ring ringNtt : List Nat) (hr : Reduced q N ring)
    (hrn : Poly.toNtt R.w R.M R.tbl ring = some ringNtt)
    (h : SubGaussian q χ v) (hv : 0 ≤ v) (hu : ∀ a ∈ u.support, Reduced q (2 ^ k) a)
    (x : RLWE) (ha : Reduced q N x.a) (hb : Reduced q N x.b) (T : ℝ) (hT : 0 ≤ T) :
    (rlweSwitchLaw u χ (2 ^ k) B.decomposeLen cnt).toOuterMeasure
      {d | ∃ key y, RlweSwitch.generate R bits sk ring ringNtt d = some key ∧
        RlweSwitch.keySwitchRlwe R sk.length key x = some y ∧
        ∃ e : ℤ, |(e : ℝ)| ≤ T ∧ (intPhase (sk.map ternaryDigit) y.a y.b : ZMod q) =
          ringPhase0 q N ring x hN0 + (e : ZMod q)}ᶜ ≤
    gaussTail (cnt * B.decomposeLen * (2 ^ k : Nat) * (2 ^ bits - 1 : Nat) ^ 2 * v) T := by
  obtain ⟨noise, hm, hd⟩ := rlwe_switch_noise (u := u) hk F bits B hB sk h1 h2 cnt hcnt N hN hN0 ring ringNtt hr hrn h hv
    hu x ha hb
  refine rotate_tail (by positivity) hT hm _ fun d hs hT => ?_
  obtain ⟨key, y, ek, ey, hp⟩ := hd d hs
  exact ⟨key, y, ek, ey, noise d, hT, hp⟩

end

section
variable {u : PMF (List Nat)} {χ : PMF Nat} {v : ℝ}

/-- The noise of LWE key switching as a function of the draws of the key. -/
theorem lwe_switch_noise (w m bits : Nat) (hm : 0 < m) (hmw : m < w) (M : PowOf2)
    (hM : PowOf2.new (2 ^ m) = some M) (hb1 : 1 ≤ bits) (hb2 : bits ≤ m) (sk ring : List Nat)
    (h : SubGaussian (2 ^ m) χ v) (hv : 0 ≤ v) (hu : ∀ a ∈ u.support, Reduced (2 ^ m) sk.length a)
    (x : LWE) (hx : LWEReduced (2 ^ m) ring.length x) :
    ∃ B, Basis.newWord w bits (2 ^ m) = some B ∧ ∃ noise : (Nat → Nat → Nat → List Nat × Nat) → ℤ,
      (∀ t : ℝ, (mean (lweSwitchLaw u χ sk.length (2 ^ bits - 1) ring.length B.decomposeLen) fun d =>
        eexp (t * noise d)) ≤ eexp (B.decomposeLen * ring.length * v * t ^ 2 / 2)) ∧
      ∀ d ∈ (lweSwitchLaw u χ sk.length (2 ^ bits - 1) ring.length B.decomposeLen).support,
        ∃ key y, LweSwitch.generate w (2 ^ m) bits (PowOf2.ops w M) sk ring d = some (B, key) ∧
        LweSwitch.keySwitch w B (PowOf2.ops w M) sk.length key x = some y ∧ lwePhase (2 ^ m) sk y.a y.b =
          (intPhase (ring.map ternaryDigit) x.a x.b : ZMod (2 ^ m)) + ((noise d : ℤ) : ZMod (2 ^ m)) := by
  obtain ⟨B, eB⟩ : ∃ B, Basis.newWord w bits (2 ^ m) = some B := ⟨_, newWord_eq hmw hb1 hb2⟩
  refine ⟨B, eB, ?_⟩
  let D : Nat → Nat → List (List Nat × Nat) → ℤ := fun j i r =>
    if digit bits (x.a.getD i 0) j = 0 then 0
    else -centred (2 ^ m) (r.getD (digit bits (x.a.getD i 0) j - 1) (List.replicate sk.length 0, 0)).2
  refine ⟨fun d => ∑ j ∈ range B.decomposeLen, ∑ i ∈ range ring.length,
    if digit bits (x.a.getD i 0) j = 0 then 0 else -centred (2 ^ m) (d j i (digit bits (x.a.getD i 0) j)).2,
    fun t => ?_, fun d hd => ?_⟩
  · unfold lweSwitchLaw
    rw [mean_map]
    have hrow : ∀ j i, (mean (draws (pair u χ) (2 ^ bits - 1)) fun r => eexp (t * D j i r)) ≤
        eexp (v * t ^ 2 / 2) := by
      intro j i
      by_cases h0 : digit bits (x.a.getD i 0) j = 0
      · simp only [D, if_pos h0, Int.cast_zero, mul_zero, mean_const]
        exact eexp_mono (by positivity)
      · simp only [D, if_neg h0]
        have hlt : digit bits (x.a.getD i 0) j < 2 ^ bits := Nat.mod_lt _ (Nat.two_pow_pos bits)
        rw [mean_draws_getD (pair u χ) (List.replicate sk.length 0, 0)
          (fun r => eexp (t * ((-centred (2 ^ m) r.2 : ℤ) : ℝ))) (by omega), mean_pair]
        refine le_trans (le_of_eq (mean_const u (mean χ fun e =>
          eexp (t * ((-centred (2 ^ m) e : ℤ) : ℝ))))) ?_
        have := h.scaled hv (b := 1) (-1) (by norm_num) t
        simp only [Int.cast_neg, Int.cast_one, neg_mul, one_mul, Nat.cast_one, one_pow] at this ⊢
        exact this
    have hlev : ∀ j, (mean (draws (draws (pair u χ) (2 ^ bits - 1)) ring.length) fun l =>
        eexp (t * ((∑ i ∈ range ring.length, D j i (l.getD i []) : ℤ) : ℝ))) ≤
        eexp (ring.length * (v * t ^ 2 / 2)) := by
      intro j
      have := mean_eexp_draws (draws (pair u χ) (2 ^ bits - 1)) [] ring.length
        (fun i r => t * D j i r) (fun _ => v * t ^ 2 / 2) (fun i _ => hrow j i)
      refine le_trans (le_of_eq ?_) (this.trans (eexp_mono (le_of_eq ?_)))
      · congr 1
        funext l
        rw [Int.cast_sum, mul_sum]
      · rw [sum_const, card_range, nsmul_eq_mul]
    have := mean_eexp_draws (draws (draws (pair u χ) (2 ^ bits - 1)) ring.length) [] B.decomposeLen
      (fun j l => t * ((∑ i ∈ range ring.length, D j i (l.getD i []) : ℤ) : ℝ))
      (fun _ => ring.length * (v * t ^ 2 / 2)) (fun j _ => hlev j)
    refine le_trans (le_of_eq ?_) (this.trans (eexp_mono (le_of_eq ?_)))
    · congr 1
      funext l
      rw [Int.cast_sum, mul_sum]
    · rw [sum_const, card_range, nsmul_eq_mul]; ring
  · obtain ⟨l, hl, rfl⟩ := (PMF.mem_support_map_iff _ _ _).1 hd
    dsimp only
    obtain ⟨B', key, eB', ek, hkey⟩ := C39_generate w m bits hm hmw M hM hb1 hb2 sk ring
      (fun j i v => ((l.getD j []).getD i []).getD (v - 1) (List.replicate sk.length 0, 0))
      (lweSwitchLaw_ok (Nat.two_pow_pos m) h hu hl)
    obtain rfl := Option.some.inj (eB'.symm.trans eB)
    obtain ⟨y, ey, -, hp⟩ := C39_key_switch w m bits hmw M hM _ eB sk _ _ key hkey x (by simpa using hx)
    refine ⟨key, y, ek, ey, ?_⟩
    rw [hp, sub_eq_add_neg]
    congr 1
    unfold switchError
    rw [hx.1.1, ← sum_neg_distrib, Int.cast_sum]
    refine sum_congr rfl fun j _ => ?_
    rw [← sum_neg_distrib, Int.cast_sum]
    refine sum_congr rfl fun i _ => ?_
    by_cases h0 : digit bits (x.a.getD i 0) j = 0
    · simp only [if_pos h0, neg_zero, Int.cast_zero]
    · simp only [if_neg h0, Int.cast_neg, centred_cast]

/-- C60: LWE key switching of a given ciphertext with a fresh key. Only one element is added for each
digit of the mask. -/
theorem C60_lwe_switch (w m bits : Nat) (hm : 0 < m) (hmw : m < w) (M : PowOf2)
    (hM : PowOf2.new (2 ^ m) = some M) (hb1 : 1 ≤ bits) (hb2 : bits ≤ m) (sk ring : List Nat)
    (h : SubGaussian (2 ^ m) χ v) (hv : 0 ≤ v) (hu : ∀ a ∈ u.support, Reduced (2 ^ m) sk.length a)
    (x : LWE) (hx : LWEReduced (2 ^ m) ring.length x) (T : ℝ) (hT : 0 ≤ T) :
    ∃ B, Basis.newWord w bits (2 ^ m) = some B ∧
    (lweSwitchLaw u χ sk.length (2 ^ bits - 1) ring.length B.decomposeLen).toOuterMeasure
      {d | ∃ key y, LweSwitch.generate w (2 ^ m) bits (PowOf2.ops w M) sk ring d = some (B, key) ∧
        LweSwitch.keySwitch w B (PowOf2.ops w M) sk.length key x = some y ∧
        ∃ e : ℤ, |(e : ℝ)| ≤ T ∧ lwePhase (2 ^ m) sk y.a y.b =
          (intPhase (ring.map ternaryDigit) x.a x.b : ZMod (2 ^ m)) + (e : ZMod (2 ^ m))}ᶜ ≤
    gaussTail (B.decomposeLen * ring.length * v) T := by
  obtain ⟨B, eB, noise, hm, hd⟩ := lwe_switch_noise (u := u) w m bits hm hmw M hM hb1 hb2 sk ring h hv hu x hx
  refine ⟨B, eB, rotate_tail (by positivity) hT hm _ fun d hs hT => ?_⟩
  obtain ⟨key, y, ek, ey, hp⟩ := hd d hs
  exact ⟨key, y, ek, ey, noise d, hT, hp⟩

end
end Verif.Props
