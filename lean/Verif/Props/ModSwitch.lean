import Verif.SpecModSwitch
import Verif.Lemmas.F64
import Verif.Props.LWE
import Mathlib.Data.Int.ModEq

/-! # C41: modulus switching -/

namespace Verif.Props
open Spec F64

/-- C41: the rounding of the model returns a number of at most 53 significant bits, and no such number
is nearer to the exact value. -/
theorem C41_rounding (x : ℚ) (hx : 0 < x) :
    Representable (rnd x) ∧ ∀ y, Representable y → |rnd x - x| ≤ |y - x| :=
  ⟨rnd_representable hx, fun _ hy => rnd_nearest hx hy⟩

theorem nearest_bounds {q : Nat} (hq : 0 < q) (x : Nat) :
    2 * q * nearest x q ≤ 2 * x + q ∧ 2 * x + q < 2 * q * nearest x q + 2 * q := by
  unfold nearest
  have h1 := Nat.div_add_mod (2 * x + q) (2 * q)
  have h2 := Nat.mod_lt (2 * x + q) (show 0 < 2 * q by omega)
  omega

/-- The rounded quotient rounds to the integer nearest to the exact quotient. -/
theorem round_div {x q : Nat} (hq : 0 < q) (hx : 2 * x < 2 ^ 53) (hx0 : 0 < x) :
    F64.round (F64.div (x : ℚ) (q : ℚ)) = nearest x q := by
  obtain ⟨m, hm⟩ : ∃ m, m = nearest x q := ⟨_, rfl⟩
  obtain ⟨h1, h2⟩ := nearest_bounds hq x
  rw [← hm] at h1 h2 ⊢
  have hqQ : (0 : ℚ) < q := by exact_mod_cast hq
  have hxQ : (0 : ℚ) < x := by exact_mod_cast hx0
  have hpos : (0 : ℚ) < (x : ℚ) / q := div_pos hxQ hqQ
  have hxq : (x : ℚ) / q * q = x := div_mul_cancel₀ _ hqQ.ne'
  unfold F64.round F64.div
  have key : Int.floor (rnd ((x : ℚ) / q) + 1 / 2) = (m : ℤ) := by
    rw [Int.floor_eq_iff]
    constructor
    · -- the lower end is representable
      rcases Nat.eq_zero_or_pos m with h0 | hpm
      · have : (0 : ℚ) ≤ rnd ((x : ℚ) / q) := le_rnd hpos ⟨0, 0, by norm_num, by simp⟩ hpos.le
        rw [h0]; push_cast; linarith
      · have hrep : Representable ((m : ℚ) - 1 / 2) := by
          refine ⟨2 * m - 1, -1, ?_, ?_⟩
          · have : 2 * m ≤ 2 * q * m := by nlinarith
            have : 2 * m ≤ 2 * x + q := by omega
            rcases Nat.lt_or_ge x q with hlt | hge
            · -- then the nearest integer is at most one
              have : m ≤ 1 := by
                by_contra hc
                have : 2 * q * 2 ≤ 2 * q * m := Nat.mul_le_mul_left _ (by omega)
                omega
              omega
            · have h3 : q * (2 * m) ≤ q * (2 * x + 1) := by
                rcases Nat.lt_or_ge q 2 with h | h
                · obtain rfl : q = 1 := by omega
                  omega
                · nlinarith
              have := Nat.le_of_mul_le_mul_left h3 hq
              omega
          · rw [Nat.cast_sub (by omega)]
            push_cast
            rw [zpow_neg_one]; ring
        have hle : (m : ℚ) - 1 / 2 ≤ (x : ℚ) / q := by
          rw [le_div_iff₀ hqQ]
          have : (2 * q * m : ℚ) ≤ 2 * x + q := by exact_mod_cast h1
          linarith
        have := le_rnd hpos hrep hle
        push_cast; linarith
    · -- the upper end is farther away than the rounding error
      have herr := (abs_le.1 (rnd_error hpos)).2
      have h3 : (2 * x + 1 + q : ℚ) ≤ 2 * q * m + 2 * q := by
        exact_mod_cast (show 2 * x + 1 + q ≤ 2 * q * m + 2 * q by omega)
      have h4 : (x : ℚ) / q ≤ m + 1 / 2 - 1 / (2 * q) := by
        have e : 1 / (2 * (q : ℚ)) * q = 1 / 2 := by field_simp
        rw [div_le_iff₀ hqQ, sub_mul, e]
        linarith
      have h5 : (x : ℚ) / q / 2 ^ 53 < 1 / (2 * q) := by
        rw [div_div, div_lt_div_iff₀ (by positivity) (by positivity)]
        have : (2 * x : ℚ) < 2 ^ 53 := by exact_mod_cast hx
        nlinarith
      push_cast
      linarith
  exact key

section
variable (w q q' : Nat) (hq : q < 2 ^ 53) (hq0 : 0 < q') (hw : q' < 2 ^ w)
include hq hq0 hw

/-- C41: a value `v` below `q` is switched to the integer nearest to `v * q' / q`, ties up, modulo
`q'`. -/
theorem C41_switch (v : Nat) (hv : v < q) (hm : 2 * (v * q') < 2 ^ 53) :
    ModSwitch.switch w q q' v = some (nearest (v * q') q % q') := by
  have hround : F64.round (F64.div (F64.mul (F64.ofWord v) (F64.ofWord q')) (F64.ofWord q)) =
      (nearest (v * q') q : Nat) := by
    have eq1 : F64.ofWord q = q := rnd_of_representable (representable_nat hq)
    rcases Nat.eq_zero_or_pos v with h0 | hpos
    · subst h0
      have e0 : F64.ofWord 0 = 0 := by simp [F64.ofWord, rnd]
      have e1 : nearest (0 * q') q = 0 := by
        unfold nearest
        rw [zero_mul, mul_zero, zero_add]
        exact Nat.div_eq_of_lt (by omega)
      rw [e0, e1]
      unfold F64.mul
      rw [zero_mul]
      have : rnd 0 = 0 := by simp [rnd]
      rw [this]
      unfold F64.div
      rw [zero_div, this]
      decide +kernel
    · have hv53 : v < 2 ^ 53 := by omega
      have hq53 : q' < 2 ^ 53 := by nlinarith
      have e0 : F64.ofWord v = v := rnd_of_representable (representable_nat hv53)
      have e1 : F64.ofWord q' = q' := rnd_of_representable (representable_nat hq53)
      have e2 : F64.mul (v : ℚ) q' = ((v * q' : Nat) : ℚ) := by
        unfold F64.mul
        rw [← Nat.cast_mul]
        exact rnd_of_representable (representable_nat (by omega))
      rw [e0, e1, eq1, e2]
      exact round_div (by omega) hm (Nat.mul_pos hpos hq0)
  have hle : nearest (v * q') q ≤ q' := by
    unfold nearest
    rw [Nat.div_le_iff_le_mul (by omega)]
    have : v * q' + q' ≤ q * q' := by
      rw [← Nat.succ_mul]; exact Nat.mul_le_mul_right _ hv
    have : q' * (2 * q) = 2 * (q * q') := by ring
    omega
  unfold ModSwitch.switch
  rw [hround]
  unfold F64.toWord
  rw [Int.toNat_natCast, min_eq_left (by omega)]
  unfold ModSwitch.reduce
  split
  · next h => rw [Nat.mod_eq_of_lt h]
  · next h =>
    obtain h' : nearest (v * q') q = q' := by omega
    rw [h', Nat.mod_self, subC_eq le_rfl, Nat.sub_self]

variable (hm : 2 * ((q - 1) * q') < 2 ^ 53) (n : Nat) (c : LWE) (hc : LWEReduced q n c)
include hm hc

/-- C41: every component of a ciphertext is switched; the in-place form agrees for a destination of
the same dimension. -/
theorem C41_lwe : ∃ out, ModSwitch.lwe w q q' c = some out ∧ LWEReduced q' n out ∧
    out = ⟨c.a.map fun v => nearest (v * q') q % q', nearest (c.b * q') q % q'⟩ ∧
    ∀ dest : LWE, dest.a.length = n → ModSwitch.lweInplace w q q' c dest = some out := by
  have hs : ∀ v, v < q → ModSwitch.switch w q q' v = some (nearest (v * q') q % q') := fun v hv =>
    C41_switch w q q' hq hq0 hw v hv
      (lt_of_le_of_lt (Nat.mul_le_mul_left _ (Nat.mul_le_mul_right _ (by omega))) hm)
  have hmap : ∀ l : List Nat, (∀ v ∈ l, v < q) →
      l.mapM (ModSwitch.switch w q q') = some (l.map fun v => nearest (v * q') q % q') := by
    intro l
    induction l with
    | nil => intro _; rfl
    | cons v l ih =>
      intro h
      rw [List.mapM_cons, mbind (hs v (h v List.mem_cons_self)),
        mbind (ih fun x hx => h x (List.mem_cons_of_mem _ hx))]
      rfl
  have hzip : ∀ l d : List Nat, (∀ v ∈ l, v < q) → d.length = l.length →
      Poly.zipAssign (fun _ v => ModSwitch.switch w q q' v) d l =
        some (l.map fun v => nearest (v * q') q % q') := by
    intro l
    induction l with
    | nil =>
      intro d _ hd
      obtain rfl : d = [] := List.length_eq_zero_iff.1 hd
      rfl
    | cons v l ih =>
      intro d h hd
      cases d with
      | nil => simp at hd
      | cons x d =>
        unfold Poly.zipAssign
        rw [mbind (hs v (h v List.mem_cons_self)),
          mbind (ih d (fun x hx => h x (List.mem_cons_of_mem _ hx)) (by simpa using hd))]
        rfl
  refine ⟨_, ?_, ?_, rfl, ?_⟩
  · unfold ModSwitch.lwe
    rw [mbind (hmap c.a hc.1.2), mbind (hs c.b hc.2)]
    rfl
  · refine ⟨⟨by simp [hc.1.1], fun x hx => ?_⟩, Nat.mod_lt _ hq0⟩
    obtain ⟨v, _, rfl⟩ := List.mem_map.1 hx
    exact Nat.mod_lt _ hq0
  · intro dest hd
    unfold ModSwitch.lweInplace
    rw [mbind (hzip c.a dest.a hc.1.2 (by rw [hd, hc.1.1])), mbind (hs c.b hc.2)]
    rfl

end

/-- One component: the switched value is `q' / q` times the value, up to half a unit and a multiple of
`q'`. -/
theorem switch_error {q q' : Nat} (hq : 0 < q) (v : Nat) :
    ∃ u : ℤ, u ≡ ((nearest (v * q') q % q' : Nat) : ℤ) [ZMOD q'] ∧ |2 * (q * u - q' * v)| ≤ q := by
  refine ⟨nearest (v * q') q, ?_, ?_⟩
  · push_cast
    exact (Int.mod_modEq _ _).symm
  · obtain ⟨h1, h2⟩ := nearest_bounds hq (v * q')
    generalize nearest (v * q') q = m at *
    zify at h1 h2
    rw [abs_le]
    constructor <;> linarith

theorem phase_error {q q' : Nat} (hq : 0 < q) : ∀ (S : List ℤ) (a : List Nat),
    ∃ σ : ℤ, σ ≡ (List.zipWith (fun (x : Nat) z => (x : ℤ) * z)
        (a.map fun v => nearest (v * q') q % q') S).sum [ZMOD q'] ∧
      |2 * (q * σ - q' * (List.zipWith (fun (x : Nat) z => (x : ℤ) * z) a S).sum)| ≤
        q * (S.map fun z => |z|).sum
  | [], a => ⟨0, by simp, by simp⟩
  | z :: S, [] => ⟨0, by simp, by
      have : 0 ≤ ((z :: S).map fun z => |z|).sum := List.sum_nonneg (by simp)
      simp only [List.zipWith_nil_left, List.sum_nil, mul_zero, sub_self, abs_zero]
      positivity⟩
  | z :: S, v :: a => by
    obtain ⟨σ, h1, h2⟩ := phase_error hq S a
    obtain ⟨u, h3, h4⟩ := switch_error (q' := q') hq v
    refine ⟨u * z + σ, ?_, ?_⟩
    · simp only [List.map_cons, List.zipWith_cons_cons, List.sum_cons]
      exact (h3.mul_right z).add h1
    · simp only [List.map_cons, List.zipWith_cons_cons, List.sum_cons]
      generalize (List.zipWith (fun (x : Nat) z => (x : ℤ) * z) a S).sum = σ0 at *
      have e : 2 * ((q : ℤ) * (u * z + σ) - q' * (v * z + σ0)) =
          2 * (q * u - q' * v) * z + 2 * (q * σ - q' * σ0) := by ring
      rw [e]
      refine (abs_add_le _ _).trans ?_
      rw [abs_mul, mul_add]
      exact add_le_add (mul_le_mul_of_nonneg_right h4 (abs_nonneg _)) h2

/-- C41: the phase. Whatever integer `φ` represents the phase modulo `q`, some integer `φ'` represents
the new phase modulo `q'`, and `φ'` is `φ * q' / q` up to `(1 + Σ |s_i|) / 2`. -/
theorem C41_phase (w q q' : Nat) (hq : q < 2 ^ 53) (hq0 : 0 < q') (hw : q' < 2 ^ w)
    (hm : 2 * ((q - 1) * q') < 2 ^ 53) (n : Nat) (c : LWE) (hc : LWEReduced q n c) (S : List ℤ) (φ : ℤ)
    (hφ : φ ≡ intPhase S c.a c.b [ZMOD q]) :
    ∃ (out : LWE) (φ' : ℤ), ModSwitch.lwe w q q' c = some out ∧ LWEReduced q' n out ∧
      φ' ≡ intPhase S out.a out.b [ZMOD q'] ∧
      |2 * (q * φ' - q' * φ)| ≤ q * (1 + (S.map fun z => |z|).sum) := by
  obtain ⟨out, eo, ho, rfl, _⟩ := C41_lwe w q q' hq hq0 hw hm n c hc
  have hqp : 0 < q := by have := hc.2; omega
  obtain ⟨σ, h1, h2⟩ := phase_error (q' := q') hqp S c.a
  obtain ⟨u, h3, h4⟩ := switch_error (q' := q') hqp c.b
  obtain ⟨k, hk⟩ := (Int.modEq_iff_dvd.1 hφ)
  refine ⟨_, u - σ - q' * k, eo, ho, ?_, ?_⟩
  · have := h3.sub h1
    unfold intPhase
    refine Int.ModEq.trans ?_ this
    exact Int.modEq_iff_dvd.2 ⟨k, by ring⟩
  · unfold intPhase at hk
    generalize (List.zipWith (fun (x : Nat) z => (x : ℤ) * z) c.a S).sum = σ0 at *
    have e : 2 * ((q : ℤ) * (u - σ - q' * k) - q' * φ) =
        2 * (q * u - q' * c.b) - 2 * (q * σ - q' * σ0) := by
      linear_combination 2 * (q' : ℤ) * hk
    rw [e]
    refine (abs_sub _ _).trans ?_
    rw [mul_add, mul_one]
    exact add_le_add h4 h2

/-! ## Without a condition on the size of the product -/

theorem rnd_close {x : ℚ} (hx : 0 ≤ x) : x * (1 - 1 / 2 ^ 53) ≤ rnd x ∧ rnd x ≤ x * (1 + 1 / 2 ^ 53) := by
  rcases hx.eq_or_lt with h | h
  · subst h
    have : rnd 0 = 0 := by simp [rnd]
    rw [this]; simp
  · have := abs_le.1 (rnd_error h)
    constructor <;> linarith [this.1, this.2]

/-- The quotient computed with five roundings. -/
theorem quotient_close (v q q' : Nat) (hq : 0 < q) :
    let f := F64.div (F64.mul (F64.ofWord v) (F64.ofWord q')) (F64.ofWord q)
    let x : ℚ := v * q' / q
    0 ≤ f ∧ |f - x| ≤ 6 / 2 ^ 53 * x := by
  intro f x
  obtain ⟨ε, hε⟩ : ∃ ε : ℚ, ε = 1 / 2 ^ 53 := ⟨_, rfl⟩
  have hε0 : 0 < ε := by rw [hε]; positivity
  have hε1 : ε < 1 / 100 := by rw [hε]; norm_num
  have hvQ : (0 : ℚ) ≤ v := Nat.cast_nonneg _
  have hqQ' : (0 : ℚ) ≤ q' := Nat.cast_nonneg _
  have hqQ : (0 : ℚ) < q := by exact_mod_cast hq
  obtain ⟨a1, a2⟩ := rnd_close hvQ
  obtain ⟨b1, b2⟩ := rnd_close hqQ'
  obtain ⟨d1, d2⟩ := rnd_close hqQ.le
  rw [← hε] at a1 a2 b1 b2 d1 d2
  have hA : 0 ≤ rnd (v : ℚ) := le_trans (mul_nonneg hvQ (by linarith)) a1
  have hB : 0 ≤ rnd (q' : ℚ) := le_trans (mul_nonneg hqQ' (by linarith)) b1
  have hD : 0 < rnd (q : ℚ) := lt_of_lt_of_le (mul_pos hqQ (by linarith)) d1
  obtain ⟨p1, p2⟩ := rnd_close (mul_nonneg hA hB)
  rw [← hε] at p1 p2
  set P := rnd (rnd (v : ℚ) * rnd (q' : ℚ)) with hP
  have hPn : 0 ≤ P := le_trans (mul_nonneg (mul_nonneg hA hB) (by linarith)) p1
  obtain ⟨f1, f2⟩ := rnd_close (div_nonneg hPn hD.le)
  rw [← hε] at f1 f2
  have hf : f = rnd (P / rnd (q : ℚ)) := rfl
  rw [← hf] at f1 f2
  have hfn : 0 ≤ f := le_trans (mul_nonneg (div_nonneg hPn hD.le) (by linarith)) f1
  refine ⟨hfn, ?_⟩
  have hx : x * q = v * q' := div_mul_cancel₀ _ hqQ.ne'
  have hxn : 0 ≤ x := div_nonneg (mul_nonneg hvQ hqQ') hqQ.le
  have g1 : P * (1 - ε) ≤ f * rnd (q : ℚ) := by
    have : P / rnd (q : ℚ) * (1 - ε) * rnd (q : ℚ) = P * (1 - ε) := by field_simp
    rw [← this]
    exact mul_le_mul_of_nonneg_right f1 hD.le
  have g2 : f * rnd (q : ℚ) ≤ P * (1 + ε) := by
    have : P / rnd (q : ℚ) * (1 + ε) * rnd (q : ℚ) = P * (1 + ε) := by field_simp
    rw [← this]
    exact mul_le_mul_of_nonneg_right f2 hD.le
  have hAB2 : rnd (v : ℚ) * rnd (q' : ℚ) ≤ (v * (1 + ε)) * (q' * (1 + ε)) :=
    mul_le_mul a2 b2 hB (mul_nonneg hvQ (by linarith))
  have hAB1 : (v * (1 - ε)) * (q' * (1 - ε)) ≤ rnd (v : ℚ) * rnd (q' : ℚ) :=
    mul_le_mul a1 b1 (mul_nonneg hqQ' (by linarith)) hA
  have u1 : f * (q * (1 - ε)) ≤ (v * (1 + ε)) * (q' * (1 + ε)) * (1 + ε) * (1 + ε) :=
    calc f * (q * (1 - ε)) ≤ f * rnd (q : ℚ) := mul_le_mul_of_nonneg_left d1 hfn
      _ ≤ P * (1 + ε) := g2
      _ ≤ rnd (v : ℚ) * rnd (q' : ℚ) * (1 + ε) * (1 + ε) := mul_le_mul_of_nonneg_right p2 (by linarith)
      _ ≤ _ := mul_le_mul_of_nonneg_right (mul_le_mul_of_nonneg_right hAB2 (by linarith)) (by linarith)
  have l1 : (v * (1 - ε)) * (q' * (1 - ε)) * (1 - ε) * (1 - ε) ≤ f * (q * (1 + ε)) :=
    calc (v * (1 - ε)) * (q' * (1 - ε)) * (1 - ε) * (1 - ε)
        ≤ rnd (v : ℚ) * rnd (q' : ℚ) * (1 - ε) * (1 - ε) :=
          mul_le_mul_of_nonneg_right (mul_le_mul_of_nonneg_right hAB1 (by linarith)) (by linarith)
      _ ≤ P * (1 - ε) := mul_le_mul_of_nonneg_right p1 (by linarith)
      _ ≤ f * rnd (q : ℚ) := g1
      _ ≤ _ := mul_le_mul_of_nonneg_left d2 hfn
  have u2 : f * (1 - ε) ≤ x * (1 + ε) ^ 4 := by
    have : f * (1 - ε) * q ≤ x * (1 + ε) ^ 4 * q := by
      have e : x * (1 + ε) ^ 4 * q = v * q' * (1 + ε) ^ 4 := by rw [← hx]; ring
      rw [e]; linarith
    exact le_of_mul_le_mul_right this hqQ
  have l2 : x * (1 - ε) ^ 4 ≤ f * (1 + ε) := by
    have : x * (1 - ε) ^ 4 * q ≤ f * (1 + ε) * q := by
      have e : x * (1 - ε) ^ 4 * q = v * q' * (1 - ε) ^ 4 := by rw [← hx]; ring
      rw [e]; linarith
    exact le_of_mul_le_mul_right this hqQ
  have c1 : (1 + ε) ^ 4 ≤ (1 + 6 * ε) * (1 - ε) := by rw [hε]; norm_num
  have c2 : (1 - 6 * ε) * (1 + ε) ≤ (1 - ε) ^ 4 := by rw [hε]; norm_num
  have u3 : f ≤ x * (1 + 6 * ε) := by
    have : f * (1 - ε) ≤ x * (1 + 6 * ε) * (1 - ε) := by
      rw [mul_assoc]; exact u2.trans (mul_le_mul_of_nonneg_left c1 hxn)
    exact le_of_mul_le_mul_right this (by linarith)
  have l3 : x * (1 - 6 * ε) ≤ f := by
    have : x * (1 - 6 * ε) * (1 + ε) ≤ f * (1 + ε) := by
      rw [mul_assoc]; exact (mul_le_mul_of_nonneg_left c2 hxn).trans l2
    exact le_of_mul_le_mul_right this (by linarith)
  have e6 : (6 : ℚ) / 2 ^ 53 = 6 * ε := by rw [hε]; ring
  rw [e6, abs_le]
  constructor <;> linarith

/-- C41: for moduli of any size a value `v` below `q` is switched to the residue of an integer that differs
from `v * q' / q` by at most one half plus `6 / 2^53` of that quotient. -/
theorem C41_switch_any (w q q' : Nat) (hq0 : 0 < q') (hw : 2 * q' ≤ 2 ^ w) (v : Nat) (hv : v < q) :
    ∃ r u : Nat, ModSwitch.switch w q q' v = some r ∧ r < q' ∧ u ≡ r [MOD q'] ∧
      |(u : ℚ) - v * q' / q| ≤ 1 / 2 + 6 / 2 ^ 53 * (v * q' / q) := by
  obtain ⟨hf, he⟩ := quotient_close v q q' (by omega)
  obtain ⟨f, hfd⟩ : ∃ f, f = F64.div (F64.mul (F64.ofWord v) (F64.ofWord q')) (F64.ofWord q) := ⟨_, rfl⟩
  rw [← hfd] at hf he
  have hqQ : (0 : ℚ) < q := by exact_mod_cast (show 0 < q by omega)
  have hvq : (v : ℚ) * q' / q ≤ q' := by
    rw [div_le_iff₀ hqQ, mul_comm]
    exact mul_le_mul_of_nonneg_left (by exact_mod_cast hv.le) (Nat.cast_nonneg _)
  have h1 : (1 : ℚ) ≤ q' := by exact_mod_cast hq0
  have he' := abs_le.1 he
  obtain ⟨b1, b2⟩ := floor_bounds (f + 1 / 2)
  have hu0 : (0 : ℤ) ≤ (f + 1 / 2).floor := le_floor (by push_cast; linarith)
  obtain ⟨u, hu⟩ : ∃ u : Nat, ((u : Nat) : ℤ) = (f + 1 / 2).floor := ⟨_, Int.toNat_of_nonneg hu0⟩
  rw [← hu] at b1 b2
  have b1' : (u : ℚ) ≤ f + 1 / 2 := by exact_mod_cast b1
  have b2' : f + 1 / 2 < (u : ℚ) + 1 := by exact_mod_cast b2
  have hlt : u < 2 * q' := by
    have : (u : ℚ) < 2 * q' := by
      have : (6 : ℚ) / 2 ^ 53 * (v * q' / q) ≤ 6 / 2 ^ 53 * q' := mul_le_mul_of_nonneg_left hvq (by positivity)
      have h6 : (6 : ℚ) / 2 ^ 53 < 1 / 4 := by norm_num
      have : (6 : ℚ) / 2 ^ 53 * q' ≤ 1 / 4 * q' := mul_le_mul_of_nonneg_right h6.le (by linarith)
      linarith
    exact_mod_cast this
  have hround : F64.toWord w (F64.round f) = u := by
    unfold F64.toWord F64.round
    rw [← hu, Int.toNat_natCast, min_eq_left (by omega)]
  have hclose : |(u : ℚ) - v * q' / q| ≤ 1 / 2 + 6 / 2 ^ 53 * (v * q' / q) := by
    rw [abs_le]; constructor <;> linarith
  unfold ModSwitch.switch
  rw [← hfd, hround]
  unfold ModSwitch.reduce
  split
  · next h => exact ⟨u, u, rfl, h, rfl, hclose⟩
  · next h =>
    refine ⟨u - q', u, subC_eq (by omega), by omega, ?_, hclose⟩
    exact ((Nat.modEq_iff_dvd' (Nat.sub_le _ _)).2 ⟨1, by omega⟩).symm

/-- One component, cleared of denominators. -/
theorem switch_any_error {w q q' : Nat} (hq0 : 0 < q') (hw : 2 * q' ≤ 2 ^ w) {v : Nat} (hv : v < q) :
    ∃ (r : Nat) (u : ℤ), ModSwitch.switch w q q' v = some r ∧ r < q' ∧ u ≡ (r : ℤ) [ZMOD q'] ∧
      |((q * u - q' * v : ℤ) : ℚ)| ≤ q * (1 / 2 + 6 / 2 ^ 53 * q') := by
  obtain ⟨r, u, h1, h2, h3, h4⟩ := C41_switch_any w q q' hq0 hw v hv
  refine ⟨r, u, h1, h2, Int.natCast_modEq_iff.2 h3, ?_⟩
  have hqQ : (0 : ℚ) < q := by exact_mod_cast (show 0 < q by omega)
  have hvq : (v : ℚ) * q' / q ≤ q' := by
    rw [div_le_iff₀ hqQ, mul_comm]
    exact mul_le_mul_of_nonneg_left (by exact_mod_cast hv.le) (Nat.cast_nonneg _)
  have e : ((q * u - q' * v : ℤ) : ℚ) = q * ((u : ℚ) - v * q' / q) := by
    push_cast; field_simp
  rw [e, abs_mul, abs_of_pos hqQ]
  refine mul_le_mul_of_nonneg_left (h4.trans ?_) hqQ.le
  have : (6 : ℚ) / 2 ^ 53 * (v * q' / q) ≤ 6 / 2 ^ 53 * q' := mul_le_mul_of_nonneg_left hvq (by positivity)
  linarith

theorem mask_any_error {w q q' : Nat} (hq0 : 0 < q') (hw : 2 * q' ≤ 2 ^ w) : ∀ a : List Nat,
    (∀ v ∈ a, v < q) → ∃ b, a.mapM (ModSwitch.switch w q q') = some b ∧ b.length = a.length ∧
      (∀ x ∈ b, x < q') ∧ ∀ S : List ℤ, ∃ σ : ℤ,
        σ ≡ (List.zipWith (fun (x : Nat) z => (x : ℤ) * z) b S).sum [ZMOD q'] ∧
        |((q * σ - q' * (List.zipWith (fun (x : Nat) z => (x : ℤ) * z) a S).sum : ℤ) : ℚ)| ≤
          q * (1 / 2 + 6 / 2 ^ 53 * q') * (((S.map fun z => |z|).sum : ℤ) : ℚ)
  | [], _ => ⟨[], rfl, rfl, by simp, fun S => ⟨0, by simp, by
      have h0 : (0 : ℤ) ≤ (S.map fun z => |z|).sum := List.sum_nonneg (by simp)
      have : (0 : ℚ) ≤ (((S.map fun z => |z|).sum : ℤ) : ℚ) := by exact_mod_cast h0
      simp only [List.zipWith_nil_left, List.sum_nil, mul_zero, sub_self, Int.cast_zero, abs_zero]
      positivity⟩⟩
  | v :: a, h => by
    obtain ⟨b, h1, h2, h3, h4⟩ := mask_any_error hq0 hw a fun x hx => h x (List.mem_cons_of_mem _ hx)
    obtain ⟨r, u, g1, g2, g3, g4⟩ := switch_any_error hq0 hw (h v List.mem_cons_self)
    refine ⟨r :: b, by rw [List.mapM_cons, mbind g1, mbind h1]; rfl, by simp [h2], ?_, fun S => ?_⟩
    · intro x hx
      rcases List.mem_cons.1 hx with rfl | hx
      · exact g2
      · exact h3 x hx
    · cases S with
      | nil => exact ⟨0, by simp, by simp⟩
      | cons z S =>
        obtain ⟨σ, i1, i2⟩ := h4 S
        refine ⟨u * z + σ, ?_, ?_⟩
        · simp only [List.zipWith_cons_cons, List.sum_cons]
          exact (g3.mul_right z).add i1
        · simp only [List.map_cons, List.zipWith_cons_cons, List.sum_cons]
          generalize (List.zipWith (fun (x : Nat) z => (x : ℤ) * z) a S).sum = σ0 at *
          generalize (S.map fun z => |z|).sum = N at *
          have e : (((q : ℤ) * (u * z + σ) - q' * (v * z + σ0) : ℤ) : ℚ) =
              ((q * u - q' * v : ℤ) : ℚ) * z + ((q * σ - q' * σ0 : ℤ) : ℚ) := by push_cast; ring
          rw [e]
          refine (abs_add_le _ _).trans ?_
          rw [abs_mul, Int.cast_add, mul_add, Int.cast_abs]
          exact add_le_add (mul_le_mul_of_nonneg_right g4 (abs_nonneg _)) i2

/-- C41: the phase for moduli of any size: `φ'` is `φ * q' / q` up to
`(1 + Σ |s_i|) * (1 / 2 + 6 q' / 2^53)`. -/
theorem C41_phase_any (w q q' : Nat) (hq0 : 0 < q') (hw : 2 * q' ≤ 2 ^ w) (n : Nat) (c : LWE)
    (hc : LWEReduced q n c) : ∃ out : LWE, ModSwitch.lwe w q q' c = some out ∧ LWEReduced q' n out ∧
      ∀ (S : List ℤ) (φ : ℤ), φ ≡ intPhase S c.a c.b [ZMOD q] →
      ∃ φ' : ℤ, φ' ≡ intPhase S out.a out.b [ZMOD q'] ∧
        |(φ' : ℚ) - φ * q' / q| ≤
          (1 + (((S.map fun z => |z|).sum : ℤ) : ℚ)) * (1 / 2 + 6 / 2 ^ 53 * q') := by
  obtain ⟨b, h1, h2, h3, h4⟩ := mask_any_error hq0 hw c.a hc.1.2
  obtain ⟨r, u, g1, g2, g3, g4⟩ := switch_any_error hq0 hw hc.2
  have hqp : 0 < q := by have := hc.2; omega
  have hqQ : (0 : ℚ) < q := by exact_mod_cast hqp
  refine ⟨⟨b, r⟩, ?_, ⟨⟨by rw [h2]; exact hc.1.1, h3⟩, g2⟩, fun S φ hφ => ?_⟩
  · unfold ModSwitch.lwe
    rw [mbind h1, mbind g1]; rfl
  · obtain ⟨σ, i1, i2⟩ := h4 S
    obtain ⟨k, hk⟩ := (Int.modEq_iff_dvd.1 hφ)
    refine ⟨u - σ - q' * k, ?_, ?_⟩
    · have := g3.sub i1
      unfold intPhase
      refine Int.ModEq.trans ?_ this
      exact Int.modEq_iff_dvd.2 ⟨k, by ring⟩
    · unfold intPhase at hk
      generalize (List.zipWith (fun (x : Nat) z => (x : ℤ) * z) c.a S).sum = σ0 at *
      generalize (S.map fun z => |z|).sum = N at *
      have hkQ : (c.b : ℚ) - σ0 - φ = q * k := by exact_mod_cast hk
      have e : ((u - σ - q' * k : ℤ) : ℚ) - φ * q' / q =
          (((q * u - q' * c.b : ℤ) : ℚ) - ((q * σ - q' * σ0 : ℤ) : ℚ)) / q := by
        rw [eq_div_iff hqQ.ne']
        push_cast
        field_simp
        linear_combination (q' : ℚ) * hkQ
      rw [e, abs_div, abs_of_pos hqQ, div_le_iff₀ hqQ]
      refine (abs_sub _ _).trans ?_
      linarith

/-- C41: the condition on the product cannot be dropped: here `v * q'` is below `2^53`, so the
product is exact, but the quotient rounds to a tie and the result is one too large. -/
theorem C41_bound_needed : 5063050 * 2 ^ 30 < 2 ^ 53 ∧
    ModSwitch.switch 32 16777259 (2 ^ 30) 5063050 = some 324034370 ∧
    nearest (5063050 * 2 ^ 30) 16777259 = 324034369 := by
  refine ⟨by decide, by decide +kernel, by decide⟩

-- 60-bit moduli: the product needs 120 bits; the result is off by less than 2^-1 + 2^(60-50)
example : ∃ r u : Nat, ModSwitch.switch 64 (2 ^ 60 - 93) (2 ^ 59) (2 ^ 58 + 12345) = some r ∧ r < 2 ^ 59 ∧
    u ≡ r [MOD 2 ^ 59] ∧ |(u : ℚ) - (2 ^ 58 + 12345 : Nat) * (2 ^ 59 : Nat) / (2 ^ 60 - 93 : Nat)| ≤
      1 / 2 + 6 / 2 ^ 53 * ((2 ^ 58 + 12345 : Nat) * (2 ^ 59 : Nat) / (2 ^ 60 - 93 : Nat)) :=
  C41_switch_any 64 (2 ^ 60 - 93) (2 ^ 59) (by decide) (by decide) (2 ^ 58 + 12345) (by decide)

-- the moduli of the default parameters
example : 2 * ((132120577 - 1) * 1024) < 2 ^ 53 ∧ 2 * ((1024 - 1) * 2048) < 2 ^ 53 := by decide

-- a tie goes up, a value next to the modulus wraps to 0
example : ModSwitch.lwe 16 1024 512 ⟨[1, 2, 3], 1023⟩ = some ⟨[1, 1, 2], 0⟩ := by decide +kernel

-- the phase of a ciphertext of 3 components from 132120577 to 1024, key (1, -1, 0)
example : ∃ (out : LWE) (φ' : ℤ),
    ModSwitch.lwe 16 132120577 1024 ⟨[1, 132120576, 66060288], 33030144⟩ = some out ∧
    LWEReduced 1024 3 out ∧ φ' ≡ intPhase [1, -1, 0] out.a out.b [ZMOD 1024] ∧
    |2 * ((132120577 : Nat) * φ' - (1024 : Nat) * (33030142 : ℤ))| ≤ (132120577 : Nat) * 3 :=
  C41_phase 16 132120577 1024 (by decide) (by decide) (by decide) (by decide) 3
    ⟨[1, 132120576, 66060288], 33030144⟩ ⟨⟨rfl, by decide⟩, by decide⟩ [1, -1, 0] 33030142 (by decide)

end Verif.Props
