import Verif.SpecBootstrap
import Verif.Props.Luts
import Verif.Props.KeySwitchLWE
import Verif.Props.KeySwitchRLWE
import Verif.Props.ModSwitch

namespace Verif.Props
open Fp Finset Spec Ntt

/-! ## Phases under words and under integers -/

theorem keyWords_length {q : Nat} {s : List Nat} {S : List ℤ} (h : KeyWords q s S) :
    s.length = S.length := by
  have := congrArg List.length h
  simpa using this

theorem dot_keyWords {q : Nat} : ∀ (a s : List Nat) (S : List ℤ), KeyWords q s S →
    ((dot a s : Nat) : ZMod q) = ((List.zipWith (fun (x : Nat) z => (x : ℤ) * z) a S).sum : ℤ)
  | [], s, S, _ => by simp [dot]
  | x :: a, [], [], _ => by simp [dot]
  | x :: a, [], z :: S, h => by simp [KeyWords] at h
  | x :: a, v :: s, [], h => by simp [KeyWords] at h
  | x :: a, v :: s, z :: S, h => by
    simp only [KeyWords, List.map_cons, List.cons.injEq] at h
    have ih := dot_keyWords a s S h.2
    simp only [dot, List.zipWith_cons_cons, List.sum_cons] at ih ⊢
    rw [Nat.cast_add, Nat.cast_mul, Int.cast_add, Int.cast_mul, Int.cast_natCast, ih, h.1]

/-- The phase under the words is the residue of the integer phase. -/
theorem lwePhase_keyWords {q : Nat} {s : List Nat} {S : List ℤ} (h : KeyWords q s S) (a : List Nat)
    (b : Nat) : lwePhase q s a b = ((intPhase S a b : ℤ) : ZMod q) := by
  unfold lwePhase intPhase
  rw [dot_keyWords a s S h]
  push_cast
  rfl

theorem intPhase_modEq {q : Nat} {s : List Nat} {S : List ℤ} (h : KeyWords q s S) {a : List Nat}
    {b : Nat} {φ : ℤ} (hp : lwePhase q s a b = (φ : ZMod q)) : φ ≡ intPhase S a b [ZMOD q] := by
  rw [lwePhase_keyWords h] at hp
  exact ((ZMod.intCast_eq_intCast_iff _ _ _).1 hp).symm

/-! ## The switch to `2N` -/

theorem intPhase_scale (S : List ℤ) (t : Nat) : ∀ (a : List Nat) (b : Nat),
    intPhase S (a.map fun v => v * t) (b * t) = t * intPhase S a b := by
  intro a b
  have : ∀ (a : List Nat) (S : List ℤ),
      (List.zipWith (fun (x : Nat) z => (x : ℤ) * z) (a.map fun v => v * t) S).sum =
        t * (List.zipWith (fun (x : Nat) z => (x : ℤ) * z) a S).sum := by
    intro a
    induction a with
    | nil => simp
    | cons x a ih =>
      intro S
      cases S with
      | nil => simp
      | cons z S =>
        simp only [List.map_cons, List.zipWith_cons_cons, List.sum_cons, ih]
        push_cast; ring
  unfold intPhase
  rw [this]
  push_cast; ring

theorem nearest_mul {q : Nat} (hq : 0 < q) (v : Nat) : nearest (v * q) q = v := by
  unfold nearest
  rw [show 2 * (v * q) + q = q + 2 * q * v by ring, Nat.add_mul_div_left _ _ (by omega),
    Nat.div_eq_of_lt (by omega), Nat.zero_add]

/-- The switched input: its phase is a multiple of the step and `2N/q` times the phase of the input, up to
the error of the switch. -/
theorem switchIn_spec {K : EvalKey} {Q k m : Nat} (G : GateParams K.w K.R K.P Q k m) (S : List ℤ) {c : LWE}
    (hc : LWEReduced (2 ^ m) S.length c) {φ : ℤ} (hφ : φ ≡ intPhase S c.a c.b [ZMOD (2 ^ m : Nat)]) :
    ∃ (c' : LWE) (step : Nat) (φ' : ℤ), K.switchIn c = some c' ∧
      LWEReduced (2 * 2 ^ k) S.length c' ∧ K.P.lutStep = some step ∧ 0 < step ∧ step ∣ 2 ^ k / 4 ∧
      (step : ℤ) ∣ intPhase S c'.a c'.b ∧ φ' ≡ intPhase S c'.a c'.b [ZMOD (2 * 2 ^ k : Nat)] ∧
      |2 * (2 ^ m * φ' - 2 * 2 ^ k * φ)| ≤ 2 ^ m * inError k m S := by
  have hm3 : 3 ≤ m := by have := G.lwe.lt; omega
  have hPq : K.P.q = 2 ^ m := G.lwe.q
  have h2 := G.two_le
  have hk31 := G.le
  obtain ⟨step, es, hs0, hsd, hs1, hs2⟩ := C42_step K.P k m G.two_le (by omega) hm3 G.ring hPq
  have hin := G.switchIn
  have hNpos := Nat.two_pow_pos k
  have hqpos := Nat.two_pow_pos m
  have hq53 : 2 ^ m < 2 ^ 53 := by
    have : 2 ^ m - 1 ≤ (2 ^ m - 1) * (2 * 2 ^ k) := Nat.le_mul_of_pos_right _ (by omega)
    omega
  obtain ⟨out, eo, ho, heq, _⟩ := C41_lwe K.w (2 ^ m) (2 * 2 ^ k) hq53 (by omega) G.twice hin S.length c hc
  have hsw : K.switchIn c = some out := by
    have h64 : shlC 64 (2 ^ k) 1 = some (2 * 2 ^ k) := by
      have hlt : 2 ^ (k + 1) < 2 ^ 64 := Nat.pow_lt_pow_right (by omega) (by omega)
      unfold shlC
      rw [if_pos (by omega), pow_one, Nat.mul_comm, Nat.mod_eq_of_lt (by rw [← pow_succ']; exact hlt)]
    unfold EvalKey.switchIn
    rw [G.ring, mbind h64, if_pos G.twice, hPq, eo]
  by_cases hle : 2 ^ m ≤ 2 * 2 ^ k
  · have hst := hs1 hle
    have hval : ∀ v, v < 2 ^ m → nearest (v * (2 * 2 ^ k)) (2 ^ m) % (2 * 2 ^ k) = v * step := by
      intro v hv
      rw [← hst, ← Nat.mul_assoc, nearest_mul hqpos]
      refine Nat.mod_eq_of_lt ?_
      rw [Nat.mul_comm step]
      exact Nat.mul_lt_mul_of_pos_right hv hs0
    have hout : out = ⟨c.a.map fun v => v * step, c.b * step⟩ := by
      rw [heq, hval _ hc.2]
      congr 1
      exact List.map_congr_left fun v hv => hval v (hc.1.2 v hv)
    have hph : intPhase S out.a out.b = step * intPhase S c.a c.b := by
      rw [hout]; exact intPhase_scale S step c.a c.b
    refine ⟨out, step, step * φ, hsw, ho, es, hs0, hsd, ?_, ?_, ?_⟩
    · rw [hph]; exact Dvd.intro _ rfl
    · rw [hph, ← hst]
      push_cast
      obtain ⟨j, hj⟩ := Int.modEq_iff_dvd.1 hφ
      refine Int.modEq_iff_dvd.2 ⟨j, ?_⟩
      push_cast at hj
      rw [← mul_sub, hj]; ring
    · have : (2 : ℤ) ^ m * (step * φ) - 2 * 2 ^ k * φ = 0 := by
        have : ((step * 2 ^ m : Nat) : ℤ) = (2 * 2 ^ k : Nat) := by rw [hst]
        push_cast at this
        linear_combination φ * this
      rw [this, mul_zero, abs_zero]
      unfold inError
      rw [if_pos hle, mul_zero]
  · obtain rfl : step = 1 := hs2 (by omega)
    obtain ⟨out', φ', eo', _, h1, h3⟩ := C41_phase K.w (2 ^ m) (2 * 2 ^ k) hq53 (by omega) G.twice hin
      S.length c hc S φ hφ
    obtain rfl : out = out' := by rw [eo] at eo'; exact Option.some.inj eo'
    refine ⟨out, 1, φ', hsw, ho, es, hs0, hsd, by simp, h1, ?_⟩
    unfold inError norm1
    rw [if_neg hle]
    push_cast at h3
    exact h3

/-- The error of the switch does not depend on the integer that represents the phase. -/
theorem roundedBy_shift {q q' : Nat} {T : List ℤ} {r : ℤ} {x y : LWE} (h : RoundedBy q q' T r x y) {φ : ℤ}
    (hφ : φ ≡ intPhase T x.a x.b [ZMOD q]) :
    ∃ φ' : ℤ, φ' ≡ intPhase T y.a y.b [ZMOD q'] ∧ |2 * (q * φ' - q' * φ)| ≤ q * r := by
  obtain ⟨ψ, h1, h2⟩ := h
  obtain ⟨j, hj⟩ := Int.modEq_iff_dvd.1 hφ
  refine ⟨ψ - q' * j, ?_, ?_⟩
  · refine Int.ModEq.trans (Int.modEq_iff_dvd.2 ⟨j, by ring⟩) h1
  · have : (q : ℤ) * (ψ - q' * j) - q' * φ = q * ψ - q' * intPhase T x.a x.b := by
      linear_combination (q' : ℤ) * hj
    rw [this]; exact h2

/-- A sum of encoded bits is switched into the decision interval, with `q = 4 q'` and `N = 2 n'`. -/
theorem sum_interval {q' n' φ' s e δ : ℤ} (hq : 0 < q')
    (h : |2 * (4 * q' * φ' - 2 * (2 * n') * (s * q' + e))| ≤ 4 * q' * δ)
    (hn : 8 * (2 * n') * |e| + 2 * (4 * q') * δ < 2 * n' * (4 * q')) (hn0 : 0 ≤ n') :
    -(2 * n') ≤ 4 * (φ' - s * n') ∧ 4 * (φ' - s * n') < 2 * n' := by
  obtain ⟨h1, h2⟩ := abs_le.1 h
  have e1 : 16 * n' * e ≤ 16 * n' * |e| := mul_le_mul_of_nonneg_left (le_abs_self e) (by positivity)
  have e2 : 16 * n' * (-e) ≤ 16 * n' * |e| := mul_le_mul_of_nonneg_left (neg_le_abs e) (by positivity)
  have key : q' * (4 * (4 * (φ' - s * n'))) =
      2 * (2 * (4 * q' * φ' - 2 * (2 * n') * (s * q' + e))) + 16 * n' * e := by ring
  constructor
  · by_contra hlt
    have : q' * (4 * (4 * (φ' - s * n'))) < q' * (4 * -(2 * n')) :=
      mul_lt_mul_of_pos_left (by linarith) hq
    linarith
  · by_contra hlt
    have : q' * (4 * (2 * n')) ≤ q' * (4 * (4 * (φ' - s * n'))) :=
      mul_le_mul_of_nonneg_left (by linarith) hq.le
    linarith

/-- The same for twice a difference, with twice the interval. -/
theorem diff_interval {q' n' φ' s e δ : ℤ} (hq : 0 < q')
    (h : |2 * (4 * q' * φ' - 2 * (2 * n') * (2 * (s * q' + e)))| ≤ 4 * q' * δ)
    (hn : 8 * (2 * n') * |e| + 4 * q' * δ < 2 * n' * (4 * q')) (hn0 : 0 ≤ n') :
    -(2 * n') ≤ 2 * (φ' - s * (2 * n')) ∧ 2 * (φ' - s * (2 * n')) < 2 * n' := by
  obtain ⟨h1, h2⟩ := abs_le.1 h
  have e1 : 16 * n' * e ≤ 16 * n' * |e| := mul_le_mul_of_nonneg_left (le_abs_self e) (by positivity)
  have e2 : 16 * n' * (-e) ≤ 16 * n' * |e| := mul_le_mul_of_nonneg_left (neg_le_abs e) (by positivity)
  have key : q' * (4 * (2 * (φ' - s * (2 * n')))) =
      2 * (4 * q' * φ' - 2 * (2 * n') * (2 * (s * q' + e))) + 16 * n' * e := by ring
  constructor
  · by_contra hlt
    have : q' * (4 * (2 * (φ' - s * (2 * n')))) < q' * (4 * -(2 * n')) :=
      mul_lt_mul_of_pos_left (by linarith) hq
    linarith
  · by_contra hlt
    have : q' * (4 * (2 * n')) ≤ q' * (4 * (2 * (φ' - s * (2 * n')))) :=
      mul_le_mul_of_nonneg_left (by linarith) hq.le
    linarith

/-- The noise after the switch from `Q` to `q = 4 q'`. -/
theorem out_noise {Q : Nat} {q' φ' e h : ℤ} {ε : Nat} (x : Bool) (hq : 0 ≤ q') (he : |e| ≤ ε)
    (hs : |2 * (Q * φ' - 4 * q' * ((x.toNat * (2 * (Q / 8)) : Nat) + e))| ≤ Q * h) :
    |4 * Q * (φ' - x.toNat * q')| ≤ 4 * q' * (4 * ε + 7) + 2 * Q * h := by
  obtain ⟨h1, h2⟩ := abs_le.1 hs
  obtain ⟨g1, g2⟩ := abs_le.1 he
  obtain ⟨r, t, hQ, hr⟩ : ∃ r t : Nat, Q = 8 * t + r ∧ r < 8 := ⟨Q % 8, Q / 8, by omega, by omega⟩
  have ht : Q / 8 = t := by omega
  rw [ht] at h1 h2
  have hQ' : (Q : ℤ) = 8 * t + r := by exact_mod_cast hQ
  have hr' : (0 : ℤ) ≤ r ∧ (r : ℤ) ≤ 7 := by omega
  have m1 : q' * (4 * e) ≤ q' * (4 * ε) := mul_le_mul_of_nonneg_left (by linarith) hq
  have m2 : q' * (-(4 * ε)) ≤ q' * (4 * e) := mul_le_mul_of_nonneg_left (by linarith) hq
  have m3 : q' * (r : ℤ) ≤ q' * 7 := mul_le_mul_of_nonneg_left hr'.2 hq
  have m4 : 0 ≤ q' * (r : ℤ) := mul_nonneg hq hr'.1
  cases x
  · simp only [Bool.toNat_false, Nat.cast_zero, zero_add, zero_mul, sub_zero] at *
    rw [abs_le]; constructor <;> nlinarith
  · simp only [Bool.toNat_true, Nat.cast_one, one_mul] at *
    push_cast at h1 h2
    have key : 4 * (Q : ℤ) * (φ' - q') =
        2 * (2 * (Q * φ' - 4 * q' * (2 * t + e))) + 4 * (q' * (4 * e)) - 4 * (q' * r) := by
      rw [hQ']; ring
    rw [abs_le, key]
    constructor <;> linarith

/-! ## The steps of bootstrapping -/

section
variable {K : EvalKey} {Q k m : Nat} [Fact Q.Prime] (G : GateParams K.w K.R K.P Q k m) {sk z : List Nat}
  {S Z : List ℤ} {E E' : Nat} (V : K.Valid Q k m sk z S Z E E')
include G V

theorem rotate_spec {c : LWE} (hc : LWEReduced (2 * 2 ^ k) S.length c) {lut : List Nat}
    (hl : Reduced Q (2 ^ k) lut) : ∃ r,
      K.rot.rotate K.R lut c = some r ∧
      r.RotatedBy Q (2 ^ k) (Rq.ofWords Q (2 ^ k) z) lut (intPhase S c.a c.b)
        (rotationBound K k S.length E) := by
  obtain ⟨bits, hB, hv⟩ := V.rot
  have hk : 0 < k := by have := G.two_le; omega
  obtain ⟨⟨hcl, hca⟩, hcb⟩ := hc
  rw [← hcl]
  unfold rotationBound
  unfold RotationKey.Valid at hv
  unfold RotationKey.rotate
  have C : Config K.R.w Q K.R.M := ⟨G.field.even, G.field.conf⟩
  have hbits := (new_basis (by have := C.four_mul_lt; omega) hB).2.2.1
  rw [hbits]
  split at hv
  · next key hrot =>
    rw [hrot]
    obtain ⟨r, e, h⟩ := C38_binary hk G.field bits K.P.basis hB _ E S key hv lut hl c hcl hca hcb
    exact ⟨r, e, h⟩
  · next key hrot =>
    rw [hrot]
    obtain ⟨r, e, h⟩ := C38_ternary hk G.le G.field bits K.P.basis hB _ E S key hv lut hl c hcl hca hcb
    exact ⟨r, e, h⟩

omit V in
theorem addEighth_spec {r : RLWE} (ha : Reduced Q (2 ^ k) r.a) (hb : Reduced Q (2 ^ k) r.b) :
    ∃ acc, EvalKey.addEighth K.R r = some acc ∧ Reduced Q (2 ^ k) acc.a ∧ Reduced Q (2 ^ k) acc.b ∧
      ringPhase0 Q (2 ^ k) z acc (Nat.two_pow_pos k) =
        ringPhase0 Q (2 ^ k) z r (Nat.two_pow_pos k) + ((Q / 8 : Nat) : ZMod Q) := by
  have hk : 0 < k := by have := G.two_le; omega
  obtain ⟨v, _, ev, _, hv, _, cv, _⟩ := eighth_spec (R := K.R) ⟨G.field.even, G.field.conf⟩
  obtain ⟨t, hQ, En⟩ := G.field.env hk
  subst hQ
  obtain ⟨o, eo, ho⟩ := Rep.addHead En (rep_exists hb) hv
  obtain ⟨hor, hoe⟩ := rep_iff.1 ho
  refine ⟨⟨r.a, o⟩, ?_, ha, hor, ?_⟩
  · unfold EvalKey.addEighth
    rw [mbind ev, mbind eo]; rfl
  · unfold ringPhase0 rlwePhase
    simp only [hoe]
    rw [Rq.sub_co, Rq.sub_co, Rq.add_co, cv]
    simp only [Rq.const, signedEighth, if_true]
    ring

omit V [Fact Q.Prime] in
/-- The extracted ciphertext. -/
theorem extract_spec (hz : Reduced Q (2 ^ k) z) {acc : RLWE} (ha : Reduced Q (2 ^ k) acc.a)
    (hb : Reduced Q (2 ^ k) acc.b) :
    ∃ x, RLWE.extractLocally K.R acc = some x ∧ LWEReduced Q (2 ^ k) x ∧
      lwePhase Q z x.a x.b = ringPhase0 Q (2 ^ k) z acc (Nat.two_pow_pos k) := by
  obtain ⟨x, _, e, hx, hp⟩ := C34_extract K.R.w Q G.field.even K.R.M G.field.conf K.R.tbl (2 ^ k)
    (Nat.two_pow_pos k) acc ha hb z hz
  exact ⟨x, e, hx, hp⟩

omit V [Fact Q.Prime] in
theorem switchOut_eq {n : Nat} {y : LWE} (hy : LWEReduced Q n y) :
    ∃ out : LWE, ModSwitch.lwe K.w Q (2 ^ m) y = some out ∧
      (∀ dest : LWE, dest.a.length = n → ModSwitch.lweInplace K.w Q (2 ^ m) y dest = some out) ∧
      LWEReduced (2 ^ m) n out ∧ ∀ T : List ℤ, RoundedBy Q (2 ^ m) T (1 + norm1 T) y out := by
  have C : Config K.R.w Q K.R.M := ⟨G.field.even, G.field.conf⟩
  have hm3 : 3 ≤ m := by have := G.lwe.lt; omega
  have hqpos := Nat.two_pow_pos m
  have hout := G.switchOut
  have hw : 2 ^ m < 2 ^ K.w := two_pow_lt G.lwe.fits
  have hQ2 := C.two_le
  have hQ53 : Q < 2 ^ 53 := by
    have : (Q - 1) * 2 ^ 3 ≤ (Q - 1) * 2 ^ m :=
      Nat.mul_le_mul_left _ (Nat.pow_le_pow_right (by omega) hm3)
    omega
  obtain ⟨out, eo, ho, _, hin⟩ := C41_lwe K.w Q (2 ^ m) hQ53 hqpos hw hout n y hy
  refine ⟨out, eo, hin, ho, fun T => ?_⟩
  obtain ⟨out', φ', eo', _, h1, h2⟩ := C41_phase K.w Q (2 ^ m) hQ53 hqpos hw hout n y hy T _ (Int.ModEq.refl _)
  obtain rfl : out = out' := by rw [eo] at eo'; exact Option.some.inj eo'
  exact ⟨φ', h1, h2⟩

omit V in
/-- The switch from `Q` to `q` of a ciphertext of the bit `x` under the key `T`. -/
theorem switchOut_spec (T : List ℤ) (n : Nat) {y : LWE} (hy : LWEReduced Q n y) (x : Bool) (e : ℤ)
    (ε : Nat) (he : |e| ≤ ε) (ρ : ℤ)
    (hρ : ∀ out, ModSwitch.lwe K.w Q (2 ^ m) y = some out → RoundedBy Q (2 ^ m) T ρ y out)
    (hp : ((intPhase T y.a y.b : ℤ) : ZMod Q) = ((x.toNat * (2 * (Q / 8)) : Nat) : ZMod Q) + (e : ZMod Q)) :
    ∃ (out : LWE) (e' : ℤ), ModSwitch.lwe K.w K.R.M.value K.P.q y = some out ∧
      (∀ dest : LWE, dest.a.length = n →
        ModSwitch.lweInplace K.w K.R.M.value K.P.q y dest = some out) ∧
      LWEReduced (2 ^ m) n out ∧
      ((intPhase T out.a out.b : ℤ) : ZMod (2 ^ m)) =
        ((x.toNat * (2 ^ m / 4) : Nat) : ZMod (2 ^ m)) + (e' : ZMod (2 ^ m)) ∧
      |4 * Q * e'| ≤ 2 ^ m * (4 * ε + 7) + 2 * Q * ρ := by
  have C : Config K.R.w Q K.R.M := ⟨G.field.even, G.field.conf⟩
  have hPq : K.P.q = 2 ^ m := G.lwe.q
  have hm3 : 3 ≤ m := by have := G.lwe.lt; omega
  have hqpos := Nat.two_pow_pos m
  have hφ : ((x.toNat * (2 * (Q / 8)) : Nat) : ℤ) + e ≡ intPhase T y.a y.b [ZMOD Q] := by
    refine (ZMod.intCast_eq_intCast_iff _ _ _).1 ?_
    rw [hp, Int.cast_add, Int.cast_natCast]
  obtain ⟨out, eo, hin, ho, -⟩ := switchOut_eq G hy
  obtain ⟨φ', h1, h2⟩ := roundedBy_shift (hρ out eo) hφ
  obtain ⟨q', hq'⟩ : ∃ q', 2 ^ m = 4 * q' := ⟨2 ^ (m - 2), by
    rw [show (4 : Nat) = 2 ^ 2 from rfl, ← pow_add]; congr 1; omega⟩
  have hq4 : 2 ^ m / 4 = q' := by omega
  have hqz : (2 : ℤ) ^ m = 4 * q' := by exact_mod_cast hq'
  rw [C.value, hPq]
  refine ⟨out, φ' - x.toNat * q', eo, hin, ho, ?_, ?_⟩
  · have := (ZMod.intCast_eq_intCast_iff _ _ _).2 h1
    rw [← this, hq4]
    push_cast
    ring
  · rw [hqz]
    refine out_noise x (by omega) he ?_
    push_cast at h2 ⊢
    rw [hqz] at h2
    exact h2

omit G V in
/-- RLWE key switching, with the ring dimension as a variable. -/
theorem keySwitchRlwe_spec {N k' : Nat} (hk' : 0 < k') (F : TableField K.R.w Q K.R.M K.R.tbl k')
    (bits : Nat) (B : Basis) (hB : Basis.new K.R.w Q bits = some B) (dim : Nat)
    (h1 : 2 ^ (k' - 1) < dim) (h2 : dim ≤ 2 ^ k') (s : List Nat) (hs : Reduced Q dim s)
    (hzl : z.length = N) (e : Nat → Nat → Rq (ZMod Q) (2 ^ k')) (key : List NTTGadgetRLWE)
    (hkey : RlweSwitchKey K.R Q (2 ^ k') bits (Rq.ofWords Q (2 ^ k') s) z e key) (E : Nat)
    (he : ∀ c j, (e c j).Bounded E) (hN : 0 < N) (x : RLWE) (ha : Reduced Q N x.a)
    (hb : Reduced Q N x.b) : ∃ (out : LWE) (v : ℤ),
      RlweSwitch.keySwitchRlwe K.R dim key x = some out ∧ LWEReduced Q dim out ∧
      lwePhase Q s out.a out.b = ringPhase0 Q N z x hN + (v : ZMod Q) ∧
      |v| ≤ (key.length * (B.decomposeLen * (2 ^ k' * ((2 ^ bits - 1) * E))) : Nat) := by
  subst hzl
  have : Fact (1 < Q) := ⟨(Fact.out : Q.Prime).one_lt⟩
  obtain ⟨out, eo, ho, hp⟩ := C40_key_switch_rlwe hk' F bits B hB dim h1 h2 s hs z e key hkey hN x ha hb
  obtain ⟨v, hv, ev⟩ := C40_error_bound Q (2 ^ k') bits B.decomposeLen E e
    (extractWords Q z.length x.a) key.length (fun c j _ _ => he c j)
  exact ⟨out, v, eo, ho, by rw [hp, ev]; rfl, hv⟩

/-- The steps after the rotation. -/
theorem finish_spec {Λ : Level} {c lut acc c'} (hrun : K.RunNoise Q k m sk z S Z Λ c lut)
    (hc' : K.switchIn c = some c') (hl : c'.a.length = S.length) (hacc : K.accumulate c' lut = some acc)
    (ha : Reduced Q (2 ^ k) acc.a) (hb : Reduced Q (2 ^ k) acc.b) (x : Bool) (e : ℤ) (he : |e| ≤ Λ.rot)
    (hp : ringPhase0 Q (2 ^ k) z acc (Nat.two_pow_pos k) =
      ((x.toNat * (2 * (Q / 8)) : Nat) : ZMod Q) + (e : ZMod Q)) :
    ∃ (out : LWE) (e' : ℤ), K.finish c' acc = some out ∧ LWEReduced (2 ^ m) S.length out ∧
      EncryptsBit (2 ^ m) sk out x e' ∧ |4 * Q * e'| ≤ outError K.P.steps Q m Λ := by
  have hsk := keyWords_length V.keyS
  have hsw := V.sw
  have hZl := keyWords_length V.keyZ
  unfold SwitchKey.Valid at hsw
  unfold EvalKey.finish outError EncryptsBit
  cases hst : K.P.steps with
  | brMsKs =>
    rw [hst] at hsw
    obtain ⟨B, key, err, hK, hB, hkey, _⟩ := hsw
    obtain ⟨y, ey, hy, hyp⟩ := extract_spec G V.red ha hb
    obtain ⟨t, e1, et, _, ht, htp, hte⟩ := switchOut_spec G Z (2 ^ k) hy x e _ he Λ.out
      (fun o eo => by
        have := hrun.roundExtracted c' acc y o (by rw [hst]; decide) hc' hacc ey eo
        rwa [if_neg (by rw [hst]; decide)] at this)
      (by rw [← lwePhase_keyWords V.keyZ, hyp, hp])
    have ex : K.extractSwitch acc = some t := by
      unfold EvalKey.extractSwitch; rw [mbind ey, et]
    obtain ⟨M, hM, eO⟩ := G.lwe.ops
    have htl : LWEReduced (2 ^ m) Z.length t := by rw [← hZl, V.red.1]; exact ht
    obtain ⟨out, eo, ho, hop⟩ := C39_key_switch K.w m K.P.keySwitchBits G.lwe.fits M hM B hB sk Z err key
      hkey t htl
    obtain ⟨v, hv, hvp⟩ := hrun.lwe c' acc t out B sk.length key _ hst hc' hacc ex hK eO eo
    refine ⟨out, e1 + v, ?_, by rw [← hsk]; exact ho, ?_, ?_⟩
    · simp only [mbind ex, hK]
      rw [mbind eO]; exact eo
    · rw [hvp, htp]; push_cast; ring
    · rw [mul_add]
      refine (abs_add_le _ _).trans (add_le_add hte ?_)
      rw [abs_mul, abs_of_nonneg (by positivity : (0 : ℤ) ≤ 4 * Q)]
      exact mul_le_mul_of_nonneg_left hv (by positivity)
  | brKsMs =>
    rw [hst] at hsw
    obtain ⟨B, key, k', s, er, hK, hB, hk', F', h1, h2, hs, hsS, hkey, her⟩ := hsw
    obtain ⟨y, _, ey, hy, _, _⟩ := keySwitchRlwe_spec hk' F' _ B hB sk.length h1 h2 s hs V.red.1 er key
      hkey E' her (Nat.two_pow_pos k) acc ha hb
    obtain ⟨v, hv, hvp⟩ := hrun.rlwe c' acc y sk.length key hst hc' hacc hK ey
    obtain ⟨out, e1, _, ein, ho, hop, hoe⟩ := switchOut_spec G S sk.length hy x (e + v) (Λ.rot + Λ.sw)
      ((abs_add_le _ _).trans (by push_cast; exact add_le_add he hv)) Λ.out
      (fun o eo => hrun.roundSwitched c' acc y o sk.length key hst hc' hacc hK ey eo)
      (by rw [hvp, hp]; push_cast; ring)
    refine ⟨out, e1, ?_, by rw [← hsk]; exact ho, ?_, by push_cast at hoe; exact hoe⟩
    · simp only [hK]
      rw [mbind ey]
      exact ein c' (by rw [hl, hsk])
    · rw [lwePhase_keyWords V.keyS]; exact hop
  | brMs =>
    rw [hst] at hsw
    obtain ⟨y, ey, hy, hyp⟩ := extract_spec G V.red ha hb
    have hn : S.length = 2 ^ k := by rw [← keyWords_length hsw, V.red.1]
    obtain ⟨out, e1, _, ein, ho, hop, hoe⟩ := switchOut_spec G S (2 ^ k) hy x e _ he Λ.out
      (fun o eo => by
        have := hrun.roundExtracted c' acc y o (by rw [hst]; decide) hc' hacc ey eo
        rwa [if_pos hst] at this)
      (by rw [← lwePhase_keyWords hsw, hyp, hp])
    refine ⟨out, e1, ?_, by rw [hn]; exact ho, ?_, hoe⟩
    · simp only [mbind ey]
      exact ein c' (by rw [hl, hn])
    · rw [lwePhase_keyWords V.keyS]; exact hop

/-- Bootstrapping: if the table gives the bit `x` at the switched phase, the result encrypts `x`. -/
theorem bootstrap_spec {Λ : Level} {c c' : LWE} {lut : List Nat}
    (hrun : K.RunNoise Q k m sk z S Z Λ c lut) (hc' : K.switchIn c = some c')
    (hr : LWEReduced (2 * 2 ^ k) S.length c') (hlut : Reduced Q (2 ^ k) lut) (x : Bool)
    (hx : tableAt Q (2 ^ k) lut (intPhase S c'.a c'.b) = signedEighth Q x) :
    ∃ (out : LWE) (e' : ℤ), K.bootstrap c lut = some out ∧ LWEReduced (2 ^ m) S.length out ∧
      EncryptsBit (2 ^ m) sk out x e' ∧ |4 * Q * e'| ≤ outError K.P.steps Q m Λ := by
  obtain ⟨r, er, err, _, hph⟩ := rotate_spec G V hr hlut
  obtain ⟨acc, ea, hra, hrb, hacc⟩ := addEighth_spec (z := z) G hph.a hph.b
  have eacc : K.accumulate c' lut = some acc := by
    unfold EvalKey.accumulate; rw [mbind er, ea]
  obtain ⟨e, he, hep⟩ := hrun.rotate c' r hc' er
  obtain ⟨out, e', eo, ho, hp, hb⟩ := finish_spec G V hrun hc' hr.1.1 eacc hra hrb x e he (by
    rw [hacc, hep, hx]
    unfold signedEighth
    cases x
    · simp
    · simp; ring)
  refine ⟨out, e', ?_, ho, hp, hb⟩
  unfold EvalKey.bootstrap
  rw [mbind hc', mbind eacc, eo]

/-- A valid key bounds the noise of every run. -/
theorem runNoise_of_valid {c : LWE} (hc : LWEReduced (2 ^ m) S.length c) {lut : List Nat}
    (hl : Reduced Q (2 ^ k) lut) :
    K.RunNoise Q k m sk z S Z (worstLevel K Q k m S Z E E') c lut := by
  obtain ⟨c₀, _, φ₀, ec, hr, _, _, _, _, hmod, hin⟩ :=
    switchIn_spec G S hc (Int.ModEq.refl (intPhase S c.a c.b))
  have : Fact (1 < Q) := ⟨(Fact.out : Q.Prime).one_lt⟩
  have : NeZero (2 ^ k) := ⟨(Nat.two_pow_pos k).ne'⟩
  obtain ⟨r₀, er, err, herr, hph⟩ := rotate_spec G V hr hl
  obtain ⟨acc₀, ea, hra, hrb, _⟩ := addEighth_spec (z := z) G hph.a hph.b
  have eacc : K.accumulate c₀ lut = some acc₀ := by
    unfold EvalKey.accumulate; rw [mbind er, ea]
  have hsw := V.sw
  unfold SwitchKey.Valid at hsw
  refine ⟨fun c' h1 => ?_, fun c' r h1 h2 => ?_, fun c' acc x y B dim key O hst h1 h2 h3 h4 h5 h6 => ?_,
    fun c' acc y dim key hst h1 h2 h3 h4 => ?_, fun c' acc x y hst h1 h2 h3 h4 => ?_,
    fun c' acc x y dim key hst h1 h2 h3 h4 h5 => ?_⟩
  · obtain rfl : c₀ = c' := Option.some.inj (ec.symm.trans h1)
    exact ⟨φ₀, hmod, by push_cast; exact hin⟩
  · obtain rfl : c₀ = c' := Option.some.inj (ec.symm.trans h1)
    obtain rfl : r₀ = r := Option.some.inj (er.symm.trans h2)
    obtain ⟨e, he, hee⟩ := herr ⟨0, Nat.two_pow_pos k⟩
    refine ⟨e, he, ?_⟩
    unfold ringPhase0
    rw [hph.phase, Rq.add_co, rotated_co_zero, hee]
  · obtain rfl : c₀ = c' := Option.some.inj (ec.symm.trans h1)
    obtain rfl : acc₀ = acc := Option.some.inj (eacc.symm.trans h2)
    rw [hst] at hsw
    obtain ⟨B', key', er', hK, hB, hkey, hb⟩ := hsw
    rw [hK] at h4
    obtain ⟨rfl, rfl, rfl⟩ := SwitchKey.lwe.inj h4
    obtain ⟨M, hM, eO⟩ := G.lwe.ops
    obtain rfl := Option.some.inj (eO.symm.trans h5)
    obtain ⟨x', ex', hx', _⟩ := extract_spec G V.red hra hrb
    have hx : LWEReduced (2 ^ m) Z.length x := by
      unfold EvalKey.extractSwitch at h3
      rw [mbind ex'] at h3
      have C : Config K.R.w Q K.R.M := ⟨G.field.even, G.field.conf⟩
      have hout := G.switchOut
      have hm3 : 3 ≤ m := by have := G.lwe.lt; omega
      have hQ2 := C.two_le
      have hQ53 : Q < 2 ^ 53 := by
        have : (Q - 1) * 2 ^ 3 ≤ (Q - 1) * 2 ^ m :=
          Nat.mul_le_mul_left _ (Nat.pow_le_pow_right (by omega) hm3)
        omega
      obtain ⟨t, et, ht, _⟩ := C41_lwe K.w Q (2 ^ m) hQ53 (Nat.two_pow_pos m)
        (two_pow_lt G.lwe.fits) hout (2 ^ k) x' hx'
      have hPq : K.P.q = 2 ^ m := G.lwe.q
      rw [C.value, hPq, et] at h3
      obtain rfl := Option.some.inj h3
      rw [← keyWords_length V.keyZ, V.red.1]; exact ht
    obtain ⟨y', ey, _, hyp⟩ := C39_key_switch K.w m K.P.keySwitchBits G.lwe.fits M hM _ hB sk Z er' _
      hkey x hx
    obtain rfl : y' = y := Option.some.inj (ey.symm.trans h6)
    obtain ⟨v, hv, hve⟩ := C39_error_bound (2 ^ m) K.P.keySwitchBits B'.decomposeLen E' er' x.a hb
    refine ⟨-v, ?_, ?_⟩
    · rw [abs_neg]
      unfold worstLevel switchBound
      rw [hst, hB, ← V.red.1, keyWords_length V.keyZ, ← hx.1.1]
      exact hv
    · rw [hyp, ← hve]; push_cast; ring
  · obtain rfl : c₀ = c' := Option.some.inj (ec.symm.trans h1)
    obtain rfl : acc₀ = acc := Option.some.inj (eacc.symm.trans h2)
    rw [hst] at hsw
    obtain ⟨B, key', k', s, e, hK, hB, hk', F', g1, g2, hs, hsS, hkey, he⟩ := hsw
    rw [hK] at h3
    obtain ⟨rfl, rfl⟩ := SwitchKey.rlwe.inj h3
    obtain ⟨y', v, ey, hy, hp, hv⟩ := keySwitchRlwe_spec hk' F' _ B hB sk.length g1 g2 s hs V.red.1 e _
      hkey E' he (Nat.two_pow_pos k) acc₀ hra hrb
    obtain rfl : y' = y := Option.some.inj (ey.symm.trans h4)
    refine ⟨v, ?_, ?_⟩
    · unfold worstLevel switchBound
      rw [hst, hB]
      refine hv.trans (le_of_eq ?_)
      have hlen := hkey.len
      rw [V.red.1] at hlen
      rw [Option.elim_some, ← hlen]
      congr 1
      ring
    · rw [← lwePhase_keyWords hsS, hp]
  · obtain rfl : c₀ = c' := Option.some.inj (ec.symm.trans h1)
    obtain rfl : acc₀ = acc := Option.some.inj (eacc.symm.trans h2)
    obtain ⟨x', ex', hx', _⟩ := extract_spec G V.red hra hrb
    obtain rfl : x' = x := Option.some.inj (ex'.symm.trans h3)
    obtain ⟨y', ey', -, -, hround⟩ := switchOut_eq G hx'
    obtain rfl : y' = y := Option.some.inj (ey'.symm.trans h4)
    have := hround (if K.P.steps = .brMs then S else Z)
    unfold worstLevel roundBound
    cases hs : K.P.steps with
    | brMsKs => rw [hs] at this; exact this
    | brKsMs => exact absurd hs hst
    | brMs => rw [hs] at this; exact this
  · obtain rfl : c₀ = c' := Option.some.inj (ec.symm.trans h1)
    obtain rfl : acc₀ = acc := Option.some.inj (eacc.symm.trans h2)
    rw [hst] at hsw
    obtain ⟨B, key', k', s, e, hK, hB, hk', F', g1, g2, hs, hsS, hkey, he⟩ := hsw
    rw [hK] at h3
    obtain ⟨rfl, rfl⟩ := SwitchKey.rlwe.inj h3
    obtain ⟨x', _, ex', hx', _, _⟩ := keySwitchRlwe_spec hk' F' _ B hB sk.length g1 g2 s hs V.red.1 e _
      hkey E' he (Nat.two_pow_pos k) acc₀ hra hrb
    obtain rfl : x' = x := Option.some.inj (ex'.symm.trans h4)
    obtain ⟨y', ey', -, -, hround⟩ := switchOut_eq G hx'
    obtain rfl : y' = y := Option.some.inj (ey'.symm.trans h5)
    unfold worstLevel roundBound
    rw [hst]
    exact hround S

omit [Fact Q.Prime] V in
theorem decrypt_bit (hQ : 0 < Q) {out : LWE} {x : Bool} {e b : ℤ}
    (ho : LWEReduced (2 ^ m) sk.length out)
    (hp : EncryptsBit (2 ^ m) sk out x e) (hb : |4 * Q * e| ≤ b) (h : 2 * b < Q * 2 ^ m) :
    (K.P.lwe K.w).decrypt .bool sk out = some x.toNat := by
  have hlt : |8 * e| < 2 ^ m := by
    have h1 : (Q : ℤ) * |8 * e| < Q * 2 ^ m := by
      have : (Q : ℤ) * |8 * e| = 2 * |4 * Q * e| := by
        rw [abs_mul, abs_mul, abs_of_nonneg (by positivity : (0 : ℤ) ≤ 4 * Q)]
        rw [abs_of_nonneg (by norm_num : (0 : ℤ) ≤ 8)]; ring
      rw [this]; linarith
    exact lt_of_mul_lt_mul_left h1 (by positivity)
  obtain ⟨h1, h2⟩ := abs_lt.1 hlt
  refine C31_decrypt _ 2 m sk.length G.lwe sk rfl out ho x.toNat e (by cases x <;> decide) ?_ hp .bool ?_
  · unfold NoiseInRange
    push_cast
    constructor <;> linarith
  · cases x <;> simp [Fits]

theorem refreshed {Λ : Level} {r : Option LWE} {x : Bool}
    (h : ∃ (out : LWE) (e : ℤ), r = some out ∧ LWEReduced (2 ^ m) S.length out ∧
      EncryptsBit (2 ^ m) sk out x e ∧ |4 * Q * e| ≤ outError K.P.steps Q m Λ) :
    K.Refreshed Q m sk Λ r x := by
  obtain ⟨out, e, h1, h2, h3, h4⟩ := h
  rw [← keyWords_length V.keyS] at h2
  exact ⟨out, e, h1, h2, h3, h4, fun h => decrypt_bit G (Fact.out : Q.Prime).pos h2 h3 h4 h⟩

omit V [Fact Q.Prime] in
theorem quarter_facts : ∃ q' n' : Nat, 2 ^ m = 4 * q' ∧ 2 ^ k = 2 * n' ∧ 0 < q' ∧ 0 < n' := by
  have hm3 : 2 < m := G.lwe.lt
  have h2 := G.two_le
  refine ⟨2 ^ (m - 2), 2 ^ (k - 1), ?_, ?_, Nat.two_pow_pos _, Nat.two_pow_pos _⟩
  · rw [show (4 : Nat) = 2 ^ 2 from rfl, ← pow_add]; congr 1; omega
  · rw [← pow_succ']; congr 1; omega

/-- Bootstrapping of a ciphertext with phase `s q/4 + e` and a table that reads the bit `x` near `s N/2`. -/
theorem bootstrap_sum {Λ : Level} {c : LWE} (hc : LWEReduced (2 ^ m) S.length c) (s : Nat) (e : ℤ)
    (hp : lwePhase (2 ^ m) sk c.a c.b = ((s * (2 ^ m / 4) : Nat) : ZMod (2 ^ m)) + (e : ZMod (2 ^ m)))
    (hn : 8 * 2 ^ k * |e| + 2 * 2 ^ m * Λ.inp < 2 ^ k * 2 ^ m) (x : Bool)
    (L : Ctx → Nat → Nat → Option (List Nat))
    (hL : ∀ step, 0 < step → step ∣ 2 ^ k / 4 → ∃ lut, L K.R (2 ^ k) step = some lut ∧
      Reduced Q (2 ^ k) lut ∧ ∀ φ : ℤ, (step : ℤ) ∣ φ →
        NearBy (2 ^ k) 4 ((s * (2 ^ k / 2) : Nat) : ℤ) φ → tableAt Q (2 ^ k) lut φ = signedEighth Q x)
    (hrun : ∀ step l, K.P.lutStep = some step → L K.R K.P.ringDimension step = some l →
      K.RunNoise Q k m sk z S Z Λ c l) :
    K.Refreshed Q m sk Λ
      (K.P.lutStep >>= fun step => L K.R K.P.ringDimension step >>= fun l => K.bootstrap c l) x := by
  obtain ⟨q', n', hq', hn', hq0, hn0⟩ := quarter_facts G
  have hq4 : 2 ^ m / 4 = q' := by omega
  have hn2 : 2 ^ k / 2 = n' := by omega
  have hqz : (2 : ℤ) ^ m = 4 * q' := by exact_mod_cast hq'
  have hnz : (2 : ℤ) ^ k = 2 * n' := by exact_mod_cast hn'
  have hφ := intPhase_modEq V.keyS (φ := s * q' + e) (by rw [hp, hq4]; push_cast; ring)
  obtain ⟨c', step, _, ec, hr, es, hs0, hsd, hdvd, -, -⟩ := switchIn_spec G S hc hφ
  obtain ⟨lut, el, hlr, htab⟩ := hL step hs0 hsd
  rw [← G.ring] at el
  obtain ⟨φ', hmod, herr⟩ := roundedBy_shift ((hrun step lut es el).switch c' ec) hφ
  push_cast at herr
  rw [hqz, hnz] at herr hn
  obtain ⟨i1, i2⟩ := sum_interval (by omega) herr hn (by omega)
  refine refreshed G V ?_
  rw [mbind es, mbind el]
  refine bootstrap_spec G V (hrun step lut es el) ec hr hlr x (htab _ hdvd ?_)
  refine ⟨φ' - s * n', ?_, ?_, ?_⟩
  · rw [hn2]
    push_cast
    rw [add_sub_cancel]
    exact_mod_cast hmod.symm
  · rw [hn']; push_cast; exact i1
  · rw [hn']; push_cast; exact i2

/-- The same for twice a difference: phase `2 (s q/4 + e)`, read near `s N`. -/
theorem bootstrap_diff {Λ : Level} {c : LWE} (hc : LWEReduced (2 ^ m) S.length c) (s e : ℤ)
    (hp : lwePhase (2 ^ m) sk c.a c.b =
      ((2 * (s * ((2 ^ m / 4 : Nat) : ℤ) + e) : ℤ) : ZMod (2 ^ m)))
    (hn : 8 * 2 ^ k * |e| + 2 ^ m * Λ.inp < 2 ^ k * 2 ^ m) (x : Bool)
    (L : Ctx → Nat → Nat → Option (List Nat))
    (hL : ∀ step, 0 < step → step ∣ 2 ^ k / 4 → ∃ lut, L K.R (2 ^ k) step = some lut ∧
      Reduced Q (2 ^ k) lut ∧ ∀ φ : ℤ, (step : ℤ) ∣ φ →
        NearBy (2 ^ k) 2 (s * (2 ^ k : Nat)) φ → tableAt Q (2 ^ k) lut φ = signedEighth Q x)
    (hrun : ∀ step l, K.P.lutStep = some step → L K.R K.P.ringDimension step = some l →
      K.RunNoise Q k m sk z S Z Λ c l) :
    K.Refreshed Q m sk Λ
      (K.P.lutStep >>= fun step => L K.R K.P.ringDimension step >>= fun l => K.bootstrap c l) x := by
  obtain ⟨q', n', hq', hn', hq0, hn0⟩ := quarter_facts G
  have hq4 : 2 ^ m / 4 = q' := by omega
  have hqz : (2 : ℤ) ^ m = 4 * q' := by exact_mod_cast hq'
  have hnz : (2 : ℤ) ^ k = 2 * n' := by exact_mod_cast hn'
  have hφ := intPhase_modEq V.keyS hp
  rw [hq4] at hφ
  obtain ⟨c', step, _, ec, hr, es, hs0, hsd, hdvd, -, -⟩ := switchIn_spec G S hc hφ
  obtain ⟨lut, el, hlr, htab⟩ := hL step hs0 hsd
  rw [← G.ring] at el
  obtain ⟨φ', hmod, herr⟩ := roundedBy_shift ((hrun step lut es el).switch c' ec) hφ
  push_cast at herr
  rw [hqz, hnz] at herr hn
  obtain ⟨i1, i2⟩ := diff_interval (by omega) herr hn (by omega)
  refine refreshed G V ?_
  rw [mbind es, mbind el]
  refine bootstrap_spec G V (hrun step lut es el) ec hr hlr x (htab _ hdvd ?_)
  refine ⟨φ' - s * (2 ^ k : Nat), ?_, ?_, ?_⟩
  · rw [add_sub_cancel]
    exact hmod.symm
  · rw [hn']; push_cast; exact i1
  · rw [hn']; push_cast; exact i2

end

end Verif.Props
