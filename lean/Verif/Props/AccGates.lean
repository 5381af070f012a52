import Verif.Props.AccOut

/-!
# C75: the gates with a fresh evaluation key, without exceptions

Concrete cases that meet the hypotheses are in `Props/AccDefaults.lean`.
-/

namespace Verif.Props
open Fp Spec Ntt
open scoped ENNReal

section
variable {w : Nat} {R : Ctx} {P : Params} {Q k m : Nat} [Fact Q.Prime] (G : GateParams w R P Q k m)
include G

theorem lut_facts {step : Nat} (es : P.lutStep = some step) {l : List Nat}
    (h : Lut.nand R P.ringDimension step = some l ∨ Lut.andMajority R P.ringDimension step = some l ∨
      Lut.or R P.ringDimension step = some l ∨ Lut.nor R P.ringDimension step = some l ∨
      Lut.xor R P.ringDimension step = some l ∨ Lut.xnor R P.ringDimension step = some l) :
    Reduced Q (2 ^ k) l ∧ TableUnit Q (2 ^ k) l :=
  ⟨lut_reduced (K := ⟨w, R, P, .binary [], .none⟩) G es h, C75_tables (K := ⟨w, R, P, .binary [], .none⟩) G es h⟩

section
variable [NeZero Q] (hS : StepsOk R P Q k m) (bits : Nat)
    (hB : Basis.new R.w Q bits = some P.basis) {t t' : Nat} (ht : t ≤ k) (hq : (2 ^ t * (2 ^ bits - 1)) ^ 2 ^ t < Q)
    (ht' : P.steps = .brKsMs → t' ≤ Nat.clog 2 P.n ∧ (2 ^ t' * (2 ^ P.keySwitchBits - 1)) ^ 2 ^ t' < Q)
    (dk : KeyDraws) (hg : GaussOk P Q dk) (pack : KeyPack) (hp : KeyPack.new R P dk = some pack)
    (Z : List ℤ) (hZ : KeyWords Q pack.ring Z)
    (hZt : P.ringKeyType ≠ .gaussian → Z = pack.ring.map ternaryDigit)
    (L : KeyLaws) (v vL vR : ℝ) (hL : L.Ok P Q k m v vL vR)
    (hm : L.mask = draws (uniformBelow Q) (2 ^ k))
    (hm' : P.steps = .brKsMs → L.maskRlwe = draws (uniformBelow Q) (2 ^ Nat.clog 2 P.n))
    (V : ℝ) (hV : (((if P.steps = .brMsKs then Z else pack.lwe.map ternaryDigit).map fun z => z ^ 2).sum : ℤ) ≤ 12 * V) (T : Nat)
include hS hB ht hq ht' hg hp hZ hZt hL hm hm' hV

theorem lut_acc (c : LWE) (hc : LWEReduced (2 ^ m) P.n c) (lut : Ctx → Nat → Nat → Option (List Nat))
    (hlut : ∀ step l, P.lutStep = some step → lut R P.ringDimension step = some l →
      Reduced Q (2 ^ k) l ∧ TableUnit Q (2 ^ k) l) :
    (evalLaw w R P Q k m L).toOuterMeasure
      {d | ∃ K, EvalKey.new w R P pack d = some K ∧ ∀ step l, P.lutStep = some step →
        lut R P.ringDimension step = some l →
        K.OutRounding Q m (pack.lwe.map ternaryDigit) Z (1 + 2 * T) c l}ᶜ ≤
    gaussTail V T + accTail P Q k t t' := by
  have C : Config R.w Q R.M := ⟨G.field.even, G.field.conf⟩
  have hQ := C.two_le
  by_cases hex : ∃ step l, P.lutStep = some step ∧ lut R P.ringDimension step = some l
  · obtain ⟨step, l, es, el⟩ := hex
    refine le_trans (prob_mono ?_)
      (C75_rounding G hS bits hB ht hq ht' dk hg pack hp Z hZ hZt L v vL vR hL hm hm' c hc l (hlut step l es el).1 (hlut step l es el).2 V hV T)
    intro d hd hbad hgood
    refine hbad ?_
    obtain ⟨K, eK, h⟩ := hgood
    refine ⟨K, eK, fun step' l' es' el' => ?_⟩
    obtain rfl : step = step' := Option.some.inj (es.symm.trans es')
    obtain rfl : l = l' := Option.some.inj (el.symm.trans el')
    exact h
  · refine le_trans (le_of_eq ?_) zero_le
    rw [PMF.toOuterMeasure_apply_eq_zero_iff, Set.disjoint_left]
    intro d hd hbad
    obtain ⟨rot, sw, e1, e2, -⟩ := evaluation_key G hS bits hB dk hg pack hp Z hZ hZt Q (Q + 2 ^ m) d
      (evalLaw_ok (w := w) (by omega) hL hd)
    refine hbad ⟨⟨w, R, P, rot, sw⟩, ?_, fun step l es el => absurd ⟨step, l, es, el⟩ hex⟩
    unfold EvalKey.new
    rw [mbind e1, mbind e2]; rfl

/-- C75: `majority`. -/
theorem C75_majority (c0 c1 c2 : LWE) (h0 : LWEReduced (2 ^ m) P.n c0) (h1 : LWEReduced (2 ^ m) P.n c1)
    (h2 : LWEReduced (2 ^ m) P.n c2) (β κ : Nat) (a b c : Bool) (e0 e1 e2 : ℤ)
    (p0 : EncryptsBit (2 ^ m) pack.lwe c0 a e0)
    (p1 : EncryptsBit (2 ^ m) pack.lwe c1 b e1) (p2 : EncryptsBit (2 ^ m) pack.lwe c2 c e2)
    (hn : 8 * 2 ^ k * |e0 + e1 + e2| + 2 * 2 ^ m * inError k m (pack.lwe.map ternaryDigit) < 2 ^ k * 2 ^ m) :
    (evalLaw w R P Q k m L).toOuterMeasure {d | ∃ K, EvalKey.new w R P pack d = some K ∧
      (K.Refreshed Q m pack.lwe ⟨β, κ, inError k m (pack.lwe.map ternaryDigit), 1 + 2 * T⟩ (K.majority c0 c1 c2)
          (maj a b c))}ᶜ ≤
    rotationTail P k v β + switchTail w R P Q k m vL vR κ + (gaussTail V T + accTail P Q k t t') := by
  obtain ⟨O, eO, hO⟩ := gate_ops (K := ⟨w, R, P, .binary [], .none⟩) G
  obtain ⟨x, ex, -, hx, -⟩ := C33_add (2 ^ m) P.n O hO c0 c1 h0 h1
  obtain ⟨y, -, ey, hy, -⟩ := C33_add (2 ^ m) P.n O hO x c2 hx h2
  refine le_trans (prob_mono ?_) (both_failures
    (C60_majority G hS bits hB dk hg pack hp Z hZ hZt L v vL vR hL β κ c0 c1 c2 h0 h1 h2 a b c e0 e1 e2 p0 p1 p2 hn)
    (lut_acc G hS bits hB ht hq ht' dk hg pack hp Z hZ hZt L v vL vR hL hm hm' V hV T y hy Lut.andMajority
      fun step l es h => lut_facts G es (.inr (.inl h))))
  intro d _ hbad hgood
  refine hbad ?_
  obtain ⟨K, eK, h, h'⟩ := hgood
  obtain ⟨rot, sw, rfl⟩ := key_cases eK
  refine ⟨_, eK, h.2 _ fun O' x' y' step l eO' ex' ey' es el => ?_⟩
  obtain rfl := Option.some.inj (eO.symm.trans eO')
  obtain rfl := Option.some.inj (ex.symm.trans ex')
  obtain rfl := Option.some.inj (ey.symm.trans ey')
  exact h' step l es el

variable (c0 c1 : LWE) (h0 : LWEReduced (2 ^ m) P.n c0) (h1 : LWEReduced (2 ^ m) P.n c1)
include h0 h1

theorem sum_acc (lut : Ctx → Nat → Nat → Option (List Nat))
    (hlut : ∀ step l, P.lutStep = some step → lut R P.ringDimension step = some l →
      Reduced Q (2 ^ k) l ∧ TableUnit Q (2 ^ k) l) :
    (evalLaw w R P Q k m L).toOuterMeasure
      {d | ∃ K, EvalKey.new w R P pack d = some K ∧ (K.SumRounding Q m (pack.lwe.map ternaryDigit) Z (1 + 2 * T) lut c0 c1)}ᶜ ≤
    gaussTail V T + accTail P Q k t t' := by
  obtain ⟨O, eO, hO⟩ := gate_ops (K := ⟨w, R, P, .binary [], .none⟩) G
  obtain ⟨c, ec, -, hc, -⟩ := C33_add (2 ^ m) P.n O hO c0 c1 h0 h1
  refine le_trans (prob_mono ?_)
    (lut_acc G hS bits hB ht hq ht' dk hg pack hp Z hZ hZt L v vL vR hL hm hm' V hV T c hc lut hlut)
  intro d hd hbad hgood
  refine hbad ?_
  obtain ⟨K, eK, h⟩ := hgood
  obtain ⟨rot, sw, rfl⟩ := key_cases eK
  refine ⟨_, eK, fun O' c' step l eO' ec' es el => ?_⟩
  obtain rfl := Option.some.inj (eO.symm.trans eO')
  obtain rfl := Option.some.inj (ec.symm.trans ec')
  exact h step l es el

theorem diff_acc (lut : Ctx → Nat → Nat → Option (List Nat))
    (hlut : ∀ step l, P.lutStep = some step → lut R P.ringDimension step = some l →
      Reduced Q (2 ^ k) l ∧ TableUnit Q (2 ^ k) l) :
    (evalLaw w R P Q k m L).toOuterMeasure
      {d | ∃ K, EvalKey.new w R P pack d = some K ∧ (K.DiffRounding Q m (pack.lwe.map ternaryDigit) Z (1 + 2 * T) lut c0 c1)}ᶜ ≤
    gaussTail V T + accTail P Q k t t' := by
  obtain ⟨O, eO, hO⟩ := gate_ops (K := ⟨w, R, P, .binary [], .none⟩) G
  have h2 : 2 < 2 ^ m := by
    have := G.lwe.lt
    calc 2 < 2 ^ 2 := by decide
      _ ≤ 2 ^ m := Nat.pow_le_pow_right (by decide) (by omega)
  obtain ⟨c, ec, -, hc, -⟩ := C33_sub (2 ^ m) P.n O hO c0 c1 h0 h1
  obtain ⟨c', ec', hc', -⟩ := (C33_scalar_neg (2 ^ m) P.n O hO c hc 2 h2).1
  refine le_trans (prob_mono ?_)
    (lut_acc G hS bits hB ht hq ht' dk hg pack hp Z hZ hZt L v vL vR hL hm hm' V hV T c' hc' lut hlut)
  intro d hd hbad hgood
  refine hbad ?_
  obtain ⟨K, eK, h⟩ := hgood
  obtain ⟨rot, sw, rfl⟩ := key_cases eK
  refine ⟨_, eK, fun O1 c1 c1' step l eO1 ec1 ec1' es el => ?_⟩
  obtain rfl := Option.some.inj (eO.symm.trans eO1)
  obtain rfl := Option.some.inj (ec.symm.trans ec1)
  obtain rfl := Option.some.inj (ec'.symm.trans ec1')
  exact h step l es el

variable (β κ : Nat) (a b : Bool) (e0 e1 : ℤ) (p0 : EncryptsBit (2 ^ m) pack.lwe c0 a e0)
  (p1 : EncryptsBit (2 ^ m) pack.lwe c1 b e1)
include p0 p1

/-- C75: `nand` of two bits that were encrypted without knowledge of the evaluation key, with uniform masks in the
evaluation key: for every order of the steps the result is a ciphertext of the right bit with the noise `outError` of the
level `⟨β, κ, inError, 1 + 2T⟩`, except with the stated probability over the draws of the evaluation key. -/
theorem C75_nand
    (hn : 8 * 2 ^ k * |e0 + e1| + 2 * 2 ^ m * inError k m (pack.lwe.map ternaryDigit) < 2 ^ k * 2 ^ m) :
    (evalLaw w R P Q k m L).toOuterMeasure {d | ∃ K, EvalKey.new w R P pack d = some K ∧
      (K.Refreshed Q m pack.lwe ⟨β, κ, inError k m (pack.lwe.map ternaryDigit), 1 + 2 * T⟩ (K.nand c0 c1)
          (!(a && b)))}ᶜ ≤
    rotationTail P k v β + switchTail w R P Q k m vL vR κ + (gaussTail V T + accTail P Q k t t') := by
  refine le_trans (prob_mono ?_) (both_failures
    (C60_nand G hS bits hB dk hg pack hp Z hZ hZt L v vL vR hL β κ c0 c1 h0 h1 a b e0 e1 p0 p1 hn)
    (sum_acc G hS bits hB ht hq ht' dk hg pack hp Z hZ hZt L v vL vR hL hm hm' V hV T c0 c1 h0 h1 Lut.nand
      fun step l es h => lut_facts G es (.inl h)))
  intro d _ hbad hgood
  refine hbad ?_
  obtain ⟨K, eK, h, h'⟩ := hgood
  exact ⟨K, eK, h.2 _ h'⟩

/-- C75: `and`. -/
theorem C75_and
    (hn : 8 * 2 ^ k * |e0 + e1| + 2 * 2 ^ m * inError k m (pack.lwe.map ternaryDigit) < 2 ^ k * 2 ^ m) :
    (evalLaw w R P Q k m L).toOuterMeasure {d | ∃ K, EvalKey.new w R P pack d = some K ∧
      (K.Refreshed Q m pack.lwe ⟨β, κ, inError k m (pack.lwe.map ternaryDigit), 1 + 2 * T⟩ (K.and c0 c1)
          (a && b))}ᶜ ≤
    rotationTail P k v β + switchTail w R P Q k m vL vR κ + (gaussTail V T + accTail P Q k t t') := by
  refine le_trans (prob_mono ?_) (both_failures
    (C60_and G hS bits hB dk hg pack hp Z hZ hZt L v vL vR hL β κ c0 c1 h0 h1 a b e0 e1 p0 p1 hn)
    (sum_acc G hS bits hB ht hq ht' dk hg pack hp Z hZ hZt L v vL vR hL hm hm' V hV T c0 c1 h0 h1 Lut.andMajority
      fun step l es h => lut_facts G es (.inr (.inl h))))
  intro d _ hbad hgood
  refine hbad ?_
  obtain ⟨K, eK, h, h'⟩ := hgood
  exact ⟨K, eK, h.2 _ h'⟩

/-- C75: `or`. -/
theorem C75_or
    (hn : 8 * 2 ^ k * |e0 + e1| + 2 * 2 ^ m * inError k m (pack.lwe.map ternaryDigit) < 2 ^ k * 2 ^ m) :
    (evalLaw w R P Q k m L).toOuterMeasure {d | ∃ K, EvalKey.new w R P pack d = some K ∧
      (K.Refreshed Q m pack.lwe ⟨β, κ, inError k m (pack.lwe.map ternaryDigit), 1 + 2 * T⟩ (K.or c0 c1)
          (a || b))}ᶜ ≤
    rotationTail P k v β + switchTail w R P Q k m vL vR κ + (gaussTail V T + accTail P Q k t t') := by
  refine le_trans (prob_mono ?_) (both_failures
    (C60_or G hS bits hB dk hg pack hp Z hZ hZt L v vL vR hL β κ c0 c1 h0 h1 a b e0 e1 p0 p1 hn)
    (sum_acc G hS bits hB ht hq ht' dk hg pack hp Z hZ hZt L v vL vR hL hm hm' V hV T c0 c1 h0 h1 Lut.or
      fun step l es h => lut_facts G es (.inr (.inr (.inl h)))))
  intro d _ hbad hgood
  refine hbad ?_
  obtain ⟨K, eK, h, h'⟩ := hgood
  exact ⟨K, eK, h.2 _ h'⟩

/-- C75: `nor`. -/
theorem C75_nor
    (hn : 8 * 2 ^ k * |e0 + e1| + 2 * 2 ^ m * inError k m (pack.lwe.map ternaryDigit) < 2 ^ k * 2 ^ m) :
    (evalLaw w R P Q k m L).toOuterMeasure {d | ∃ K, EvalKey.new w R P pack d = some K ∧
      (K.Refreshed Q m pack.lwe ⟨β, κ, inError k m (pack.lwe.map ternaryDigit), 1 + 2 * T⟩ (K.nor c0 c1)
          (!(a || b)))}ᶜ ≤
    rotationTail P k v β + switchTail w R P Q k m vL vR κ + (gaussTail V T + accTail P Q k t t') := by
  refine le_trans (prob_mono ?_) (both_failures
    (C60_nor G hS bits hB dk hg pack hp Z hZ hZt L v vL vR hL β κ c0 c1 h0 h1 a b e0 e1 p0 p1 hn)
    (sum_acc G hS bits hB ht hq ht' dk hg pack hp Z hZ hZt L v vL vR hL hm hm' V hV T c0 c1 h0 h1 Lut.nor
      fun step l es h => lut_facts G es (.inr (.inr (.inr (.inl h))))))
  intro d _ hbad hgood
  refine hbad ?_
  obtain ⟨K, eK, h, h'⟩ := hgood
  exact ⟨K, eK, h.2 _ h'⟩

/-- C75: `xor`. -/
theorem C75_xor
    (hn : 8 * 2 ^ k * |e0 - e1| + 2 ^ m * inError k m (pack.lwe.map ternaryDigit) < 2 ^ k * 2 ^ m) :
    (evalLaw w R P Q k m L).toOuterMeasure {d | ∃ K, EvalKey.new w R P pack d = some K ∧
      (K.Refreshed Q m pack.lwe ⟨β, κ, inError k m (pack.lwe.map ternaryDigit), 1 + 2 * T⟩ (K.xor c0 c1)
          (a ^^ b))}ᶜ ≤
    rotationTail P k v β + switchTail w R P Q k m vL vR κ + (gaussTail V T + accTail P Q k t t') := by
  refine le_trans (prob_mono ?_) (both_failures
    (C60_xor G hS bits hB dk hg pack hp Z hZ hZt L v vL vR hL β κ c0 c1 h0 h1 a b e0 e1 p0 p1 hn)
    (diff_acc G hS bits hB ht hq ht' dk hg pack hp Z hZ hZt L v vL vR hL hm hm' V hV T c0 c1 h0 h1 Lut.xor
      fun step l es h => lut_facts G es (.inr (.inr (.inr (.inr (.inl h)))))))
  intro d _ hbad hgood
  refine hbad ?_
  obtain ⟨K, eK, h, h'⟩ := hgood
  exact ⟨K, eK, h.2 _ h'⟩

/-- C75: `xnor`. -/
theorem C75_xnor
    (hn : 8 * 2 ^ k * |e0 - e1| + 2 ^ m * inError k m (pack.lwe.map ternaryDigit) < 2 ^ k * 2 ^ m) :
    (evalLaw w R P Q k m L).toOuterMeasure {d | ∃ K, EvalKey.new w R P pack d = some K ∧
      (K.Refreshed Q m pack.lwe ⟨β, κ, inError k m (pack.lwe.map ternaryDigit), 1 + 2 * T⟩ (K.xnor c0 c1)
          (!(a ^^ b)))}ᶜ ≤
    rotationTail P k v β + switchTail w R P Q k m vL vR κ + (gaussTail V T + accTail P Q k t t') := by
  refine le_trans (prob_mono ?_) (both_failures
    (C60_xnor G hS bits hB dk hg pack hp Z hZ hZt L v vL vR hL β κ c0 c1 h0 h1 a b e0 e1 p0 p1 hn)
    (diff_acc G hS bits hB ht hq ht' dk hg pack hp Z hZ hZt L v vL vR hL hm hm' V hV T c0 c1 h0 h1 Lut.xnor
      fun step l es h => lut_facts G es (.inr (.inr (.inr (.inr (.inr h)))))))
  intro d _ hbad hgood
  refine hbad ?_
  obtain ⟨K, eK, h, h'⟩ := hgood
  exact ⟨K, eK, h.2 _ h'⟩

end

section
variable [NeZero Q] (hS : StepsOk R P Q k m) (bits : Nat)
    (hB : Basis.new R.w Q bits = some P.basis) {t t' : Nat} (ht : t ≤ k) (hq : (2 ^ t * (2 ^ bits - 1)) ^ 2 ^ t < Q)
    (ht' : P.steps = .brKsMs → t' ≤ Nat.clog 2 P.n ∧ (2 ^ t' * (2 ^ P.keySwitchBits - 1)) ^ 2 ^ t' < Q)
    (dk : KeyDraws) (hg : GaussOk P Q dk) (pack : KeyPack) (hp : KeyPack.new R P dk = some pack)
    (Z : List ℤ) (hZ : KeyWords Q pack.ring Z)
    (hZt : P.ringKeyType ≠ .gaussian → Z = pack.ring.map ternaryDigit)
    (L : KeyLaws) (v vL vR : ℝ) (hL : L.Ok P Q k m v vL vR)
    (hm : L.mask = draws (uniformBelow Q) (2 ^ k))
    (hm' : P.steps = .brKsMs → L.maskRlwe = draws (uniformBelow Q) (2 ^ Nat.clog 2 P.n))
    (V : ℝ) (hV : (((if P.steps = .brMsKs then Z else pack.lwe.map ternaryDigit).map fun z => z ^ 2).sum : ℤ) ≤ 12 * V) (T : Nat)
    (β κ : Nat) (η : ℤ)
    (hη : 24 * 2 ^ k * η + 2 * 2 ^ m * inError k m (pack.lwe.map ternaryDigit) < 2 ^ k * 2 ^ m)
    (c : Nat → LWE) (b : Nat → Bool) (hc : ∀ i, Encrypts (2 ^ m) pack.lwe η (c i) (b i))
include hS hB ht hq ht' hg hp hZ hZt hL hm hm' hV hη hc

theorem one_gate_acc (X : Circuit) (hX : X.OneGate) :
    (evalLaw w R P Q k m L).toOuterMeasure {d | ∃ K, EvalKey.new w R P pack d = some K ∧
      (K.Refreshed Q m pack.lwe
        ⟨β, κ, inError k m (pack.lwe.map ternaryDigit), 1 + 2 * T⟩ (X.run K c) (X.eval b))}ᶜ ≤
    rotationTail P k v β + switchTail w R P Q k m vL vR κ + (gaussTail V T + accTail P Q k t t') := by
  have hlen := pack_length G hS dk hg pack hp
  have hred : ∀ i, LWEReduced (2 ^ m) P.n (c i) := fun i => hlen ▸ (hc i).1
  have hin := inError_nonneg k m (pack.lwe.map ternaryDigit)
  choose e he hp' using fun i => (hc i).2
  have hk0 : (0 : ℤ) ≤ 8 * 2 ^ k := by positivity
  have hsum : ∀ i j, 8 * 2 ^ k * |e i + e j| + 2 * 2 ^ m * inError k m (pack.lwe.map ternaryDigit) < 2 ^ k * 2 ^ m :=
    fun i j => by
      have h1 := abs_add_le (e i) (e j)
      have h2 : |e i + e j| ≤ 3 * η := by linarith [he i, he j, abs_nonneg (e i)]
      linarith [mul_le_mul_of_nonneg_left h2 hk0]
  have hdiff : ∀ i j, 8 * 2 ^ k * |e i - e j| + 2 ^ m * inError k m (pack.lwe.map ternaryDigit) < 2 ^ k * 2 ^ m :=
    fun i j => by
      have h1 := abs_sub (e i) (e j)
      have h2 : |e i - e j| ≤ 3 * η := by linarith [he i, he j, abs_nonneg (e i)]
      have h3 : 0 ≤ 2 ^ m * inError k m (pack.lwe.map ternaryDigit) := by positivity
      linarith [mul_le_mul_of_nonneg_left h2 hk0]
  have hmaj : ∀ i j l, 8 * 2 ^ k * |e i + e j + e l| + 2 * 2 ^ m * inError k m (pack.lwe.map ternaryDigit) <
      2 ^ k * 2 ^ m := fun i j l => by
    have h1 := abs_add_three (e i) (e j) (e l)
    have h2 : |e i + e j + e l| ≤ 3 * η := by linarith [he i, he j, he l]
    linarith [mul_le_mul_of_nonneg_left h2 hk0]
  unfold Circuit.OneGate at hX
  split at hX
  · rename_i i j
    exact C75_nand G hS bits hB ht hq ht' dk hg pack hp Z hZ hZt L v vL vR hL hm hm' V hV T _ _ (hred i) (hred j) β κ _ _ _ _
      (hp' i) (hp' j) (hsum i j)
  · rename_i i j
    exact C75_and G hS bits hB ht hq ht' dk hg pack hp Z hZ hZt L v vL vR hL hm hm' V hV T _ _ (hred i) (hred j) β κ _ _ _ _
      (hp' i) (hp' j) (hsum i j)
  · rename_i i j
    exact C75_or G hS bits hB ht hq ht' dk hg pack hp Z hZ hZt L v vL vR hL hm hm' V hV T _ _ (hred i) (hred j) β κ _ _ _ _
      (hp' i) (hp' j) (hsum i j)
  · rename_i i j
    exact C75_nor G hS bits hB ht hq ht' dk hg pack hp Z hZ hZt L v vL vR hL hm hm' V hV T _ _ (hred i) (hred j) β κ _ _ _ _
      (hp' i) (hp' j) (hsum i j)
  · rename_i i j
    exact C75_xor G hS bits hB ht hq ht' dk hg pack hp Z hZ hZt L v vL vR hL hm hm' V hV T _ _ (hred i) (hred j) β κ _ _ _ _
      (hp' i) (hp' j) (hdiff i j)
  · rename_i i j
    have := C75_xnor G hS bits hB ht hq ht' dk hg pack hp Z hZ hZt L v vL vR hL hm hm' V hV T _ _ (hred i) (hred j) β κ _ _ _ _
      (hp' i) (hp' j) (hdiff i j)
    rw [show (!(b i ^^ b j)) = (b i == b j) by cases b i <;> cases b j <;> rfl] at this
    exact this
  · rename_i i j l
    exact C75_majority G hS bits hB ht hq ht' dk hg pack hp Z hZ hZt L v vL vR hL hm hm' V hV T _ _ _ (hred i) (hred j) (hred l)
      β κ _ _ _ _ _ _ (hp' i) (hp' j) (hp' l) (hmaj i j l)
  · exact hX.elim

/-- C75: any number of gates on ciphertexts with noises of at most `η` that were made without knowledge of the evaluation
key. All results decrypt to the values of the gates, except with the stated probability over the draws of the evaluation
key. -/
theorem C75_gates (hout : 2 * outError P.steps Q m
      ⟨β, κ, inError k m (pack.lwe.map ternaryDigit), 1 + 2 * T⟩ < Q * 2 ^ m)
    (gs : List Circuit) (hgs : ∀ X ∈ gs, X.OneGate) :
    (evalLaw w R P Q k m L).toOuterMeasure {d | ∃ K, EvalKey.new w R P pack d = some K ∧
      ∀ X ∈ gs, ∃ out, X.run K c = some out ∧
        (P.lwe w).decrypt .bool pack.lwe out = some (X.eval b).toNat}ᶜ ≤
    gs.length * (rotationTail P k v β + switchTail w R P Q k m vL vR κ + (gaussTail V T + accTail P Q k t t')) := by
  have C : Config R.w Q R.M := ⟨G.field.even, G.field.conf⟩
  have hQ := C.two_le
  induction gs with
  | nil =>
    refine le_trans (le_of_eq ?_) zero_le
    rw [PMF.toOuterMeasure_apply_eq_zero_iff, Set.disjoint_left]
    intro d hd hbad
    obtain ⟨rot, sw, e1, e2, -⟩ := evaluation_key G hS bits hB dk hg pack hp Z hZ hZt Q (Q + 2 ^ m) d
      (evalLaw_ok (w := w) (by omega) hL hd)
    refine hbad ⟨⟨w, R, P, rot, sw⟩, ?_, by simp⟩
    unfold EvalKey.new
    rw [mbind e1, mbind e2]; rfl
  | cons X gs ih =>
    have h1 := one_gate_acc G hS bits hB ht hq ht' dk hg pack hp Z hZ hZt L v vL vR hL hm hm' V hV T β κ η hη c b hc X
      (hgs X (by simp))
    have h2 := ih fun Y hY => hgs Y (by simp [hY])
    rw [List.length_cons, Nat.cast_add, Nat.cast_one, add_mul, one_mul, add_comm]
    refine le_trans (prob_mono ?_) (both_failures h1 h2)
    intro d _ hbad hgood
    refine hbad ?_
    obtain ⟨K, eK, hX, hK⟩ := hgood
    refine ⟨K, eK, fun Y hY => ?_⟩
    rcases List.mem_cons.1 hY with rfl | hY
    · obtain ⟨out, e, eo, -, -, -, hdec⟩ := hX
      obtain ⟨rot, sw, rfl⟩ := key_cases eK
      exact ⟨out, eo, hdec hout⟩
    · exact hK Y hY

end

/-- C75: bits are encrypted, then an evaluation key is drawn, any number of gates is applied to the ciphertexts, and
the results are decrypted. They are the values of the gates, except with the stated probability; for all orders of the
steps, all secret keys and all masks and noises of the ciphertexts. -/
theorem C75_end_to_end [NeZero Q] (hS : StepsOk R P Q k m) (bits : Nat)
    (hB : Basis.new R.w Q bits = some P.basis) {t t' : Nat} (ht : t ≤ k) (hq : (2 ^ t * (2 ^ bits - 1)) ^ 2 ^ t < Q)
    (ht' : P.steps = .brKsMs → t' ≤ Nat.clog 2 P.n ∧ (2 ^ t' * (2 ^ P.keySwitchBits - 1)) ^ 2 ^ t' < Q)
    (dk : KeyDraws) (hg : GaussOk P Q dk) :
    ∃ pack, KeyPack.new R P dk = some pack ∧
      ∀ (L : KeyLaws) (v vL vR : ℝ), L.Ok P Q k m v vL vR →
      L.mask = draws (uniformBelow Q) (2 ^ k) →
      (P.steps = .brKsMs → L.maskRlwe = draws (uniformBelow Q) (2 ^ Nat.clog 2 P.n)) →
      ∀ (T β κ : Nat) (η : ℤ),
      24 * 2 ^ k * η + 2 * 2 ^ m * inError k m (pack.lwe.map ternaryDigit) < 2 ^ k * 2 ^ m →
      2 * outError P.steps Q m ⟨β, κ, inError k m (pack.lwe.map ternaryDigit), 1 + 2 * T⟩ < Q * 2 ^ m →
      ∀ (b : Nat → Bool) (masks : Nat → List Nat) (z : Nat → ℤ),
        (∀ i, P.n ≤ (masks i).length ∧ ∀ x ∈ masks i, x < P.q) → (∀ i, |z i| ≤ η) →
        ∃ c : Nat → LWE,
          (∀ i, (P.lwe w).encrypt pack.lwe (masks i) (z i) (b i).toNat = some (c i)) ∧
          ∀ gs : List Circuit, (∀ X ∈ gs, X.OneGate) →
            (evalLaw w R P Q k m L).toOuterMeasure {d | ∃ K, EvalKey.new w R P pack d = some K ∧
              ∀ X ∈ gs, ∃ out, X.run K c = some out ∧
                (P.lwe w).decrypt .bool pack.lwe out = some (X.eval b).toNat}ᶜ ≤
            gs.length * (rotationTail P k v β + switchTail w R P Q k m vL vR κ +
              (gaussTail ((if P.steps = .brMsKs then 2 ^ k else P.n : Nat) / 12) T + accTail P Q k t t')) := by
  obtain ⟨pack, ep, hlen, hw, hb, hr, hn, hrk, hms⟩ := C52_key_pack G hS dk hg
  obtain ⟨Z, hZ, hZt⟩ : ∃ Z, KeyWords Q pack.ring Z ∧ (P.ringKeyType ≠ .gaussian → Z = pack.ring.map ternaryDigit) := by
    by_cases hty : P.ringKeyType = .gaussian
    · exact ⟨_, keyWords_self pack.ring, fun h => absurd hty h⟩
    · have C : Config R.w Q R.M := ⟨G.field.even, G.field.conf⟩
      exact ⟨_, keyWords_digits C.two_le (hrk hty), fun _ => rfl⟩
  refine ⟨pack, ep, fun L v vL vR hL hm1 hm2 T β κ η hη hout b masks z hm hz => ?_⟩
  have hPq : P.q = 2 ^ m := G.lwe.q
  have hrange : ∀ i, NoiseInRange (2 ^ 2) (2 ^ m) (z i) := fun i => by
    have h2 := inError_nonneg k m (pack.lwe.map ternaryDigit)
    have h2 : (0 : ℤ) ≤ 2 * 2 ^ m * inError k m (pack.lwe.map ternaryDigit) := by positivity
    have h3 : (24 * η) * 2 ^ k < 2 ^ m * 2 ^ k := by linarith
    have h4 : 24 * η < 2 ^ m := lt_of_mul_lt_mul_right h3 (by positivity)
    have h5 := abs_le.1 (hz i)
    have h6 : 0 ≤ η := (abs_nonneg _).trans (hz i)
    unfold NoiseInRange
    push_cast
    constructor <;> linarith
  have hone : ∀ i, ∃ c, (P.lwe w).encrypt pack.lwe (masks i) (z i) (b i).toNat = some c ∧
      Encrypts (2 ^ m) pack.lwe η c (b i) := fun i => by
    obtain ⟨c, ec, hc, -, hp, -⟩ := C31_encrypt_decrypt (P.lwe w) 2 m P.n G.lwe pack.lwe (masks i) hlen
      (hm i).1 (by rw [← hPq]; exact (hm i).2) (b i).toNat (z i)
      (by have := Bool.toNat_lt (b i); omega) (hrange i)
    exact ⟨c, ec, by rw [hlen]; exact hc, z i, hz i, hp⟩
  choose c hc1 hc2 using hone
  refine ⟨c, hc1, fun gs hgs => ?_⟩
  refine C75_gates G hS bits hB ht hq ht' dk hg pack ep Z hZ hZt L v vL vR hL hm1 hm2
    ((if P.steps = .brMsKs then 2 ^ k else P.n : Nat) / 12) ?_ T β κ η hη c b hc2 hout gs hgs
  have hsq : ∀ l : List Nat, (((l.map ternaryDigit).map fun z => z ^ 2).sum : ℤ) ≤ l.length := fun l => by
    have := List.sum_le_card_nsmul ((l.map ternaryDigit).map fun z => z ^ 2) 1 (by
      intro z hz
      rw [List.map_map] at hz
      obtain ⟨v, -, rfl⟩ := List.mem_map.1 hz
      change ternaryDigit v ^ 2 ≤ 1
      unfold ternaryDigit
      split_ifs <;> norm_num)
    rwa [List.length_map, List.length_map, nsmul_eq_mul, mul_one] at this
  have h2 : (((if P.steps = .brMsKs then Z else pack.lwe.map ternaryDigit).map fun z => z ^ 2).sum : ℤ) ≤
      ((if P.steps = .brMsKs then 2 ^ k else P.n : Nat) : ℤ) := by
    split_ifs with hst
    · have hS' := hS
      unfold StepsOk at hS'
      rw [hst] at hS'
      rw [hZt hS'.1, ← hr.1]
      exact hsq pack.ring
    · rw [← hlen]
      exact hsq pack.lwe
  have h3 : ((((if P.steps = .brMsKs then Z else pack.lwe.map ternaryDigit).map fun z => z ^ 2).sum : ℤ) : ℝ) ≤
      ((if P.steps = .brMsKs then 2 ^ k else P.n : Nat) : ℝ) := by exact_mod_cast h2
  linarith

end

end Verif.Props
