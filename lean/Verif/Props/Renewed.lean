import Verif.SpecRenewed
import Verif.Props.AccDefaults

/-! # C99: circuits of any depth with a new evaluation key for each layer -/

namespace Verif.Props
open Fp Spec Ntt Gaussian F64
open scoped ENNReal NNReal

theorem prepend_cases {α β : Type} {r : α → β → Prop} {c : Nat → α} {b : Nat → β} (h : ∀ i, r (c i) (b i)) {l : List α}
    {l' : List β} (hl : List.Forall₂ r l l') (i : Nat) : r (prepend l c i) (prepend l' b i) := by
  unfold prepend
  rw [hl.length_eq]
  by_cases hi : i < l'.length
  · have hi' : i < l.length := by rw [hl.length_eq]; exact hi
    rw [List.getElem?_eq_getElem hi, List.getElem?_eq_getElem hi']
    exact List.forall₂_iff_get.1 hl |>.2 i hi' hi
  · have hlen := hl.length_eq
    rw [List.getElem?_eq_none (by omega), List.getElem?_eq_none (by omega)]
    exact h _

section
variable {q : Nat} {sk : List Nat} {η : ℤ} {ary : Nat} {keys : PMF (Option EvalKey)} {ε : ℝ≥0∞}
  {decrypt : LWE → Option Nat}

/-- The gates of one layer. -/
theorem layer_bound (hnew : ∀ K ∈ keys.support, ∃ K', K = some K')
    {c : Nat → LWE} {b : Nat → Bool}
    (hgate : ∀ X : Circuit, X.Single ary → keys.toOuterMeasure
      {K | ∃ K', K = some K' ∧ ∃ out, X.run K' c = some out ∧ Encrypts q sk η out (X.eval b)}ᶜ ≤ ε) :
    ∀ gs : List Circuit, (∀ X ∈ gs, X.Single ary) → keys.toOuterMeasure
      {K | ∃ layer, (K.bind fun K => gs.mapM fun X => (X.run K c).map fun out => (X, out)) = some layer ∧
        ∀ x ∈ layer, Encrypts q sk η x.2 (x.1.eval b)}ᶜ ≤ gs.length * ε
  | [], _ => by
    refine le_trans (le_of_eq ?_) zero_le
    rw [PMF.toOuterMeasure_apply_eq_zero_iff, Set.disjoint_left]
    intro K hK hbad
    obtain ⟨K', rfl⟩ := hnew K hK
    exact hbad ⟨[], rfl, by simp⟩
  | X :: gs, hgs => by
    have h1 := hgate X (hgs X (by simp))
    have h2 := layer_bound hnew hgate gs fun Y hY => hgs Y (by simp [hY])
    rw [List.length_cons, Nat.cast_add, Nat.cast_one, add_mul, one_mul, add_comm]
    refine le_trans (keys.toOuterMeasure.mono ?_) ((MeasureTheory.measure_union_le _ _).trans (add_le_add h1 h2))
    intro K hK
    by_contra hn
    simp only [Set.mem_union, not_or, Set.notMem_compl_iff] at hn
    obtain ⟨⟨K', rfl, out, eo, ho⟩, layer, el, hl⟩ := hn
    refine hK ⟨(X, out) :: layer, ?_, ?_⟩
    · have el' : (gs.mapM fun X => (X.run K' c).map fun out => (X, out)) = some layer := el
      show ((X :: gs).mapM fun X => (X.run K' c).map fun out => (X, out)) = _
      rw [List.mapM_cons, mbind (show (X.run K' c).map (fun out => (X, out)) = some (X, out) by rw [eo]; rfl), mbind el']
      rfl
    · intro x hx
      rcases List.mem_cons.1 hx with rfl | hx
      · exact ho
      · exact hl x hx

theorem layers_bound (hnew : ∀ K ∈ keys.support, ∃ K', K = some K') (hdec : ∀ c x, Encrypts q sk η c x → decrypt c = some x.toNat)
    (hgate : ∀ (c : Nat → LWE) (b : Nat → Bool), (∀ i, Encrypts q sk η (c i) (b i)) →
      ∀ X : Circuit, X.Single ary → keys.toOuterMeasure
        {K | ∃ K', K = some K' ∧ ∃ out, X.run K' c = some out ∧ Encrypts q sk η out (X.eval b)}ᶜ ≤ ε)
    (plan : Nat → (Nat → LWE) → List Circuit) (g : Nat → Nat)
    (hplan : ∀ t c, (plan t c).length ≤ g t ∧ ∀ X ∈ plan t c, X.Single ary) :
    ∀ (D t : Nat) (c : Nat → LWE) (b : Nat → Bool), (∀ i, Encrypts q sk η (c i) (b i)) →
      (renewedLaw keys plan D t c).toOuterMeasure {r | ∃ log, r = some log ∧ AllRight decrypt b log}ᶜ ≤
        (∑ i ∈ Finset.range D, g (t + i) : Nat) * ε
  | 0, t, c, b, _ => by
    refine le_trans (le_of_eq ?_) zero_le
    rw [PMF.toOuterMeasure_apply_eq_zero_iff, Set.disjoint_left]
    intro r hr hbad
    rw [renewedLaw, PMF.support_pure, Set.mem_singleton_iff] at hr
    exact hbad ⟨[], hr, trivial⟩
  | D + 1, t, c, b, h => by
    rw [renewedLaw, Finset.sum_range_succ', Nat.cast_add, add_mul, add_comm (_ * ε), Nat.add_zero]
    have h1 := layer_bound hnew (hgate c b h) (plan t c) (hplan t c).2
    refine prob_bind_split (h1.trans (mul_le_mul_left (Nat.cast_le.2 (hplan t c).1) _)) fun K _ hK => ?_
    obtain ⟨layer, el, hl⟩ := hK
    rw [el]
    have hf : List.Forall₂ (Encrypts q sk η) (layer.map Prod.snd) (layer.map fun x => x.1.eval b) := by
      rw [List.forall₂_map_left_iff, List.forall₂_map_right_iff]
      exact List.forall₂_same.2 fun x hx => hl x hx
    have ih := layers_bound hnew hdec hgate plan g hplan D (t + 1) _ _ (fun i => prepend_cases h hf i)
    simp only [Nat.add_right_comm t 1, Nat.add_assoc t] at ih
    show (PMF.map _ _).toOuterMeasure _ ≤ _
    rw [PMF.toOuterMeasure_map_apply]
    refine le_trans (prob_mono ?_) ih
    intro r _ hbad hgood
    obtain ⟨log, rfl, hlog⟩ := hgood
    exact hbad ⟨layer :: log, rfl, fun x hx => hdec _ _ (hl x hx), hlog⟩

end

section
variable {w : Nat} {R : Ctx} {P : Params} {Q k m : Nat} [Fact Q.Prime] (G : GateParams w R P Q k m)
include G

/-- Ciphertexts whose noise is small enough for a gate decrypt. -/
theorem encrypts_decrypt (pack : KeyPack) (ary : Nat) (hary : 2 ≤ ary) (η : ℤ)
    (hη : 8 * ary * 2 ^ k * η + 2 * 2 ^ m * inError k m (pack.lwe.map ternaryDigit) < 2 ^ k * 2 ^ m) (c : LWE) (x : Bool) :
    Encrypts (2 ^ m) pack.lwe η c x → (P.lwe w).decrypt .bool pack.lwe c = some x.toNat := by
  rintro ⟨ho, e, he, hpe⟩
  have hQ := (Fact.out : Q.Prime).pos
  refine decrypt_bit (K := ⟨w, R, P, .binary [], .none⟩) G hQ ho hpe (b := 4 * Q * η) ?_ ?_
  · rw [abs_mul, abs_of_nonneg (by positivity : (0 : ℤ) ≤ 4 * Q)]
    exact mul_le_mul_of_nonneg_left he (by positivity)
  · have hη0 : 0 ≤ η := (abs_nonneg e).trans he
    have hin := inError_nonneg k m (pack.lwe.map ternaryDigit)
    have h2η : 2 * η ≤ ary * η := mul_le_mul_of_nonneg_right (by exact_mod_cast hary) hη0
    have h1 : (16 * η) * 2 ^ k < 2 ^ m * 2 ^ k := by
      have h2 : 0 ≤ 2 * 2 ^ m * inError k m (pack.lwe.map ternaryDigit) := mul_nonneg (by positivity) hin
      have := mul_le_mul_of_nonneg_left h2η (by positivity : (0 : ℤ) ≤ 8 * 2 ^ k)
      linarith
    have h2 : 16 * η < 2 ^ m := lt_of_mul_lt_mul_right h1 (by positivity)
    have hQ' : (0 : ℤ) < Q := by exact_mod_cast hQ
    have h3 := mul_lt_mul_of_pos_left h2 hQ'
    have h4 : (0 : ℤ) ≤ Q * η := mul_nonneg hQ'.le hη0
    linarith

end

section
variable {w : Nat} {R : Ctx} {P : Params} {Q k m : Nat} [Fact Q.Prime] (G : GateParams w R P Q k m)
  [NeZero Q] (hS : StepsOk R P Q k m) (bits : Nat)
    (hB : Basis.new R.w Q bits = some P.basis) {t t' : Nat} (ht : t ≤ k) (hq : (2 ^ t * (2 ^ bits - 1)) ^ 2 ^ t < Q)
    (ht' : P.steps = .brKsMs → t' ≤ Nat.clog 2 P.n ∧ (2 ^ t' * (2 ^ P.keySwitchBits - 1)) ^ 2 ^ t' < Q)
    (dk : KeyDraws) (hg : GaussOk P Q dk) (pack : KeyPack) (hp : KeyPack.new R P dk = some pack)
    (Z : List ℤ) (hZ : KeyWords Q pack.ring Z)
    (hZt : P.ringKeyType ≠ .gaussian → Z = pack.ring.map ternaryDigit)
    (L : KeyLaws) (v vL vR : ℝ) (hL : L.Ok P Q k m v vL vR)
    (hm : L.mask = draws (uniformBelow Q) (2 ^ k))
    (hm' : P.steps = .brKsMs → L.maskRlwe = draws (uniformBelow Q) (2 ^ Nat.clog 2 P.n))
    (V : ℝ) (hV : (((if P.steps = .brMsKs then Z else pack.lwe.map ternaryDigit).map fun z => z ^ 2).sum : ℤ) ≤ 12 * V) (T : Nat)
    (β κ : Nat) (η : ℤ) (ary : Nat) (hary : 2 ≤ ary)
    (hη : 8 * ary * 2 ^ k * η + 2 * 2 ^ m * inError k m (pack.lwe.map ternaryDigit) < 2 ^ k * 2 ^ m)
    (hout : outError P.steps Q m ⟨β, κ, inError k m (pack.lwe.map ternaryDigit), 1 + 2 * T⟩ ≤ 4 * Q * η)
include G hS hB ht hq ht' hg hp hZ hZt hL hm hm' hV hη hout hary

/-- One gate of a layer. -/
theorem single_acc (c : Nat → LWE) (b : Nat → Bool) (hc : ∀ i, Encrypts (2 ^ m) pack.lwe η (c i) (b i))
    (X : Circuit) (hX : X.Single ary) :
    (evalLaw w R P Q k m L).toOuterMeasure {d | ∃ K, EvalKey.new w R P pack d = some K ∧
      ∃ out, X.run K c = some out ∧ Encrypts (2 ^ m) pack.lwe η out (X.eval b)}ᶜ ≤
    rotationTail P k v β + switchTail w R P Q k m vL vR κ + (gaussTail V T + accTail P Q k t t') := by
  have hlen := pack_length G hS dk hg pack hp
  have hred : ∀ i, LWEReduced (2 ^ m) P.n (c i) := fun i => hlen ▸ (hc i).1
  have hin := inError_nonneg k m (pack.lwe.map ternaryDigit)
  choose e he hp' using fun i => (hc i).2
  have hη0 : 0 ≤ η := (abs_nonneg _).trans (he 0)
  have hk0 : (0 : ℤ) ≤ 8 * 2 ^ k := by positivity
  have h2η : 2 * η ≤ ary * η := mul_le_mul_of_nonneg_right (by exact_mod_cast hary) hη0
  have hcond : ∀ x : ℤ, x ≤ ary * η →
      8 * 2 ^ k * x + 2 * 2 ^ m * inError k m (pack.lwe.map ternaryDigit) < 2 ^ k * 2 ^ m := fun x hx => by
    have := mul_le_mul_of_nonneg_left hx hk0
    linarith
  have hsum : ∀ i j, 8 * 2 ^ k * |e i + e j| + 2 * 2 ^ m * inError k m (pack.lwe.map ternaryDigit) < 2 ^ k * 2 ^ m :=
    fun i j => hcond _ (by linarith [abs_add_le (e i) (e j), he i, he j])
  have hdiff : ∀ i j, 8 * 2 ^ k * |e i - e j| + 2 ^ m * inError k m (pack.lwe.map ternaryDigit) < 2 ^ k * 2 ^ m :=
    fun i j => by
      have h3 : 0 ≤ 2 ^ m * inError k m (pack.lwe.map ternaryDigit) := by positivity
      linarith [hcond |e i - e j| (by linarith [abs_sub (e i) (e j), he i, he j])]
  have fin : ∀ {gate : EvalKey → Option LWE} {x : Bool},
      (evalLaw w R P Q k m L).toOuterMeasure {d | ∃ K, EvalKey.new w R P pack d = some K ∧
        K.Refreshed Q m pack.lwe ⟨β, κ, inError k m (pack.lwe.map ternaryDigit), 1 + 2 * T⟩ (gate K) x}ᶜ ≤
        rotationTail P k v β + switchTail w R P Q k m vL vR κ + (gaussTail V T + accTail P Q k t t') →
      (evalLaw w R P Q k m L).toOuterMeasure {d | ∃ K, EvalKey.new w R P pack d = some K ∧
        ∃ out, gate K = some out ∧ Encrypts (2 ^ m) pack.lwe η out x}ᶜ ≤
        rotationTail P k v β + switchTail w R P Q k m vL vR κ + (gaussTail V T + accTail P Q k t t') := by
    intro gate x h
    refine le_trans (prob_mono ?_) h
    intro d _ hbad hgood
    refine hbad ?_
    obtain ⟨K, eK, out, e, eo, ho, hp, hb, -⟩ := hgood
    obtain ⟨rot, sw, rfl⟩ := key_cases eK
    refine ⟨_, eK, out, eo, ho, e, ?_, hp⟩
    have hQ : (0 : ℤ) < 4 * Q := by
      have : (0 : ℤ) < Q := by exact_mod_cast (Fact.out : Q.Prime).pos
      linarith
    have h1 := hb.trans hout
    rw [abs_mul, abs_of_pos hQ] at h1
    exact le_of_mul_le_mul_left h1 hQ
  unfold Circuit.Single at hX
  split at hX
  · rename_i i
    refine le_trans (le_of_eq ?_) zero_le
    rw [PMF.toOuterMeasure_apply_eq_zero_iff, Set.disjoint_left]
    intro d hd hbad
    have C : Config R.w Q R.M := ⟨G.field.even, G.field.conf⟩
    have hQ := C.two_le
    obtain ⟨rot, sw, e1, e2, -⟩ := evaluation_key G hS bits hB dk hg pack hp Z hZ hZt Q (Q + 2 ^ m) d
      (evalLaw_ok (w := w) (by omega) hL hd)
    obtain ⟨o, eo, ho, hpo⟩ := C44_not (K := ⟨w, R, P, rot, sw⟩) G (hc i).1 (hp' i)
    refine hbad ⟨⟨w, R, P, rot, sw⟩, ?_, o, ?_, ho, -e i, by rw [abs_neg]; exact he i, hpo⟩
    · unfold EvalKey.new
      rw [mbind e1, mbind e2]; rfl
    · rw [Circuit.run, mbind (show Circuit.run _ c (.input i) = some (c i) from rfl)]
      exact eo
  · rename_i i j
    exact fin (C75_nand G hS bits hB ht hq ht' dk hg pack hp Z hZ hZt L v vL vR hL hm hm' V hV T _ _ (hred i) (hred j) β κ _ _ _ _
      (hp' i) (hp' j) (hsum i j))
  · rename_i i j
    exact fin (C75_and G hS bits hB ht hq ht' dk hg pack hp Z hZ hZt L v vL vR hL hm hm' V hV T _ _ (hred i) (hred j) β κ _ _ _ _
      (hp' i) (hp' j) (hsum i j))
  · rename_i i j
    exact fin (C75_or G hS bits hB ht hq ht' dk hg pack hp Z hZ hZt L v vL vR hL hm hm' V hV T _ _ (hred i) (hred j) β κ _ _ _ _
      (hp' i) (hp' j) (hsum i j))
  · rename_i i j
    exact fin (C75_nor G hS bits hB ht hq ht' dk hg pack hp Z hZ hZt L v vL vR hL hm hm' V hV T _ _ (hred i) (hred j) β κ _ _ _ _
      (hp' i) (hp' j) (hsum i j))
  · rename_i i j
    exact fin (C75_xor G hS bits hB ht hq ht' dk hg pack hp Z hZ hZt L v vL vR hL hm hm' V hV T _ _ (hred i) (hred j) β κ _ _ _ _
      (hp' i) (hp' j) (hdiff i j))
  · rename_i i j
    have := C75_xnor G hS bits hB ht hq ht' dk hg pack hp Z hZ hZt L v vL vR hL hm hm' V hV T _ _ (hred i) (hred j) β κ _ _ _ _
      (hp' i) (hp' j) (hdiff i j)
    rw [show (!(b i ^^ b j)) = (b i == b j) by cases b i <;> cases b j <;> rfl] at this
    exact fin this
  · rename_i i j l
    have h3η : 3 * η ≤ ary * η := mul_le_mul_of_nonneg_right (by exact_mod_cast hX) hη0
    exact fin (C75_majority G hS bits hB ht hq ht' dk hg pack hp Z hZ hZt L v vL vR hL hm hm' V hV T _ _ _ (hred i) (hred j) (hred l)
      β κ _ _ _ _ _ _ (hp' i) (hp' j) (hp' l) (hcond _ (by linarith [abs_add_three (e i) (e j) (e l), he i, he j, he l])))
  · exact hX.elim

/-- C99: circuits of any depth with a new evaluation key for each layer. -/
theorem C99_layers (c : Nat → LWE) (b : Nat → Bool) (hc : ∀ i, Encrypts (2 ^ m) pack.lwe η (c i) (b i))
    (plan : Nat → (Nat → LWE) → List Circuit) (g : Nat)
    (hplan : ∀ t c, (plan t c).length ≤ g ∧ ∀ X ∈ plan t c, X.Single ary) (D : Nat) :
    (renewedLaw ((evalLaw w R P Q k m L).map fun d => EvalKey.new w R P pack d) plan D 0 c).toOuterMeasure
      {r | ∃ log, r = some log ∧ AllRight ((P.lwe w).decrypt .bool pack.lwe) b log}ᶜ ≤
    D * (g * (rotationTail P k v β + switchTail w R P Q k m vL vR κ + (gaussTail V T + accTail P Q k t t'))) := by
  rw [← mul_assoc, ← Nat.cast_mul, show D * g = ∑ i ∈ Finset.range D, (fun _ => g) (0 + i) by simp]
  refine layers_bound (q := 2 ^ m) (sk := pack.lwe) (η := η) (ary := ary) ?_ ?_ ?_ plan (fun _ => g) hplan D 0 c b hc
  · intro K hK
    obtain ⟨d, hd, rfl⟩ := (PMF.mem_support_map_iff _ _ _).1 hK
    have C : Config R.w Q R.M := ⟨G.field.even, G.field.conf⟩
    have hQ := C.two_le
    obtain ⟨rot, sw, e1, e2, -⟩ := evaluation_key G hS bits hB dk hg pack hp Z hZ hZt Q (Q + 2 ^ m) d
      (evalLaw_ok (w := w) (by omega) hL hd)
    refine ⟨⟨w, R, P, rot, sw⟩, ?_⟩
    unfold EvalKey.new
    rw [mbind e1, mbind e2]; rfl
  · exact fun c x h => encrypts_decrypt G pack ary hary η hη c x h
  · intro c b hc X hX
    rw [PMF.toOuterMeasure_map_apply]
    refine le_trans (prob_mono ?_) (single_acc G hS bits hB ht hq ht' dk hg pack hp Z hZ hZt L v vL vR hL hm hm' V hV T β κ η
      ary hary hη hout c b hc X hX)
    intro d _ hbad hgood
    obtain ⟨K, eK, h⟩ := hgood
    exact hbad ⟨K, eK, h⟩

end

/-- C99: the whole scheme. Bits are encrypted, layers of gates are evaluated, each with a new evaluation key with uniform
masks, and everything is decrypted. For every secret key and all masks of the ciphertexts. -/
theorem C99_end_to_end {w : Nat} {R : Ctx} {P : Params} {Q k m : Nat} [Fact Q.Prime] (G : GateParams w R P Q k m)
    [NeZero Q] (hS : StepsOk R P Q k m) (bits : Nat)
    (hB : Basis.new R.w Q bits = some P.basis) {t t' : Nat} (ht : t ≤ k) (hq : (2 ^ t * (2 ^ bits - 1)) ^ 2 ^ t < Q)
    (ht' : P.steps = .brKsMs → t' ≤ Nat.clog 2 P.n ∧ (2 ^ t' * (2 ^ P.keySwitchBits - 1)) ^ 2 ^ t' < Q)
    (dk : KeyDraws) (hg : GaussOk P Q dk) :
    ∃ pack, KeyPack.new R P dk = some pack ∧
      ∀ (L : KeyLaws) (v vL vR : ℝ), L.Ok P Q k m v vL vR →
      L.mask = draws (uniformBelow Q) (2 ^ k) →
      (P.steps = .brKsMs → L.maskRlwe = draws (uniformBelow Q) (2 ^ Nat.clog 2 P.n)) →
      ∀ (T β κ : Nat) (η : ℤ) (ary : Nat), 2 ≤ ary →
      8 * ary * 2 ^ k * η + 2 * 2 ^ m * inError k m (pack.lwe.map ternaryDigit) < 2 ^ k * 2 ^ m →
      outError P.steps Q m ⟨β, κ, inError k m (pack.lwe.map ternaryDigit), 1 + 2 * T⟩ ≤ 4 * Q * η →
      ∀ (b : Nat → Bool) (masks : Nat → List Nat) (z : Nat → ℤ),
        (∀ i, P.n ≤ (masks i).length ∧ ∀ x ∈ masks i, x < P.q) → (∀ i, |z i| ≤ η) →
        ∃ c : Nat → LWE,
          (∀ i, (P.lwe w).encrypt pack.lwe (masks i) (z i) (b i).toNat = some (c i)) ∧
          ∀ (plan : Nat → (Nat → LWE) → List Circuit) (g : Nat),
            (∀ t c, (plan t c).length ≤ g ∧ ∀ X ∈ plan t c, X.Single ary) → ∀ D : Nat,
            (renewedLaw ((evalLaw w R P Q k m L).map fun d => EvalKey.new w R P pack d) plan D 0 c).toOuterMeasure
              {r | ∃ log, r = some log ∧ AllRight ((P.lwe w).decrypt .bool pack.lwe) b log}ᶜ ≤
            D * (g * (rotationTail P k v β + switchTail w R P Q k m vL vR κ +
              (gaussTail ((if P.steps = .brMsKs then 2 ^ k else P.n : Nat) / 12) T + accTail P Q k t t'))) := by
  obtain ⟨pack, ep, hlen, hw, hb, hr, hn, hrk, hms⟩ := C52_key_pack G hS dk hg
  obtain ⟨Z, hZ, hZt⟩ : ∃ Z, KeyWords Q pack.ring Z ∧ (P.ringKeyType ≠ .gaussian → Z = pack.ring.map ternaryDigit) := by
    by_cases hty : P.ringKeyType = .gaussian
    · exact ⟨_, keyWords_self pack.ring, fun h => absurd hty h⟩
    · have C : Config R.w Q R.M := ⟨G.field.even, G.field.conf⟩
      exact ⟨_, keyWords_digits C.two_le (hrk hty), fun _ => rfl⟩
  refine ⟨pack, ep, fun L v vL vR hL hm1 hm2 T β κ η ary hary hη hout b masks z hm hz => ?_⟩
  have hPq : P.q = 2 ^ m := G.lwe.q
  have hrange : ∀ i, NoiseInRange (2 ^ 2) (2 ^ m) (z i) := fun i => by
    have h2 := inError_nonneg k m (pack.lwe.map ternaryDigit)
    have h2 : (0 : ℤ) ≤ 2 * 2 ^ m * inError k m (pack.lwe.map ternaryDigit) := by positivity
    have h6 : 0 ≤ η := (abs_nonneg _).trans (hz i)
    have h7 : 2 * η ≤ ary * η := mul_le_mul_of_nonneg_right (by exact_mod_cast hary) h6
    have h8 := mul_le_mul_of_nonneg_left h7 (by positivity : (0 : ℤ) ≤ 8 * 2 ^ k)
    have h3 : (16 * η) * 2 ^ k < 2 ^ m * 2 ^ k := by linarith
    have h4 : 16 * η < 2 ^ m := lt_of_mul_lt_mul_right h3 (by positivity)
    have h5 := abs_le.1 (hz i)
    unfold NoiseInRange
    push_cast
    constructor <;> linarith
  have hone : ∀ i, ∃ c, (P.lwe w).encrypt pack.lwe (masks i) (z i) (b i).toNat = some c ∧
      Encrypts (2 ^ m) pack.lwe η c (b i) := fun i => by
    obtain ⟨c, ec, hc, -, hp, -⟩ := C31_encrypt_decrypt (P.lwe w) 2 m P.n G.lwe pack.lwe (masks i) hlen
      (hm i).1 (by rw [← hPq]; exact (hm i).2) (b i).toNat (z i)
      (by have := Bool.toNat_lt (b i); omega) (hrange i)
    exact ⟨c, ec, by rw [hlen]; exact hc, z i, hz i, hp⟩
  choose c hc1 hc2 using hone
  refine ⟨c, hc1, fun plan g hplan D => ?_⟩
  refine C99_layers G hS bits hB ht hq ht' dk hg pack ep Z hZ hZt L v vL vR hL hm1 hm2
    ((if P.steps = .brMsKs then 2 ^ k else P.n : Nat) / 12) ?_ T β κ η ary hary hη hout c b hc2 plan g hplan D
  have hsq : ∀ l : List Nat, (((l.map ternaryDigit).map fun z => z ^ 2).sum : ℤ) ≤ l.length := fun l => by
    have := List.sum_le_card_nsmul ((l.map ternaryDigit).map fun z => z ^ 2) 1 (by
      intro z hz
      rw [List.map_map] at hz
      obtain ⟨v, -, rfl⟩ := List.mem_map.1 hz
      change ternaryDigit v ^ 2 ≤ 1
      unfold ternaryDigit
      split_ifs <;> norm_num)
    rwa [List.length_map, List.length_map, nsmul_eq_mul, mul_one] at this
  have h2 : (((if P.steps = .brMsKs then Z else pack.lwe.map ternaryDigit).map fun z => z ^ 2).sum : ℤ) ≤
      ((if P.steps = .brMsKs then 2 ^ k else P.n : Nat) : ℤ) := by
    split_ifs with hst
    · have hS' := hS
      unfold StepsOk at hS'
      rw [hst] at hS'
      rw [hZt hS'.1, ← hr.1]
      exact hsq pack.ring
    · rw [← hlen]
      exact hsq pack.lwe
  have h3 : ((((if P.steps = .brMsKs then Z else pack.lwe.map ternaryDigit).map fun z => z ^ 2).sum : ℤ) : ℝ) ≤
      ((if P.steps = .brMsKs then 2 ^ k else P.n : Nat) : ℝ) := by exact_mod_cast h2
  linarith

/-- C99: the default parameters and their noise. `D` layers of at most `g` gates of one or two operands, chosen with
knowledge of all ciphertexts so far, each layer with a new evaluation key: everything decrypts to the right bits, except
with probability `3 D g exp(-14)`; for all secret keys and all masks of the encrypted inputs. -/
theorem C99_default [DefaultBuild] [NeZero 132120577] (δ : PMF ℚ) (hδ : Deviates δ (13 / 2)) (dk : KeyDraws)
    (b : Nat → Bool) (masks : Nat → List Nat) (z : Nat → ℤ)
    (hm : ∀ i, 1024 ≤ (masks i).length ∧ ∀ x ∈ masks i, x < 1024)
    (s : Sampler) (hs : noise (rnd (16 / 5)) = some s) (hz : ∀ i, ∃ x, accept s x = true ∧ z i = roundAway x) :
    ∃ pack, KeyPack.new defaultCtx defaultParams dk = some pack ∧ ∃ c : Nat → LWE,
      (∀ i, (defaultParams.lwe 16).encrypt pack.lwe (masks i) (z i) (b i).toNat = some (c i)) ∧
      ∀ (plan : Nat → (Nat → LWE) → List Circuit) (g : Nat),
        (∀ t c, (plan t c).length ≤ g ∧ ∀ X ∈ plan t c, X.Single 2) → ∀ D : Nat,
        (renewedLaw ((evalLaw 16 defaultCtx defaultParams 132120577 10 10
            (defaultGaussLaws δ (draws (uniformBelow 132120577) (2 ^ 10))
              (draws (uniformBelow 132120577) (2 ^ 10)))).map fun d => EvalKey.new 16 defaultCtx defaultParams pack d)
          plan D 0 c).toOuterMeasure
          {r | ∃ log, r = some log ∧ AllRight ((defaultParams.lwe 16).decrypt .bool pack.lwe) b log}ᶜ ≤
        ENNReal.ofReal (3 * (D * g) * Real.exp (-14)) := by
  have hz' : ∀ i, |z i| ≤ 63 := by
    obtain ⟨s', hs', hb⟩ := C53_encryption_noise (rnd (16 / 5)) (by decide +kernel) 19 (by decide +kernel)
    obtain rfl := Option.some.inj (hs.symm.trans hs')
    intro i
    obtain ⟨x, hx, e⟩ := hz i
    rw [e]
    have := hb x hx
    push_cast at this
    linarith
  have hclog : Nat.clog 2 defaultParams.n = 10 := clog_eq (by decide) (by decide)
  have hred : ∀ a ∈ (draws (uniformBelow 132120577) (2 ^ 10)).support, Reduced 132120577 (2 ^ 10) a := fun a ha => by
    obtain ⟨x1, x2⟩ := mem_support_draws ha
    exact ⟨x1, fun v hv => mem_support_uniformBelow (x2 v hv)⟩
  obtain ⟨pack, ep, hend⟩ := C99_end_to_end default_gateParams default_stepsOk 3 default_basis (t := 2) (t' := 3)
    (by decide) (by decide) (fun _ => ⟨by rw [hclog]; decide, by decide⟩) dk (fun h => by cases h)
  obtain ⟨c, ec, hgs⟩ := hend (defaultGaussLaws δ (draws (uniformBelow 132120577) (2 ^ 10))
      (draws (uniformBelow 132120577) (2 ^ 10))) 49 0 49 (defaultGaussLaws_ok δ hδ _ _ hred hred) rfl
    (fun _ => by rw [hclog]; rfl) 49 1725000 (2 ^ 14) 63 2 le_rfl
    (by rw [show inError 10 10 (pack.lwe.map ternaryDigit) = 0 from if_pos (by decide)]; norm_num)
    (by
      change 2 ^ 10 * (4 * (((1725000 : Nat) : ℤ) + ((2 ^ 14 : Nat) : ℤ)) + 7) +
        2 * ((132120577 : Nat) : ℤ) * (1 + 2 * ((49 : Nat) : ℤ)) ≤ _
      norm_num) b masks z hm hz'
  refine ⟨pack, ep, c, ec, fun plan g hp D => (hgs plan g hp D).trans ?_⟩
  rw [if_neg (by decide)]
  have hB : Basis.new defaultCtx.w 132120577 defaultParams.keySwitchBits = some ⟨2, 27, 1, 1⟩ := default_switch_basis
  have hlv : rlweLevels defaultCtx defaultParams 132120577 = 27 := by unfold rlweLevels; rw [hB]; rfl
  have h1 : rotationTail defaultParams 10 49 (1725000 : Nat) ≤ ENNReal.ofReal (2 * Real.exp (-15)) := by
    unfold rotationTail
    rw [if_neg (by decide)]
    refine gaussTail_le ?_
    norm_num [defaultParams]
  have h2 : switchTail 16 defaultCtx defaultParams 132120577 10 10 0 49 (2 ^ 14 : Nat) ≤
      ENNReal.ofReal (2 * Real.exp (-65)) := by
    unfold switchTail
    rw [hlv]
    change gaussTail _ _ ≤ _
    refine gaussTail_le ?_
    norm_num [defaultParams]
  have htail : rotationTail defaultParams 10 49 (1725000 : Nat) +
      switchTail 16 defaultCtx defaultParams 132120577 10 10 0 49 (2 ^ 14 : Nat) +
      (gaussTail (defaultParams.n / 12) (49 : Nat) + accTail defaultParams 132120577 10 2 3) ≤
        ENNReal.ofReal (3 * Real.exp (-14)) := by
    refine (add_le_add (add_le_add h1 h2) (add_le_add (gaussTail_le (r := 14) (by norm_num [defaultParams]))
      default_accTail)).trans ?_
    rw [← ENNReal.ofReal_add (by positivity) (by positivity), ← ENNReal.ofReal_add (by positivity) (by positivity),
      ← ENNReal.ofReal_add (by positivity) (by positivity)]
    refine ENNReal.ofReal_le_ofReal ?_
    have e1 : ∀ x : ℝ, Real.exp (-14 - x) = Real.exp (-14) * Real.exp (-x) := fun x => by
      rw [← Real.exp_add]; ring_nf
    have hsmall : ∀ n : Nat, Real.exp (-(n : ℝ)) ≤ (2 / 5) ^ n := fun n => by
      rw [show -(n : ℝ) = n * (-1) by ring, Real.exp_nat_mul]
      refine pow_le_pow_left₀ (Real.exp_pos _).le ?_ _
      rw [Real.exp_neg]
      have := Real.exp_one_gt_d9
      refine (inv_anti₀ (by norm_num : (0 : ℝ) < 5 / 2) (by linarith)).trans (by norm_num)
    have f1 := hsmall 1
    have f51 := hsmall 51
    have f44 := hsmall 44
    rw [show (-15 : ℝ) = -14 - (1 : Nat) by norm_num, show (-65 : ℝ) = -14 - (51 : Nat) by norm_num,
      show (-58 : ℝ) = -14 - (44 : Nat) by norm_num, e1, e1, e1]
    have hpos := Real.exp_pos (-14)
    have hsum : 2 * Real.exp (-((1 : Nat) : ℝ)) + 2 * Real.exp (-((51 : Nat) : ℝ)) + (2 + Real.exp (-((44 : Nat) : ℝ))) ≤ 3 := by
      norm_num at f1 f51 f44 ⊢
      linarith
    have := mul_le_mul_of_nonneg_left hsum hpos.le
    linarith
  rw [← mul_assoc]
  refine (mul_le_mul_right htail _).trans (le_of_eq ?_)
  rw [← ENNReal.ofReal_natCast, ← ENNReal.ofReal_natCast, ← ENNReal.ofReal_mul (by positivity),
    ← ENNReal.ofReal_mul (by positivity)]
  congr 1
  ring

-- 100 layers of one gate with the default parameters, a normal law of standard deviation 6.4 with 40 binary places and all
-- masks and noises of the inputs zero. The gate is applied to the newest and the third newest ciphertext, and which gate it is
-- depends on a word of the newest ciphertext.
example [DefaultBuild] [NeZero 132120577] (dk : KeyDraws) (s : Sampler) (hs : noise (rnd (16 / 5)) = some s) (b : Nat → Bool) :
    ∃ pack, KeyPack.new defaultCtx defaultParams dk = some pack ∧ ∃ c : Nat → LWE,
      (∀ i, (defaultParams.lwe 16).encrypt pack.lwe (List.replicate 1024 0) 0 (b i).toNat = some (c i)) ∧
        (renewedLaw ((evalLaw 16 defaultCtx defaultParams 132120577 10 10
            (defaultGaussLaws (normalDeviates (32 / 5) 40) (draws (uniformBelow 132120577) (2 ^ 10))
              (draws (uniformBelow 132120577) (2 ^ 10)))).map fun d => EvalKey.new 16 defaultCtx defaultParams pack d)
          (fun _ c => [if (c 0).b = 0 then .nand (.input 0) (.input 2) else .xor (.input 0) (.input 2)])
          100 0 c).toOuterMeasure
          {r | ∃ log, r = some log ∧ AllRight ((defaultParams.lwe 16).decrypt .bool pack.lwe) b log}ᶜ ≤
        ENNReal.ofReal (300 * Real.exp (-14)) := by
  obtain ⟨pack, ep, c, ec, h⟩ := C99_default (normalDeviates (32 / 5) 40)
    (deviates_mono (C71_normal _ _) (by positivity) (by push_cast; norm_num)) dk b (fun _ => List.replicate 1024 0)
    (fun _ => 0) (fun _ => ⟨by rw [List.length_replicate], fun x hx => by rw [List.eq_of_mem_replicate hx]; decide⟩) s hs
    (fun _ => ⟨0, by
      have h0 : (noise (rnd (16 / 5))).all (fun s => accept s 0) = true := by decide +kernel
      rwa [hs] at h0, by decide +kernel⟩)
  refine ⟨pack, ep, c, ec, ?_⟩
  have := h (fun _ c => [if (c 0).b = 0 then .nand (.input 0) (.input 2) else .xor (.input 0) (.input 2)]) 1
    (fun t c => ⟨le_rfl, fun X hX => by
      rw [List.mem_singleton.1 hX]
      split_ifs <;> exact le_rfl⟩) 100
  norm_num at this ⊢
  exact this

-- What is asked of two layers: the second reads the result of the first at number 0 and the inputs from number 1 on
example (dec : LWE → Option Nat) (b : Nat → Bool) (x y : LWE) :
    AllRight dec b [[(.nand (.input 0) (.input 1), x)], [(.xor (.input 0) (.input 2), y)]] ↔
      dec x = some (!(b 0 && b 1)).toNat ∧ dec y = some ((!(b 0 && b 1)) != b 1).toNat := by
  simp [AllRight, prepend, Circuit.eval]

end Verif.Props
