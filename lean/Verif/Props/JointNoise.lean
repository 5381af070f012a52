import Verif.Props.AccGates
import Verif.SpecJoint

/-!
# C82: the noises of the rotation and of the key switching together

Concrete cases that meet the hypotheses are in `Props/JointDefaults.lean`.
-/

namespace Verif.Spec
open scoped ENNReal

/-- Two noises of which the second has bounded exponential moments whatever the first is: their magnitudes, weighted with
`a` and `b`, are jointly small. -/
theorem joint_tail {α : Type} {p : PMF α} {n1 n2 : α → ℤ} {V1 V2 S : ℝ} (h1 : 0 ≤ V1) (h2 : 0 ≤ V2) (hS : 0 ≤ S)
    (a b : Nat)
    (hm : ∀ s t : ℝ, (mean p fun x => eexp (s * n1 x + t * n2 x)) ≤ eexp (V1 * s ^ 2 / 2 + V2 * t ^ 2 / 2))
    (A : Set α) (hA : ∀ x ∈ p.support, a * ((n1 x).natAbs : ℝ) + b * ((n2 x).natAbs : ℝ) ≤ S → x ∈ A) :
    p.toOuterMeasure Aᶜ ≤ 2 * gaussTail ((a : ℝ) ^ 2 * V1 + (b : ℝ) ^ 2 * V2) S := by
  have hV : 0 ≤ (a : ℝ) ^ 2 * V1 + (b : ℝ) ^ 2 * V2 := by positivity
  have t1 := two_sided p (fun x => (a : ℝ) * n1 x + b * n2 x) hV (fun t => by
    refine le_trans (le_of_eq ?_) ((hm (t * a) (t * b)).trans (eexp_mono (le_of_eq ?_)))
    · congr 1; funext x; congr 1; ring
    · ring) hS
  have t2 := two_sided p (fun x => (a : ℝ) * n1 x - b * n2 x) hV (fun t => by
    refine le_trans (le_of_eq ?_) ((hm (t * a) (-(t * b))).trans (eexp_mono (le_of_eq ?_)))
    · congr 1; funext x; congr 1; ring
    · ring) hS
  rw [two_mul]
  refine le_trans (prob_mono (B := {x | S < |(a : ℝ) * n1 x + b * n2 x|} ∪ {x | S < |(a : ℝ) * n1 x - b * n2 x|})
    fun x hx hbad => ?_) ((MeasureTheory.measure_union_le _ _).trans (add_le_add t1 t2))
  by_contra hc
  replace hc : |(a : ℝ) * n1 x + b * n2 x| ≤ S ∧ |(a : ℝ) * n1 x - b * n2 x| ≤ S :=
    ⟨not_lt.1 fun h => hc (.inl h), not_lt.1 fun h => hc (.inr h)⟩
  refine hbad (hA x hx ?_)
  rw [Nat.cast_natAbs, Nat.cast_natAbs, Int.cast_abs, Int.cast_abs]
  have ha : (0 : ℝ) ≤ a := by positivity
  have hb : (0 : ℝ) ≤ b := by positivity
  rw [← abs_of_nonneg ha, ← abs_of_nonneg hb, ← abs_mul, ← abs_mul]
  obtain ⟨c1, c2⟩ := hc
  rw [abs_le] at c1 c2
  rcases abs_cases ((a : ℝ) * n1 x) with h | h <;> rcases abs_cases ((b : ℝ) * n2 x) with h' | h' <;> linarith

end Verif.Spec

namespace Verif.Props
open Fp Spec Ntt
open scoped ENNReal

section
variable {w : Nat} {R : Ctx} {P : Params} {Q k m : Nat} [Fact Q.Prime] (G : GateParams w R P Q k m)
include G

/-- The noise of the rotation as a function of the draws of the evaluation key. -/
theorem rotation_noise (hS : StepsOk R P Q k m) (bits : Nat) (hB : Basis.new R.w Q bits = some P.basis)
    (dk : KeyDraws) (hg : GaussOk P Q dk) (pack : KeyPack) (hp : KeyPack.new R P dk = some pack)
    (L : KeyLaws) (v vL vR : ℝ) (hL : L.Ok P Q k m v vL vR) (c : LWE) (hcl : c.a.length = P.n)
    (ha : ∀ x ∈ c.a, x < 2 * 2 ^ k) (hb : c.b < 2 * 2 ^ k) (lut : List Nat) (hl : Reduced Q (2 ^ k) lut) :
    ∃ noise : List BlindRotation.RgswDraw × List (BlindRotation.RgswDraw × BlindRotation.RgswDraw) → ℤ,
      (∀ t : ℝ, (mean (pair (draws (rgswLaw L.mask L.err (2 ^ k) P.basis.decomposeLen) P.n)
          (draws (pair (rgswLaw L.mask L.err (2 ^ k) P.basis.decomposeLen)
            (rgswLaw L.mask L.err (2 ^ k) P.basis.decomposeLen)) P.n)) fun x => eexp (t * noise x)) ≤
        eexp (rotationVariance P k v * t ^ 2 / 2)) ∧
      ∀ x ∈ (pair (draws (rgswLaw L.mask L.err (2 ^ k) P.basis.decomposeLen) P.n)
          (draws (pair (rgswLaw L.mask L.err (2 ^ k) P.basis.decomposeLen)
            (rgswLaw L.mask L.err (2 ^ k) P.basis.decomposeLen)) P.n)).support,
        ∃ rot r, (∀ l s, RotationKey.generate R P pack ⟨x.1, x.2, l, s⟩ = some rot) ∧ rot.rotate R lut c = some r ∧
          ringPhase0 Q (2 ^ k) pack.ring r (Nat.two_pow_pos k) =
            tableAt Q (2 ^ k) lut (intPhase (pack.lwe.map ternaryDigit) c.a c.b) + ((noise x : ℤ) : ZMod Q) := by
  have C : Config R.w Q R.M := ⟨G.field.even, G.field.conf⟩
  have hk : 0 < k := by have := G.two_le; omega
  obtain ⟨pack', ep, hlen, hw, hbin, hr, hn, hrk, hms⟩ := C52_key_pack G hS dk hg
  obtain rfl := Option.some.inj (ep.symm.trans hp)
  have hbits := (new_basis (by have := C.four_mul_lt; omega) hB).2.2.1
  cases ht : P.lweKeyType with
  | binary =>
    obtain ⟨noise, hm, l', el, hll, hd⟩ := rotate_noise hk G.field pack'.ring _ _ binaryDigit
      (BlindRotation.binaryKey R pack'.ringNtt P.basis) (BlindRotation.binaryGenerate R pack'.ringNtt P.basis)
      (fun l => by cases l <;> rfl) (fun _ _ _ _ => rfl) (BlindRotation.binaryStep R (2 ^ k))
      (binary_step_noise hk G.field bits P.basis hB pack'.ring pack'.ringNtt hr hn hL.err hL.nonneg hL.mask) pack'.lwe
      lut hl c (hcl.trans hlen.symm) ha hb
    rw [hlen] at hm hd
    refine ⟨fun x => noise x.1, fun t => ?_, fun x hx => ?_⟩
    · rw [mean_pair]
      simp only [mean_const]
      refine (hm t).trans (eexp_mono (le_of_eq ?_))
      unfold rotationVariance
      rw [ht, if_pos rfl, hbits]
    · obtain ⟨key, st, ek, es, hph⟩ := hd x.1 (mem_support_pair hx).1
      have hdig : pack'.lwe.map ternaryDigit = pack'.lwe.map binaryDigit :=
        List.map_congr_left fun v hv => by
          rcases hbin ht v hv with h | h <;> simp [h, ternaryDigit, binaryDigit]
      refine ⟨.binary key, st.acc, fun l s => ?_, ?_, by rw [hdig]; exact hph⟩
      · unfold RotationKey.generate
        rw [ht]
        simp only []
        rw [mbind ek]; rfl
      · change BlindRotation.binary R key lut c = _
        unfold BlindRotation.binary
        rw [mbind el, hll, mbind es]; rfl
  | ternary =>
    obtain ⟨tb, htb, htf⟩ : ∃ t, R.tbl k = some t ∧ Poly.tableFor R.tbl (2 ^ k) = some t := by
      obtain ⟨t, _, E⟩ := G.field.env hk
      exact ⟨t, E.tb, E.tableFor⟩
    obtain ⟨noise, hm, l', el, hll, hd⟩ := rotate_noise hk G.field pack'.ring _ _ ternaryDigit
      (BlindRotation.ternaryKey R pack'.ringNtt P.basis) (BlindRotation.ternaryGenerate R pack'.ringNtt P.basis)
      (fun l => by cases l <;> rfl) (fun _ _ _ _ => rfl) (BlindRotation.ternaryStep R tb (2 ^ k))
      (ternary_step_noise hk G.le G.field bits P.basis hB pack'.ring pack'.ringNtt hr hn tb htb hL.err hL.nonneg hL.mask)
      pack'.lwe lut hl c (hcl.trans hlen.symm) ha hb
    rw [hlen] at hm hd
    refine ⟨fun x => noise x.2, fun t => ?_, fun x hx => ?_⟩
    · rw [mean_pair]
      dsimp only
      rw [mean_const]
      refine (hm t).trans (eexp_mono (le_of_eq ?_))
      unfold rotationVariance
      rw [ht, if_neg (by decide), hbits]
    · obtain ⟨key, st, ek, es, hph⟩ := hd x.2 (mem_support_pair hx).2
      refine ⟨.ternary key, st.acc, fun l s => ?_, ?_, hph⟩
      · unfold RotationKey.generate
        rw [ht]
        simp only []
        rw [mbind ek]; rfl
      · change BlindRotation.ternary R key lut c = _
        unfold BlindRotation.ternary
        rw [hl.1, mbind htf, mbind el, hll, mbind es]; rfl

/-- The noises of the rotation and of the key switching as functions of the draws of the evaluation key, and their
exponential moments. The first is determined by the rotation key. -/
theorem run_noise_split (hS : StepsOk R P Q k m) (bits : Nat) (hB : Basis.new R.w Q bits = some P.basis)
    (dk : KeyDraws) (hg : GaussOk P Q dk) (pack : KeyPack) (hp : KeyPack.new R P dk = some pack)
    (Z : List ℤ) (hZ : KeyWords Q pack.ring Z)
    (hZt : P.ringKeyType ≠ .gaussian → Z = pack.ring.map ternaryDigit)
    (L : KeyLaws) (v vL vR : ℝ) (hL : L.Ok P Q k m v vL vR) (c : LWE) (hc : LWEReduced (2 ^ m) P.n c)
    (lut : List Nat) (hl : Reduced Q (2 ^ k) lut) :
    ∃ (n1 : List BlindRotation.RgswDraw × List (BlindRotation.RgswDraw × BlindRotation.RgswDraw) → ℤ) (n2 : EvalDraws → ℤ),
      (∀ t : ℝ, (mean (pair (draws (rgswLaw L.mask L.err (2 ^ k) P.basis.decomposeLen) P.n)
          (draws (pair (rgswLaw L.mask L.err (2 ^ k) P.basis.decomposeLen)
            (rgswLaw L.mask L.err (2 ^ k) P.basis.decomposeLen)) P.n)) fun x => eexp (t * n1 x)) ≤
        eexp (rotationVariance P k v * t ^ 2 / 2)) ∧
      (∀ s t : ℝ, (mean (evalLaw w R P Q k m L) fun d => eexp (s * n1 (d.binary, d.ternary) + t * n2 d)) ≤
        eexp (rotationVariance P k v * s ^ 2 / 2 + switchVariance w R P Q k m vL vR * t ^ 2 / 2)) ∧
      ∀ d ∈ (evalLaw w R P Q k m L).support, ∃ K, EvalKey.new w R P pack d = some K ∧
        ∀ ρ, K.OutRounding Q m (pack.lwe.map ternaryDigit) Z ρ c lut →
          K.RunNoise Q k m pack.lwe pack.ring (pack.lwe.map ternaryDigit) Z
            ⟨(n1 (d.binary, d.ternary)).natAbs, (n2 d).natAbs, inError k m (pack.lwe.map ternaryDigit), ρ⟩ c lut := by
  have C : Config R.w Q R.M := ⟨G.field.even, G.field.conf⟩
  have hQ := C.two_le
  have hk : 0 < k := by have := G.two_le; omega
  obtain ⟨pack', ep, hlen, hw, hb, hr, hn, hrk, hms⟩ := C52_key_pack G hS dk hg
  obtain rfl := Option.some.inj (ep.symm.trans hp)
  have hcS : LWEReduced (2 ^ m) (pack'.lwe.map ternaryDigit).length c := by rw [List.length_map, hlen]; exact hc
  obtain ⟨c₀, -, -, ec, hc0, -⟩ := switchIn_spec (K := ⟨w, R, P, .binary [], .none⟩) G
    (pack'.lwe.map ternaryDigit) hcS (Int.ModEq.refl _)
  have ec' : ∀ rot sw, EvalKey.switchIn ⟨w, R, P, rot, sw⟩ c = some c₀ := fun _ _ => ec
  have hc0l : c₀.a.length = P.n := by rw [hc0.1.1, List.length_map, hlen]
  have hV := fun d hd => evaluation_key G hS bits hB dk hg pack' ep Z hZ hZt Q (Q + 2 ^ m) d
    (evalLaw_ok (w := w) (by omega) hL hd)
  obtain ⟨n1, hm1, hd1⟩ := rotation_noise G hS bits hB dk hg pack' ep L v vL vR hL c₀ hc0l hc0.1.2 hc0.2 lut hl
  -- the key switching, for every rotation key
  have hsw : ∀ x ∈ (pair (draws (rgswLaw L.mask L.err (2 ^ k) P.basis.decomposeLen) P.n)
          (draws (pair (rgswLaw L.mask L.err (2 ^ k) P.basis.decomposeLen)
            (rgswLaw L.mask L.err (2 ^ k) P.basis.decomposeLen)) P.n)).support,
      ∃ n2 : (Nat → Nat → Nat → List Nat × Nat) × (Nat → List Draw) → ℤ,
        (∀ t : ℝ, (mean (pair (lweSwitchLaw L.maskLwe L.errLwe P.n (2 ^ P.keySwitchBits - 1) (2 ^ k)
            (lweLevels w P m)) (rlweSwitchLaw L.maskRlwe L.errRlwe (2 ^ Nat.clog 2 P.n) (rlweLevels R P Q)
            (2 ^ (k - Nat.clog 2 P.n)))) fun y => eexp (t * n2 y)) ≤
          eexp (switchVariance w R P Q k m vL vR * t ^ 2 / 2)) ∧
        ∀ y ∈ (pair (lweSwitchLaw L.maskLwe L.errLwe P.n (2 ^ P.keySwitchBits - 1) (2 ^ k)
            (lweLevels w P m)) (rlweSwitchLaw L.maskRlwe L.errRlwe (2 ^ Nat.clog 2 P.n) (rlweLevels R P Q)
            (2 ^ (k - Nat.clog 2 P.n)))).support,
          ∃ K, EvalKey.new w R P pack' ⟨x.1, x.2, y.1, y.2⟩ = some K ∧
            ∀ ρ, K.OutRounding Q m (pack'.lwe.map ternaryDigit) Z ρ c lut →
              K.RunNoise Q k m pack'.lwe pack'.ring (pack'.lwe.map ternaryDigit) Z
                ⟨(n1 x).natAbs, (n2 y).natAbs, inError k m (pack'.lwe.map ternaryDigit), ρ⟩ c lut := by
    intro x hx
    obtain ⟨rot, r, erot', er, hph⟩ := hd1 x hx
    have hph' : ∃ e : ℤ, |(e : ℝ)| ≤ ((n1 x).natAbs : ℝ) ∧ ringPhase0 Q (2 ^ k) pack'.ring r (Nat.two_pow_pos k) =
        tableAt Q (2 ^ k) lut (intPhase (pack'.lwe.map ternaryDigit) c₀.a c₀.b) + (e : ZMod Q) :=
      ⟨n1 x, by rw [Nat.cast_natAbs, Int.cast_abs], hph⟩
    have hV' : ∀ y ∈ (pair (lweSwitchLaw L.maskLwe L.errLwe P.n (2 ^ P.keySwitchBits - 1) (2 ^ k)
        (lweLevels w P m)) (rlweSwitchLaw L.maskRlwe L.errRlwe (2 ^ Nat.clog 2 P.n) (rlweLevels R P Q)
        (2 ^ (k - Nat.clog 2 P.n)))).support, ∃ sw, SwitchKey.generate w R P pack' ⟨x.1, x.2, y.1, y.2⟩ = some sw ∧
        EvalKey.Valid ⟨w, R, P, rot, sw⟩ Q k m pack'.lwe pack'.ring (pack'.lwe.map ternaryDigit) Z Q
          (Q + 2 ^ m) := fun y hy => by
      obtain ⟨rot', sw, e1, e2, hv⟩ := hV ⟨x.1, x.2, y.1, y.2⟩ (by
        unfold evalLaw
        simp only [PMF.mem_support_bind_iff, PMF.mem_support_map_iff]
        exact ⟨x, hx, y, hy, rfl⟩)
      obtain rfl := Option.some.inj (e1.symm.trans (erot' _ _))
      exact ⟨sw, e2, hv⟩
    obtain ⟨acc, hacc, hra, hrb⟩ : ∃ acc, (∀ sw, EvalKey.accumulate ⟨w, R, P, rot, sw⟩ c₀ lut = some acc) ∧
        Reduced Q (2 ^ k) acc.a ∧ Reduced Q (2 ^ k) acc.b := by
      obtain ⟨y, hy⟩ := (pair (lweSwitchLaw L.maskLwe L.errLwe P.n (2 ^ P.keySwitchBits - 1) (2 ^ k)
        (lweLevels w P m)) (rlweSwitchLaw L.maskRlwe L.errRlwe (2 ^ Nat.clog 2 P.n) (rlweLevels R P Q)
        (2 ^ (k - Nat.clog 2 P.n)))).support_nonempty
      obtain ⟨sw, -, hv⟩ := hV' y hy
      obtain ⟨r', er', _, _, hred⟩ := rotate_spec (K := ⟨w, R, P, rot, sw⟩) G hv hc0 hl
      obtain rfl : r = r' := Option.some.inj (er.symm.trans er')
      obtain ⟨acc, ea, hra, hrb, -⟩ := addEighth_spec (K := ⟨w, R, P, rot, sw⟩) (z := pack'.ring) G hred.a hred.b
      refine ⟨acc, fun sw => ?_, hra, hrb⟩
      unfold EvalKey.accumulate
      rw [mbind er, ea]
    have hmk : ∀ {l s sw}, SwitchKey.generate w R P pack' ⟨x.1, x.2, l, s⟩ = some sw →
        EvalKey.new w R P pack' ⟨x.1, x.2, l, s⟩ = some ⟨w, R, P, rot, sw⟩ := fun {l s sw} e => by
      unfold EvalKey.new
      rw [mbind (erot' _ _), mbind e]; rfl
    unfold switchVariance
    cases hst : P.steps with
    | brMsKs =>
      simp only []
      have hS' := hS
      unfold StepsOk at hS'
      rw [hst] at hS'
      obtain ⟨M, hM, eO⟩ := G.lwe.ops
      obtain ⟨t, et, ht⟩ : ∃ t, (∀ sw, EvalKey.extractSwitch ⟨w, R, P, rot, sw⟩ acc = some t) ∧
          LWEReduced (2 ^ m) (2 ^ k) t := by
        obtain ⟨x', ex', hx', -⟩ := extract_spec (K := ⟨w, R, P, rot, .none⟩) G hr hra hrb
        obtain ⟨t, et, -, ht, -⟩ := switchOut_eq (K := ⟨w, R, P, rot, .none⟩) G hx'
        refine ⟨t, fun sw => ?_, ht⟩
        have hPq : P.q = 2 ^ m := G.lwe.q
        unfold EvalKey.extractSwitch
        rw [mbind ex', C.value, hPq]
        exact et
      obtain ⟨B, eB, n2, hm2, hd2⟩ := lwe_switch_noise (u := L.maskLwe) (χ := L.errLwe) w m P.keySwitchBits
        (by have := G.lwe.lt; omega) G.lwe.fits M hM hS'.2.1 hS'.2.2 pack'.lwe pack'.ring hL.errLwe
        hL.nonnegLwe (by rw [hlen]; exact hL.maskLwe) t (by rw [hr.1]; exact ht)
      have hlv : lweLevels w P m = B.decomposeLen := by unfold lweLevels; rw [eB]; rfl
      rw [hlen, hr.1, ← hlv] at hm2 hd2
      refine ⟨fun y => n2 y.1, fun t => ?_, fun y hy => ?_⟩
      · rw [mean_pair]
        simp only [mean_const]
        exact hm2 t
      · obtain ⟨key, y', ek, ey, he⟩ := hd2 y.1 (mem_support_pair hy).1
        obtain ⟨sw, esw, hv⟩ := hV' y hy
        refine ⟨_, hmk esw, fun ρ ho => ?_⟩
        refine runNoise_of_steps (K := ⟨w, R, P, rot, sw⟩) G hv hcS hl (ec' _ _) er (hacc _) hph'
          (fun x1 y1 B1 dim1 key1 O1 _ h1 h2 h3 h4 => ?_) (fun _ _ _ h => by rw [hst] at h; cases h) ho
        obtain rfl : t = x1 := Option.some.inj ((et sw).symm.trans h1)
        obtain rfl := Option.some.inj (eO.symm.trans h3)
        have : sw = .lwe B P.n key := by
          have hPq : P.q = 2 ^ m := G.lwe.q
          unfold SwitchKey.generate at esw
          rw [hst] at esw
          simp only [] at esw
          rw [mbind eO, hPq, show (P.lwe w).w = w from rfl, mbind ek] at esw
          exact (Option.some.inj esw).symm
        rw [this] at h2
        obtain ⟨rfl, rfl, rfl⟩ := SwitchKey.lwe.inj h2
        obtain rfl : y' = y1 := Option.some.inj (ey.symm.trans h4)
        rw [hZt hS'.1]
        exact ⟨n2 y.1, by rw [Nat.cast_natAbs, Int.cast_abs], he⟩
    | brKsMs =>
      simp only []
      have hS' := hS
      unfold StepsOk at hS'
      rw [hst] at hS'
      obtain ⟨k', B, hk', hkk, g1, g2, F', eB⟩ := hS'
      have hclog := clog_eq g1 g2
      have hpow : 2 ^ (k - k') * 2 ^ k' = 2 ^ k := by rw [← pow_add]; congr 1; omega
      have hlv : rlweLevels R P Q = B.decomposeLen := by unfold rlweLevels; rw [eB]; rfl
      obtain ⟨n2, hm2, hd2⟩ := rlwe_switch_noise (u := L.maskRlwe) (χ := L.errRlwe) hk' F' P.keySwitchBits B eB pack'.lwe
        (by rw [hlen]; exact g1) (by rw [hlen]; exact g2) (2 ^ (k - k')) (Nat.two_pow_pos _) (2 ^ k) hpow
        (Nat.two_pow_pos k) pack'.ring pack'.ringNtt hr hn hL.errRlwe hL.nonnegRlwe
        (by rw [← hclog]; exact hL.maskRlwe) acc hra hrb
      rw [hclog, hlv] at hV' ⊢
      refine ⟨fun y => n2 y.2, fun t => ?_, fun y hy => ?_⟩
      · rw [mean_pair]
        dsimp only
        rw [mean_const]
        refine (hm2 t).trans (eexp_mono (le_of_eq ?_))
        rw [← hpow]; push_cast; ring
      · obtain ⟨key, y', ek, ey, he⟩ := hd2 y.2 (mem_support_pair hy).2
        obtain ⟨sw, esw, hv⟩ := hV' y hy
        refine ⟨_, hmk esw, fun ρ ho => ?_⟩
        refine runNoise_of_steps (K := ⟨w, R, P, rot, sw⟩) G hv hcS hl (ec' _ _) er (hacc _) hph'
          (fun _ _ _ _ _ _ h => by rw [hst] at h; cases h) (fun y1 dim1 key1 _ h1 h2 => ?_) ho
        have : sw = .rlwe P.n key := by
          unfold SwitchKey.generate at esw
          rw [hst] at esw
          simp only [] at esw
          rw [mbind ek] at esw
          exact (Option.some.inj esw).symm
        rw [this] at h1
        obtain ⟨rfl, rfl⟩ := SwitchKey.rlwe.inj h1
        rw [hlen] at ey
        obtain rfl : y' = y1 := Option.some.inj (ey.symm.trans h2)
        exact ⟨n2 y.2, by rw [Nat.cast_natAbs, Int.cast_abs], he⟩
    | brMs =>
      simp only []
      refine ⟨fun _ => 0, fun t => ?_, fun y hy => ?_⟩
      · simp only [Int.cast_zero, mul_zero, mean_const]
        exact eexp_mono (by simp)
      · obtain ⟨sw, esw, hv⟩ := hV' y hy
        exact ⟨_, hmk esw, fun ρ ho => runNoise_of_steps (K := ⟨w, R, P, rot, sw⟩) G hv hcS hl (ec' _ _) er
          (hacc _) hph' (fun _ _ _ _ _ _ h => by rw [hst] at h; cases h)
          (fun _ _ _ h => by rw [hst] at h; cases h) ho⟩
  classical
  choose! n2 hm2 hd2 using hsw
  refine ⟨n1, fun d => n2 (d.binary, d.ternary) (d.lwe, d.rlwe), hm1, fun s t => ?_, fun d hd => ?_⟩
  · unfold evalLaw
    rw [mean_bind]
    refine le_trans (mean_mono (g := fun x => eexp (s * n1 x) * eexp (switchVariance w R P Q k m vL vR * t ^ 2 / 2))
      fun x hx => ?_) ?_
    · rw [mean_map]
      dsimp only
      simp only [eexp_add, mean_mul_left]
      exact mul_le_mul_right (hm2 x hx t) _
    · rw [mean_mul_right, eexp_add]
      exact mul_le_mul_left (hm1 s) _
  · unfold evalLaw at hd
    simp only [PMF.mem_support_bind_iff, PMF.mem_support_map_iff] at hd
    obtain ⟨x, hx, y, hy, rfl⟩ := hd
    exact hd2 x hx y hy

/-- The noises of the rotation and of the key switching as functions of the draws of the evaluation key, and their
exponential moments. -/
theorem run_noise (hS : StepsOk R P Q k m) (bits : Nat) (hB : Basis.new R.w Q bits = some P.basis)
    (dk : KeyDraws) (hg : GaussOk P Q dk) (pack : KeyPack) (hp : KeyPack.new R P dk = some pack)
    (Z : List ℤ) (hZ : KeyWords Q pack.ring Z)
    (hZt : P.ringKeyType ≠ .gaussian → Z = pack.ring.map ternaryDigit)
    (L : KeyLaws) (v vL vR : ℝ) (hL : L.Ok P Q k m v vL vR) (c : LWE) (hc : LWEReduced (2 ^ m) P.n c)
    (lut : List Nat) (hl : Reduced Q (2 ^ k) lut) :
    ∃ n1 n2 : EvalDraws → ℤ,
      (∀ s t : ℝ, (mean (evalLaw w R P Q k m L) fun d => eexp (s * n1 d + t * n2 d)) ≤
        eexp (rotationVariance P k v * s ^ 2 / 2 + switchVariance w R P Q k m vL vR * t ^ 2 / 2)) ∧
      ∀ d ∈ (evalLaw w R P Q k m L).support, ∃ K, EvalKey.new w R P pack d = some K ∧
        ∀ ρ, K.OutRounding Q m (pack.lwe.map ternaryDigit) Z ρ c lut →
          K.RunNoise Q k m pack.lwe pack.ring (pack.lwe.map ternaryDigit) Z
            ⟨(n1 d).natAbs, (n2 d).natAbs, inError k m (pack.lwe.map ternaryDigit), ρ⟩ c lut := by
  obtain ⟨n1, n2, -, h⟩ := run_noise_split G hS bits hB dk hg pack hp Z hZ hZt L v vL vR hL c hc lut hl
  exact ⟨fun d => n1 (d.binary, d.ternary), n2, h⟩

section
variable [NeZero Q] (hS : StepsOk R P Q k m) (bits : Nat)
    (hB : Basis.new R.w Q bits = some P.basis) {t t' : Nat} (ht : t ≤ k) (hq : (2 ^ t * (2 ^ bits - 1)) ^ 2 ^ t < Q)
    (ht' : P.steps = .brKsMs → t' ≤ Nat.clog 2 P.n ∧ (2 ^ t' * (2 ^ P.keySwitchBits - 1)) ^ 2 ^ t' < Q)
    (dk : KeyDraws) (hg : GaussOk P Q dk) (pack : KeyPack) (hp : KeyPack.new R P dk = some pack)
    (Z : List ℤ) (hZ : KeyWords Q pack.ring Z)
    (hZt : P.ringKeyType ≠ .gaussian → Z = pack.ring.map ternaryDigit)
    (L : KeyLaws) (v vL vR : ℝ) (hL : L.Ok P Q k m v vL vR)
    (hm : L.mask = draws (uniformBelow Q) (2 ^ k))
    (hm' : P.steps = .brKsMs → L.maskRlwe = draws (uniformBelow Q) (2 ^ Nat.clog 2 P.n))
    (V : ℝ) (hV : (((if P.steps = .brMsKs then Z else pack.lwe.map ternaryDigit).map fun z => z ^ 2).sum : ℤ) ≤ 12 * V)
    (S T : Nat)
include hS hB ht hq ht' hg hp hZ hZt hL hm hm' hV

/-- C82: one bootstrapping. The noises of the rotation and of the key switching are bounded together: `2^m β` plus `Q κ` (or
`2^m κ`) is at most `S`, except with the stated probability. -/
theorem C82_run (c : LWE) (hc : LWEReduced (2 ^ m) P.n c) (lut : List Nat) (hl : Reduced Q (2 ^ k) lut)
    (hu : TableUnit Q (2 ^ k) lut) :
    (evalLaw w R P Q k m L).toOuterMeasure
      {d | ∃ K, EvalKey.new w R P pack d = some K ∧ ∃ β κ : Nat, 2 ^ m * β + switchFactor P.steps Q m * κ ≤ S ∧
        K.RunNoise Q k m pack.lwe pack.ring (pack.lwe.map ternaryDigit) Z
          ⟨β, κ, inError k m (pack.lwe.map ternaryDigit), 1 + 2 * T⟩ c lut}ᶜ ≤
    jointTail w R P Q k m v vL vR S + (gaussTail V T + accTail P Q k t t') := by
  obtain ⟨n1, n2, hmm, hd⟩ := run_noise G hS bits hB dk hg pack hp Z hZ hZt L v vL vR hL c hc lut hl
  have hr0 : 0 ≤ rotationVariance P k v := by
    unfold rotationVariance
    have := hL.nonneg
    split_ifs <;> positivity
  have hs0 : 0 ≤ switchVariance w R P Q k m vL vR := by
    unfold switchVariance
    have := hL.nonnegLwe
    have := hL.nonnegRlwe
    split <;> positivity
  have h1 : (evalLaw w R P Q k m L).toOuterMeasure {d | ∃ K, EvalKey.new w R P pack d = some K ∧
      ∃ β κ : Nat, 2 ^ m * β + switchFactor P.steps Q m * κ ≤ S ∧
        ∀ ρ, K.OutRounding Q m (pack.lwe.map ternaryDigit) Z ρ c lut →
          K.RunNoise Q k m pack.lwe pack.ring (pack.lwe.map ternaryDigit) Z
            ⟨β, κ, inError k m (pack.lwe.map ternaryDigit), ρ⟩ c lut}ᶜ ≤ jointTail w R P Q k m v vL vR S := by
    refine joint_tail hr0 hs0 (Nat.cast_nonneg S) (2 ^ m) (switchFactor P.steps Q m) hmm _ fun d hdd hle => ?_
    obtain ⟨K, eK, h⟩ := hd d hdd
    exact ⟨K, eK, _, _, by exact_mod_cast hle, h⟩
  refine le_trans (prob_mono ?_) (both_failures h1
    (C75_rounding G hS bits hB ht hq ht' dk hg pack hp Z hZ hZt L v vL vR hL hm hm' c hc lut hl hu V hV T))
  intro d _ hbad hgood
  refine hbad ?_
  obtain ⟨K, eK, ⟨β, κ, hle, h⟩, h'⟩ := hgood
  exact ⟨K, eK, β, κ, hle, h _ h'⟩

theorem gate_joint (c : LWE) (hc : LWEReduced (2 ^ m) P.n c) (lut : Ctx → Nat → Nat → Option (List Nat))
    (hlut : ∀ step l, P.lutStep = some step → lut R P.ringDimension step = some l →
      Reduced Q (2 ^ k) l ∧ TableUnit Q (2 ^ k) l)
    (gate : EvalKey → Option LWE) (x : Bool)
    (hA : ∀ rot sw β κ, EvalKey.Valid ⟨w, R, P, rot, sw⟩ Q k m pack.lwe pack.ring (pack.lwe.map ternaryDigit) Z Q
        (Q + 2 ^ m) →
      (∀ step l, P.lutStep = some step → lut R P.ringDimension step = some l →
          EvalKey.RunNoise ⟨w, R, P, rot, sw⟩ Q k m pack.lwe pack.ring (pack.lwe.map ternaryDigit) Z
            ⟨β, κ, inError k m (pack.lwe.map ternaryDigit), 1 + 2 * T⟩ c l) →
      EvalKey.Refreshed ⟨w, R, P, rot, sw⟩ Q m pack.lwe ⟨β, κ, inError k m (pack.lwe.map ternaryDigit), 1 + 2 * T⟩
        (gate ⟨w, R, P, rot, sw⟩) x) :
    (evalLaw w R P Q k m L).toOuterMeasure {d | ∃ K, EvalKey.new w R P pack d = some K ∧
      EncryptsWithin w P Q m pack.lwe (jointError Q m S T) (gate K) x}ᶜ ≤
    jointTail w R P Q k m v vL vR S + (gaussTail V T + accTail P Q k t t') := by
  have C : Config R.w Q R.M := ⟨G.field.even, G.field.conf⟩
  have hQ := C.two_le
  have hval : ∀ d ∈ (evalLaw w R P Q k m L).support, ∃ rot sw,
      EvalKey.new w R P pack d = some ⟨w, R, P, rot, sw⟩ ∧
      EvalKey.Valid ⟨w, R, P, rot, sw⟩ Q k m pack.lwe pack.ring (pack.lwe.map ternaryDigit) Z Q
        (Q + 2 ^ m) := fun d hd => by
    obtain ⟨rot, sw, e1, e2, V⟩ := evaluation_key G hS bits hB dk hg pack hp Z hZ hZt Q (Q + 2 ^ m) d
      (evalLaw_ok (w := w) (by omega) hL hd)
    refine ⟨rot, sw, ?_, V⟩
    unfold EvalKey.new
    rw [mbind e1, mbind e2]; rfl
  have hfin : ∀ rot sw (β κ : Nat), 2 ^ m * β + switchFactor P.steps Q m * κ ≤ S →
      EvalKey.Refreshed ⟨w, R, P, rot, sw⟩ Q m pack.lwe ⟨β, κ, inError k m (pack.lwe.map ternaryDigit), 1 + 2 * T⟩
        (gate ⟨w, R, P, rot, sw⟩) x →
      EncryptsWithin w P Q m pack.lwe (jointError Q m S T) (gate ⟨w, R, P, rot, sw⟩) x := by
    intro rot sw β κ hle ⟨out, e, h1, h2, h3, h4, h5⟩
    have hE : outError P.steps Q m ⟨β, κ, inError k m (pack.lwe.map ternaryDigit), 1 + 2 * T⟩ ≤ jointError Q m S T := by
      have hle' : (2 : ℤ) ^ m * β + switchFactor P.steps Q m * κ ≤ S := by exact_mod_cast hle
      have hk0 : (0 : ℤ) ≤ 2 ^ m * κ := by positivity
      unfold switchFactor at hle'
      unfold outError jointError
      cases hst : P.steps <;> rw [hst] at hle' <;> simp at hle' ⊢ <;> nlinarith
    exact ⟨out, e, h1, h2, h3, h4.trans hE, fun h => h5 (lt_of_le_of_lt (by dsimp only; linarith) h)⟩
  by_cases hex : ∃ step l, P.lutStep = some step ∧ lut R P.ringDimension step = some l
  · obtain ⟨step, l, es, el⟩ := hex
    refine le_trans (prob_mono ?_)
      (C82_run G hS bits hB ht hq ht' dk hg pack hp Z hZ hZt L v vL vR hL hm hm' V hV S T c hc l (hlut step l es el).1
        (hlut step l es el).2)
    intro d hd hbad hgood
    refine hbad ?_
    obtain ⟨K, eK, β, κ, hle, h2⟩ := hgood
    obtain ⟨rot, sw, eK', V⟩ := hval d hd
    obtain rfl := Option.some.inj (eK.symm.trans eK')
    refine ⟨_, eK, hfin rot sw β κ hle (hA rot sw β κ V fun step' l' es' el' => ?_)⟩
    obtain rfl : step = step' := Option.some.inj (es.symm.trans es')
    obtain rfl : l = l' := Option.some.inj (el.symm.trans el')
    exact h2
  · refine le_trans (le_of_eq ?_) zero_le
    rw [PMF.toOuterMeasure_apply_eq_zero_iff, Set.disjoint_left]
    intro d hd hbad
    obtain ⟨rot, sw, eK, V⟩ := hval d hd
    exact hbad ⟨_, eK, hfin rot sw 0 0 (by simp) (hA rot sw 0 0 V fun step l es el => absurd ⟨step, l, es, el⟩ hex)⟩

/-- C82: `majority`. -/
theorem C82_majority (c0 c1 c2 : LWE) (h0 : LWEReduced (2 ^ m) P.n c0) (h1 : LWEReduced (2 ^ m) P.n c1)
    (h2 : LWEReduced (2 ^ m) P.n c2) (a b c : Bool) (e0 e1 e2 : ℤ)
    (p0 : EncryptsBit (2 ^ m) pack.lwe c0 a e0)
    (p1 : EncryptsBit (2 ^ m) pack.lwe c1 b e1) (p2 : EncryptsBit (2 ^ m) pack.lwe c2 c e2)
    (hn : 8 * 2 ^ k * |e0 + e1 + e2| + 2 * 2 ^ m * inError k m (pack.lwe.map ternaryDigit) < 2 ^ k * 2 ^ m) :
    (evalLaw w R P Q k m L).toOuterMeasure {d | ∃ K, EvalKey.new w R P pack d = some K ∧
      EncryptsWithin w P Q m pack.lwe (jointError Q m S T) (K.majority c0 c1 c2) (maj a b c)}ᶜ ≤
    jointTail w R P Q k m v vL vR S + (gaussTail V T + accTail P Q k t t') := by
  have hlen := pack_length G hS dk hg pack hp
  obtain ⟨O, eO, hO⟩ := gate_ops (K := ⟨w, R, P, .binary [], .none⟩) G
  obtain ⟨x, ex, -, hx, -⟩ := C33_add (2 ^ m) P.n O hO c0 c1 h0 h1
  obtain ⟨y, -, ey, hy, -⟩ := C33_add (2 ^ m) P.n O hO x c2 hx h2
  refine gate_joint G hS bits hB ht hq ht' dk hg pack hp Z hZ hZt L v vL vR hL hm hm' V hV S T y hy Lut.andMajority
    (fun step l es h => lut_facts G es (.inr (.inl h))) (fun K => K.majority c0 c1 c2) _ fun rot sw β κ V h => ?_
  refine C44_majority G V (by rw [hlen]; exact h0) (by rw [hlen]; exact h1) (by rw [hlen]; exact h2) p0 p1 p2 hn ?_
  intro O' x' y' step l eO' ex' ey' es el
  obtain rfl := Option.some.inj (eO.symm.trans eO')
  obtain rfl := Option.some.inj (ex.symm.trans ex')
  obtain rfl := Option.some.inj (ey.symm.trans ey')
  exact h step l es el

variable (c0 c1 : LWE) (h0 : LWEReduced (2 ^ m) P.n c0) (h1 : LWEReduced (2 ^ m) P.n c1)
include h0 h1

theorem sum_joint (lut : Ctx → Nat → Nat → Option (List Nat))
    (hlut : ∀ step l, P.lutStep = some step → lut R P.ringDimension step = some l →
      Reduced Q (2 ^ k) l ∧ TableUnit Q (2 ^ k) l)
    (gate : EvalKey → Option LWE) (x : Bool)
    (hgate : ∀ rot sw β κ, EvalKey.Valid ⟨w, R, P, rot, sw⟩ Q k m pack.lwe pack.ring (pack.lwe.map ternaryDigit) Z Q
        (Q + 2 ^ m) →
      EvalKey.SumNoise ⟨w, R, P, rot, sw⟩ Q k m pack.lwe pack.ring (pack.lwe.map ternaryDigit) Z
        ⟨β, κ, inError k m (pack.lwe.map ternaryDigit), 1 + 2 * T⟩ lut c0 c1 →
      EvalKey.Refreshed ⟨w, R, P, rot, sw⟩ Q m pack.lwe ⟨β, κ, inError k m (pack.lwe.map ternaryDigit), 1 + 2 * T⟩
        (gate ⟨w, R, P, rot, sw⟩) x) :
    (evalLaw w R P Q k m L).toOuterMeasure {d | ∃ K, EvalKey.new w R P pack d = some K ∧
      EncryptsWithin w P Q m pack.lwe (jointError Q m S T) (gate K) x}ᶜ ≤
    jointTail w R P Q k m v vL vR S + (gaussTail V T + accTail P Q k t t') := by
  obtain ⟨O, eO, hO⟩ := gate_ops (K := ⟨w, R, P, .binary [], .none⟩) G
  obtain ⟨c, ec, -, hc, -⟩ := C33_add (2 ^ m) P.n O hO c0 c1 h0 h1
  refine gate_joint G hS bits hB ht hq ht' dk hg pack hp Z hZ hZt L v vL vR hL hm hm' V hV S T c hc lut hlut gate x
    fun rot sw β κ V h => hgate rot sw β κ V ?_
  intro O' c' step l eO' ec' es el
  obtain rfl := Option.some.inj (eO.symm.trans eO')
  obtain rfl := Option.some.inj (ec.symm.trans ec')
  exact h step l es el

theorem diff_joint (lut : Ctx → Nat → Nat → Option (List Nat))
    (hlut : ∀ step l, P.lutStep = some step → lut R P.ringDimension step = some l →
      Reduced Q (2 ^ k) l ∧ TableUnit Q (2 ^ k) l)
    (gate : EvalKey → Option LWE) (x : Bool)
    (hgate : ∀ rot sw β κ, EvalKey.Valid ⟨w, R, P, rot, sw⟩ Q k m pack.lwe pack.ring (pack.lwe.map ternaryDigit) Z Q
        (Q + 2 ^ m) →
      EvalKey.DiffNoise ⟨w, R, P, rot, sw⟩ Q k m pack.lwe pack.ring (pack.lwe.map ternaryDigit) Z
        ⟨β, κ, inError k m (pack.lwe.map ternaryDigit), 1 + 2 * T⟩ lut c0 c1 →
      EvalKey.Refreshed ⟨w, R, P, rot, sw⟩ Q m pack.lwe ⟨β, κ, inError k m (pack.lwe.map ternaryDigit), 1 + 2 * T⟩
        (gate ⟨w, R, P, rot, sw⟩) x) :
    (evalLaw w R P Q k m L).toOuterMeasure {d | ∃ K, EvalKey.new w R P pack d = some K ∧
      EncryptsWithin w P Q m pack.lwe (jointError Q m S T) (gate K) x}ᶜ ≤
    jointTail w R P Q k m v vL vR S + (gaussTail V T + accTail P Q k t t') := by
  obtain ⟨O, eO, hO⟩ := gate_ops (K := ⟨w, R, P, .binary [], .none⟩) G
  have h2 : 2 < 2 ^ m := by
    have := G.lwe.lt
    calc 2 < 2 ^ 2 := by decide
      _ ≤ 2 ^ m := Nat.pow_le_pow_right (by decide) (by omega)
  obtain ⟨c, ec, -, hc, -⟩ := C33_sub (2 ^ m) P.n O hO c0 c1 h0 h1
  obtain ⟨c', ec', hc', -⟩ := (C33_scalar_neg (2 ^ m) P.n O hO c hc 2 h2).1
  refine gate_joint G hS bits hB ht hq ht' dk hg pack hp Z hZ hZt L v vL vR hL hm hm' V hV S T c' hc' lut hlut gate x
    fun rot sw β κ V h => hgate rot sw β κ V ?_
  intro O1 c1 c1' step l eO1 ec1 ec1' es el
  obtain rfl := Option.some.inj (eO.symm.trans eO1)
  obtain rfl := Option.some.inj (ec.symm.trans ec1)
  obtain rfl := Option.some.inj (ec'.symm.trans ec1')
  exact h step l es el

variable (a b : Bool) (e0 e1 : ℤ) (p0 : EncryptsBit (2 ^ m) pack.lwe c0 a e0)
  (p1 : EncryptsBit (2 ^ m) pack.lwe c1 b e1)
include p0 p1

/-- C82: `nand` of two bits that were encrypted without knowledge of the evaluation key: a ciphertext of the right bit whose
noise is at most `jointError / (4Q)`, except with the stated probability over the draws of the evaluation key. -/
theorem C82_nand
    (hn : 8 * 2 ^ k * |e0 + e1| + 2 * 2 ^ m * inError k m (pack.lwe.map ternaryDigit) < 2 ^ k * 2 ^ m) :
    (evalLaw w R P Q k m L).toOuterMeasure {d | ∃ K, EvalKey.new w R P pack d = some K ∧
      EncryptsWithin w P Q m pack.lwe (jointError Q m S T) (K.nand c0 c1) (!(a && b))}ᶜ ≤
    jointTail w R P Q k m v vL vR S + (gaussTail V T + accTail P Q k t t') := by
  have hlen := pack_length G hS dk hg pack hp
  exact sum_joint G hS bits hB ht hq ht' dk hg pack hp Z hZ hZt L v vL vR hL hm hm' V hV S T c0 c1 h0 h1 Lut.nand
    (fun step l es h => lut_facts G es (.inl h)) (fun K => K.nand c0 c1) _ fun rot sw β κ V hrun =>
      C44_nand G V (by rw [hlen]; exact h0) (by rw [hlen]; exact h1) p0 p1 hn hrun

/-- C82: `and`. -/
theorem C82_and
    (hn : 8 * 2 ^ k * |e0 + e1| + 2 * 2 ^ m * inError k m (pack.lwe.map ternaryDigit) < 2 ^ k * 2 ^ m) :
    (evalLaw w R P Q k m L).toOuterMeasure {d | ∃ K, EvalKey.new w R P pack d = some K ∧
      EncryptsWithin w P Q m pack.lwe (jointError Q m S T) (K.and c0 c1) (a && b)}ᶜ ≤
    jointTail w R P Q k m v vL vR S + (gaussTail V T + accTail P Q k t t') := by
  have hlen := pack_length G hS dk hg pack hp
  exact sum_joint G hS bits hB ht hq ht' dk hg pack hp Z hZ hZt L v vL vR hL hm hm' V hV S T c0 c1 h0 h1 Lut.andMajority
    (fun step l es h => lut_facts G es (.inr (.inl h))) (fun K => K.and c0 c1) _ fun rot sw β κ V hrun =>
      C44_and G V (by rw [hlen]; exact h0) (by rw [hlen]; exact h1) p0 p1 hn hrun

/-- C82: `or`. -/
theorem C82_or
    (hn : 8 * 2 ^ k * |e0 + e1| + 2 * 2 ^ m * inError k m (pack.lwe.map ternaryDigit) < 2 ^ k * 2 ^ m) :
    (evalLaw w R P Q k m L).toOuterMeasure {d | ∃ K, EvalKey.new w R P pack d = some K ∧
      EncryptsWithin w P Q m pack.lwe (jointError Q m S T) (K.or c0 c1) (a || b)}ᶜ ≤
    jointTail w R P Q k m v vL vR S + (gaussTail V T + accTail P Q k t t') := by
  have hlen := pack_length G hS dk hg pack hp
  exact sum_joint G hS bits hB ht hq ht' dk hg pack hp Z hZ hZt L v vL vR hL hm hm' V hV S T c0 c1 h0 h1 Lut.or
    (fun step l es h => lut_facts G es (.inr (.inr (.inl h)))) (fun K => K.or c0 c1) _ fun rot sw β κ V hrun =>
      C44_or G V (by rw [hlen]; exact h0) (by rw [hlen]; exact h1) p0 p1 hn hrun

/-- C82: `nor`. -/
theorem C82_nor
    (hn : 8 * 2 ^ k * |e0 + e1| + 2 * 2 ^ m * inError k m (pack.lwe.map ternaryDigit) < 2 ^ k * 2 ^ m) :
    (evalLaw w R P Q k m L).toOuterMeasure {d | ∃ K, EvalKey.new w R P pack d = some K ∧
      EncryptsWithin w P Q m pack.lwe (jointError Q m S T) (K.nor c0 c1) (!(a || b))}ᶜ ≤
    jointTail w R P Q k m v vL vR S + (gaussTail V T + accTail P Q k t t') := by
  have hlen := pack_length G hS dk hg pack hp
  exact sum_joint G hS bits hB ht hq ht' dk hg pack hp Z hZ hZt L v vL vR hL hm hm' V hV S T c0 c1 h0 h1 Lut.nor
    (fun step l es h => lut_facts G es (.inr (.inr (.inr (.inl h))))) (fun K => K.nor c0 c1) _ fun rot sw β κ V hrun =>
      C44_nor G V (by rw [hlen]; exact h0) (by rw [hlen]; exact h1) p0 p1 hn hrun

/-- C82: `xor`. -/
theorem C82_xor
    (hn : 8 * 2 ^ k * |e0 - e1| + 2 ^ m * inError k m (pack.lwe.map ternaryDigit) < 2 ^ k * 2 ^ m) :
    (evalLaw w R P Q k m L).toOuterMeasure {d | ∃ K, EvalKey.new w R P pack d = some K ∧
      EncryptsWithin w P Q m pack.lwe (jointError Q m S T) (K.xor c0 c1) (a ^^ b)}ᶜ ≤
    jointTail w R P Q k m v vL vR S + (gaussTail V T + accTail P Q k t t') := by
  have hlen := pack_length G hS dk hg pack hp
  exact diff_joint G hS bits hB ht hq ht' dk hg pack hp Z hZ hZt L v vL vR hL hm hm' V hV S T c0 c1 h0 h1 Lut.xor
    (fun step l es h => lut_facts G es (.inr (.inr (.inr (.inr (.inl h)))))) (fun K => K.xor c0 c1) _ fun rot sw β κ V hrun =>
      C44_xor G V (by rw [hlen]; exact h0) (by rw [hlen]; exact h1) p0 p1 hn hrun

/-- C82: `xnor`. -/
theorem C82_xnor
    (hn : 8 * 2 ^ k * |e0 - e1| + 2 ^ m * inError k m (pack.lwe.map ternaryDigit) < 2 ^ k * 2 ^ m) :
    (evalLaw w R P Q k m L).toOuterMeasure {d | ∃ K, EvalKey.new w R P pack d = some K ∧
      EncryptsWithin w P Q m pack.lwe (jointError Q m S T) (K.xnor c0 c1) (!(a ^^ b))}ᶜ ≤
    jointTail w R P Q k m v vL vR S + (gaussTail V T + accTail P Q k t t') := by
  have hlen := pack_length G hS dk hg pack hp
  exact diff_joint G hS bits hB ht hq ht' dk hg pack hp Z hZ hZt L v vL vR hL hm hm' V hV S T c0 c1 h0 h1 Lut.xnor
    (fun step l es h => lut_facts G es (.inr (.inr (.inr (.inr (.inr h)))))) (fun K => K.xnor c0 c1) _ fun rot sw β κ V hrun =>
      C44_xnor G V (by rw [hlen]; exact h0) (by rw [hlen]; exact h1) p0 p1 hn hrun

end

section
variable [NeZero Q] (hS : StepsOk R P Q k m) (bits : Nat)
    (hB : Basis.new R.w Q bits = some P.basis) {t t' : Nat} (ht : t ≤ k) (hq : (2 ^ t * (2 ^ bits - 1)) ^ 2 ^ t < Q)
    (ht' : P.steps = .brKsMs → t' ≤ Nat.clog 2 P.n ∧ (2 ^ t' * (2 ^ P.keySwitchBits - 1)) ^ 2 ^ t' < Q)
    (dk : KeyDraws) (hg : GaussOk P Q dk) (pack : KeyPack) (hp : KeyPack.new R P dk = some pack)
    (Z : List ℤ) (hZ : KeyWords Q pack.ring Z)
    (hZt : P.ringKeyType ≠ .gaussian → Z = pack.ring.map ternaryDigit)
    (L : KeyLaws) (v vL vR : ℝ) (hL : L.Ok P Q k m v vL vR)
    (hm : L.mask = draws (uniformBelow Q) (2 ^ k))
    (hm' : P.steps = .brKsMs → L.maskRlwe = draws (uniformBelow Q) (2 ^ Nat.clog 2 P.n))
    (V : ℝ) (hV : (((if P.steps = .brMsKs then Z else pack.lwe.map ternaryDigit).map fun z => z ^ 2).sum : ℤ) ≤ 12 * V) (S T : Nat) (η : ℤ)
    (hη : 24 * 2 ^ k * η + 2 * 2 ^ m * inError k m (pack.lwe.map ternaryDigit) < 2 ^ k * 2 ^ m)
    (c : Nat → LWE) (b : Nat → Bool) (hc : ∀ i, Encrypts (2 ^ m) pack.lwe η (c i) (b i))
include hS hB ht hq ht' hg hp hZ hZt hL hm hm' hV hη hc

theorem one_gate_joint (X : Circuit) (hX : X.OneGate) :
    (evalLaw w R P Q k m L).toOuterMeasure {d | ∃ K, EvalKey.new w R P pack d = some K ∧
      EncryptsWithin w P Q m pack.lwe (jointError Q m S T) (X.run K c) (X.eval b)}ᶜ ≤
    jointTail w R P Q k m v vL vR S + (gaussTail V T + accTail P Q k t t') := by
  have hlen := pack_length G hS dk hg pack hp
  have hred : ∀ i, LWEReduced (2 ^ m) P.n (c i) := fun i => hlen ▸ (hc i).1
  have hin := inError_nonneg k m (pack.lwe.map ternaryDigit)
  choose e he hp' using fun i => (hc i).2
  have hk0 : (0 : ℤ) ≤ 8 * 2 ^ k := by positivity
  have hsum : ∀ i j, 8 * 2 ^ k * |e i + e j| + 2 * 2 ^ m * inError k m (pack.lwe.map ternaryDigit) < 2 ^ k * 2 ^ m :=
    fun i j => by
      have h1 := abs_add_le (e i) (e j)
      have h2 : |e i + e j| ≤ 3 * η := by linarith [he i, he j, abs_nonneg (e i)]
      linarith [mul_le_mul_of_nonneg_left h2 hk0]
  have hdiff : ∀ i j, 8 * 2 ^ k * |e i - e j| + 2 ^ m * inError k m (pack.lwe.map ternaryDigit) < 2 ^ k * 2 ^ m :=
    fun i j => by
      have h1 := abs_sub (e i) (e j)
      have h2 : |e i - e j| ≤ 3 * η := by linarith [he i, he j, abs_nonneg (e i)]
      have h3 : 0 ≤ 2 ^ m * inError k m (pack.lwe.map ternaryDigit) := by positivity
      linarith [mul_le_mul_of_nonneg_left h2 hk0]
  have hmaj : ∀ i j l, 8 * 2 ^ k * |e i + e j + e l| + 2 * 2 ^ m * inError k m (pack.lwe.map ternaryDigit) <
      2 ^ k * 2 ^ m := fun i j l => by
    have h1 := abs_add_three (e i) (e j) (e l)
    have h2 : |e i + e j + e l| ≤ 3 * η := by linarith [he i, he j, he l]
    linarith [mul_le_mul_of_nonneg_left h2 hk0]
  unfold Circuit.OneGate at hX
  split at hX
  · rename_i i j
    exact C82_nand G hS bits hB ht hq ht' dk hg pack hp Z hZ hZt L v vL vR hL hm hm' V hV S T _ _ (hred i) (hred j) _ _ _ _
      (hp' i) (hp' j) (hsum i j)
  · rename_i i j
    exact C82_and G hS bits hB ht hq ht' dk hg pack hp Z hZ hZt L v vL vR hL hm hm' V hV S T _ _ (hred i) (hred j) _ _ _ _
      (hp' i) (hp' j) (hsum i j)
  · rename_i i j
    exact C82_or G hS bits hB ht hq ht' dk hg pack hp Z hZ hZt L v vL vR hL hm hm' V hV S T _ _ (hred i) (hred j) _ _ _ _
      (hp' i) (hp' j) (hsum i j)
  · rename_i i j
    exact C82_nor G hS bits hB ht hq ht' dk hg pack hp Z hZ hZt L v vL vR hL hm hm' V hV S T _ _ (hred i) (hred j) _ _ _ _
      (hp' i) (hp' j) (hsum i j)
  · rename_i i j
    exact C82_xor G hS bits hB ht hq ht' dk hg pack hp Z hZ hZt L v vL vR hL hm hm' V hV S T _ _ (hred i) (hred j) _ _ _ _
      (hp' i) (hp' j) (hdiff i j)
  · rename_i i j
    have := C82_xnor G hS bits hB ht hq ht' dk hg pack hp Z hZ hZt L v vL vR hL hm hm' V hV S T _ _ (hred i) (hred j) _ _ _ _
      (hp' i) (hp' j) (hdiff i j)
    rw [show (!(b i ^^ b j)) = (b i == b j) by cases b i <;> cases b j <;> rfl] at this
    exact this
  · rename_i i j l
    exact C82_majority G hS bits hB ht hq ht' dk hg pack hp Z hZ hZt L v vL vR hL hm hm' V hV S T _ _ _ (hred i) (hred j) (hred l) _ _ _ _ _ _ (hp' i) (hp' j) (hp' l) (hmaj i j l)
  · exact hX.elim

/-- C82: any number of gates on ciphertexts with noises of at most `η` that were made without knowledge of the evaluation
key. All results decrypt to the values of the gates, except with the stated probability over the draws of the evaluation
key. -/
theorem C82_gates (hout : 2 * jointError Q m S T < Q * 2 ^ m)
    (gs : List Circuit) (hgs : ∀ X ∈ gs, X.OneGate) :
    (evalLaw w R P Q k m L).toOuterMeasure {d | ∃ K, EvalKey.new w R P pack d = some K ∧
      ∀ X ∈ gs, ∃ out, X.run K c = some out ∧
        (P.lwe w).decrypt .bool pack.lwe out = some (X.eval b).toNat}ᶜ ≤
    gs.length * (jointTail w R P Q k m v vL vR S + (gaussTail V T + accTail P Q k t t')) := by
  have C : Config R.w Q R.M := ⟨G.field.even, G.field.conf⟩
  have hQ := C.two_le
  induction gs with
  | nil =>
    refine le_trans (le_of_eq ?_) zero_le
    rw [PMF.toOuterMeasure_apply_eq_zero_iff, Set.disjoint_left]
    intro d hd hbad
    obtain ⟨rot, sw, e1, e2, -⟩ := evaluation_key G hS bits hB dk hg pack hp Z hZ hZt Q (Q + 2 ^ m) d
      (evalLaw_ok (w := w) (by omega) hL hd)
    refine hbad ⟨⟨w, R, P, rot, sw⟩, ?_, by simp⟩
    unfold EvalKey.new
    rw [mbind e1, mbind e2]; rfl
  | cons X gs ih =>
    have h1 := one_gate_joint G hS bits hB ht hq ht' dk hg pack hp Z hZ hZt L v vL vR hL hm hm' V hV S T η hη c b hc X
      (hgs X (by simp))
    have h2 := ih fun Y hY => hgs Y (by simp [hY])
    rw [List.length_cons, Nat.cast_add, Nat.cast_one, add_mul, one_mul, add_comm]
    refine le_trans (prob_mono ?_) (both_failures h1 h2)
    intro d _ hbad hgood
    refine hbad ?_
    obtain ⟨K, eK, hX, hK⟩ := hgood
    refine ⟨K, eK, fun Y hY => ?_⟩
    rcases List.mem_cons.1 hY with rfl | hY
    · obtain ⟨out, e, eo, -, -, -, hdec⟩ := hX
      exact ⟨out, eo, hdec hout⟩
    · exact hK Y hY

end

/-- C82: bits are encrypted, then an evaluation key is drawn, any number of gates is applied to the ciphertexts, and
the results are decrypted. They are the values of the gates, except with the stated probability; for all orders of the
steps, all secret keys and all masks and noises of the ciphertexts. -/
theorem C82_end_to_end [NeZero Q] (hS : StepsOk R P Q k m) (bits : Nat)
    (hB : Basis.new R.w Q bits = some P.basis) {t t' : Nat} (ht : t ≤ k) (hq : (2 ^ t * (2 ^ bits - 1)) ^ 2 ^ t < Q)
    (ht' : P.steps = .brKsMs → t' ≤ Nat.clog 2 P.n ∧ (2 ^ t' * (2 ^ P.keySwitchBits - 1)) ^ 2 ^ t' < Q)
    (dk : KeyDraws) (hg : GaussOk P Q dk) :
    ∃ pack, KeyPack.new R P dk = some pack ∧
      ∀ (L : KeyLaws) (v vL vR : ℝ), L.Ok P Q k m v vL vR →
      L.mask = draws (uniformBelow Q) (2 ^ k) →
      (P.steps = .brKsMs → L.maskRlwe = draws (uniformBelow Q) (2 ^ Nat.clog 2 P.n)) →
      ∀ (S T : Nat) (η : ℤ),
      24 * 2 ^ k * η + 2 * 2 ^ m * inError k m (pack.lwe.map ternaryDigit) < 2 ^ k * 2 ^ m →
      2 * jointError Q m S T < Q * 2 ^ m →
      ∀ (b : Nat → Bool) (masks : Nat → List Nat) (z : Nat → ℤ),
        (∀ i, P.n ≤ (masks i).length ∧ ∀ x ∈ masks i, x < P.q) → (∀ i, |z i| ≤ η) →
        ∃ c : Nat → LWE,
          (∀ i, (P.lwe w).encrypt pack.lwe (masks i) (z i) (b i).toNat = some (c i)) ∧
          ∀ gs : List Circuit, (∀ X ∈ gs, X.OneGate) →
            (evalLaw w R P Q k m L).toOuterMeasure {d | ∃ K, EvalKey.new w R P pack d = some K ∧
              ∀ X ∈ gs, ∃ out, X.run K c = some out ∧
                (P.lwe w).decrypt .bool pack.lwe out = some (X.eval b).toNat}ᶜ ≤
            gs.length * (jointTail w R P Q k m v vL vR S +
              (gaussTail ((if P.steps = .brMsKs then 2 ^ k else P.n : Nat) / 12) T + accTail P Q k t t')) := by
  obtain ⟨pack, ep, hlen, hw, hb, hr, hn, hrk, hms⟩ := C52_key_pack G hS dk hg
  obtain ⟨Z, hZ, hZt⟩ : ∃ Z, KeyWords Q pack.ring Z ∧ (P.ringKeyType ≠ .gaussian → Z = pack.ring.map ternaryDigit) := by
    by_cases hty : P.ringKeyType = .gaussian
    · exact ⟨_, keyWords_self pack.ring, fun h => absurd hty h⟩
    · have C : Config R.w Q R.M := ⟨G.field.even, G.field.conf⟩
      exact ⟨_, keyWords_digits C.two_le (hrk hty), fun _ => rfl⟩
  refine ⟨pack, ep, fun L v vL vR hL hm1 hm2 S T η hη hout b masks z hm hz => ?_⟩
  have hPq : P.q = 2 ^ m := G.lwe.q
  have hrange : ∀ i, NoiseInRange (2 ^ 2) (2 ^ m) (z i) := fun i => by
    have h2 := inError_nonneg k m (pack.lwe.map ternaryDigit)
    have h2 : (0 : ℤ) ≤ 2 * 2 ^ m * inError k m (pack.lwe.map ternaryDigit) := by positivity
    have h3 : (24 * η) * 2 ^ k < 2 ^ m * 2 ^ k := by linarith
    have h4 : 24 * η < 2 ^ m := lt_of_mul_lt_mul_right h3 (by positivity)
    have h5 := abs_le.1 (hz i)
    have h6 : 0 ≤ η := (abs_nonneg _).trans (hz i)
    unfold NoiseInRange
    push_cast
    constructor <;> linarith
  have hone : ∀ i, ∃ c, (P.lwe w).encrypt pack.lwe (masks i) (z i) (b i).toNat = some c ∧
      Encrypts (2 ^ m) pack.lwe η c (b i) := fun i => by
    obtain ⟨c, ec, hc, -, hp, -⟩ := C31_encrypt_decrypt (P.lwe w) 2 m P.n G.lwe pack.lwe (masks i) hlen
      (hm i).1 (by rw [← hPq]; exact (hm i).2) (b i).toNat (z i)
      (by have := Bool.toNat_lt (b i); omega) (hrange i)
    exact ⟨c, ec, by rw [hlen]; exact hc, z i, hz i, hp⟩
  choose c hc1 hc2 using hone
  refine ⟨c, hc1, fun gs hgs => ?_⟩
  refine C82_gates G hS bits hB ht hq ht' dk hg pack ep Z hZ hZt L v vL vR hL hm1 hm2
    ((if P.steps = .brMsKs then 2 ^ k else P.n : Nat) / 12) ?_ S T η hη c b hc2 hout gs hgs
  have hsq : ∀ l : List Nat, (((l.map ternaryDigit).map fun z => z ^ 2).sum : ℤ) ≤ l.length := fun l => by
    have := List.sum_le_card_nsmul ((l.map ternaryDigit).map fun z => z ^ 2) 1 (by
      intro z hz
      rw [List.map_map] at hz
      obtain ⟨v, -, rfl⟩ := List.mem_map.1 hz
      change ternaryDigit v ^ 2 ≤ 1
      unfold ternaryDigit
      split_ifs <;> norm_num)
    rwa [List.length_map, List.length_map, nsmul_eq_mul, mul_one] at this
  have h2 : (((if P.steps = .brMsKs then Z else pack.lwe.map ternaryDigit).map fun z => z ^ 2).sum : ℤ) ≤
      ((if P.steps = .brMsKs then 2 ^ k else P.n : Nat) : ℤ) := by
    split_ifs with hst
    · have hS' := hS
      unfold StepsOk at hS'
      rw [hst] at hS'
      rw [hZt hS'.1, ← hr.1]
      exact hsq pack.ring
    · rw [← hlen]
      exact hsq pack.lwe
  have h3 : ((((if P.steps = .brMsKs then Z else pack.lwe.map ternaryDigit).map fun z => z ^ 2).sum : ℤ) : ℝ) ≤
      ((if P.steps = .brMsKs then 2 ^ k else P.n : Nat) : ℝ) := by exact_mod_cast h2
  linarith

end
end Verif.Props
