import Verif.Props.NoiseSwitch
import Verif.Props.Circuit
import Verif.SpecFailure

/-!
# C60: the probability that a gate fails

Concrete cases that meet the hypotheses are in `Props/NoiseDefaults.lean`.
-/

namespace Verif
open Spec Props Finset
open scoped ENNReal

namespace Spec
variable {α β : Type}

theorem prob_pair_fst (p : PMF α) (r : PMF β) (A : Set α) :
    (pair p r).toOuterMeasure {x | x.1 ∈ A} = p.toOuterMeasure A := by
  classical
  rw [prob_eq, prob_eq, mean_pair]
  refine congrArg (mean p) (funext fun a => ?_)
  by_cases h : a ∈ A <;> simp [h, mean_const]

theorem prob_pair_snd (p : PMF α) (r : PMF β) (A : Set β) :
    (pair p r).toOuterMeasure {x | x.2 ∈ A} = r.toOuterMeasure A := by
  classical
  rw [prob_eq, prob_eq, mean_pair]
  exact mean_const p (mean r fun b => if b ∈ A then 1 else 0)

/-- The first draw is bad, or the second is bad although the first is good. -/
theorem prob_bind_split {p : PMF α} {f : α → PMF β} {G : Set α} {A : Set β} {c c' : ℝ≥0∞}
    (h : p.toOuterMeasure Gᶜ ≤ c) (h' : ∀ a ∈ p.support, a ∈ G → (f a).toOuterMeasure A ≤ c') :
    (p.bind f).toOuterMeasure A ≤ c + c' := by
  classical
  rw [prob_eq, mean_bind]
  calc _ ≤ mean p fun a => (if a ∈ Gᶜ then 1 else 0) + c' := mean_mono fun a ha => by
        by_cases hG : a ∈ G
        · have := h' a ha hG
          rw [prob_eq] at this
          simpa [hG] using this
        · have h1 : (mean (f a) fun b => if b ∈ A then (1 : ℝ≥0∞) else 0) ≤ 1 := by
            refine (mean_mono (g := fun _ => 1) fun b _ => ?_).trans (mean_const _ _).le
            split_ifs <;> simp
          simpa [hG] using h1.trans le_self_add
    _ = p.toOuterMeasure Gᶜ + c' := by
      rw [mean_add, mean_const, prob_eq]; congr!
    _ ≤ c + c' := by gcongr

end Spec

theorem clog_eq {n k : Nat} (h1 : 2 ^ (k - 1) < n) (h2 : n ≤ 2 ^ k) : Nat.clog 2 n = k := by
  have h3 := (Nat.lt_clog_iff_pow_lt (by decide)).2 h1
  have h4 := (Nat.clog_le_iff_le_pow (by decide)).2 h2
  rcases k with _ | k
  · simp at h1 h2; omega
  · omega

theorem word_rep {q v E : Nat} (h : v < q) (hE : q ≤ E) : ∃ x : ℤ, |x| ≤ E ∧ (x : ZMod q) = v :=
  ⟨v, by rw [abs_of_nonneg (by positivity)]; omega, by simp⟩

theorem drawsOk_bounded {q n E : Nat} {l : List Draw} (h : DrawsOk q n l) (hE : q ≤ E) (j : Nat) :
    (drawErrors q n l j).Bounded E :=
  drawErrors_bounded (fun d hd x hx => word_rep ((h d hd).2.2 x hx) hE) j

section
variable {w : Nat} {R : Ctx} {P : Params} {Q k m : Nat} {L : KeyLaws} {v vL vR : ℝ}

theorem evalLaw_ok (hQ : 0 < Q) (hL : L.Ok P Q k m v vL vR) {d : EvalDraws}
    (hd : d ∈ (evalLaw w R P Q k m L).support) : EvalDrawsOk R P Q k m Q (Q + 2 ^ m) d := by
  unfold evalLaw at hd
  simp only [PMF.mem_support_bind_iff, PMF.mem_support_map_iff] at hd
  obtain ⟨x, hx, y, hy, rfl⟩ := hd
  obtain ⟨x1, x2⟩ := mem_support_pair hx
  obtain ⟨y1, y2⟩ := mem_support_pair hy
  have rg : ∀ r ∈ (rgswLaw L.mask L.err (2 ^ k) P.basis.decomposeLen).support,
      RgswDrawOk Q (2 ^ k) P.basis.decomposeLen Q r := fun r hr => by
    obtain ⟨h1, h2, h3, h4⟩ := rgswLaw_ok hL.err hL.mask hr
    exact ⟨h1, h2, h3, h4, drawsOk_bounded h1 le_rfl, drawsOk_bounded h2 le_rfl⟩
  refine ⟨fun _ => ?_, fun _ => ?_, fun _ j i a => ?_, fun _ k' B h1 h2 hB c => ?_⟩
  · obtain ⟨h1, h2⟩ := mem_support_draws x1
    exact ⟨h1.ge, fun r hr => rg r (h2 r hr)⟩
  · obtain ⟨h1, h2⟩ := mem_support_draws x2
    exact ⟨h1.ge, fun r hr => ⟨rg _ (mem_support_pair (h2 r hr)).1, rg _ (mem_support_pair (h2 r hr)).2⟩⟩
  · unfold lweSwitchLaw at y1
    obtain ⟨l, hl, e⟩ := (PMF.mem_support_map_iff _ _ _).1 y1
    have := lweSwitchLaw_ok (Nat.two_pow_pos m) hL.errLwe hL.maskLwe hl j i a
    dsimp only
    rw [← e]
    exact ⟨this, word_rep this.2.2 (Nat.le_add_left _ _)⟩
  · unfold rlweSwitchLaw at y2
    obtain ⟨l, hl, e⟩ := (PMF.mem_support_map_iff _ _ _).1 y2
    have := rlweSwitchLaw_ok hQ hL.errRlwe hL.maskRlwe hl c
    rw [clog_eq h1 h2] at this
    have hlen : rlweLevels R P Q = B.decomposeLen := by unfold rlweLevels; rw [hB]; rfl
    dsimp only
    rw [← e, clog_eq h1 h2, ← hlen]
    exact ⟨this.1, this.2, drawsOk_bounded this.2 (Nat.le_add_right _ _)⟩


/-- The noise of a run from the noises of its steps. -/
theorem runNoise_of_steps {K : EvalKey} [Fact Q.Prime] (G : GateParams K.w K.R K.P Q k m) {sk z : List Nat}
    {S Z : List ℤ} {E E' : Nat} (V : K.Valid Q k m sk z S Z E E') {c c₀ : LWE}
    (hc : LWEReduced (2 ^ m) S.length c) {lut : List Nat} (hl : Reduced Q (2 ^ k) lut)
    (h₀ : K.switchIn c = some c₀) {r acc : RLWE} (hr : K.rot.rotate K.R lut c₀ = some r)
    (ha : K.accumulate c₀ lut = some acc) {β κ : Nat} {ρ : ℤ}
    (hrot : ∃ e : ℤ, |(e : ℝ)| ≤ β ∧ ringPhase0 Q (2 ^ k) z r (Nat.two_pow_pos k) =
      tableAt Q (2 ^ k) lut (intPhase S c₀.a c₀.b) + (e : ZMod Q))
    (hlwe : ∀ x y B dim key O, K.P.steps = .brMsKs → K.extractSwitch acc = some x →
      K.sw = .lwe B dim key → (K.P.lwe K.w).ops = some O → LweSwitch.keySwitch K.w B O dim key x = some y →
      ∃ e : ℤ, |(e : ℝ)| ≤ κ ∧ lwePhase (2 ^ m) sk y.a y.b =
        (intPhase Z x.a x.b : ZMod (2 ^ m)) + (e : ZMod (2 ^ m)))
    (hrlwe : ∀ y dim key, K.P.steps = .brKsMs → K.sw = .rlwe dim key →
      RlweSwitch.keySwitchRlwe K.R dim key acc = some y →
      ∃ e : ℤ, |(e : ℝ)| ≤ κ ∧ (intPhase S y.a y.b : ZMod Q) =
        ringPhase0 Q (2 ^ k) z acc (Nat.two_pow_pos k) + (e : ZMod Q))
    (ho : K.OutRounding Q m S Z ρ c lut) :
    K.RunNoise Q k m sk z S Z ⟨β, κ, inError k m S, ρ⟩ c lut := by
  refine ⟨(runNoise_of_valid G V hc hl).switch, fun c' r' h1 h2 => ?_,
    fun c' acc' x y B dim key O hst h1 h2 h3 h4 h5 h6 => ?_, fun c' acc' y dim key hst h1 h2 h3 h4 => ?_,
    ho.extracted, ho.switched⟩
  · obtain rfl : c₀ = c' := Option.some.inj (h₀.symm.trans h1)
    obtain rfl : r = r' := Option.some.inj (hr.symm.trans h2)
    obtain ⟨e, he, h⟩ := hrot
    exact ⟨e, by exact_mod_cast he, h⟩
  · obtain rfl : c₀ = c' := Option.some.inj (h₀.symm.trans h1)
    obtain rfl : acc = acc' := Option.some.inj (ha.symm.trans h2)
    obtain ⟨e, he, h⟩ := hlwe x y B dim key O hst h3 h4 h5 h6
    exact ⟨e, by exact_mod_cast he, h⟩
  · obtain rfl : c₀ = c' := Option.some.inj (h₀.symm.trans h1)
    obtain rfl : acc = acc' := Option.some.inj (ha.symm.trans h2)
    obtain ⟨e, he, h⟩ := hrlwe y dim key hst h3 h4
    exact ⟨e, by exact_mod_cast he, h⟩

/-- The rounding of the last step is never worse than the norm of the key allows. -/
theorem outRounding_worst {K : EvalKey} [Fact Q.Prime] (G : GateParams K.w K.R K.P Q k m) {sk z : List Nat}
    {S Z : List ℤ} {E E' : Nat} (V : K.Valid Q k m sk z S Z E E') {c : LWE}
    (hc : LWEReduced (2 ^ m) S.length c) {lut : List Nat} (hl : Reduced Q (2 ^ k) lut) :
    K.OutRounding Q m S Z (roundBound K.P.steps S Z) c lut :=
  let h := runNoise_of_valid G V hc hl
  ⟨h.roundExtracted, h.roundSwitched⟩

end
end Verif

namespace Verif.Props
open Fp Spec Ntt
open scoped ENNReal

section
variable {w : Nat} {R : Ctx} {P : Params} {Q k m : Nat} [Fact Q.Prime] (G : GateParams w R P Q k m)
include G

/-- C60: the noises of the rotation and of the key switching in one bootstrapping with a fresh evaluation key. -/
theorem C60_run (hS : StepsOk R P Q k m) (bits : Nat) (hB : Basis.new R.w Q bits = some P.basis)
    (dk : KeyDraws) (hg : GaussOk P Q dk) (pack : KeyPack) (hp : KeyPack.new R P dk = some pack)
    (Z : List ℤ) (hZ : KeyWords Q pack.ring Z)
    (hZt : P.ringKeyType ≠ .gaussian → Z = pack.ring.map ternaryDigit)
    (L : KeyLaws) (v vL vR : ℝ) (hL : L.Ok P Q k m v vL vR) (c : LWE) (hc : LWEReduced (2 ^ m) P.n c)
    (lut : List Nat) (hl : Reduced Q (2 ^ k) lut) (β κ : Nat) :
    (evalLaw w R P Q k m L).toOuterMeasure
      {d | ∃ K, EvalKey.new w R P pack d = some K ∧
        K.OutRounding Q m (pack.lwe.map ternaryDigit) Z
          (roundBound P.steps (pack.lwe.map ternaryDigit) Z) c lut ∧
        ∀ ρ, K.OutRounding Q m (pack.lwe.map ternaryDigit) Z ρ c lut →
          K.RunNoise Q k m pack.lwe pack.ring (pack.lwe.map ternaryDigit) Z
            ⟨β, κ, inError k m (pack.lwe.map ternaryDigit), ρ⟩ c lut}ᶜ ≤
    rotationTail P k v β + switchTail w R P Q k m vL vR κ := by
  have C : Config R.w Q R.M := ⟨G.field.even, G.field.conf⟩
  have hQ := C.two_le
  have hk : 0 < k := by have := G.two_le; omega
  obtain ⟨pack', ep, hlen, hw, hb, hr, hn, hrk, hms⟩ := C52_key_pack G hS dk hg
  obtain rfl := Option.some.inj (ep.symm.trans hp)
  have hbits := (new_basis (by have := C.four_mul_lt; omega) hB).2.2.1
  have hcS : LWEReduced (2 ^ m) (pack'.lwe.map ternaryDigit).length c := by rw [List.length_map, hlen]; exact hc
  -- the switched input
  obtain ⟨c₀, -, -, ec, hc0, -⟩ := switchIn_spec (K := ⟨w, R, P, .binary [], .none⟩) G
    (pack'.lwe.map ternaryDigit) hcS (Int.ModEq.refl _)
  have ec' : ∀ rot sw, EvalKey.switchIn ⟨w, R, P, rot, sw⟩ c = some c₀ := fun _ _ => ec
  have hc0l : c₀.a.length = pack'.lwe.length := by rw [hc0.1.1, List.length_map]
  have hV := fun d hd => evaluation_key G hS bits hB dk hg pack' ep Z hZ hZt Q (Q + 2 ^ m) d
    (evalLaw_ok (w := w) (by omega) hL hd)
  unfold evalLaw at hV ⊢
  simp only [PMF.mem_support_bind_iff, PMF.mem_support_map_iff] at hV
  refine prob_bind_split (G := {x | ∃ rot r, RotationKey.generate R P pack'
      ⟨x.1, x.2, fun _ _ _ => ([], 0), fun _ => []⟩ = some rot ∧ rot.rotate R lut c₀ = some r ∧
      ∃ e : ℤ, |(e : ℝ)| ≤ β ∧ ringPhase0 Q (2 ^ k) pack'.ring r (Nat.two_pow_pos k) =
        tableAt Q (2 ^ k) lut (intPhase (pack'.lwe.map ternaryDigit) c₀.a c₀.b) + (e : ZMod Q)})
    ?_ fun x hx hG => ?_
  · -- the rotation
    unfold rotationTail
    cases ht : P.lweKeyType with
    | binary =>
      rw [if_pos rfl, hbits, ← hlen]
      have := C59_binary hk G.field bits P.basis hB pack'.ring pack'.ringNtt hr hn pack'.lwe hL.err
        hL.nonneg hL.mask lut hl c₀ hc0l hc0.1.2 hc0.2 β (by positivity)
      rw [← prob_pair_fst _ (draws (pair (rgswLaw L.mask L.err (2 ^ k) P.basis.decomposeLen)
        (rgswLaw L.mask L.err (2 ^ k) P.basis.decomposeLen)) pack'.lwe.length)] at this
      refine le_trans (prob_mono ?_) this
      intro x _ hx hA
      refine hx ?_
      obtain ⟨key, r, ek, er, he⟩ := hA
      have hdig : pack'.lwe.map ternaryDigit = pack'.lwe.map binaryDigit :=
        List.map_congr_left fun v hv => by
          rcases hb ht v hv with h | h <;> simp [h, ternaryDigit, binaryDigit]
      refine ⟨.binary key, r, ?_, er, by rw [hdig]; exact he⟩
      unfold RotationKey.generate
      rw [ht]
      simp only []
      rw [mbind ek]; rfl
    | ternary =>
      rw [if_neg (by decide), hbits, ← hlen]
      have := C59_ternary hk G.le G.field bits P.basis hB pack'.ring pack'.ringNtt hr hn pack'.lwe hL.err
        hL.nonneg hL.mask lut hl c₀ hc0l hc0.1.2 hc0.2 β (by positivity)
      rw [← prob_pair_snd (draws (rgswLaw L.mask L.err (2 ^ k) P.basis.decomposeLen) pack'.lwe.length)]
        at this
      refine le_trans (prob_mono ?_) this
      intro x _ hx hA
      refine hx ?_
      obtain ⟨key, r, ek, er, he⟩ := hA
      refine ⟨.ternary key, r, ?_, er, he⟩
      unfold RotationKey.generate
      rw [ht]
      simp only []
      rw [mbind ek]; rfl
  · -- the key switching
    obtain ⟨rot, r, erot, er, hph⟩ := hG
    have erot' : ∀ l s, RotationKey.generate R P pack' ⟨x.1, x.2, l, s⟩ = some rot := fun _ _ => erot
    have hV' : ∀ y ∈ (pair (lweSwitchLaw L.maskLwe L.errLwe P.n (2 ^ P.keySwitchBits - 1) (2 ^ k)
        (lweLevels w P m)) (rlweSwitchLaw L.maskRlwe L.errRlwe (2 ^ Nat.clog 2 P.n) (rlweLevels R P Q)
        (2 ^ (k - Nat.clog 2 P.n)))).support, ∃ sw, SwitchKey.generate w R P pack' ⟨x.1, x.2, y.1, y.2⟩ = some sw ∧
        EvalKey.Valid ⟨w, R, P, rot, sw⟩ Q k m pack'.lwe pack'.ring (pack'.lwe.map ternaryDigit) Z Q
          (Q + 2 ^ m) := fun y hy => by
      obtain ⟨rot', sw, e1, e2, hv⟩ := hV _ ⟨x, hx, y, hy, rfl⟩
      obtain rfl := Option.some.inj (e1.symm.trans (erot' _ _))
      exact ⟨sw, e2, hv⟩
    obtain ⟨acc, hacc, hra, hrb⟩ : ∃ acc, (∀ sw, EvalKey.accumulate ⟨w, R, P, rot, sw⟩ c₀ lut = some acc) ∧
        Reduced Q (2 ^ k) acc.a ∧ Reduced Q (2 ^ k) acc.b := by
      obtain ⟨y, hy⟩ := (pair (lweSwitchLaw L.maskLwe L.errLwe P.n (2 ^ P.keySwitchBits - 1) (2 ^ k)
        (lweLevels w P m)) (rlweSwitchLaw L.maskRlwe L.errRlwe (2 ^ Nat.clog 2 P.n) (rlweLevels R P Q)
        (2 ^ (k - Nat.clog 2 P.n)))).support_nonempty
      obtain ⟨sw, -, hv⟩ := hV' y hy
      obtain ⟨r', er', _, _, hred⟩ := rotate_spec (K := ⟨w, R, P, rot, sw⟩) G hv hc0 hl
      obtain rfl : r = r' := Option.some.inj (er.symm.trans er')
      obtain ⟨acc, ea, hra, hrb, -⟩ := addEighth_spec (K := ⟨w, R, P, rot, sw⟩) (z := pack'.ring) G hred.a hred.b
      refine ⟨acc, fun sw => ?_, hra, hrb⟩
      unfold EvalKey.accumulate
      rw [mbind er, ea]
    rw [prob_map]
    unfold switchTail
    have hmk : ∀ {l s sw}, SwitchKey.generate w R P pack' ⟨x.1, x.2, l, s⟩ = some sw →
        EvalKey.new w R P pack' ⟨x.1, x.2, l, s⟩ = some ⟨w, R, P, rot, sw⟩ := fun {l s sw} e => by
      unfold EvalKey.new
      rw [mbind (erot' _ _), mbind e]; rfl
    cases hst : P.steps with
    | brMsKs =>
      simp only []
      have hS' := hS
      unfold StepsOk at hS'
      rw [hst] at hS'
      obtain ⟨M, hM, eO⟩ := G.lwe.ops
      obtain ⟨t, et, ht⟩ : ∃ t, (∀ sw, EvalKey.extractSwitch ⟨w, R, P, rot, sw⟩ acc = some t) ∧
          LWEReduced (2 ^ m) (2 ^ k) t := by
        obtain ⟨x', ex', hx', -⟩ := extract_spec (K := ⟨w, R, P, rot, .none⟩) G hr hra hrb
        obtain ⟨t, et, -, ht, -⟩ := switchOut_eq (K := ⟨w, R, P, rot, .none⟩) G hx'
        refine ⟨t, fun sw => ?_, ht⟩
        have hPq : P.q = 2 ^ m := G.lwe.q
        unfold EvalKey.extractSwitch
        rw [mbind ex', C.value, hPq]
        exact et
      obtain ⟨B, eB, hsw⟩ := C60_lwe_switch (u := L.maskLwe) (χ := L.errLwe) w m P.keySwitchBits
        (by have := G.lwe.lt; omega) G.lwe.fits M hM hS'.2.1 hS'.2.2 pack'.lwe pack'.ring hL.errLwe
        hL.nonnegLwe (by rw [hlen]; exact hL.maskLwe) t (by rw [hr.1]; exact ht) κ (by positivity)
      have hlv : lweLevels w P m = B.decomposeLen := by unfold lweLevels; rw [eB]; rfl
      rw [hlen, hr.1, ← hlv, ← prob_pair_fst _ (rlweSwitchLaw L.maskRlwe L.errRlwe (2 ^ Nat.clog 2 P.n)
        (rlweLevels R P Q) (2 ^ (k - Nat.clog 2 P.n)))] at hsw
      refine le_trans (prob_mono ?_) hsw
      intro y hy hbad hA
      refine hbad ?_
      obtain ⟨key, y', ek, ey, he⟩ := hA
      obtain ⟨sw, esw, hv⟩ := hV' y hy
      refine ⟨_, hmk esw, by
        rw [← hst]; exact outRounding_worst (K := ⟨w, R, P, rot, sw⟩) G hv hcS hl, fun ρ ho => ?_⟩
      refine runNoise_of_steps (K := ⟨w, R, P, rot, sw⟩) G hv hcS hl (ec' _ _) er (hacc _) hph
        (fun x1 y1 B1 dim1 key1 O1 _ h1 h2 h3 h4 => ?_) (fun _ _ _ h => by rw [hst] at h; cases h) ho
      obtain rfl : t = x1 := Option.some.inj ((et sw).symm.trans h1)
      obtain rfl := Option.some.inj (eO.symm.trans h3)
      have : sw = .lwe B P.n key := by
        have hPq : P.q = 2 ^ m := G.lwe.q
        unfold SwitchKey.generate at esw
        rw [hst] at esw
        simp only [] at esw
        rw [mbind eO, hPq, show (P.lwe w).w = w from rfl, mbind ek] at esw
        exact (Option.some.inj esw).symm
      rw [this] at h2
      obtain ⟨rfl, rfl, rfl⟩ := SwitchKey.lwe.inj h2
      obtain rfl : y' = y1 := Option.some.inj (ey.symm.trans h4)
      rw [hZt hS'.1]
      exact he
    | brKsMs =>
      simp only []
      have hS' := hS
      unfold StepsOk at hS'
      rw [hst] at hS'
      obtain ⟨k', B, hk', hkk, g1, g2, F', eB⟩ := hS'
      have hclog := clog_eq g1 g2
      have hpow : 2 ^ (k - k') * 2 ^ k' = 2 ^ k := by rw [← pow_add]; congr 1; omega
      have hlv : rlweLevels R P Q = B.decomposeLen := by unfold rlweLevels; rw [eB]; rfl
      have hsw := C60_rlwe_switch (u := L.maskRlwe) (χ := L.errRlwe) hk' F' P.keySwitchBits B eB pack'.lwe
        (by rw [hlen]; exact g1) (by rw [hlen]; exact g2) (2 ^ (k - k')) (Nat.two_pow_pos _) (2 ^ k) hpow
        (Nat.two_pow_pos k) pack'.ring pack'.ringNtt hr hn hL.errRlwe hL.nonnegRlwe
        (by rw [← hclog]; exact hL.maskRlwe) acc hra hrb κ (by positivity)
      rw [hclog, hlv] at hV' ⊢
      rw [← prob_pair_snd (lweSwitchLaw L.maskLwe L.errLwe P.n (2 ^ P.keySwitchBits - 1) (2 ^ k)
        (lweLevels w P m))] at hsw
      refine le_trans (prob_mono ?_) (hsw.trans (le_of_eq ?_))
      · intro y hy hbad hA
        refine hbad ?_
        obtain ⟨key, y', ek, ey, he⟩ := hA
        obtain ⟨sw, esw, hv⟩ := hV' y hy
        refine ⟨_, hmk esw, by
        rw [← hst]; exact outRounding_worst (K := ⟨w, R, P, rot, sw⟩) G hv hcS hl, fun ρ ho => ?_⟩
        refine runNoise_of_steps (K := ⟨w, R, P, rot, sw⟩) G hv hcS hl (ec' _ _) er (hacc _) hph
          (fun _ _ _ _ _ _ h => by rw [hst] at h; cases h) (fun y1 dim1 key1 _ h1 h2 => ?_) ho
        have : sw = .rlwe P.n key := by
          unfold SwitchKey.generate at esw
          rw [hst] at esw
          simp only [] at esw
          rw [mbind ek] at esw
          exact (Option.some.inj esw).symm
        rw [this] at h1
        obtain ⟨rfl, rfl⟩ := SwitchKey.rlwe.inj h1
        rw [hlen] at ey
        obtain rfl : y' = y1 := Option.some.inj (ey.symm.trans h2)
        exact he
      · congr 1
        rw [← hpow]; push_cast; ring
    | brMs =>
      simp only []
      refine le_of_eq ?_
      rw [PMF.toOuterMeasure_apply_eq_zero_iff, Set.disjoint_left]
      intro y hy hbad
      obtain ⟨sw, esw, hv⟩ := hV' y hy
      exact hbad ⟨_, hmk esw, by
        rw [← hst]; exact outRounding_worst (K := ⟨w, R, P, rot, sw⟩) G hv hcS hl, fun ρ ho => runNoise_of_steps (K := ⟨w, R, P, rot, sw⟩) G hv hcS hl (ec' _ _) er
        (hacc _) hph (fun _ _ _ _ _ _ h => by rw [hst] at h; cases h)
        (fun _ _ _ h => by rw [hst] at h; cases h) ho⟩

theorem pack_length (hS : StepsOk R P Q k m) (dk : KeyDraws) (hg : GaussOk P Q dk) (pack : KeyPack)
    (hp : KeyPack.new R P dk = some pack) : pack.lwe.length = P.n := by
  obtain ⟨pack', ep, hlen, -⟩ := C52_key_pack G hS dk hg
  obtain rfl := Option.some.inj (ep.symm.trans hp)
  exact hlen

section
variable (hS : StepsOk R P Q k m) (bits : Nat) (hB : Basis.new R.w Q bits = some P.basis)
  (dk : KeyDraws) (hg : GaussOk P Q dk) (pack : KeyPack) (hp : KeyPack.new R P dk = some pack)
  (Z : List ℤ) (hZ : KeyWords Q pack.ring Z)
  (hZt : P.ringKeyType ≠ .gaussian → Z = pack.ring.map ternaryDigit)
  (L : KeyLaws) (v vL vR : ℝ) (hL : L.Ok P Q k m v vL vR) (β κ : Nat)
include hS hB hg hp hZ hZt hL

/-- A gate that bootstraps one ciphertext `c` that does not depend on the evaluation key, with the table `lut`. -/
theorem gate_failure (c : LWE) (hc : LWEReduced (2 ^ m) P.n c) (lut : Ctx → Nat → Nat → Option (List Nat))
    (hlut : ∀ step l, P.lutStep = some step → lut R P.ringDimension step = some l → Reduced Q (2 ^ k) l)
    (A : EvalKey → Prop)
    (hA : ∀ rot sw, EvalKey.Valid ⟨w, R, P, rot, sw⟩ Q k m pack.lwe pack.ring (pack.lwe.map ternaryDigit) Z Q
        (Q + 2 ^ m) →
      (∀ step l, P.lutStep = some step → lut R P.ringDimension step = some l →
        EvalKey.OutRounding ⟨w, R, P, rot, sw⟩ Q m (pack.lwe.map ternaryDigit) Z
          (roundBound P.steps (pack.lwe.map ternaryDigit) Z) c l ∧
        ∀ ρ, EvalKey.OutRounding ⟨w, R, P, rot, sw⟩ Q m (pack.lwe.map ternaryDigit) Z ρ c l →
          EvalKey.RunNoise ⟨w, R, P, rot, sw⟩ Q k m pack.lwe pack.ring (pack.lwe.map ternaryDigit) Z
            ⟨β, κ, inError k m (pack.lwe.map ternaryDigit), ρ⟩ c l) →
      A ⟨w, R, P, rot, sw⟩) :
    (evalLaw w R P Q k m L).toOuterMeasure {d | ∃ K, EvalKey.new w R P pack d = some K ∧ A K}ᶜ ≤
    rotationTail P k v β + switchTail w R P Q k m vL vR κ := by
  have C : Config R.w Q R.M := ⟨G.field.even, G.field.conf⟩
  have hQ := C.two_le
  have hV : ∀ d ∈ (evalLaw w R P Q k m L).support, ∃ rot sw,
      EvalKey.new w R P pack d = some ⟨w, R, P, rot, sw⟩ ∧
      EvalKey.Valid ⟨w, R, P, rot, sw⟩ Q k m pack.lwe pack.ring (pack.lwe.map ternaryDigit) Z Q
        (Q + 2 ^ m) := fun d hd => by
    obtain ⟨rot, sw, e1, e2, V⟩ := evaluation_key G hS bits hB dk hg pack hp Z hZ hZt Q (Q + 2 ^ m) d
      (evalLaw_ok (w := w) (by omega) hL hd)
    refine ⟨rot, sw, ?_, V⟩
    unfold EvalKey.new
    rw [mbind e1, mbind e2]; rfl
  by_cases hex : ∃ step l, P.lutStep = some step ∧ lut R P.ringDimension step = some l
  · obtain ⟨step, l, es, el⟩ := hex
    refine le_trans (prob_mono ?_)
      (C60_run G hS bits hB dk hg pack hp Z hZ hZt L v vL vR hL c hc l (hlut step l es el) β κ)
    intro d hd hbad hgood
    refine hbad ?_
    obtain ⟨K, eK, h1, h2⟩ := hgood
    obtain ⟨rot, sw, eK', V⟩ := hV d hd
    obtain rfl := Option.some.inj (eK.symm.trans eK')
    refine ⟨_, eK, hA rot sw V fun step' l' es' el' => ?_⟩
    obtain rfl : step = step' := Option.some.inj (es.symm.trans es')
    obtain rfl : l = l' := Option.some.inj (el.symm.trans el')
    exact ⟨h1, h2⟩
  · refine le_trans (le_of_eq ?_) zero_le
    rw [PMF.toOuterMeasure_apply_eq_zero_iff, Set.disjoint_left]
    intro d hd hbad
    obtain ⟨rot, sw, eK, V⟩ := hV d hd
    exact hbad ⟨_, eK, hA rot sw V fun step l es el => absurd ⟨step, l, es, el⟩ hex⟩

section
variable (c0 c1 : LWE) (h0 : LWEReduced (2 ^ m) P.n c0) (h1 : LWEReduced (2 ^ m) P.n c1) (e0 e1 : ℤ)
include h0 h1

theorem sum_failure
    (hn : 8 * 2 ^ k * |e0 + e1| + 2 * 2 ^ m * inError k m (pack.lwe.map ternaryDigit) < 2 ^ k * 2 ^ m)
    (lut : Ctx → Nat → Nat → Option (List Nat))
    (hlut : ∀ step l, P.lutStep = some step → lut R P.ringDimension step = some l → Reduced Q (2 ^ k) l)
    (gate : EvalKey → Option LWE) (x : Bool)
    (hgate : ∀ K : EvalKey, K.w = w → K.R = R → K.P = P → ∀ E E' Λ,
      K.Valid Q k m pack.lwe pack.ring (pack.lwe.map ternaryDigit) Z E E' →
      8 * 2 ^ k * |e0 + e1| + 2 * 2 ^ m * Λ.inp < 2 ^ k * 2 ^ m →
      K.SumNoise Q k m pack.lwe pack.ring (pack.lwe.map ternaryDigit) Z Λ lut c0 c1 →
      K.Refreshed Q m pack.lwe Λ (gate K) x) :
    (evalLaw w R P Q k m L).toOuterMeasure {d | ∃ K, EvalKey.new w R P pack d = some K ∧
      K.SumRounding Q m (pack.lwe.map ternaryDigit) Z (roundBound P.steps (pack.lwe.map ternaryDigit) Z)
        lut c0 c1 ∧
      ∀ ρ, K.SumRounding Q m (pack.lwe.map ternaryDigit) Z ρ lut c0 c1 →
        K.Refreshed Q m pack.lwe ⟨β, κ, inError k m (pack.lwe.map ternaryDigit), ρ⟩ (gate K) x}ᶜ ≤
    rotationTail P k v β + switchTail w R P Q k m vL vR κ := by
  obtain ⟨O, eO, hO⟩ := gate_ops (K := ⟨w, R, P, .binary [], .none⟩) G
  obtain ⟨c, ec, -, hc, -⟩ := C33_add (2 ^ m) P.n O hO c0 c1 h0 h1
  refine gate_failure G hS bits hB dk hg pack hp Z hZ hZt L v vL vR hL β κ c hc lut hlut _
    fun rot sw V h => ⟨?_, fun ρ hρ => ?_⟩
  · intro O' c' step l eO' ec' es el
    obtain rfl := Option.some.inj (eO.symm.trans eO')
    obtain rfl := Option.some.inj (ec.symm.trans ec')
    exact (h step l es el).1
  · refine hgate _ rfl rfl rfl _ _ _ V hn ?_
    intro O' c' step l eO' ec' es el
    have := hρ O' c' step l eO' ec' es el
    obtain rfl := Option.some.inj (eO.symm.trans eO')
    obtain rfl := Option.some.inj (ec.symm.trans ec')
    exact (h step l es el).2 ρ this

theorem diff_failure
    (hn : 8 * 2 ^ k * |e0 - e1| + 2 ^ m * inError k m (pack.lwe.map ternaryDigit) < 2 ^ k * 2 ^ m)
    (lut : Ctx → Nat → Nat → Option (List Nat))
    (hlut : ∀ step l, P.lutStep = some step → lut R P.ringDimension step = some l → Reduced Q (2 ^ k) l)
    (gate : EvalKey → Option LWE) (x : Bool)
    (hgate : ∀ K : EvalKey, K.w = w → K.R = R → K.P = P → ∀ E E' Λ,
      K.Valid Q k m pack.lwe pack.ring (pack.lwe.map ternaryDigit) Z E E' →
      8 * 2 ^ k * |e0 - e1| + 2 ^ m * Λ.inp < 2 ^ k * 2 ^ m →
      K.DiffNoise Q k m pack.lwe pack.ring (pack.lwe.map ternaryDigit) Z Λ lut c0 c1 →
      K.Refreshed Q m pack.lwe Λ (gate K) x) :
    (evalLaw w R P Q k m L).toOuterMeasure {d | ∃ K, EvalKey.new w R P pack d = some K ∧
      K.DiffRounding Q m (pack.lwe.map ternaryDigit) Z (roundBound P.steps (pack.lwe.map ternaryDigit) Z)
        lut c0 c1 ∧
      ∀ ρ, K.DiffRounding Q m (pack.lwe.map ternaryDigit) Z ρ lut c0 c1 →
        K.Refreshed Q m pack.lwe ⟨β, κ, inError k m (pack.lwe.map ternaryDigit), ρ⟩ (gate K) x}ᶜ ≤
    rotationTail P k v β + switchTail w R P Q k m vL vR κ := by
  obtain ⟨O, eO, hO⟩ := gate_ops (K := ⟨w, R, P, .binary [], .none⟩) G
  have h2 : 2 < 2 ^ m := by
    have := G.lwe.lt
    calc 2 < 2 ^ 2 := by decide
      _ ≤ 2 ^ m := Nat.pow_le_pow_right (by decide) (by omega)
  obtain ⟨c, ec, -, hc, -⟩ := C33_sub (2 ^ m) P.n O hO c0 c1 h0 h1
  obtain ⟨c', ec', hc', -⟩ := (C33_scalar_neg (2 ^ m) P.n O hO c hc 2 h2).1
  refine gate_failure G hS bits hB dk hg pack hp Z hZ hZt L v vL vR hL β κ c' hc' lut hlut _
    fun rot sw V h => ⟨?_, fun ρ hρ => ?_⟩
  · intro O1 c1 c1' step l eO1 ec1 ec1' es el
    obtain rfl := Option.some.inj (eO.symm.trans eO1)
    obtain rfl := Option.some.inj (ec.symm.trans ec1)
    obtain rfl := Option.some.inj (ec'.symm.trans ec1')
    exact (h step l es el).1
  · refine hgate _ rfl rfl rfl _ _ _ V hn ?_
    intro O1 c1 c1' step l eO1 ec1 ec1' es el
    have := hρ O1 c1 c1' step l eO1 ec1 ec1' es el
    obtain rfl := Option.some.inj (eO.symm.trans eO1)
    obtain rfl := Option.some.inj (ec.symm.trans ec1)
    obtain rfl := Option.some.inj (ec'.symm.trans ec1')
    exact (h step l es el).2 ρ this

end

/-- C60: `majority` of three bits that were encrypted without knowledge of the evaluation key. -/
theorem C60_majority (c0 c1 c2 : LWE) (h0 : LWEReduced (2 ^ m) P.n c0) (h1 : LWEReduced (2 ^ m) P.n c1)
    (h2 : LWEReduced (2 ^ m) P.n c2) (a b c : Bool) (e0 e1 e2 : ℤ) (p0 : EncryptsBit (2 ^ m) pack.lwe c0 a e0)
    (p1 : EncryptsBit (2 ^ m) pack.lwe c1 b e1) (p2 : EncryptsBit (2 ^ m) pack.lwe c2 c e2)
    (hn : 8 * 2 ^ k * |e0 + e1 + e2| + 2 * 2 ^ m * inError k m (pack.lwe.map ternaryDigit) < 2 ^ k * 2 ^ m) :
    (evalLaw w R P Q k m L).toOuterMeasure {d | ∃ K, EvalKey.new w R P pack d = some K ∧
      K.MajRounding Q m (pack.lwe.map ternaryDigit) Z (roundBound P.steps (pack.lwe.map ternaryDigit) Z)
        c0 c1 c2 ∧
      ∀ ρ, K.MajRounding Q m (pack.lwe.map ternaryDigit) Z ρ c0 c1 c2 →
        K.Refreshed Q m pack.lwe ⟨β, κ, inError k m (pack.lwe.map ternaryDigit), ρ⟩ (K.majority c0 c1 c2)
          (maj a b c)}ᶜ ≤
    rotationTail P k v β + switchTail w R P Q k m vL vR κ := by
  have hlen := pack_length G hS dk hg pack hp
  obtain ⟨O, eO, hO⟩ := gate_ops (K := ⟨w, R, P, .binary [], .none⟩) G
  obtain ⟨x, ex, -, hx, -⟩ := C33_add (2 ^ m) P.n O hO c0 c1 h0 h1
  obtain ⟨y, -, ey, hy, -⟩ := C33_add (2 ^ m) P.n O hO x c2 hx h2
  refine gate_failure G hS bits hB dk hg pack hp Z hZ hZt L v vL vR hL β κ y hy Lut.andMajority
    (fun step l es h => lut_reduced (K := ⟨w, R, P, .binary [], .none⟩) G es (.inr (.inl h))) _
    fun rot sw V h => ⟨?_, fun ρ hρ => ?_⟩
  · intro O' x' y' step l eO' ex' ey' es el
    obtain rfl := Option.some.inj (eO.symm.trans eO')
    obtain rfl := Option.some.inj (ex.symm.trans ex')
    obtain rfl := Option.some.inj (ey.symm.trans ey')
    exact (h step l es el).1
  · refine C44_majority G V (by rw [hlen]; exact h0) (by rw [hlen]; exact h1) (by rw [hlen]; exact h2) p0 p1 p2 hn ?_
    intro O' x' y' step l eO' ex' ey' es el
    have := hρ O' x' y' step l eO' ex' ey' es el
    obtain rfl := Option.some.inj (eO.symm.trans eO')
    obtain rfl := Option.some.inj (ex.symm.trans ex')
    obtain rfl := Option.some.inj (ey.symm.trans ey')
    exact (h step l es el).2 ρ this

section
variable (c0 c1 : LWE) (h0 : LWEReduced (2 ^ m) P.n c0) (h1 : LWEReduced (2 ^ m) P.n c1) (a b : Bool)
  (e0 e1 : ℤ) (p0 : EncryptsBit (2 ^ m) pack.lwe c0 a e0) (p1 : EncryptsBit (2 ^ m) pack.lwe c1 b e1)
include h0 h1 p0 p1

section
variable
  (hn : 8 * 2 ^ k * |e0 + e1| + 2 * 2 ^ m * inError k m (pack.lwe.map ternaryDigit) < 2 ^ k * 2 ^ m)
include hn

/-- C60: `nand` of two bits that were encrypted without knowledge of the evaluation key gives a ciphertext of the right
bit, with the noise `outError` of the level `⟨β, κ, inError, ρ⟩`, except with the stated probability over the
draws of the evaluation key. Here `ρ` is the rounding that occurs, at most `roundBound`. -/
theorem C60_nand : (evalLaw w R P Q k m L).toOuterMeasure {d | ∃ K, EvalKey.new w R P pack d = some K ∧
      K.SumRounding Q m (pack.lwe.map ternaryDigit) Z (roundBound P.steps (pack.lwe.map ternaryDigit) Z)
        Lut.nand c0 c1 ∧
      ∀ ρ, K.SumRounding Q m (pack.lwe.map ternaryDigit) Z ρ Lut.nand c0 c1 →
        K.Refreshed Q m pack.lwe ⟨β, κ, inError k m (pack.lwe.map ternaryDigit), ρ⟩ (K.nand c0 c1)
          (!(a && b))}ᶜ ≤
    rotationTail P k v β + switchTail w R P Q k m vL vR κ := by
  have hlen := pack_length G hS dk hg pack hp
  refine sum_failure G hS bits hB dk hg pack hp Z hZ hZt L v vL vR hL β κ c0 c1 h0 h1 e0 e1 hn Lut.nand
    (fun step l es h => lut_reduced (K := ⟨w, R, P, .binary [], .none⟩) G es (.inl h))
    (fun K => K.nand c0 c1) _ ?_
  rintro ⟨w', R', P', rot, sw⟩ rfl rfl rfl E E' Λ V hn hrun
  exact C44_nand G V (by rw [hlen]; exact h0) (by rw [hlen]; exact h1) p0 p1 hn hrun

/-- C60: `and`. -/
theorem C60_and : (evalLaw w R P Q k m L).toOuterMeasure {d | ∃ K, EvalKey.new w R P pack d = some K ∧
      K.SumRounding Q m (pack.lwe.map ternaryDigit) Z (roundBound P.steps (pack.lwe.map ternaryDigit) Z)
        Lut.andMajority c0 c1 ∧
      ∀ ρ, K.SumRounding Q m (pack.lwe.map ternaryDigit) Z ρ Lut.andMajority c0 c1 →
        K.Refreshed Q m pack.lwe ⟨β, κ, inError k m (pack.lwe.map ternaryDigit), ρ⟩ (K.and c0 c1)
          (a && b)}ᶜ ≤
    rotationTail P k v β + switchTail w R P Q k m vL vR κ := by
  have hlen := pack_length G hS dk hg pack hp
  refine sum_failure G hS bits hB dk hg pack hp Z hZ hZt L v vL vR hL β κ c0 c1 h0 h1 e0 e1 hn Lut.andMajority
    (fun step l es h => lut_reduced (K := ⟨w, R, P, .binary [], .none⟩) G es (.inr (.inl h)))
    (fun K => K.and c0 c1) _ ?_
  rintro ⟨w', R', P', rot, sw⟩ rfl rfl rfl E E' Λ V hn hrun
  exact C44_and G V (by rw [hlen]; exact h0) (by rw [hlen]; exact h1) p0 p1 hn hrun

/-- C60: `or`. -/
theorem C60_or : (evalLaw w R P Q k m L).toOuterMeasure {d | ∃ K, EvalKey.new w R P pack d = some K ∧
      K.SumRounding Q m (pack.lwe.map ternaryDigit) Z (roundBound P.steps (pack.lwe.map ternaryDigit) Z)
        Lut.or c0 c1 ∧
      ∀ ρ, K.SumRounding Q m (pack.lwe.map ternaryDigit) Z ρ Lut.or c0 c1 →
        K.Refreshed Q m pack.lwe ⟨β, κ, inError k m (pack.lwe.map ternaryDigit), ρ⟩ (K.or c0 c1)
          (a || b)}ᶜ ≤
    rotationTail P k v β + switchTail w R P Q k m vL vR κ := by
  have hlen := pack_length G hS dk hg pack hp
  refine sum_failure G hS bits hB dk hg pack hp Z hZ hZt L v vL vR hL β κ c0 c1 h0 h1 e0 e1 hn Lut.or
    (fun step l es h => lut_reduced (K := ⟨w, R, P, .binary [], .none⟩) G es (.inr (.inr (.inl h))))
    (fun K => K.or c0 c1) _ ?_
  rintro ⟨w', R', P', rot, sw⟩ rfl rfl rfl E E' Λ V hn hrun
  exact C44_or G V (by rw [hlen]; exact h0) (by rw [hlen]; exact h1) p0 p1 hn hrun

/-- C60: `nor`. -/
theorem C60_nor : (evalLaw w R P Q k m L).toOuterMeasure {d | ∃ K, EvalKey.new w R P pack d = some K ∧
      K.SumRounding Q m (pack.lwe.map ternaryDigit) Z (roundBound P.steps (pack.lwe.map ternaryDigit) Z)
        Lut.nor c0 c1 ∧
      ∀ ρ, K.SumRounding Q m (pack.lwe.map ternaryDigit) Z ρ Lut.nor c0 c1 →
        K.Refreshed Q m pack.lwe ⟨β, κ, inError k m (pack.lwe.map ternaryDigit), ρ⟩ (K.nor c0 c1)
          (!(a || b))}ᶜ ≤
    rotationTail P k v β + switchTail w R P Q k m vL vR κ := by
  have hlen := pack_length G hS dk hg pack hp
  refine sum_failure G hS bits hB dk hg pack hp Z hZ hZt L v vL vR hL β κ c0 c1 h0 h1 e0 e1 hn Lut.nor
    (fun step l es h => lut_reduced (K := ⟨w, R, P, .binary [], .none⟩) G es (.inr (.inr (.inr (.inl h)))))
    (fun K => K.nor c0 c1) _ ?_
  rintro ⟨w', R', P', rot, sw⟩ rfl rfl rfl E E' Λ V hn hrun
  exact C44_nor G V (by rw [hlen]; exact h0) (by rw [hlen]; exact h1) p0 p1 hn hrun

end

section
variable
  (hn : 8 * 2 ^ k * |e0 - e1| + 2 ^ m * inError k m (pack.lwe.map ternaryDigit) < 2 ^ k * 2 ^ m)
include hn

/-- C60: `xor`. -/
theorem C60_xor : (evalLaw w R P Q k m L).toOuterMeasure {d | ∃ K, EvalKey.new w R P pack d = some K ∧
      K.DiffRounding Q m (pack.lwe.map ternaryDigit) Z (roundBound P.steps (pack.lwe.map ternaryDigit) Z)
        Lut.xor c0 c1 ∧
      ∀ ρ, K.DiffRounding Q m (pack.lwe.map ternaryDigit) Z ρ Lut.xor c0 c1 →
        K.Refreshed Q m pack.lwe ⟨β, κ, inError k m (pack.lwe.map ternaryDigit), ρ⟩ (K.xor c0 c1)
          (a ^^ b)}ᶜ ≤
    rotationTail P k v β + switchTail w R P Q k m vL vR κ := by
  have hlen := pack_length G hS dk hg pack hp
  refine diff_failure G hS bits hB dk hg pack hp Z hZ hZt L v vL vR hL β κ c0 c1 h0 h1 e0 e1 hn Lut.xor
    (fun step l es h => lut_reduced (K := ⟨w, R, P, .binary [], .none⟩) G es (.inr (.inr (.inr (.inr (.inl h))))))
    (fun K => K.xor c0 c1) _ ?_
  rintro ⟨w', R', P', rot, sw⟩ rfl rfl rfl E E' Λ V hn hrun
  exact C44_xor G V (by rw [hlen]; exact h0) (by rw [hlen]; exact h1) p0 p1 hn hrun

/-- C60: `xnor`. -/
theorem C60_xnor : (evalLaw w R P Q k m L).toOuterMeasure {d | ∃ K, EvalKey.new w R P pack d = some K ∧
      K.DiffRounding Q m (pack.lwe.map ternaryDigit) Z (roundBound P.steps (pack.lwe.map ternaryDigit) Z)
        Lut.xnor c0 c1 ∧
      ∀ ρ, K.DiffRounding Q m (pack.lwe.map ternaryDigit) Z ρ Lut.xnor c0 c1 →
        K.Refreshed Q m pack.lwe ⟨β, κ, inError k m (pack.lwe.map ternaryDigit), ρ⟩ (K.xnor c0 c1)
          (!(a ^^ b))}ᶜ ≤
    rotationTail P k v β + switchTail w R P Q k m vL vR κ := by
  have hlen := pack_length G hS dk hg pack hp
  refine diff_failure G hS bits hB dk hg pack hp Z hZ hZt L v vL vR hL β κ c0 c1 h0 h1 e0 e1 hn Lut.xnor
    (fun step l es h => lut_reduced (K := ⟨w, R, P, .binary [], .none⟩) G es (.inr (.inr (.inr (.inr (.inr h))))))
    (fun K => K.xnor c0 c1) _ ?_
  rintro ⟨w', R', P', rot, sw⟩ rfl rfl rfl E E' Λ V hn hrun
  exact C44_xnor G V (by rw [hlen]; exact h0) (by rw [hlen]; exact h1) p0 p1 hn hrun

end
end

end

end
end Verif.Props
