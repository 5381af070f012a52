import Verif.SpecManyKeys
import Verif.Props.SecrecyDefaults

/-!
# C101: several evaluation keys for one secret key

The keys of a circuit that uses a new evaluation key for each layer (C99) are as hard to tell apart as samples of learning
with errors, however many of them are published.
-/

namespace Verif
open Spec

section
variable {A G Dr Y I K : Type} {keys : PMF (List Nat × A)} {core : PMF G} {ι : G → Dr} {σ : List Nat → G → Y} {mask : I → Y → K}

theorem generateAll_eq {gen : List Nat → List Dr → Option (List K)} {ss : List I}
    (hgen : Generates keys core ι σ mask gen ss) {x : List Nat × A} (hx : x ∈ keys.support) :
    ∀ gss : List (List G), (∀ gs ∈ gss, gs.length = ss.length ∧ ∀ g ∈ gs, g ∈ core.support) →
      generateAll gen x.1 (gss.map (List.map ι)) =
        some (gss.map fun gs => List.zipWith mask ss (gs.map (σ x.1)))
  | [], _ => rfl
  | gs :: gss, h => by
    have ih := generateAll_eq hgen hx gss fun g hg => h g (List.mem_cons_of_mem _ hg)
    unfold generateAll at ih ⊢
    obtain ⟨h1, h2⟩ := h gs List.mem_cons_self
    rw [List.map_cons, List.mapM_cons, hgen x hx gs h1 h2, ih]
    rfl

theorem outcomeAll_eq {gen : List Nat → List Dr → Option (List K)} {ss : List I}
    (hgen : Generates keys core ι σ mask gen ss) {cnt : Nat} (hc : ss.length = cnt) (N : Nat) :
    outcomeGame keys (draws (draws (core.map ι) cnt) N) (generateAll gen) =
      (keyGame keys (fun s => draws (core.map (σ s)) cnt) N).map (replayAll mask ss) := by
  subst hc
  unfold outcomeGame keyGame
  rw [PMF.map_bind]
  refine bind_congr_support fun x hx => ?_
  dsimp only
  rw [← draws_map, ← draws_map, ← draws_map, ← draws_map, PMF.map_comp, PMF.map_comp, PMF.map_comp]
  refine map_congr_support fun gss hgss => ?_
  obtain ⟨hl, hm⟩ := mem_support_draws hgss
  show (x.2, generateAll gen x.1 (gss.map (List.map ι))) = _
  rw [generateAll_eq hgen hx gss fun gs hgs => mem_support_draws (hm gs hgs)]
  simp [replayAll, Function.comp_def]

theorem outcomeAll_advantage {gen gen' : List Nat → List Dr → Option (List K)} {ss ss' : List I}
    (hgen : Generates keys core ι σ mask gen ss) (hgen' : Generates keys core ι σ mask gen' ss') {cnt : Nat}
    (hc : ss.length = cnt) (hc' : ss'.length = cnt) {U : PMF Y} {V : PMF K} (hU : ∀ s, U.map (mask s) = V) (N : Nat)
    (D : Set (A × Option (List (List K)))) :
    advantage (outcomeGame keys (draws (draws (core.map ι) cnt) N) (generateAll gen))
        (outcomeGame keys (draws (draws (core.map ι) cnt) N) (generateAll gen')) D ≤
      advantage (keyGame keys (fun s => draws (core.map (σ s)) cnt) N) (keyGame keys (fun _ => draws U cnt) N)
        (replayAll mask ss ⁻¹' D) +
      advantage (keyGame keys (fun s => draws (core.map (σ s)) cnt) N) (keyGame keys (fun _ => draws U cnt) N)
        (replayAll mask ss' ⁻¹' D) := by
  have hu : ∀ ss : List I, ss.length = cnt → (keyGame keys (fun _ => draws U cnt) N).map (replayAll mask ss) =
      keys.bind fun x => (draws (draws V cnt) N).map fun l => (x.2, some l) := fun ss h => by
    unfold keyGame
    rw [PMF.map_bind]
    congr 1
    funext x
    rw [← h, ← draws_zipWith hU ss, ← draws_map, PMF.map_comp, PMF.map_comp]
    rfl
  rw [outcomeAll_eq hgen hc, outcomeAll_eq hgen' hc']
  have hu' := congrArg (fun p => p.toOuterMeasure D) ((hu ss hc).trans (hu ss' hc').symm)
  rw [PMF.toOuterMeasure_map_apply, PMF.toOuterMeasure_map_apply] at hu'
  unfold advantage
  rw [PMF.toOuterMeasure_map_apply, PMF.toOuterMeasure_map_apply, hu', abs_sub_comm
    (ENNReal.toReal ((keyGame keys (fun s => draws (core.map (σ s)) cnt) N).toOuterMeasure (replayAll mask ss' ⁻¹' D)))]
  exact abs_sub_le _ _ _

end
end Verif

namespace Verif.Props
open Spec

section
variable {R : Ctx} {q k : Nat} [Fact q.Prime] [NeZero q] (hk : 0 < k) (F : TableField R.w q R.M R.tbl k) (bits : Nat)
  (B : Basis) (hB : Basis.new R.w q bits = some B) (χ : PMF Nat) (hχ : ∀ x ∈ χ.support, x < q) {A : Type}
  (keys : PMF (List Nat × A)) (hkeys : ∀ x ∈ keys.support, Reduced q (2 ^ k) x.1)
include hk F hB hχ hkeys

/-- C101: any number `N` of bootstrapping keys of binary digits under one ring key. If an observer, who may know anything `A`
drawn with the ring key, tells `N` bootstrapping keys for the digits `ss` from `N` keys for the digits `ss'`, then one of two
observers, which use no secret other than these digits, tells `N` times as many samples of ring learning with errors from
uniform ones, with at least half of the advantage. -/
theorem C101_binary_keys (ss ss' : List Nat) (hl : ss'.length = ss.length) (N : Nat)
    (D : Set (A × Option (List (List NTTRGSW)))) :
    let law := draws (draws (rgswLaw (draws (uniformBelow q) (2 ^ k)) χ (2 ^ k) B.decomposeLen) ss.length) N
    let rlwe := keyGame keys (fun s => draws
      (rgswSamples (rlweSample q (2 ^ k) (Rq.ofWords q (2 ^ k) s) χ) B.decomposeLen) ss.length) N
    let uniform := keyGame keys (fun _ => draws (rgswSamples (uniformRing q (2 ^ k)) B.decomposeLen) ss.length) N
    let replay := fun ss => replayAll (A := A)
      (fun (s : Nat) (x : List (RingSample q (2 ^ k)) × _) => maskDigit R B bits (s != 0) x) ss
    advantage (outcomeGame keys law (generateAll (binaryGen R B ss)))
        (outcomeGame keys law (generateAll (binaryGen R B ss'))) D ≤
      advantage rlwe uniform (replay ss ⁻¹' D) + advantage rlwe uniform (replay ss' ⁻¹' D) := by
  obtain ⟨t, rfl, E⟩ := F.env hk
  simp only [rgswLaw_eq E, rgswSamples_eq]
  exact outcomeAll_advantage (binary_generates E bits B hB χ hχ keys hkeys ss)
    (binary_generates E bits B hB χ hχ keys hkeys ss') rfl hl (fun s => uniform_maskDigit E B bits B.decomposeLen (s != 0)) N D

/-- C101: any number of bootstrapping keys of ternary digits under one ring key. -/
theorem C101_ternary_keys (ss ss' : List Nat) (hl : ss'.length = ss.length) (N : Nat)
    (D : Set (A × Option (List (List (NTTRGSW × NTTRGSW))))) :
    let group := rgswLaw (draws (uniformBelow q) (2 ^ k)) χ (2 ^ k) B.decomposeLen
    let samples := fun s => rgswSamples (rlweSample q (2 ^ k) (Rq.ofWords q (2 ^ k) s) χ) B.decomposeLen
    let uniforms := rgswSamples (uniformRing q (2 ^ k)) B.decomposeLen
    let law := draws (draws (pair group group) ss.length) N
    let rlwe := keyGame keys (fun s => draws (pair (samples s) (samples s)) ss.length) N
    let uniform := keyGame keys (fun _ => draws (pair uniforms uniforms) ss.length) N
    advantage (outcomeGame keys law (generateAll (ternaryGen R B ss)))
        (outcomeGame keys law (generateAll (ternaryGen R B ss'))) D ≤
      advantage rlwe uniform (replayAll (maskTernary R B bits) ss ⁻¹' D) +
      advantage rlwe uniform (replayAll (maskTernary R B bits) ss' ⁻¹' D) := by
  obtain ⟨t, rfl, E⟩ := F.env hk
  simp only [rgswLaw_eq E, rgswSamples_eq, pair_map]
  refine outcomeAll_advantage (ternary_generates E bits B hB χ hχ keys hkeys ss)
    (ternary_generates E bits B hB χ hχ keys hkeys ss') rfl hl (V := pair
      ((rgswSamples (uniformRing R.M.value (2 ^ k)) B.decomposeLen).map (maskDigit R B bits false))
      ((rgswSamples (uniformRing R.M.value (2 ^ k)) B.decomposeLen).map (maskDigit R B bits false))) (fun s => ?_) N D
  have e : maskTernary (q := R.M.value) (n := 2 ^ k) R B bits s =
    Prod.map (maskDigit R B bits (s == 1)) (maskDigit R B bits (s != 0 && s != 1)) := rfl
  rw [e, ← pair_map, uniform_maskDigit E, uniform_maskDigit E B bits B.decomposeLen (s != 0 && s != 1)]

end

section
variable {R : Ctx} {q k : Nat} [Fact q.Prime] [NeZero q] (hk : 0 < k) (F : TableField R.w q R.M R.tbl k) (bits : Nat)
  (B : Basis) (hB : Basis.new R.w q bits = some B) (χ : PMF Nat) (hχ : ∀ x ∈ χ.support, x < q) {A : Type}
  (keys : PMF (List Nat × A)) (hkeys : ∀ x ∈ keys.support, 2 ^ (k - 1) < x.1.length ∧ x.1.length ≤ 2 ^ k)
include hk F hB hχ hkeys

/-- C101: any number of switching keys for RLWE ciphertexts, to one LWE key. -/
theorem C101_rlwe_switching_keys (cnt : Nat) (hcnt : 0 < cnt) (ring ringNtt ring' ringNtt' : List Nat)
    (hr : Reduced q (cnt * 2 ^ k) ring) (hr' : Reduced q (cnt * 2 ^ k) ring')
    (hrn : cnt = 1 → Poly.toNtt R.w R.M R.tbl ring = some ringNtt)
    (hrn' : cnt = 1 → Poly.toNtt R.w R.M R.tbl ring' = some ringNtt') (N : Nat)
    (D : Set (A × Option (List (List NTTGadgetRLWE)))) :
    let law := draws (rlweSwitchLaw (draws (uniformBelow q) (2 ^ k)) χ (2 ^ k) B.decomposeLen cnt) N
    let rlwe := keyGame keys (fun sk => draws
      (draws (rlweSample q (2 ^ k) (digitRing q (2 ^ k) sk) χ) B.decomposeLen) cnt) N
    let uniform := keyGame keys (fun _ => draws (draws (uniformRing q (2 ^ k)) B.decomposeLen) cnt) N
    let replay := fun ring => replayAll (A := A) (maskChunk R B bits) (chunkItems q (2 ^ k) cnt ring)
    advantage (outcomeGame keys law (generateAll fun sk => RlweSwitch.generate R bits sk ring ringNtt))
        (outcomeGame keys law (generateAll fun sk => RlweSwitch.generate R bits sk ring' ringNtt')) D ≤
      advantage rlwe uniform (replay ring ⁻¹' D) + advantage rlwe uniform (replay ring' ⁻¹' D) := by
  obtain ⟨t, rfl, E⟩ := F.env hk
  have hg : ∀ {D E K : Type} (gen : List Nat → E → Option K) (f : D → E),
      (fun s (d : List D) => generateAll gen s (d.map f)) = generateAll fun s d => gen s (f d) := fun gen f => by
    funext s d
    unfold generateAll
    rw [List.mapM_map]
    rfl
  simp only [rlweSwitchLaw, ← draws_map (draws (draws _ _) _), outcomeGame_map, hg, sampleLaw_eq E, rlweSample_eq]
  simp only [← draws_map _ (ringDraw R), ← draws_map _ (ringValue R _)]
  exact outcomeAll_advantage (rlwe_generates E hk F.even F.conf bits B hB χ hχ keys hkeys cnt hcnt ring ringNtt hr hrn)
    (rlwe_generates E hk F.even F.conf bits B hB χ hχ keys hkeys cnt hcnt ring' ringNtt' hr' hrn') (by simp [chunkItems])
    (by simp [chunkItems]) (fun m => uniform_maskChunk E B bits B.decomposeLen m) N D

end

section
variable (w k bits : Nat) (hk : 0 < k) (hkw : k < w) (M : PowOf2) (hM : PowOf2.new (2 ^ k) = some M) (B : Basis)
  (hB : Basis.newWord w bits (2 ^ k) = some B) (n : Nat) (χ : PMF Nat) (hχ : ∀ x ∈ χ.support, x < 2 ^ k) {A : Type}
  (keys : PMF (List Nat × A)) (hkeys : ∀ x ∈ keys.support, x.1.length = n)
include hk hkw hM hB hχ hkeys

/-- C101: any number of switching keys for LWE ciphertexts, to one LWE key. -/
theorem C101_lwe_switching_keys (ring ring' : List Nat) (hl : ring'.length = ring.length) (N : Nat)
    (D : Set (A × Option (List (List (List (List LWE)))))) :
    let law := draws (lweSwitchLaw (draws (uniformBelow (2 ^ k)) n) χ n (2 ^ bits - 1) ring.length B.decomposeLen) N
    let gen := fun ring sk d => (LweSwitch.generate w (2 ^ k) bits (PowOf2.ops w M) sk ring d).map Prod.snd
    let samples := fun p : PMF (Sample (2 ^ k) n) => draws (draws (draws p (2 ^ bits - 1)) ring.length) B.decomposeLen
    let lwe := keyGame keys (fun sk => samples
      (lweSample (2 ^ k) n (keyVector (2 ^ k) n sk) (χ.map fun x : Nat => (x : ℤ)))) N
    let uniform := keyGame keys (fun _ => samples (PMF.uniformOfFintype _)) N
    let replay := fun ring => replayAll (A := A) maskLevel (levelItems (2 ^ k) bits B.decomposeLen ring)
    advantage (outcomeGame keys law (generateAll (gen ring))) (outcomeGame keys law (generateAll (gen ring'))) D ≤
      advantage lwe uniform (replay ring ⁻¹' D) + advantage lwe uniform (replay ring' ⁻¹' D) := by
  have e : ∀ {α β : Type} (p : PMF α) (f : α → β) (c N : Nat), draws (draws (p.map f) c) N =
      (draws (draws p c) N).map (List.map (List.map f)) := fun p f c N => by rw [← draws_map, ← draws_map]
  have hg : ∀ {D E K : Type} (gen : List Nat → E → Option K) (f : D → E),
      (fun s (d : List D) => generateAll gen s (d.map f)) = generateAll fun s d => gen s (f d) := fun gen f => by
    funext s d
    unfold generateAll
    rw [List.mapM_map]
    rfl
  simp only [lweSwitchLaw, ← draws_map (draws (draws (draws _ _) _) _), outcomeGame_map, hg, pair_uniform_eq, lweSample_eq]
  simp only [e _ _ (2 ^ bits - 1)]
  have h := lwe_generates hk hkw hM hB n χ hχ keys hkeys ring'
  rw [hl] at h
  exact outcomeAll_advantage (lwe_generates hk hkw hM hB n χ hχ keys hkeys ring) h (by simp [levelItems])
    (by simp [levelItems]) (fun zs => uniform_maskLevel _ _ zs) N D

end

/-- A thousand bootstrapping keys of two ternary LWE keys of length 1024 at the default parameters: if no observer of a class
`efficient` tells ring learning with errors from uniform samples with an advantage above `ε`, an observer whose two replays are
in the class does not tell the keys apart with an advantage above `2 ε`. -/
example [DefaultBuild] (δ : PMF ℚ) (hδ : Deviates δ (13 / 2)) (ss ss' : List Nat) (h : ss.length = 1024) (h' : ss'.length = 1024)
    (D : Set (Unit × Option (List (List (NTTRGSW × NTTRGSW))))) (ε : ℝ)
    (efficient : Set (Set (Unit × List (List ((List (RingSample 132120577 (2 ^ 10)) × List (RingSample 132120577 (2 ^ 10))) ×
        (List (RingSample 132120577 (2 ^ 10)) × List (RingSample 132120577 (2 ^ 10))))))))
    (hD : replayAll (maskTernary defaultCtx ⟨8, 9, 7, 3⟩ 3) ss ⁻¹' D ∈ efficient)
    (hD' : replayAll (maskTernary defaultCtx ⟨8, 9, 7, 3⟩ 3) ss' ⁻¹' D ∈ efficient)
    (hε : ∀ D' ∈ efficient,
      let samples := fun p : PMF (RingSample 132120577 (2 ^ 10)) => pair (rgswSamples p 9) (rgswSamples p 9)
      advantage (keyGame ternaryKeys (fun s => draws (samples
          (rlweSample 132120577 (2 ^ 10) (Rq.ofWords 132120577 (2 ^ 10) s) (defaultErrors δ))) 1024) 1000)
        (keyGame ternaryKeys (fun _ => draws (samples (uniformRing 132120577 (2 ^ 10))) 1024) 1000) D' ≤ ε) :
    let group := rgswLaw (draws (uniformBelow 132120577) (2 ^ 10)) (defaultErrors δ) (2 ^ 10) 9
    let law := draws (draws (pair group group) 1024) 1000
    advantage (outcomeGame ternaryKeys law (generateAll (ternaryGen defaultCtx ⟨8, 9, 7, 3⟩ ss)))
      (outcomeGame ternaryKeys law (generateAll (ternaryGen defaultCtx ⟨8, 9, 7, 3⟩ ss'))) D ≤ 2 * ε := by
  have F : TableField defaultCtx.w 132120577 defaultCtx.M defaultCtx.tbl 10 := default_table
  have hh := C101_ternary_keys (R := defaultCtx) (q := 132120577) (k := 10) (by decide) F 3 ⟨8, 9, 7, 3⟩
    default_basis (defaultErrors δ) (fun x hx => (C71_default_errors δ hδ).lt x hx) ternaryKeys ternaryKeys_reduced ss ss'
    (by rw [h, h']) 1000 D
  simp only [h] at hh
  refine hh.trans ?_
  rw [two_mul]
  exact add_le_add (hε _ hD) (hε _ hD')

end Verif.Props
