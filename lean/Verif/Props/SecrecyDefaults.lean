import Verif.Props.SecrecySwitch
import Verif.Props.GaussianDefaults

/-! # C68 at the default parameters -/

namespace Verif.Props
open Spec

/-- Ternary keys of length 1024 modulo 132120577, as the sampler draws them (C64); nothing else is drawn with them. -/
noncomputable def ternaryKeys : PMF (List Nat × Unit) :=
  (draws (ternaryLaw 132120577) 1024).map fun l => (l, ())

theorem ternaryKeys_reduced : ∀ x ∈ ternaryKeys.support, Reduced 132120577 (2 ^ 10) x.1 := by
  intro x hx
  unfold ternaryKeys at hx
  rw [PMF.mem_support_map_iff] at hx
  obtain ⟨l, hl, rfl⟩ := hx
  obtain ⟨h1, h2⟩ := mem_support_draws hl
  refine ⟨h1, fun y hy => ?_⟩
  obtain ⟨z, hz, rfl⟩ := (PMF.mem_support_map_iff _ _ _).1 (h2 y hy)
  have := mem_support_uniformBelow hz
  split_ifs <;> omega

instance : NeZero 132120577 := ⟨by decide⟩

/-- Bootstrapping keys of two ternary LWE keys of length 1024: if no observer of a class `efficient` tells ring learning with
errors with the errors of the default parameters from uniform samples with an advantage above `ε`, an observer whose two replays are in
the class does not tell the keys apart with an advantage above `2 ε`. -/
example [DefaultBuild] (δ : PMF ℚ) (hδ : Deviates δ (13 / 2)) (ss ss' : List Nat) (h : ss.length = 1024) (h' : ss'.length = 1024)
    (D : Set (Unit × Option (List (NTTRGSW × NTTRGSW)))) (ε : ℝ)
    (efficient : Set (Set (Unit × List ((List (RingSample 132120577 (2 ^ 10)) × List (RingSample 132120577 (2 ^ 10))) ×
        (List (RingSample 132120577 (2 ^ 10)) × List (RingSample 132120577 (2 ^ 10)))))))
    (hD : replayItems (maskTernary defaultCtx ⟨8, 9, 7, 3⟩ 3) ss ⁻¹' D ∈ efficient)
    (hD' : replayItems (maskTernary defaultCtx ⟨8, 9, 7, 3⟩ 3) ss' ⁻¹' D ∈ efficient)
    (hε : ∀ D' ∈ efficient,
      let samples := fun p : PMF (RingSample 132120577 (2 ^ 10)) => pair (rgswSamples p 9) (rgswSamples p 9)
      advantage (keyGame ternaryKeys (fun s => samples
          (rlweSample 132120577 (2 ^ 10) (Rq.ofWords 132120577 (2 ^ 10) s) (defaultErrors δ))) 1024)
        (keyGame ternaryKeys (fun _ => samples (uniformRing 132120577 (2 ^ 10))) 1024) D' ≤ ε) :
    let group := rgswLaw (draws (uniformBelow 132120577) (2 ^ 10)) (defaultErrors δ) (2 ^ 10) 9
    advantage (outcomeGame ternaryKeys (draws (pair group group) 1024) (ternaryGen defaultCtx ⟨8, 9, 7, 3⟩ ss))
      (outcomeGame ternaryKeys (draws (pair group group) 1024) (ternaryGen defaultCtx ⟨8, 9, 7, 3⟩ ss')) D ≤ 2 * ε := by
  have F : TableField defaultCtx.w 132120577 defaultCtx.M defaultCtx.tbl 10 := default_table
  have hh := C68_ternary_key (R := defaultCtx) (q := 132120577) (k := 10) (by decide) F 3 ⟨8, 9, 7, 3⟩
    default_basis (defaultErrors δ) (fun x hx => (C71_default_errors δ hδ).lt x hx) ternaryKeys ternaryKeys_reduced ss ss'
    (by rw [h, h']) D
  simp only [h] at hh
  refine hh.trans ?_
  rw [two_mul]
  exact add_le_add (hε _ hD) (hε _ hD')

/-- Switching keys from two ring keys of length 1024. -/
example [DefaultBuild] (δ : PMF ℚ) (hδ : Deviates δ (13 / 2)) (ring ringNtt ring' ringNtt' : List Nat) (hr : Reduced 132120577 1024 ring) (hr' : Reduced 132120577 1024 ring')
    (hrn : Poly.toNtt 32 defaultBarrett defaultCtx.tbl ring = some ringNtt)
    (hrn' : Poly.toNtt 32 defaultBarrett defaultCtx.tbl ring' = some ringNtt')
    (D : Set (Unit × Option (List NTTGadgetRLWE))) (ε : ℝ)
    (efficient : Set (Set (Unit × List (List (RingSample 132120577 (2 ^ 10))))))
    (hD : replayItems (maskChunk defaultCtx ⟨2, 27, 1, 1⟩ 1) (chunkItems 132120577 (2 ^ 10) 1 ring) ⁻¹' D ∈ efficient)
    (hD' : replayItems (maskChunk defaultCtx ⟨2, 27, 1, 1⟩ 1) (chunkItems 132120577 (2 ^ 10) 1 ring') ⁻¹' D ∈ efficient)
    (hε : ∀ D' ∈ efficient,
      advantage (keyGame ternaryKeys (fun sk => draws (rlweSample 132120577 (2 ^ 10) (digitRing 132120577 (2 ^ 10) sk)
          (defaultErrors δ)) 27) 1)
        (keyGame ternaryKeys (fun _ => draws (uniformRing 132120577 (2 ^ 10)) 27) 1) D' ≤ ε) :
    let law := rlweSwitchLaw (draws (uniformBelow 132120577) (2 ^ 10)) (defaultErrors δ) (2 ^ 10) 27 1
    advantage (outcomeGame ternaryKeys law fun sk => RlweSwitch.generate defaultCtx 1 sk ring ringNtt)
      (outcomeGame ternaryKeys law fun sk => RlweSwitch.generate defaultCtx 1 sk ring' ringNtt') D ≤ 2 * ε := by
  have F : TableField defaultCtx.w 132120577 defaultCtx.M defaultCtx.tbl 10 := default_table
  have hh := C68_rlwe_switching_key (R := defaultCtx) (q := 132120577) (k := 10) (by decide) F 1 ⟨2, 27, 1, 1⟩
    default_switch_basis (defaultErrors δ) (fun x hx => (C71_default_errors δ hδ).lt x hx) ternaryKeys
    (fun x hx => by rw [(ternaryKeys_reduced x hx).1]; decide) 1 (by decide) ring ringNtt ring' ringNtt' hr hr'
    (fun _ => hrn) (fun _ => hrn') D
  refine hh.trans ?_
  rw [two_mul]
  exact add_le_add (hε _ hD) (hε _ hD')

/-- Switching keys for LWE ciphertexts modulo 1024 from two ring keys of length 1024, in base 4 with binary LWE keys of
dimension 512. -/
example (ring ring' : List Nat) (hr : ring.length = 1024) (hr' : ring'.length = 1024)
    (D : Set (Unit × Option (List (List (List LWE))))) (ε : ℝ)
    (efficient : Set (Set (Unit × List (List (List (Sample (2 ^ 10) 512))))))
    (hD : replayItems maskLevel (levelItems (2 ^ 10) 2 5 ring) ⁻¹' D ∈ efficient)
    (hD' : replayItems maskLevel (levelItems (2 ^ 10) 2 5 ring') ⁻¹' D ∈ efficient)
    (hε : ∀ D' ∈ efficient,
      let keys := (draws (uniformBelow 2) 512).map fun l => (l, ())
      let samples := fun p : PMF (Sample (2 ^ 10) 512) => draws (draws p 3) 1024
      advantage (keyGame keys (fun sk => samples (lweSample (2 ^ 10) 512 (keyVector (2 ^ 10) 512 sk)
          ((uniformBelow 3).map fun x : Nat => (x : ℤ)))) 5)
        (keyGame keys (fun _ => samples (PMF.uniformOfFintype _)) 5) D' ≤ ε) :
    let keys := (draws (uniformBelow 2) 512).map fun l => (l, ())
    let law := lweSwitchLaw (draws (uniformBelow (2 ^ 10)) 512) (uniformBelow 3) 512 3 1024 5
    let gen := fun ring sk d => (LweSwitch.generate 16 (2 ^ 10) 2 (PowOf2.ops 16 ⟨1023⟩) sk ring d).map Prod.snd
    advantage (outcomeGame keys law (gen ring)) (outcomeGame keys law (gen ring')) D ≤ 2 * ε := by
  have hh := C68_lwe_switching_key 16 10 2 (by decide) (by decide) ⟨1023⟩ (by decide) ⟨4, 5, 3, 2⟩ (by decide) 512
    (uniformBelow 3) (fun x hx => by have := mem_support_uniformBelow hx; omega)
    ((draws (uniformBelow 2) 512).map fun l => (l, ()))
    (fun x hx => by
      obtain ⟨l, hl, rfl⟩ := (PMF.mem_support_map_iff _ _ _).1 hx
      exact (mem_support_draws hl).1) ring ring' (by rw [hr, hr']) D
  simp only [hr] at hh
  refine hh.trans ?_
  rw [two_mul]
  exact add_le_add (hε _ hD) (hε _ hD')

end Verif.Props
