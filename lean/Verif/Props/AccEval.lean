import Verif.Props.AccRotation

/-!
# C75: the mask of the accumulator in a bootstrapping with a fresh evaluation key

Concrete cases that meet the hypotheses are in `Props/AccDefaults.lean`.
-/

namespace Verif.Props
open Fp Finset Spec Ntt
open scoped ENNReal

section
variable {w : Nat} {R : Ctx} {P : Params} {Q k m : Nat} [Fact Q.Prime] (G : GateParams w R P Q k m)
include G

/-- C75: in the bootstrapping of a given ciphertext with a fresh evaluation key, whose rotation key has uniform masks, and
a table that is a unit, the mask of the accumulator is in a set without the zero mask with at most the probability of a
uniform mask plus `n` times `rootTail`. -/
theorem C75_accumulator [NeZero Q] (hS : StepsOk R P Q k m) (bits : Nat) (hB : Basis.new R.w Q bits = some P.basis)
    {t : Nat} (ht : t ≤ k) (hq : (2 ^ t * (2 ^ bits - 1)) ^ 2 ^ t < Q)
    (dk : KeyDraws) (hg : GaussOk P Q dk) (pack : KeyPack) (hp : KeyPack.new R P dk = some pack)
    (L : KeyLaws) (v vL vR : ℝ) (hL : L.Ok P Q k m v vL vR) (hm : L.mask = draws (uniformBelow Q) (2 ^ k))
    (c : LWE) (hc : LWEReduced (2 ^ m) P.n c) (lut : List Nat) (hl : Reduced Q (2 ^ k) lut)
    (hu : TableUnit Q (2 ^ k) lut) (X : Set (List Nat)) (hX : Poly.zero (2 ^ k) ∉ X) :
    (evalLaw w R P Q k m L).toOuterMeasure
      {d | ∃ K c' acc, EvalKey.new w R P pack d = some K ∧ K.switchIn c = some c' ∧
        K.accumulate c' lut = some acc ∧ acc.a ∈ X} ≤
    (draws (uniformBelow Q) (2 ^ k)).toOuterMeasure X + P.n * rootTail Q (2 ^ k) t := by
  have hk : 0 < k := by have := G.two_le; omega
  obtain ⟨pack', ep, hlen, hw, hb, hr, hn, hrk, hms⟩ := C52_key_pack G hS dk hg
  obtain rfl := Option.some.inj (ep.symm.trans hp)
  have hcS : LWEReduced (2 ^ m) (pack'.lwe.map ternaryDigit).length c := by rw [List.length_map, hlen]; exact hc
  obtain ⟨c₀, -, -, ec, hc0, -⟩ := switchIn_spec (K := ⟨w, R, P, .binary [], .none⟩) G
    (pack'.lwe.map ternaryDigit) hcS (Int.ModEq.refl _)
  have ec' : ∀ rot sw, EvalKey.switchIn ⟨w, R, P, rot, sw⟩ c = some c₀ := fun _ _ => ec
  have hc0l : c₀.a.length = pack'.lwe.length := by rw [hc0.1.1, List.length_map]
  unfold evalLaw
  rw [← add_zero ((draws (uniformBelow Q) (2 ^ k)).toOuterMeasure X + P.n * rootTail Q (2 ^ k) t)]
  refine prob_bind_split (G := {x | ∃ rot r, RotationKey.generate R P pack'
      ⟨x.1, x.2, fun _ _ _ => ([], 0), fun _ => []⟩ = some rot ∧ rot.rotate R lut c₀ = some r ∧ r.a ∈ X}ᶜ)
    ?_ fun x hx hG => ?_
  · rw [compl_compl, hm, ← hlen]
    cases ht' : P.lweKeyType with
    | binary =>
      have := C75_binary hk G.field bits P.basis hB ht hq pack'.ring pack'.ringNtt hr hn pack'.lwe hL.err
        hL.nonneg lut hl hu c₀ hc0l hc0.1.2 hc0.2 X hX
      rw [← prob_pair_fst _ (draws (pair (rgswLaw (draws (uniformBelow Q) (2 ^ k)) L.err (2 ^ k) P.basis.decomposeLen)
        (rgswLaw (draws (uniformBelow Q) (2 ^ k)) L.err (2 ^ k) P.basis.decomposeLen)) pack'.lwe.length)] at this
      refine le_trans (prob_mono ?_) this
      rintro x _ ⟨rot, r, e, er, hr⟩
      unfold RotationKey.generate at e
      rw [ht'] at e
      obtain ⟨key, ek, e⟩ := Option.bind_eq_some_iff.1 e
      obtain rfl := Option.some.inj e
      exact ⟨key, r, ek, er, hr⟩
    | ternary =>
      have := C75_ternary hk G.le G.field bits P.basis hB ht hq pack'.ring pack'.ringNtt hr hn pack'.lwe hL.err
        hL.nonneg lut hl hu c₀ hc0l hc0.1.2 hc0.2 X hX
      rw [← prob_pair_snd (draws (rgswLaw (draws (uniformBelow Q) (2 ^ k)) L.err (2 ^ k) P.basis.decomposeLen)
        pack'.lwe.length)] at this
      refine le_trans (prob_mono ?_) this
      rintro x _ ⟨rot, r, e, er, hr⟩
      unfold RotationKey.generate at e
      rw [ht'] at e
      obtain ⟨key, ek, e⟩ := Option.bind_eq_some_iff.1 e
      obtain rfl := Option.some.inj e
      exact ⟨key, r, ek, er, hr⟩
  · refine le_of_eq ?_
    rw [PMF.toOuterMeasure_apply_eq_zero_iff, Set.disjoint_left]
    rintro d hd ⟨K, c', acc, eK, ec1, ea, hx⟩
    obtain ⟨y, -, rfl⟩ := (PMF.mem_support_map_iff _ _ _).1 hd
    obtain ⟨rot, er, e2⟩ := Option.bind_eq_some_iff.1 eK
    obtain ⟨sw, -, e3⟩ := Option.bind_eq_some_iff.1 e2
    obtain rfl := Option.some.inj e3
    obtain rfl : c₀ = c' := Option.some.inj ((ec' _ _).symm.trans ec1)
    obtain ⟨r, er', ea⟩ := Option.bind_eq_some_iff.1 ea
    have : acc.a = r.a := by
      obtain ⟨_, -, ea⟩ := Option.bind_eq_some_iff.1 ea
      obtain ⟨_, -, ea⟩ := Option.bind_eq_some_iff.1 ea
      rw [← Option.some.inj ea]
    exact hG ⟨rot, r, er, er', this ▸ hx⟩

end
end Verif.Props
