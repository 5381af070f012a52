import Verif.SpecProgrammable
import Verif.Props.EndToEnd
import Verif.Model.Session

/-!
# C90: bootstrapping with a table of the caller
-/

namespace Verif.Props
open Fp Finset Spec Ntt

section
variable {K : EvalKey} {Q k m : Nat} [Fact Q.Prime] (G : GateParams K.w K.R K.P Q k m) {sk z : List Nat}
  {S Z : List ℤ} {E E' : Nat} (V : K.Valid Q k m sk z S Z E E')
include G

/-- The switch from `Q` to `q` of a ciphertext with phase `y + e`. -/
theorem prog_switchOut (T : List ℤ) (n : Nat) {x : LWE} (hx : LWEReduced Q n x) (y e : ℤ)
    (ε : Nat) (he : |e| ≤ ε) (ρ : ℤ)
    (hρ : ∀ out, ModSwitch.lwe K.w Q (2 ^ m) x = some out → RoundedBy Q (2 ^ m) T ρ x out)
    (hp : ((intPhase T x.a x.b : ℤ) : ZMod Q) = (y : ZMod Q) + (e : ZMod Q)) :
    ∃ (out : LWE) (ψ : ℤ), ModSwitch.lwe K.w K.R.M.value K.P.q x = some out ∧
      (∀ dest : LWE, dest.a.length = n →
        ModSwitch.lweInplace K.w K.R.M.value K.P.q x dest = some out) ∧
      LWEReduced (2 ^ m) n out ∧ ((intPhase T out.a out.b : ℤ) : ZMod (2 ^ m)) = (ψ : ZMod (2 ^ m)) ∧
      |2 * (Q * ψ - 2 ^ m * y)| ≤ 2 * 2 ^ m * ε + Q * ρ := by
  have C : Config K.R.w Q K.R.M := ⟨G.field.even, G.field.conf⟩
  have hPq : K.P.q = 2 ^ m := G.lwe.q
  have hφ : y + e ≡ intPhase T x.a x.b [ZMOD Q] := by
    refine (ZMod.intCast_eq_intCast_iff _ _ _).1 ?_
    rw [hp, Int.cast_add]
  obtain ⟨out, eo, hin, ho, -⟩ := switchOut_eq G hx
  obtain ⟨φ', h1, h2⟩ := roundedBy_shift (hρ out eo) hφ
  rw [C.value, hPq]
  refine ⟨out, φ', eo, hin, ho, ((ZMod.intCast_eq_intCast_iff _ _ _).2 h1).symm, ?_⟩
  push_cast at h2
  have key : 2 * (Q * φ' - 2 ^ m * y) = 2 * (Q * φ' - 2 ^ m * (y + e)) + 2 * 2 ^ m * e := by ring
  rw [key]
  refine (abs_add_le _ _).trans ?_
  have : |(2 : ℤ) * 2 ^ m * e| ≤ 2 * 2 ^ m * ε := by
    rw [abs_mul, abs_of_nonneg (by positivity : (0 : ℤ) ≤ 2 * 2 ^ m)]
    exact mul_le_mul_of_nonneg_left he (by positivity)
  linarith

include V

/-- The steps after the rotation. -/
theorem prog_finish {Λ : Level} {c lut acc c'} (hrun : K.RunNoise Q k m sk z S Z Λ c lut)
    (hc' : K.switchIn c = some c') (hl : c'.a.length = S.length) (hacc : K.accumulate c' lut = some acc)
    (ha : Reduced Q (2 ^ k) acc.a) (hb : Reduced Q (2 ^ k) acc.b) (y e : ℤ) (he : |e| ≤ Λ.rot)
    (hp : ringPhase0 Q (2 ^ k) z acc (Nat.two_pow_pos k) = (y : ZMod Q) + (e : ZMod Q)) :
    ∃ (out : LWE) (ψ : ℤ), K.finish c' acc = some out ∧ LWEReduced (2 ^ m) S.length out ∧
      lwePhase (2 ^ m) sk out.a out.b = (ψ : ZMod (2 ^ m)) ∧
      |2 * (Q * ψ - 2 ^ m * y)| ≤ valueError K.P.steps Q m Λ := by
  have hsk := keyWords_length V.keyS
  have hsw := V.sw
  have hZl := keyWords_length V.keyZ
  unfold SwitchKey.Valid at hsw
  unfold EvalKey.finish valueError
  cases hst : K.P.steps with
  | brMsKs =>
    rw [hst] at hsw
    obtain ⟨B, key, err, hK, hB, hkey, _⟩ := hsw
    obtain ⟨x, ex, hx, hxp⟩ := extract_spec G V.red ha hb
    obtain ⟨t, ψ, et, _, ht, htp, hte⟩ := prog_switchOut G Z (2 ^ k) hx y e _ he Λ.out
      (fun o eo => by
        have := hrun.roundExtracted c' acc x o (by rw [hst]; decide) hc' hacc ex eo
        rwa [if_neg (by rw [hst]; decide)] at this)
      (by rw [← lwePhase_keyWords V.keyZ, hxp, hp])
    have ex' : K.extractSwitch acc = some t := by
      unfold EvalKey.extractSwitch; rw [mbind ex, et]
    obtain ⟨M, hM, eO⟩ := G.lwe.ops
    have htl : LWEReduced (2 ^ m) Z.length t := by rw [← hZl, V.red.1]; exact ht
    obtain ⟨out, eo, ho, hop⟩ := C39_key_switch K.w m K.P.keySwitchBits G.lwe.fits M hM B hB sk Z err key
      hkey t htl
    obtain ⟨v, hv, hvp⟩ := hrun.lwe c' acc t out B sk.length key _ hst hc' hacc ex' hK eO eo
    refine ⟨out, ψ + v, ?_, by rw [← hsk]; exact ho, ?_, ?_⟩
    · simp only [mbind ex', hK]
      rw [mbind eO]; exact eo
    · rw [hvp, htp]; push_cast; ring
    · rw [show 2 * (Q * (ψ + v) - 2 ^ m * y) = 2 * (Q * ψ - 2 ^ m * y) + 2 * Q * v by ring]
      refine (abs_add_le _ _).trans (add_le_add hte ?_)
      rw [abs_mul, abs_of_nonneg (by positivity : (0 : ℤ) ≤ 2 * Q)]
      exact mul_le_mul_of_nonneg_left hv (by positivity)
  | brKsMs =>
    rw [hst] at hsw
    obtain ⟨B, key, k', s, er, hK, hB, hk', F', h1, h2, hs, hsS, hkey, her⟩ := hsw
    obtain ⟨x, _, ex, hx, _, _⟩ := keySwitchRlwe_spec hk' F' _ B hB sk.length h1 h2 s hs V.red.1 er key
      hkey E' her (Nat.two_pow_pos k) acc ha hb
    obtain ⟨v, hv, hvp⟩ := hrun.rlwe c' acc x sk.length key hst hc' hacc hK ex
    obtain ⟨out, ψ, _, ein, ho, hop, hoe⟩ := prog_switchOut G S sk.length hx y (e + v) (Λ.rot + Λ.sw)
      ((abs_add_le _ _).trans (by push_cast; exact add_le_add he hv)) Λ.out
      (fun o eo => hrun.roundSwitched c' acc x o sk.length key hst hc' hacc hK ex eo)
      (by rw [hvp, hp]; push_cast; ring)
    refine ⟨out, ψ, ?_, by rw [← hsk]; exact ho, ?_, by push_cast at hoe; exact hoe⟩
    · simp only [hK]
      rw [mbind ex]
      exact ein c' (by rw [hl, hsk])
    · rw [lwePhase_keyWords V.keyS]; exact hop
  | brMs =>
    rw [hst] at hsw
    obtain ⟨x, ex, hx, hxp⟩ := extract_spec G V.red ha hb
    have hn : S.length = 2 ^ k := by rw [← keyWords_length hsw, V.red.1]
    obtain ⟨out, ψ, _, ein, ho, hop, hoe⟩ := prog_switchOut G S (2 ^ k) hx y e _ he Λ.out
      (fun o eo => by
        have := hrun.roundExtracted c' acc x o (by rw [hst]; decide) hc' hacc ex eo
        rwa [if_pos hst] at this)
      (by rw [← lwePhase_keyWords hsw, hxp, hp])
    refine ⟨out, ψ, ?_, by rw [hn]; exact ho, ?_, hoe⟩
    · simp only [mbind ex]
      exact ein c' (by rw [hl, hn])
    · rw [lwePhase_keyWords V.keyS]; exact hop

/-- C90: bootstrapping reads any table at the rounded position of the phase of the input, adds `⌊Q/8⌋`, and returns the sum
scaled from `Q` to `q`, up to the noise. `φ` is any integer that represents the phase of the input, `y` any integer that
represents the sum. -/
theorem C90_any_table {Λ : Level} {c : LWE} {lut : List Nat} (hc : LWEReduced (2 ^ m) sk.length c)
    (hl : Reduced Q (2 ^ k) lut) (hrun : K.RunNoise Q k m sk z S Z Λ c lut) {φ : ℤ}
    (hφ : lwePhase (2 ^ m) sk c.a c.b = (φ : ZMod (2 ^ m))) :
    ∃ (out : LWE) (φ' : ℤ), K.bootstrap c lut = some out ∧ LWEReduced (2 ^ m) sk.length out ∧
      |2 * (2 ^ m * φ' - 2 * 2 ^ k * φ)| ≤ 2 ^ m * Λ.inp ∧
      ∀ y : ℤ, (y : ZMod Q) = tableAt Q (2 ^ k) lut φ' + ((Q / 8 : Nat) : ZMod Q) →
        ∃ ψ : ℤ, lwePhase (2 ^ m) sk out.a out.b = (ψ : ZMod (2 ^ m)) ∧
          |2 * (Q * ψ - 2 ^ m * y)| ≤ valueError K.P.steps Q m Λ := by
  have hsk := keyWords_length V.keyS
  have hi := intPhase_modEq V.keyS hφ
  rw [hsk] at hc ⊢
  obtain ⟨c', _, _, ec, hr, _, _, _, _, _, _⟩ := switchIn_spec G S hc hi
  obtain ⟨φ', hmod, hin⟩ := roundedBy_shift (hrun.switch c' ec) hi
  obtain ⟨r, er, err, _, hph⟩ := rotate_spec G V hr hl
  obtain ⟨acc, ea, hra, hrb, hacc⟩ := addEighth_spec (z := z) G hph.a hph.b
  have eacc : K.accumulate c' lut = some acc := by
    unfold EvalKey.accumulate; rw [mbind er, ea]
  obtain ⟨e, he, hep⟩ := hrun.rotate c' r ec er
  have htab : tableAt Q (2 ^ k) lut (intPhase S c'.a c'.b) = tableAt Q (2 ^ k) lut φ' := by
    unfold tableAt
    rw [show intPhase S c'.a c'.b % ((2 * 2 ^ k : ℕ) : ℤ) = φ' % ((2 * 2 ^ k : ℕ) : ℤ) from hmod.symm]
  have F : ∀ y : ℤ, (y : ZMod Q) = tableAt Q (2 ^ k) lut φ' + ((Q / 8 : Nat) : ZMod Q) →
      ∃ (out : LWE) (ψ : ℤ), K.finish c' acc = some out ∧ LWEReduced (2 ^ m) S.length out ∧
      lwePhase (2 ^ m) sk out.a out.b = (ψ : ZMod (2 ^ m)) ∧
      |2 * (Q * ψ - 2 ^ m * y)| ≤ valueError K.P.steps Q m Λ := fun y hy =>
    prog_finish G V hrun ec hr.1.1 eacc hra hrb y e he (by rw [hacc, hep, htab, hy]; ring)
  obtain ⟨y₀, hy₀⟩ := ZMod.intCast_surjective (tableAt Q (2 ^ k) lut φ' + ((Q / 8 : Nat) : ZMod Q))
  obtain ⟨out, _, eo, ho, _, _⟩ := F y₀ hy₀
  refine ⟨out, φ', ?_, ho, by push_cast at hin; exact hin, fun y hy => ?_⟩
  · unfold EvalKey.bootstrap
    rw [mbind ec, mbind eacc, eo]
  · obtain ⟨out', ψ, eo', _, h1, h2⟩ := F y hy
    obtain rfl : out = out' := Option.some.inj (eo.symm.trans eo')
    exact ⟨ψ, h1, h2⟩

/-- C90: the same for every table and input, with the worst-case bound of the key. -/
theorem C90_worst_case {c : LWE} {lut : List Nat} (hc : LWEReduced (2 ^ m) sk.length c)
    (hl : Reduced Q (2 ^ k) lut) {φ : ℤ} (hφ : lwePhase (2 ^ m) sk c.a c.b = (φ : ZMod (2 ^ m))) :
    ∃ (out : LWE) (φ' : ℤ), K.bootstrap c lut = some out ∧ LWEReduced (2 ^ m) sk.length out ∧
      |2 * (2 ^ m * φ' - 2 * 2 ^ k * φ)| ≤ 2 ^ m * inError k m S ∧
      ∀ y : ℤ, (y : ZMod Q) = tableAt Q (2 ^ k) lut φ' + ((Q / 8 : Nat) : ZMod Q) →
        ∃ ψ : ℤ, lwePhase (2 ^ m) sk out.a out.b = (ψ : ZMod (2 ^ m)) ∧
          |2 * (Q * ψ - 2 ^ m * y)| ≤ valueError K.P.steps Q m (worstLevel K Q k m S Z E E') :=
  C90_any_table G V hc hl (runNoise_of_valid G V (by rw [← keyWords_length V.keyS]; exact hc) hl) hφ

end

/-- C90: what a table can express: the entry half a turn further is the negated entry, so that the results of two
inputs half a turn apart add up to twice `⌊Q/8⌋`. -/
theorem C90_half_turn (Q n : Nat) (hn : 0 < n) (lut : List Nat) (φ : ℤ) :
    tableAt Q n lut (φ + n) = -tableAt Q n lut φ := by
  obtain ⟨r, hr, hlt⟩ : ∃ r : Nat, φ % ((2 * n : ℕ) : ℤ) = r ∧ r < 2 * n := by
    have h1 := Int.emod_nonneg φ (show ((2 * n : ℕ) : ℤ) ≠ 0 by omega)
    have h2 := Int.emod_lt_of_pos φ (show (0 : ℤ) < ((2 * n : ℕ) : ℤ) by omega)
    exact ⟨(φ % ((2 * n : ℕ) : ℤ)).toNat, by omega, by omega⟩
  have h : (φ + n) % ((2 * n : ℕ) : ℤ) = if r < n then ((r + n : ℕ) : ℤ) else ((r - n : ℕ) : ℤ) := by
    rw [Int.add_emod, hr, ← Int.natCast_mod, ← Nat.cast_add, ← Int.natCast_mod,
      Nat.mod_eq_of_lt (show n < 2 * n by omega)]
    split
    · rw [Nat.mod_eq_of_lt (by omega)]
    · rw [Nat.mod_eq_sub_mod (by omega), Nat.mod_eq_of_lt (by omega)]
      congr 1; omega
  unfold tableAt
  simp only [h, hr]
  split
  · next hlt' =>
    rw [if_neg (by omega), Int.toNat_natCast, Int.toNat_natCast, if_pos hlt', Nat.add_sub_cancel]
  · next hge =>
    rw [if_pos (by omega), Int.toNat_natCast, Int.toNat_natCast, if_neg hge, neg_neg]

/-! ## Functions of small messages -/

/-- The entries of the table of a function around the position of `u`. -/
theorem functionTable_at {Q N T : Nat} (hN : 0 < N) {s : Nat} (hs : 2 * N = s * T) (h2 : 2 ∣ T)
    (hT : 0 < T) (f : Nat → Nat) (hf : ∀ u < T / 2, f u < T) {u : Nat} (hu : u < T / 2) {φ : ℤ}
    (hφ : NearBy N T ((u * s : Nat) : ℤ) φ) :
    tableAt Q N (functionTable Q N T f) φ =
      ((f u * Q / T : Nat) : ZMod Q) - ((Q / 8 : Nat) : ZMod Q) := by
  obtain ⟨e, he, h1, h3⟩ := hφ
  obtain ⟨t, rfl⟩ := h2
  have hNst : N = s * t := by nlinarith
  have hv : ∀ v < t, f v * Q / (2 * t) ≤ Q := fun v hv => by
    have := hf v (by omega)
    exact Nat.div_le_of_le_mul (Nat.mul_le_mul_right _ (by omega))
  have hco : ∀ j, j < N → coeff Q (functionTable Q N (2 * t) f) j =
      if (j * (2 * t) + N) / (2 * N) < t then ((f ((j * (2 * t) + N) / (2 * N)) * Q / (2 * t) : Nat) : ZMod Q) -
          ((Q / 8 : Nat) : ZMod Q)
      else -(((f 0 * Q / (2 * t) : Nat) : ZMod Q) - ((Q / 8 : Nat) : ZMod Q)) := by
    intro j hj
    unfold coeff functionTable
    rw [List.getD_eq_getElem?_getD, List.getElem?_map, List.getElem?_range hj, Option.map_some, Option.getD_some]
    simp only [Nat.mul_div_cancel_left t (show 0 < 2 by omega)]
    split
    · rw [ZMod.natCast_mod, Nat.cast_add, Nat.cast_sub (Nat.div_le_self _ _), ZMod.natCast_self]
      ring
    · rw [ZMod.natCast_mod, Nat.cast_add, Nat.cast_sub (hv 0 (by omega)), ZMod.natCast_self]
      ring
  have hut : u < t := by omega
  have hT' : (0 : ℤ) < ((2 * t : ℕ) : ℤ) := by omega
  have hsu : (u * s : Nat) < N := by
    rw [hNst, Nat.mul_comm]
    exact Nat.mul_lt_mul_of_pos_left hut (Nat.pos_of_ne_zero fun h => by rw [h] at hNst; omega)
  -- the position is at most half a step before and less than half a step after the multiple
  have hN2 : (2 : ℤ) * N = s * ((2 * t : ℕ) : ℤ) := by exact_mod_cast hs
  have heN : e < N ∧ -(N : ℤ) ≤ e := by
    have hTT : (1 : ℤ) ≤ ((2 * t : ℕ) : ℤ) := by omega
    constructor
    · by_contra hge
      have : (N : ℤ) ≤ ((2 * t : ℕ) : ℤ) * e := by nlinarith
      omega
    · by_contra hlt
      have : ((2 * t : ℕ) : ℤ) * e < -(N : ℤ) := by nlinarith
      omega
  by_cases hneg : ((u * s : Nat) : ℤ) + e < 0
  · -- only `u = 0` reaches below zero
    have hu0 : u = 0 := by
      by_contra h0
      have h4 : (s : ℤ) ≤ ((u * s : Nat) : ℤ) := by
        exact_mod_cast Nat.le_mul_of_pos_left s (Nat.pos_of_ne_zero h0)
      have : ((2 * t : ℕ) : ℤ) * (s + e) < 0 := mul_neg_of_pos_of_neg hT' (by linarith)
      nlinarith
    subst hu0
    simp only [Nat.zero_mul, Nat.cast_zero, zero_add] at he hneg
    obtain ⟨d, hd⟩ : ∃ d : Nat, e = -(d : ℤ) := ⟨e.natAbs, by omega⟩
    subst hd
    have hdN : 0 < d ∧ d ≤ N := by omega
    have hr : (φ % ((2 * N : ℕ) : ℤ)).toNat = 2 * N - d := by
      rw [show φ % ((2 * N : ℕ) : ℤ) = (-(d : ℤ)) % ((2 * N : ℕ) : ℤ) from he]
      rw [← Int.add_emod_right, Int.emod_eq_of_lt (by omega) (by omega)]
      omega
    have hdt : d * (2 * t) ≤ N := by
      have h1' : ((2 * t : ℕ) : ℤ) * (d : ℤ) ≤ N := by linarith
      rw [Nat.mul_comm]; exact_mod_cast h1'
    unfold tableAt
    simp only [hr]
    rw [if_neg (by omega), hco _ (by omega), if_neg ?_, neg_neg]
    rw [not_lt, Nat.le_div_iff_mul_le (by omega)]
    rw [show 2 * N - d - N = N - d by omega, Nat.sub_mul]
    have : t * (2 * N) = N * (2 * t) := by ring
    have : d * (2 * t) ≤ N * (2 * t) := Nat.mul_le_mul_right _ hdN.2
    omega
  · obtain ⟨j, hj⟩ : ∃ j : Nat, ((u * s : Nat) : ℤ) + e = j := ⟨(((u * s : Nat) : ℤ) + e).toNat, by omega⟩
    have hjz : (j : ℤ) * ((2 * t : ℕ) : ℤ) = u * (2 * N) + ((2 * t : ℕ) : ℤ) * e := by
      rw [← hj, hN2]; push_cast; ring
    have hjN : j < N := by
      have : (j : ℤ) * ((2 * t : ℕ) : ℤ) < N * ((2 * t : ℕ) : ℤ) := by
        rw [hjz]
        have : (u : ℤ) * (2 * N) ≤ (t - 1) * (2 * N) := mul_le_mul_of_nonneg_right (by omega) (by omega)
        push_cast at h3 ⊢
        nlinarith
      have := lt_of_mul_lt_mul_right this hT'.le
      omega
    have hr : (φ % ((2 * N : ℕ) : ℤ)).toNat = j := by
      rw [show φ % ((2 * N : ℕ) : ℤ) = (((u * s : Nat) : ℤ) + e) % ((2 * N : ℕ) : ℤ) from he, hj,
        Int.emod_eq_of_lt (by omega) (by omega), Int.toNat_natCast]
    have hdiv : (j * (2 * t) + N) / (2 * N) = u := by
      rw [Nat.div_eq_iff (by omega)]
      have h5 : (u * (2 * N) : ℤ) ≤ ((j * (2 * t) + N : ℕ) : ℤ) := by
        rw [Nat.cast_add, Nat.cast_mul, hjz]; linarith
      have h6 : ((j * (2 * t) + N : ℕ) : ℤ) < (u * (2 * N) + 2 * N : ℤ) := by
        rw [Nat.cast_add, Nat.cast_mul, hjz]; linarith
      constructor
      · exact_mod_cast h5
      · have : j * (2 * t) + N < u * (2 * N) + 2 * N := by exact_mod_cast h6
        omega
    unfold tableAt
    simp only [hr]
    rw [if_pos hjN, hco j hjN, hdiv, if_pos hut]

theorem functionTable_reduced {Q N T : Nat} (hQ : 0 < Q) (f : Nat → Nat) :
    Reduced Q N (functionTable Q N T f) := by
  refine ⟨by simp [functionTable], fun x hx => ?_⟩
  unfold functionTable at hx
  obtain ⟨j, -, rfl⟩ := List.mem_map.1 hx
  dsimp only
  split <;> exact Nat.mod_lt _ hQ

section
variable {K : EvalKey} {Q k m : Nat} [Fact Q.Prime] (G : GateParams K.w K.R K.P Q k m) {sk z : List Nat}
  {S Z : List ℤ} {E E' : Nat} (V : K.Valid Q k m sk z S Z E E')
include G V

/-- C90: for every function `f` from `0 .. T/2-1` to `0 .. T-1` with `T = 2^i`, bootstrapping an encryption of `u` with the
table of `f` gives an encryption of `f u` whose noise does not depend on the noise of the input, as long as that stays
below half a step; it decrypts to `f u` with plaintext modulus `T` as soon as the bound is below half a step. -/
theorem C90_function {Λ : Level} {i : Nat} (hi0 : 0 < i) (hik : i ≤ k) (him : i < m) (f : Nat → Nat)
    (hf : ∀ u < 2 ^ i / 2, f u < 2 ^ i) {c : LWE} (hc : LWEReduced (2 ^ m) sk.length c) {u : Nat}
    (hu : u < 2 ^ i / 2) {e : ℤ} (hp : EncryptsValue (2 ^ m) (2 ^ i) sk c u e)
    (hn : 2 ^ i * (2 ^ m * Λ.inp + 4 * 2 ^ k * |e|) < 2 * 2 ^ m * 2 ^ k)
    (hrun : K.RunNoise Q k m sk z S Z Λ c (functionTable Q (2 ^ k) (2 ^ i) f)) :
    LookedUp K Q m i sk Λ (K.bootstrap c (functionTable Q (2 ^ k) (2 ^ i) f)) (f u) := by
  have hQ := (Fact.out : Q.Prime).pos
  have hN := Nat.two_pow_pos k
  have hT := Nat.two_pow_pos i
  have hM := Nat.two_pow_pos m
  obtain ⟨s, hs⟩ : ∃ s, 2 * 2 ^ k = s * 2 ^ i :=
    ⟨2 ^ (k + 1 - i), by rw [← pow_succ', ← pow_add]; congr 1; omega⟩
  obtain ⟨p, hqp⟩ : ∃ p, 2 ^ m = p * 2 ^ i := ⟨2 ^ (m - i), by rw [← pow_add]; congr 1; omega⟩
  have h2 : 2 ∣ 2 ^ i := dvd_pow_self 2 hi0.ne'
  have hpT : 2 ^ m / 2 ^ i = p := by rw [hqp, Nat.mul_div_cancel _ hT]
  have hφ : lwePhase (2 ^ m) sk c.a c.b = ((u * p + e : ℤ) : ZMod (2 ^ m)) := by
    unfold EncryptsValue at hp
    rw [hp, hpT]; push_cast; ring
  obtain ⟨out, φ', eo, ho, hin, hout⟩ := C90_any_table G V hc (functionTable_reduced hQ f) hrun hφ
  have hsz : (2 : ℤ) * 2 ^ k = s * 2 ^ i := by exact_mod_cast hs
  have hpz : (2 : ℤ) ^ m = p * 2 ^ i := by exact_mod_cast hqp
  have hnear : NearBy (2 ^ k) (2 ^ i) ((u * s : Nat) : ℤ) φ' := by
    refine ⟨φ' - (u * s : Nat), by rw [add_sub_cancel], ?_, ?_⟩
    all_goals
      obtain ⟨a1, a2⟩ := abs_le.1 hin
      have e1 := le_abs_self e
      have e2 := neg_le_abs e
      have key : (2 : ℤ) * 2 ^ m * (2 ^ i * (φ' - u * s)) =
          2 ^ i * (2 * (2 ^ m * φ' - 2 * 2 ^ k * (u * p + e)) + 4 * 2 ^ k * e) := by
        have : (2 : ℤ) ^ m * s = 2 * 2 ^ k * p := by rw [hsz, hpz]; ring
        linear_combination (-2 * 2 ^ i * u) * this
      have hTz : (0 : ℤ) < 2 ^ i := by positivity
      have hMz : (0 : ℤ) < 2 * 2 ^ m := by positivity
      have hNz : (0 : ℤ) < 4 * 2 ^ k := by positivity
      have b1 := mul_le_mul_of_nonneg_left e1 hNz.le
      have b2 := mul_le_mul_of_nonneg_left e2 hNz.le
      push_cast
    · have : (2 : ℤ) ^ i * (-(2 ^ m * Λ.inp + 4 * 2 ^ k * |e|)) ≤
          2 ^ i * (2 * (2 ^ m * φ' - 2 * 2 ^ k * (u * p + e)) + 4 * 2 ^ k * e) :=
        mul_le_mul_of_nonneg_left (by linarith) hTz.le
      refine le_of_mul_le_mul_left (a := 2 * 2 ^ m) ?_ hMz
      rw [key]; linarith
    · have : (2 : ℤ) ^ i * (2 * (2 ^ m * φ' - 2 * 2 ^ k * (u * p + e)) + 4 * 2 ^ k * e) ≤
          2 ^ i * (2 ^ m * Λ.inp + 4 * 2 ^ k * |e|) :=
        mul_le_mul_of_nonneg_left (by linarith) hTz.le
      refine lt_of_mul_lt_mul_left (a := 2 * 2 ^ m) ?_ hMz.le
      rw [key]; linarith
  have htab := functionTable_at (Q := Q) hN hs h2 hT f hf hu hnear
  obtain ⟨ψ, hψ, hb⟩ := hout (f u * Q / 2 ^ i : Nat) (by rw [htab, sub_add_cancel, Int.cast_natCast])
  have hfl : |(2 : ℤ) ^ m * (f u * Q / 2 ^ i : Nat) - Q * (f u * p)| ≤ 2 ^ m := by
    have d1 := Nat.div_mul_le_self (f u * Q) (2 ^ i)
    have d2 := Nat.lt_div_mul_add (a := f u * Q) hT
    generalize f u * Q / 2 ^ i = y at *
    have d1' : (y : ℤ) * 2 ^ i ≤ f u * Q := by exact_mod_cast d1
    have d2' : (f u * Q : ℤ) < y * 2 ^ i + 2 ^ i := by exact_mod_cast d2
    have hp0 : (0 : ℤ) ≤ p := by positivity
    rw [hpz, abs_le]
    constructor
    · nlinarith [mul_le_mul_of_nonneg_left d2'.le hp0]
    · nlinarith [mul_le_mul_of_nonneg_left d1' hp0, mul_nonneg hp0 (show (0 : ℤ) ≤ 2 ^ i by positivity)]
  have hval : EncryptsValue (2 ^ m) (2 ^ i) sk out (f u) (ψ - f u * p) := by
    unfold EncryptsValue
    rw [hψ, hpT]; push_cast; ring
  have hbound : |2 * Q * (ψ - f u * p)| ≤ valueError K.P.steps Q m Λ + 2 * 2 ^ m := by
    rw [show 2 * Q * (ψ - f u * p) = 2 * (Q * ψ - 2 ^ m * (f u * Q / 2 ^ i : Nat)) +
      2 * (2 ^ m * (f u * Q / 2 ^ i : Nat) - Q * (f u * p)) by ring]
    refine (abs_add_le _ _).trans (add_le_add hb ?_)
    rw [abs_mul, abs_of_nonneg (by norm_num : (0 : ℤ) ≤ 2)]
    exact mul_le_mul_of_nonneg_left hfl (by norm_num)
  refine ⟨out, ψ - f u * p, eo, ho, hval, hbound, fun hlt P hw hq ht bits hfit => ?_⟩
  refine C31_decrypt P i m sk.length ⟨ht, hq, him, by rw [hw]; exact G.lwe.fits, by rw [hw]; exact G.lwe.width⟩ sk
    rfl out ho (f u) _ (hf u hu) ?_ hval (.uint bits) hfit
  have hlt' : |(2 : ℤ) * 2 ^ i * (ψ - f u * p)| < 2 ^ m := by
    refine lt_of_mul_lt_mul_left (a := (Q : ℤ)) ?_ (by positivity)
    refine lt_of_le_of_lt ?_ hlt
    have hcomm : (Q : ℤ) * |2 * 2 ^ i * (ψ - f u * p)| = 2 ^ i * |2 * Q * (ψ - f u * p)| := by
      simp only [abs_mul, abs_of_nonneg (show (0 : ℤ) ≤ 2 ^ i by positivity), abs_of_nonneg (show (0 : ℤ) ≤ Q by positivity)]
      ring
    rw [hcomm]
    exact mul_le_mul_of_nonneg_left hbound (by positivity)
  obtain ⟨g1, g2⟩ := abs_lt.1 hlt'
  unfold NoiseInRange
  push_cast
  constructor <;> linarith

/-- C90: programs of lookups. If no argument leaves the range, and the noise `η` of the inputs is one that a bootstrapping
reproduces and of which `W`-fold combinations can be read, then a program of any size gives an encryption of its value, again
with noise at most `η`. -/
theorem C90_programs {i W : Nat} (hi0 : 0 < i) (hik : i ≤ k) (him : i < m) (hW : 1 ≤ W) {η : ℤ}
    (hread : 2 ^ i * (2 ^ m * inError k m S + 4 * 2 ^ k * (W * η)) < 2 * 2 ^ m * 2 ^ k)
    (hfresh : valueError K.P.steps Q m (worstLevel K Q k m S Z E E') + 2 * 2 ^ m ≤ 2 * Q * η)
    {c : Nat → LWE} {u : Nat → Nat}
    (hc : ∀ j, LWEReduced (2 ^ m) sk.length (c j) ∧ ∃ e : ℤ, |e| ≤ η ∧ EncryptsValue (2 ^ m) (2 ^ i) sk (c j) (u j) e) :
    ∀ (X : Lookups) (v : Nat), X.Light (2 ^ i) W → X.value (2 ^ i) u = some v →
      ∃ out, X.run K Q (2 ^ k) (2 ^ i) c = some out ∧ LWEReduced (2 ^ m) sk.length out ∧
        ∃ e : ℤ, |e| ≤ η ∧ EncryptsValue (2 ^ m) (2 ^ i) sk out v e := by
  have hQ := (Fact.out : Q.Prime).pos
  -- one bootstrapping
  have one : ∀ (t : LWE) (a : Nat) (f : Nat → Nat) (e : ℤ), LWEReduced (2 ^ m) sk.length t → a < 2 ^ i / 2 →
      EncryptsValue (2 ^ m) (2 ^ i) sk t a e → |e| ≤ W * η →
      ∃ out, K.bootstrap t (functionTable Q (2 ^ k) (2 ^ i) fun u => f u % 2 ^ i) = some out ∧
        LWEReduced (2 ^ m) sk.length out ∧
        ∃ e : ℤ, |e| ≤ η ∧ EncryptsValue (2 ^ m) (2 ^ i) sk out (f a % 2 ^ i) e := by
    intro t a f e ht ha hp he
    obtain ⟨out, e', eo, ho, hv, hb, -⟩ := C90_function (Λ := worstLevel K Q k m S Z E E') G V hi0 hik him
      (fun u => f u % 2 ^ i) (fun _ _ => Nat.mod_lt _ (Nat.two_pow_pos i)) ht ha hp
      (lt_of_le_of_lt (mul_le_mul_of_nonneg_left
        (add_le_add_right (mul_le_mul_of_nonneg_left he (by positivity)) _) (by positivity)) hread)
      (runNoise_of_valid G V (by rw [← keyWords_length V.keyS]; exact ht) (functionTable_reduced hQ _))
    refine ⟨out, eo, ho, e', ?_, hv⟩
    have h := hb.trans hfresh
    rw [abs_mul, abs_of_nonneg (by positivity : (0 : ℤ) ≤ 2 * Q)] at h
    exact le_of_mul_le_mul_left h (by positivity)
  have hη : 0 ≤ η := by
    obtain ⟨e, he, -⟩ := (hc 0).2
    exact (abs_nonneg e).trans he
  have hW' : η ≤ W * η := le_mul_of_one_le_left hη (by exact_mod_cast hW)
  intro X
  induction X with
  | input j =>
    intro v _ hv
    obtain rfl := Option.some.inj hv
    exact ⟨c j, rfl, hc j⟩
  | table f x ih =>
    intro v hl hv
    obtain ⟨a, ea, hv⟩ := Option.bind_eq_some_iff.1 hv
    split at hv
    · next ha =>
      obtain rfl := Option.some.inj hv
      obtain ⟨t, et, ht, e, he, hp⟩ := ih a hl ea
      obtain ⟨out, eo, h⟩ := one t a f e ht ha hp (he.trans hW')
      refine ⟨out, ?_, h⟩
      unfold Lookups.run
      rw [mbind et, eo]
    · cases hv
  | table2 f s x y ihx ihy =>
    intro v hl hv
    obtain ⟨hsT, hsW, hlx, hly⟩ := hl
    obtain ⟨a, ea, hv⟩ := Option.bind_eq_some_iff.1 hv
    obtain ⟨b, eb, hv⟩ := Option.bind_eq_some_iff.1 hv
    split at hv
    · next hab =>
      obtain rfl := Option.some.inj hv
      obtain ⟨ta, eta, hta, e0, he0, hp0⟩ := ihx a hlx ea
      obtain ⟨tb, etb, htb, e1, he1, hp1⟩ := ihy b hly eb
      obtain ⟨M, hM, eO⟩ := G.lwe.ops
      have hO := powOf2_isModOps G.lwe.fits hM
      have hsq : s < 2 ^ m := hsT.trans (Nat.pow_lt_pow_right (by omega) him)
      obtain ⟨t, et, ht, hpt⟩ := C33_add_mul_scalar (2 ^ m) sk.length _ hO ta tb hta htb s hsq
      have hpt' : EncryptsValue (2 ^ m) (2 ^ i) sk t (a + s * b) (e0 + s * e1) := by
        unfold EncryptsValue at hp0 hp1 ⊢
        rw [hpt sk, hp0, hp1]
        push_cast; ring
      have he : |e0 + s * e1| ≤ W * η := by
        refine (abs_add_le _ _).trans ?_
        rw [abs_mul, abs_of_nonneg (by positivity : (0 : ℤ) ≤ s)]
        have h1 : (s : ℤ) * |e1| ≤ s * η := mul_le_mul_of_nonneg_left he1 (by positivity)
        have h2 : (1 + s : ℤ) * η ≤ W * η := mul_le_mul_of_nonneg_right (by exact_mod_cast hsW) hη
        linarith
      obtain ⟨out, eo, h⟩ := one t (a + s * b) f _ ht hab hpt' he
      refine ⟨out, ?_, h⟩
      unfold Lookups.run
      rw [mbind eta, mbind etb, mbind eO, mbind et, eo]
    · cases hv

end

/-! ## From key generation to decryption -/

/-- The level `η` is stable for messages modulo `2^i` and all keys with digits in `{-1, 0, 1}`: `2Q` times the noise of a
bootstrapping is at most `2Qη`, and combinations of weight `W` can be read. -/
structure LookupStable (P : Params) (Q k m i W β κ : Nat) (η : ℤ) : Prop where
  read : 2 ^ i * (2 ^ m * (if 2 ^ m ≤ 2 * 2 ^ k then 0 else 1 + (P.n : ℤ)) + 4 * 2 ^ k * (W * η)) < 2 * 2 ^ m * 2 ^ k
  fresh : (match P.steps with
    | .brMsKs => 2 * 2 ^ m * β + Q * (1 + 2 ^ k) + 2 * Q * κ
    | .brKsMs => 2 * 2 ^ m * (β + κ) + Q * (1 + P.n)
    | .brMs => 2 * 2 ^ m * β + Q * (1 + P.n) : ℤ) + 2 * 2 ^ m ≤ 2 * Q * η

theorem lookup_stable {w : Nat} {R : Ctx} {P : Params} {Q k m i W : Nat} {rot : RotationKey} {sw : SwitchKey} {l : List Nat}
    (hl : l.length = P.n) {Z : List ℤ} (hZ : P.steps = .brMsKs → norm1 Z ≤ 2 ^ k) {E E' : Nat} {η : ℤ}
    (h : LookupStable P Q k m i W (worstRotation P k E) (worstSwitch w R P Q k m E') η) :
    2 ^ i * (2 ^ m * inError k m (l.map ternaryDigit) + 4 * 2 ^ k * (W * η)) < 2 * 2 ^ m * 2 ^ k ∧
    valueError P.steps Q m (worstLevel ⟨w, R, P, rot, sw⟩ Q k m (l.map ternaryDigit) Z E E') + 2 * 2 ^ m ≤
      2 * Q * η := by
  have hn := norm1_digits l
  rw [hl] at hn
  have hrot : rotationBound ⟨w, R, P, rot, sw⟩ k (l.map ternaryDigit).length E ≤ worstRotation P k E := by
    rw [List.length_map, hl]
    unfold rotationBound worstRotation
    cases rot with
    | binary key => dsimp only; gcongr; omega
    | ternary key => exact le_rfl
  have hsw : switchBound ⟨w, R, P, rot, sw⟩ Q k m E' = worstSwitch w R P Q k m E' := rfl
  unfold worstLevel
  rw [hsw]
  generalize rotationBound ⟨w, R, P, rot, sw⟩ k (l.map ternaryDigit).length E = β at hrot ⊢
  have hβ : (β : ℤ) ≤ (worstRotation P k E : ℤ) := by exact_mod_cast hrot
  refine ⟨lt_of_le_of_lt ?_ h.read, le_trans ?_ h.fresh⟩
  · unfold inError
    split_ifs
    · exact le_rfl
    · gcongr
  · unfold valueError roundBound
    dsimp only
    cases hst : P.steps with
    | brMsKs => dsimp only; have := hZ hst; gcongr
    | brKsMs => dsimp only; gcongr
    | brMs => dsimp only; gcongr

/-- C90: with freshly generated keys, encrypting numbers modulo `T = 2^i`, running a program of lookups of any size whose
arguments stay in range and decrypting gives the value of the program. -/
theorem C90_application {w : Nat} {R : Ctx} {P : Params} {Q k m : Nat} [Fact Q.Prime] (G : GateParams w R P Q k m)
    (hS : StepsOk R P Q k m) (bits : Nat) (hB : Basis.new R.w Q bits = some P.basis) (dk : KeyDraws)
    (hg : GaussOk P Q dk) (E E' : Nat) (d : EvalDraws) (hd : EvalDrawsOk R P Q k m E E' d) {i W : Nat} (hi0 : 0 < i)
    (hik : i ≤ k) (him : i < m) (hW : 1 ≤ W) (η : ℤ)
    (hη : LookupStable P Q k m i W (worstRotation P k E) (worstSwitch w R P Q k m E') η) :
    ∃ A, App.start w R P dk d = some A ∧
      ∀ (u : Nat → Nat) (masks : Nat → List Nat) (z : Nat → ℤ), (∀ j, u j < 2 ^ i) →
        (∀ j, P.n ≤ (masks j).length ∧ ∀ x ∈ masks j, x < P.q) → (∀ j, |z j| ≤ η) →
        ∃ c : Nat → LWE,
          (∀ j, (LWEParams.mk w (2 ^ i) P.q).encrypt A.encryptor.lwe (masks j) (z j) (u j) = some (c j)) ∧
          ∀ (X : Lookups) (v : Nat), X.Light (2 ^ i) W → X.value (2 ^ i) u = some v →
            ∃ out, X.run A.evaluator Q (2 ^ k) (2 ^ i) c = some out ∧ ∀ msg, Fits msg v →
              (LWEParams.mk w (2 ^ i) P.q).decrypt msg A.decryptor.lwe out = some v := by
  obtain ⟨pack, rot, sw, Z, ep, eK, hlen, hZ, V⟩ :=
    C52_evaluation_key G hS bits hB dk hg E E' d hd
  have hq : P.q = 2 ^ m := G.lwe.q
  have hZn : P.steps = .brMsKs → norm1 Z ≤ 2 ^ k := fun hst => by
    have hng : P.ringKeyType ≠ .gaussian := by
      unfold StepsOk at hS; rw [hst] at hS; exact hS.1
    rw [hZ hng]
    refine (norm1_digits _).trans ?_
    have := V.red.1
    rw [this]; push_cast; exact le_rfl
  obtain ⟨hread, hfresh⟩ := lookup_stable (rot := rot) (sw := sw) hlen hZn hη
  refine ⟨⟨w, P, pack, ⟨w, R, P, rot, sw⟩, pack⟩, ?_, fun u masks z hu hm hz => ?_⟩
  · unfold App.start KeyGen.generateSecretKey
    rw [mbind ep, mbind eK]; rfl
  have hη0 : 0 ≤ η := (abs_nonneg _).trans (hz 0)
  have hok : LWEParamsOk (LWEParams.mk w (2 ^ i) P.q) i m := ⟨rfl, hq, him, G.lwe.fits, G.lwe.width⟩
  have hrange : ∀ e : ℤ, |e| ≤ η → NoiseInRange (2 ^ i) (2 ^ m) e := fun e he => by
    have h0 : (0 : ℤ) ≤ 2 ^ i * (2 ^ m * inError k m (pack.lwe.map ternaryDigit)) :=
      mul_nonneg (by positivity) (mul_nonneg (by positivity) (inError_nonneg _ _ _))
    have h1 : η ≤ W * η := le_mul_of_one_le_left hη0 (by exact_mod_cast hW)
    have h2 : (2 * 2 ^ k : ℤ) * (2 * 2 ^ i * (W * η)) < 2 * 2 ^ k * 2 ^ m := by linarith
    have h3 := lt_of_mul_lt_mul_left h2 (by positivity)
    have h4 : (2 * 2 ^ i : ℤ) * |e| ≤ 2 * 2 ^ i * (W * η) := mul_le_mul_of_nonneg_left (he.trans h1) (by positivity)
    have h5 := mul_le_mul_of_nonneg_left (le_abs_self e) (show (0 : ℤ) ≤ 2 * 2 ^ i by positivity)
    have h6 := mul_le_mul_of_nonneg_left (neg_le_abs e) (show (0 : ℤ) ≤ 2 * 2 ^ i by positivity)
    unfold NoiseInRange
    push_cast
    constructor <;> linarith
  have hone : ∀ j, ∃ c, (LWEParams.mk w (2 ^ i) P.q).encrypt pack.lwe (masks j) (z j) (u j) = some c ∧
      LWEReduced (2 ^ m) pack.lwe.length c ∧
      ∃ e : ℤ, |e| ≤ η ∧ EncryptsValue (2 ^ m) (2 ^ i) pack.lwe c (u j) e := fun j => by
    obtain ⟨c, ec, hc, -, hp, -⟩ := C31_encrypt_decrypt (LWEParams.mk w (2 ^ i) P.q) i m P.n hok pack.lwe (masks j) hlen
      (hm j).1 (by rw [← hq]; exact (hm j).2) (u j) (z j) (hu j) (hrange _ (hz j))
    exact ⟨c, ec, by rw [hlen]; exact hc, z j, hz j, hp⟩
  choose c hc1 hc2 using hone
  refine ⟨c, hc1, fun X v hX hv => ?_⟩
  obtain ⟨out, eo, ho, e, he, hp⟩ := C90_programs (K := ⟨w, R, P, rot, sw⟩) G V hi0 hik him hW hread hfresh hc2 X v hX hv
  have hvT : v < 2 ^ i := by
    cases X with
    | input j => rw [← Option.some.inj hv]; exact hu j
    | table f x =>
      obtain ⟨a, -, hv⟩ := Option.bind_eq_some_iff.1 hv
      split at hv
      · rw [← Option.some.inj hv]; exact Nat.mod_lt _ (Nat.two_pow_pos i)
      · cases hv
    | table2 f s x y =>
      obtain ⟨a, -, hv⟩ := Option.bind_eq_some_iff.1 hv
      obtain ⟨b, -, hv⟩ := Option.bind_eq_some_iff.1 hv
      split at hv
      · rw [← Option.some.inj hv]; exact Nat.mod_lt _ (Nat.two_pow_pos i)
      · cases hv
  exact ⟨out, eo, fun msg hf => C31_decrypt _ i m pack.lwe.length hok pack.lwe rfl out ho v e hvT (hrange e he) hp msg hf⟩

/-! ## Instances -/

/-- The small instance with `q = 256`, so that messages modulo 8 fit. -/
def lookupParams : Params :=
  ⟨2, 4, 256, .ternary, 32, 132120577, .ternary, ⟨128, 4, 127, 7⟩, .brKsMs, 7⟩

theorem lookup_gateParams : GateParams 16 nativeCtx lookupParams 132120577 5 8 :=
  ⟨native_table (by decide), ⟨rfl, rfl, by decide, by decide, by decide⟩, rfl, by decide,
    by decide, by decide, by decide, by decide⟩

theorem lookup_stepsOk : StepsOk nativeCtx lookupParams 132120577 5 8 :=
  ⟨1, ⟨128, 4, 127, 7⟩, by decide, by decide, by decide, by decide, native_table (by decide),
    by decide +kernel⟩

theorem lookup_drawsOk : EvalDrawsOk nativeCtx lookupParams 132120577 5 8 1 1 smallEvalDraws := by
  obtain ⟨h1, h2, -, h4⟩ := smallEvalDraws_ok
  exact ⟨h1, h2, fun h => (by cases h), h4⟩

-- Two encrypted bits are packed into one number, a function of both is looked up, and a second function is applied to
-- the result. The conditions of the level hold for this instance with noise 2 and weight 3.
example (a b : Bool) (g : Nat → Nat) : ∃ A,
    App.start 16 nativeCtx lookupParams ⟨fun _ => 14, fun _ => 0x2d2d2d2d, []⟩ smallEvalDraws = some A ∧
    ∃ c : Nat → LWE,
      (∀ j, (LWEParams.mk 16 8 256).encrypt A.encryptor.lwe [5, 60] (if j = 0 then 2 else -1)
        (if j = 0 then a.toNat else b.toNat) = some (c j)) ∧
      ∃ out, (Lookups.table g (.table2 (fun n => (n + 1) % 4) 2 (.input 0) (.input 1))).run A.evaluator 132120577 32 8 c =
        some out ∧
        (LWEParams.mk 16 8 256).decrypt (.uint 16) A.decryptor.lwe out = some (g ((a.toNat + 2 * b.toNat + 1) % 4) % 8) := by
  obtain ⟨A, eA, h⟩ := C90_application lookup_gateParams lookup_stepsOk 7 (by decide +kernel)
    ⟨fun _ => 14, fun _ => 0x2d2d2d2d, []⟩ (fun h => by cases h) 1 1 _ lookup_drawsOk (i := 3) (W := 3) (by decide)
    (by decide) (by decide) (by decide) 2 ⟨by decide +kernel, by decide +kernel⟩
  obtain ⟨c, hc, hX⟩ := h (fun j => if j = 0 then a.toNat else b.toNat) (fun _ => [5, 60])
    (fun j => if j = 0 then 2 else -1) 
    (fun j => by have := Bool.toNat_lt a; have := Bool.toNat_lt b; split <;> omega)
    (fun _ => ⟨by decide, by decide⟩) (fun j => by split <;> decide)
  refine ⟨A, eA, c, hc, ?_⟩
  obtain ⟨out, eo, ho⟩ := hX (.table g (.table2 (fun n => (n + 1) % 4) 2 (.input 0) (.input 1)))
    (g ((a.toNat + 2 * b.toNat + 1) % 4) % 8) ⟨by decide, by decide, trivial, trivial⟩
    (by cases a <;> cases b <;> rfl)
  exact ⟨out, eo, ho _ (by simp [Fits]; omega)⟩

-- the table of the identity modulo 8 on a ring of dimension 8: the entries are those of 0, 1, 1, 2, 2, 3, 3 and of 0 negated
example : functionTable 17 8 8 id = [15, 0, 0, 2, 2, 4, 4, 2] := by decide +kernel

end Verif.Props
