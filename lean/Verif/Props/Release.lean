import Verif.Model.Release
import Verif.Props.RGSW
import Verif.Props.Gcd
import Verif.Props.Sample
import Verif.Props.Goldilocks
import Verif.Props.Native

/-! # C83: builds without overflow checks -/

namespace Verif.Props

open Verif.Release

/-- C83: adding two residues modulo a word. The sum is right as long as it fits the word; otherwise the code returns
`a + b - 2^w`, which is a residue but not the sum. -/
theorem C83_add (w m a b : Nat) (hm : m < 2 ^ w) (ha : a < m) (hb : b < m) :
    (a + b < 2 ^ w → Release.add w m a b = (a + b) % m) ∧
    (2 ^ w ≤ a + b → Release.add w m a b = a + b - 2 ^ w ∧ Release.add w m a b < m ∧
      Release.add w m a b ≠ (a + b) % m) := by
  unfold Release.add wrappingAdd
  generalize 2 ^ w = W at *
  have hmod : (a + b) % m = if m ≤ a + b then a + b - m else a + b := by
    split
    · next h => rw [Nat.mod_eq_sub_mod h, Nat.mod_eq_of_lt (by omega)]
    · next h => exact Nat.mod_eq_of_lt (by omega)
  constructor
  · intro h
    rw [Nat.mod_eq_of_lt h, hmod]
  · intro h
    have e : (a + b) % W = a + b - W := by rw [Nat.mod_eq_sub_mod h, Nat.mod_eq_of_lt (by omega)]
    rw [e, hmod, if_neg (by omega : ¬ m ≤ a + b - W), if_pos (by omega : m ≤ a + b)]
    omega

theorem wrapS_eq {w : Nat} (hw : 0 < w) {x : Int} (h1 : -(2 ^ (w - 1) : Int) ≤ x) (h2 : x < 2 ^ (w - 1)) :
    wrapS w x = x := by
  unfold wrapS
  have p : (2 ^ w : Int) = 2 * 2 ^ (w - 1) := by
    conv_lhs => rw [show w = w - 1 + 1 by omega, pow_succ]
    ring
  rw [p, Int.emod_eq_of_lt (by omega) (by omega)]
  ring

theorem wrapS_of_chkS {w : Nat} (hw : 0 < w) {x y : Int} (h : chkS w x = some y) : wrapS w x = y := by
  unfold chkS at h
  split at h
  · next hc => rw [wrapS_eq hw hc.1 hc.2]; exact Option.some.inj h
  · exact absurd h (by simp)

theorem halve_refines {w : Nat} (hw : 0 < w) {x y : Int} : ∀ (fuel u : Nat) (a b : Int) (r : Nat × Int × Int),
    Gcd.halve w x y fuel u a b = some r → Release.halve w x y fuel u a b = some r
  | 0, u, a, b, r, h => h
  | fuel + 1, u, a, b, r, h => by
    unfold Gcd.halve at h
    unfold Release.halve
    by_cases hu : u % 2 = 0
    · rw [if_pos hu] at h ⊢
      dsimp only at h ⊢
      by_cases h2 : a % 2 = 0 ∧ b % 2 = 0
      · rw [if_pos h2] at h ⊢
        exact halve_refines hw fuel _ _ _ r h
      · rw [if_neg h2] at h ⊢
        by_cases h3 : x < b
        · rw [if_pos h3] at h ⊢
          obtain ⟨a', ea, h⟩ := Option.bind_eq_some_iff.1 h
          obtain ⟨b', eb, h⟩ := Option.bind_eq_some_iff.1 h
          rw [wrapS_of_chkS hw ea, wrapS_of_chkS hw eb]
          exact halve_refines hw fuel _ _ _ r h
        · rw [if_neg h3] at h ⊢
          obtain ⟨a', ea, h⟩ := Option.bind_eq_some_iff.1 h
          obtain ⟨b', eb, h⟩ := Option.bind_eq_some_iff.1 h
          rw [wrapS_of_chkS hw ea, wrapS_of_chkS hw eb]
          exact halve_refines hw fuel _ _ _ r h
    · rw [if_neg hu] at h ⊢
      exact h

theorem egcdLoop_refines {w : Nat} (hw : 0 < w) {x y : Int} :
    ∀ (fuel u v : Nat) (a b c d : Int) (r : Int × Int × Nat),
    Gcd.egcdLoop w x y fuel u v a b c d = some r → Release.egcdLoop w x y fuel u v a b c d = some r
  | 0, _, _, _, _, _, _, r, h => by unfold Gcd.egcdLoop at h; exact absurd h (by simp)
  | fuel + 1, u, v, a, b, c, d, r, h => by
    unfold Gcd.egcdLoop at h
    unfold Release.egcdLoop
    obtain ⟨⟨u', a', b'⟩, e1, h⟩ := Option.bind_eq_some_iff.1 h
    obtain ⟨⟨v', c', d'⟩, e2, h⟩ := Option.bind_eq_some_iff.1 h
    rw [mbind (halve_refines hw _ _ _ _ _ e1)]
    dsimp only
    rw [mbind (halve_refines hw _ _ _ _ _ e2)]
    dsimp only at h ⊢
    by_cases hle : v' ≤ u'
    · rw [if_pos hle] at h ⊢
      obtain ⟨a'', ea, h⟩ := Option.bind_eq_some_iff.1 h
      obtain ⟨b'', eb, h⟩ := Option.bind_eq_some_iff.1 h
      rw [wrapS_of_chkS hw ea, wrapS_of_chkS hw eb]
      by_cases hz : u' - v' = 0
      · rw [if_pos hz] at h ⊢; exact h
      · rw [if_neg hz] at h ⊢; exact egcdLoop_refines hw fuel _ _ _ _ _ _ r h
    · rw [if_neg hle] at h ⊢
      obtain ⟨a'', ea, h⟩ := Option.bind_eq_some_iff.1 h
      obtain ⟨b'', eb, h⟩ := Option.bind_eq_some_iff.1 h
      rw [wrapS_of_chkS hw ea, wrapS_of_chkS hw eb]
      by_cases hz : u' = 0
      · rw [if_pos hz] at h ⊢; exact h
      · rw [if_neg hz] at h ⊢; exact egcdLoop_refines hw fuel _ _ _ _ _ _ r h

theorem extendedGcd_refines {w x y : Nat} (hw : 0 < w) {r : Int × Int × Nat}
    (h : Gcd.extendedGcd w x y = some r) : Release.extendedGcd w x y = some r := by
  unfold Gcd.extendedGcd at h
  unfold Release.extendedGcd
  by_cases h0 : x = 0 ∨ y = 0
  · rw [if_pos h0] at h ⊢; exact h
  · rw [if_neg h0] at h ⊢
    dsimp only at h ⊢
    unfold shrC shlC at h
    by_cases hs : trailingZeros w (x ||| y) < w
    · simp only [hs, if_true, Option.bind_eq_bind, Option.bind_some] at h
      obtain ⟨⟨c, d, v⟩, e1, h⟩ := Option.bind_eq_some_iff.1 h
      dsimp only at h
      rw [mbind (egcdLoop_refines hw _ _ _ _ _ _ _ _ e1)]
      dsimp only
      obtain ⟨g, eg, h⟩ := Option.bind_eq_some_iff.1 h
      unfold mulC at eg
      split at eg
      · next hlt => rw [Nat.mod_eq_of_lt hlt, Option.some.inj eg]; exact h
      · exact absurd eg (by simp)
    · simp [hs] at h

/-- The numbers computed by `extended_gcd` do not depend on the coefficients. -/
theorem halve_release {w : Nat} {x y : Int} : ∀ (fuel u : Nat) (a b : Int), 0 < u → u ≤ fuel →
    ∃ u' a' b' k, Release.halve w x y fuel u a b = some (u', a', b') ∧ u = 2 ^ k * u' ∧ u' % 2 = 1
  | 0, u, _, _, h0, hf => by omega
  | fuel + 1, u, a, b, h0, hf => by
    unfold Release.halve
    by_cases hu : u % 2 = 0
    · rw [if_pos hu]
      dsimp only
      have hstep : ∀ a b : Int, ∃ u' a' b' k,
          Release.halve w x y fuel (u / 2) a b = some (u', a', b') ∧ u = 2 ^ k * u' ∧ u' % 2 = 1 := by
        intro a b
        obtain ⟨u', a', b', k, e, f, o⟩ := halve_release (w := w) (x := x) (y := y) fuel (u / 2) a b (by omega)
          (by omega)
        refine ⟨u', a', b', k + 1, e, ?_, o⟩
        rw [Nat.pow_succ, Nat.mul_right_comm, ← f]; omega
      split
      · exact hstep _ _
      · split <;> exact hstep _ _
    · rw [if_neg hu]
      exact ⟨u, a, b, 0, rfl, by simp, by omega⟩

theorem egcdLoop_release {w : Nat} {x y : Int} : ∀ (fuel u v : Nat) (a b c d : Int), 0 < u → 0 < v → u + v ≤ fuel →
    Nat.gcd u v % 2 = 1 →
    ∃ c' d', Release.egcdLoop w x y fuel u v a b c d = some (c', d', Nat.gcd u v)
  | 0, u, v, _, _, _, _, hu, hv, hf, _ => by omega
  | fuel + 1, u, v, a, b, c, d, hu, hv, hf, hg => by
    obtain ⟨u', a', b', k, e1, f1, o1⟩ := halve_release (w := w) (x := x) (y := y) u u a b hu le_rfl
    obtain ⟨v', c', d', k', e2, f2, o2⟩ := halve_release (w := w) (x := x) (y := y) v v c d hv le_rfl
    have hgcd : Nat.gcd u v = Nat.gcd u' v' := by
      have hgo : Nat.gcd u v ∣ u' := by
        have : Nat.gcd u v ∣ 2 ^ k * u' := f1 ▸ Nat.gcd_dvd_left u v
        exact (Nat.Coprime.dvd_mul_left (Gcd.coprime_two_pow_of_odd hg).symm).1 this
      have hgo' : Nat.gcd u v ∣ v' := by
        have : Nat.gcd u v ∣ 2 ^ k' * v' := f2 ▸ Nat.gcd_dvd_right u v
        exact (Nat.Coprime.dvd_mul_left (Gcd.coprime_two_pow_of_odd hg).symm).1 this
      apply Nat.dvd_antisymm (Nat.dvd_gcd hgo hgo')
      apply Nat.dvd_gcd
      · rw [f1]; exact Dvd.dvd.mul_left (Nat.gcd_dvd_left _ _) _
      · rw [f2]; exact Dvd.dvd.mul_left (Nat.gcd_dvd_right _ _) _
    have hu' : u' ≤ u := by rw [f1]; exact Nat.le_mul_of_pos_left _ (Nat.two_pow_pos _)
    have hv' : v' ≤ v := by rw [f2]; exact Nat.le_mul_of_pos_left _ (Nat.two_pow_pos _)
    unfold Release.egcdLoop
    rw [mbind e1]
    dsimp only
    rw [mbind e2]
    dsimp only
    rw [hgcd] at hg ⊢
    by_cases hle : v' ≤ u'
    · rw [if_pos hle]
      by_cases hz : u' - v' = 0
      · rw [if_pos hz]
        have : u' = v' := by omega
        subst this
        rw [Nat.gcd_self]
        exact ⟨c', d', rfl⟩
      · rw [if_neg hz]
        have hg' : Nat.gcd (u' - v') v' = Nat.gcd u' v' := Nat.gcd_sub_self_left hle
        rw [← hg']
        exact egcdLoop_release fuel (u' - v') v' _ _ _ _ (by omega) (by omega) (by omega) (by rw [hg']; exact hg)
    · rw [if_neg hle, if_neg (by omega)]
      have hg' : Nat.gcd u' (v' - u') = Nat.gcd u' v' := Nat.gcd_sub_self_right (by omega)
      rw [← hg']
      exact egcdLoop_release fuel u' (v' - u') _ _ _ _ (by omega) (by omega) (by omega) (by rw [hg']; exact hg)

/-- C83: for all positive words `extended_gcd` ends and returns their greatest common divisor; below a quarter of the
word range the coefficients are Bezout coefficients. -/
theorem C83_extended_gcd (w x y : Nat) (hx : x < 2 ^ w) (hy : y < 2 ^ w) (hx0 : 0 < x) (hy0 : 0 < y) :
    ∃ a b, Release.extendedGcd w x y = some (a, b, Nat.gcd x y) ∧
      (x < 2 ^ (w - 2) → y < 2 ^ (w - 2) → a * x + b * y = (Nat.gcd x y : Int)) := by
  have h0 : ¬ (x = 0 ∨ y = 0) := by omega
  obtain ⟨s, es, hs, ⟨x1, f1⟩, ⟨y1, f2⟩, hodd⟩ := tz_or hx hy h0
  have hp : 0 < 2 ^ s := Nat.two_pow_pos s
  have e1 : x / 2 ^ s = x1 := by rw [f1, Nat.mul_div_cancel_left _ hp]
  have e2 : y / 2 ^ s = y1 := by rw [f2, Nat.mul_div_cancel_left _ hp]
  rw [e1, e2] at hodd
  have hx10 : 0 < x1 := Nat.pos_of_ne_zero (by rintro rfl; omega)
  have hy10 : 0 < y1 := Nat.pos_of_ne_zero (by rintro rfl; omega)
  have hsw : 2 ^ s < 2 ^ w := Nat.pow_lt_pow_right (by decide) hs
  have hgo : Nat.gcd x1 y1 % 2 = 1 := by
    by_contra hc
    apply hodd
    have h2 : 2 ∣ Nat.gcd x1 y1 := Nat.dvd_of_mod_eq_zero (by omega)
    exact ⟨Nat.mod_eq_zero_of_dvd (h2.trans (Nat.gcd_dvd_left _ _)),
      Nat.mod_eq_zero_of_dvd (h2.trans (Nat.gcd_dvd_right _ _))⟩
  have hgx : Nat.gcd x y = 2 ^ s * Nat.gcd x1 y1 := by rw [f1, f2, Nat.gcd_mul_left]
  have hgle : Nat.gcd x y ≤ x := Nat.gcd_le_left _ (by omega)
  obtain ⟨c, d, eL⟩ := egcdLoop_release (w := w) (x := toSigned w x1) (y := toSigned w y1) (x1 + y1) x1 y1 1 0 0 1
    hx10 hy10 le_rfl hgo
  have eR : Release.extendedGcd w x y = some (c, d, Nat.gcd x y) := by
    unfold Release.extendedGcd
    rw [if_neg h0]
    dsimp only
    rw [← es, e1, e2, mbind eL]
    dsimp only
    rw [Nat.one_mul, Nat.mod_eq_of_lt hsw, ← hgx, Nat.mod_eq_of_lt (by omega)]
    rfl
  refine ⟨c, d, eR, fun hxq hyq => ?_⟩
  obtain ⟨a, b, eD, hrel, -, -⟩ := C14_extended_gcd_partial w x y hxq hyq hx0 hy0
  have := eR.symm.trans (extendedGcd_refines (by omega) eD)
  simp only [Option.some.injEq, Prod.mk.injEq] at this
  rw [this.1, this.2.1]
  exact hrel

/-- C83: `try_inv_reduce` reports an error exactly for values that have no inverse, for every modulus. For moduli below a
quarter of the word range the value returned is the inverse. -/
theorem C83_inverse (w a m : Nat) (hw : 0 < w) (hm : m < 2 ^ w) (ha0 : 1 ≤ a) (ha : a < m) :
    (Nat.gcd a m ≠ 1 → Release.tryInvReduce w a m = some none) ∧
    (Nat.gcd a m = 1 → ∃ x, Release.tryInvReduce w a m = some (some x) ∧
      (m < 2 ^ (w - 2) → 1 ≤ x ∧ x < m ∧ a * x % m = 1)) := by
  obtain ⟨j, i, e, -⟩ := C83_extended_gcd w m a hm (by omega) (by omega) (by omega)
  rw [Nat.gcd_comm] at e
  constructor
  · intro hg
    unfold Release.tryInvReduce
    rw [mbind e]
    dsimp only
    rw [if_neg hg]; rfl
  · intro hg
    rw [hg] at e
    refine ⟨if 0 < i then ofSigned w i else ofSigned w (wrapS w (i + toSigned w m)), ?_, fun hq => ?_⟩
    · unfold Release.tryInvReduce
      rw [mbind e]
      dsimp only
      rw [if_pos rfl]
      split <;> rfl
    · obtain ⟨x, h1, h2, h3, h4, -⟩ := (C07_inverse_partial w a m hq ha0 ha).1 hg
      unfold Gcd.tryInvReduce at h4
      rw [if_pos ha] at h4
      obtain ⟨⟨j', i', g'⟩, ed, h4⟩ := Option.bind_eq_some_iff.1 h4
      have hr := e.symm.trans (extendedGcd_refines hw ed)
      simp only [Option.some.injEq, Prod.mk.injEq] at hr
      obtain ⟨-, rfl, rfl⟩ := hr
      dsimp only at h4
      rw [if_pos rfl] at h4
      have : (if 0 < i then ofSigned w i else ofSigned w (wrapS w (i + toSigned w m))) = x := by
        split at h4
        · next hp =>
          rw [if_pos hp]
          exact Option.some.inj (Option.some.inj h4)
        · next hp =>
          rw [if_neg hp]
          obtain ⟨s, es, h4⟩ := Option.bind_eq_some_iff.1 h4
          rw [wrapS_of_chkS hw es]
          exact Option.some.inj (Option.some.inj h4)
      rw [this]
      exact ⟨h1, h2, h3⟩

/-- C83: from a quarter of the word range on the value can be wrong without any notice: for every word size the inverse
of `2^(w-2)` modulo `2^(w-2) + 1` is said to be 1. -/
theorem C83_inverse_violation :
    Release.tryInvReduce 8 (2 ^ 6) (2 ^ 6 + 1) = some (some 1) ∧
    Release.tryInvReduce 16 (2 ^ 14) (2 ^ 14 + 1) = some (some 1) ∧
    Release.tryInvReduce 32 (2 ^ 30) (2 ^ 30 + 1) = some (some 1) ∧
    Release.tryInvReduce 64 (2 ^ 62) (2 ^ 62 + 1) = some (some 1) := by decide +kernel

section samples
open Fp Finset Spec Ntt
variable {q k : Nat} [Fact q.Prime] {R : Ctx}

omit [Fact q.Prime] in
theorem generateLoop_release {sample : Nat → List Nat → List Nat → Option RLWE} {bits n : Nat}
    {P : Nat → List Nat → RLWE → Prop} (hq : q < 2 ^ R.w)
    (hf : ∀ v a e, v < q → Reduced q n a → Reduced q n e → ∃ r, sample v a e = some r ∧ P v e r) :
    ∀ (cnt j0 power : Nat) (draws : List Draw), cnt ≤ draws.length → DrawsOk q n draws →
      (cnt ≠ 0 → 2 ^ (bits * (j0 + cnt - 1)) < q) → (cnt ≠ 0 → power = 2 ^ (bits * j0)) →
      ∃ out, Release.generateLoop R sample (2 ^ bits) cnt power draws = some out ∧
        out.length = cnt ∧
        ∀ j (h : j < out.length), P (2 ^ (bits * (j0 + j))) (draws.getD j ([], [])).2 out[j]
  | 0, j0, _, draws, _, _, _, _ => ⟨[], by unfold Release.generateLoop; rfl, rfl, by simp⟩
  | cnt + 1, _, _, [], h, _, _, _ => by simp at h
  | cnt + 1, j0, power, (a, e) :: ds, hlen, hd, hlt, hpow => by
    have hmono : ∀ i, i ≤ cnt → 2 ^ (bits * (j0 + i)) < q := fun i hi =>
      lt_of_le_of_lt (Nat.pow_le_pow_right (by omega) (Nat.mul_le_mul_left _ (by omega)))
        (hlt (by omega))
    rw [hpow (by omega)]
    obtain ⟨r, er, hr⟩ := hf (2 ^ (bits * j0)) a e (by simpa using hmono 0 (by omega))
      (hd _ List.mem_cons_self).1 (hd _ List.mem_cons_self).2
    obtain ⟨out, eo, hl, ho⟩ := generateLoop_release hq hf cnt (j0 + 1)
      (wrappingMul R.w (2 ^ (bits * j0)) (2 ^ bits)) ds (by simpa using hlen)
      (fun d h => hd d (List.mem_cons_of_mem _ h)) (by
        intro h
        rw [show j0 + 1 + cnt - 1 = j0 + cnt by omega]; exact hmono _ le_rfl) (by
        intro h
        unfold wrappingMul
        rw [← pow_add, ← Nat.mul_succ]
        exact Nat.mod_eq_of_lt ((hmono 1 (by omega)).trans hq))
    refine ⟨r :: out, ?_, by simp [hl], ?_⟩
    · unfold Release.generateLoop
      rw [mbind er, mbind eo]; rfl
    · intro j hj
      cases j with
      | zero => exact hr
      | succ j =>
        have := ho j (by simpa using hj)
        rw [show j0 + 1 + j = j0 + (j + 1) by omega] at this
        exact this

/-- C83: the samples of `1` and of `-s` in coefficient form are right for every basis: the power that overflows is the
one computed after the last element. -/
theorem C83_gadget_samples (hk : 0 < k) (F : TableField R.w q R.M R.tbl k) (bits : Nat) (B : Basis)
    (hB : Basis.new R.w q bits = some B) (s sn : List Nat)
    (hs : Reduced q (2 ^ k) s) (hsn : Poly.toNtt R.w R.M R.tbl s = some sn) (draws : List Draw)
    (hd : DrawsOk q (2 ^ k) draws) (hlen : B.decomposeLen ≤ draws.length) :
    (∃ g, Release.gadgetOne R sn B draws = some g ∧
      g.Encrypts R.w q (2 ^ k) bits (Rq.ofWords q (2 ^ k) s) 1 (drawErrors q (2 ^ k) draws)) ∧
    (∃ g, Release.gadgetNegSecret R sn B draws = some g ∧
      g.Encrypts R.w q (2 ^ k) bits (Rq.ofWords q (2 ^ k) s) (-Rq.ofWords q (2 ^ k) s)
        (drawErrors q (2 ^ k) draws)) := by
  have hsp := fun v hv a e ha he => samples_spec hk F s sn hs hsn a e ha he v hv
  obtain ⟨hqw, h2q⟩ : q < 2 ^ R.w ∧ 2 ≤ q := by
    obtain ⟨t, rfl, E⟩ := F.env hk
    have := E.C.four_mul_lt
    exact ⟨by omega, E.C.two_le⟩
  obtain ⟨_, _, _, _, _, hbasis, _⟩ := new_basis hqw hB
  obtain ⟨_, hl1, hlt⟩ := len_bounds hqw h2q hB
  constructor
  · obtain ⟨out, eo, hl, ho⟩ := generateLoop_release (R := R) (bits := bits)
      (P := fun v e r => r.HasPhase q (2 ^ k) (Rq.ofWords q (2 ^ k) s)
        (1 * Rq.const (v : ZMod q) + Rq.ofWords q (2 ^ k) e)) hqw
      (fun v a e hv ha he => (hsp v hv a e ha he).2.1) B.decomposeLen 0 1 draws
      hlen hd (fun _ => by simpa using hlt) (fun _ => by simp)
    refine ⟨⟨out, B⟩, ?_, hB, hl, fun j hj => ?_⟩
    · unfold Release.gadgetOne
      rw [← hbasis] at eo
      rw [show Fp.one = 1 from rfl, mbind eo]; rfl
    · have := ho j hj
      rwa [Nat.zero_add] at this
  · obtain ⟨out, eo, hl, ho⟩ := generateLoop_release (R := R) (bits := bits)
      (P := fun v e r => r.HasPhase q (2 ^ k) (Rq.ofWords q (2 ^ k) s)
        (-Rq.ofWords q (2 ^ k) s * Rq.const (v : ZMod q) + Rq.ofWords q (2 ^ k) e)) hqw
      (fun v a e hv ha he => (hsp v hv a e ha he).2.2.1) B.decomposeLen 0 1 draws
      hlen hd (fun _ => by simpa using hlt) (fun _ => by simp)
    refine ⟨⟨out, B⟩, ?_, hB, hl, fun j hj => ?_⟩
    · unfold Release.gadgetNegSecret
      rw [← hbasis] at eo
      rw [show Fp.one = 1 from rfl, mbind eo]; rfl
    · have := ho j hj
      rwa [Nat.zero_add] at this

/-- C83: the same for RGSW samples of `1` in coefficient form. -/
theorem C83_rgsw_sample (hk : 0 < k) (F : TableField R.w q R.M R.tbl k) (bits : Nat) (B : Basis)
    (hB : Basis.new R.w q bits = some B) (s sn : List Nat)
    (hs : Reduced q (2 ^ k) s) (hsn : Poly.toNtt R.w R.M R.tbl s = some sn) (d0 d1 : List Draw)
    (h0 : DrawsOk q (2 ^ k) d0) (h1 : DrawsOk q (2 ^ k) d1)
    (hl0 : B.decomposeLen ≤ d0.length) (hl1 : B.decomposeLen ≤ d1.length) :
    ∃ g, Release.rgswOne R sn B d0 d1 = some g ∧
      g.Encrypts R.w q (2 ^ k) bits (Rq.ofWords q (2 ^ k) s) 1 (drawErrors q (2 ^ k) d0)
        (drawErrors q (2 ^ k) d1) := by
  obtain ⟨_, g0, e0, G0⟩ := C83_gadget_samples hk F bits B hB s sn hs hsn d0 h0 hl0
  obtain ⟨⟨g1, e1, G1⟩, _⟩ := C83_gadget_samples hk F bits B hB s sn hs hsn d1 h1 hl1
  refine ⟨⟨g0, g1⟩, ?_, by rw [mul_one]; exact G0, G1⟩
  unfold Release.rgswOne; rw [mbind e0, mbind e1]; rfl

end samples

/-- C83: a centred binomial draw with `d` more ones in the first half than in the second is the residue of `d`, for every
modulus. -/
theorem C83_cbd_nonnegative (w q : Nat) (hw : w % 2 = 0) (M : Barrett) (h : Fp.config w q = some M)
    (x0 x1 x2 x3 x4 x5 d : Nat)
    (hd : Sample.countOnes 8 x0 + Sample.countOnes 8 x1 + Sample.countOnes 8 (x2 &&& 0x1F) =
      Sample.countOnes 8 x3 + Sample.countOnes 8 x4 + Sample.countOnes 8 (x5 &&& 0x1F) + d) (hdw : d < 2 ^ w) :
    Release.cbd w M x0 x1 x2 x3 x4 x5 = some (d % q) := by
  unfold Release.cbd
  dsimp only
  rw [hd, if_pos (by omega), Nat.add_sub_cancel_left]
  exact C49_new w q hw M h d hdw

/-- C83: a centred binomial draw with `d` more ones in the second half than in the first. Up to the modulus the result
is the residue of `-d`, above it the code returns the residue of `2^w - d`, which is another one unless the modulus
divides the word size. -/
theorem C83_cbd (w q : Nat) (hw : w % 2 = 0) (M : Barrett) (h : Fp.config w q = some M) (x0 x1 x2 x3 x4 x5 d : Nat)
    (hd : Sample.countOnes 8 x3 + Sample.countOnes 8 x4 + Sample.countOnes 8 (x5 &&& 0x1F) =
      Sample.countOnes 8 x0 + Sample.countOnes 8 x1 + Sample.countOnes 8 (x2 &&& 0x1F) + d) (hd0 : 0 < d)
    (hdw : d < 2 ^ w) :
    (d ≤ q → ∃ e, Release.cbd w M x0 x1 x2 x3 x4 x5 = some e ∧ e < q ∧ (e + d) % q = 0) ∧
    (q < d → ∃ e, Release.cbd w M x0 x1 x2 x3 x4 x5 = some e ∧ e < q ∧ e = (2 ^ w - (d - q)) % q ∧
      (¬ q ∣ 2 ^ w → (e + d) % q ≠ 0)) := by
  obtain ⟨hval, hqv⟩ := Barrett.new_valid hw (config_new h)
  have hlt := hval.lt_word
  have hq0 : 0 < q := by rw [← hqv]; have := hval.two_le; omega
  rw [hqv] at hlt
  have hn : ∀ v, v < 2 ^ w → Fp.new w M v = some (v % q) := C49_new w q hw M h
  have e1 : Release.cbd w M x0 x1 x2 x3 x4 x5 = Fp.new w M (wrappingSub w q d) := by
    unfold Release.cbd
    dsimp only
    rw [hd, if_neg (by omega), hqv, Nat.add_sub_cancel_left]
  constructor
  · intro hle
    have : wrappingSub w q d = q - d := by
      unfold wrappingSub
      generalize 2 ^ w = W at *
      rw [show q + W - d = (q - d) + W by omega, Nat.add_mod_right, Nat.mod_eq_of_lt (by omega)]
    rw [e1, this, hn _ (by omega)]
    refine ⟨_, rfl, Nat.mod_lt _ hq0, ?_⟩
    rw [Nat.mod_add_mod, Nat.sub_add_cancel hle, Nat.mod_self]
  · intro hgt
    have : wrappingSub w q d = 2 ^ w - (d - q) := by
      unfold wrappingSub
      generalize 2 ^ w = W at *
      rw [Nat.mod_eq_of_lt (by omega)]; omega
    rw [e1, this, hn _ (by have := Nat.two_pow_pos w; omega)]
    refine ⟨_, rfl, Nat.mod_lt _ hq0, rfl, fun hnd hc => hnd ?_⟩
    rw [Nat.mod_add_mod, show 2 ^ w - (d - q) + d = 2 ^ w + q by omega, Nat.add_mod_right] at hc
    exact Nat.dvd_of_mod_eq_zero hc

/-- C83: Goldilocks negation. Up to the modulus it is right; above it, where the checked build panics, the code returns a
value that is not the negation. -/
theorem C83_goldilocks_neg (a : Nat) (ha : a < 2 ^ 64) :
    (a ≤ Goldilocks.P → goldilocksNeg a < Goldilocks.P ∧ (goldilocksNeg a + a) % Goldilocks.P = 0) ∧
    (Goldilocks.P < a → (goldilocksNeg a + a) % Goldilocks.P ≠ 0) := by
  unfold goldilocksNeg wrappingSub
  have h1 : Goldilocks.P < 2 ^ 64 := by decide
  have h2 : 2 ^ 64 < 2 * Goldilocks.P := by decide
  have h3 : 0 < Goldilocks.P := by decide
  have h4 : 2 ^ 64 % Goldilocks.P ≠ 0 := by decide
  generalize (2 : Nat) ^ 64 = W at *
  generalize Goldilocks.P = p at *
  constructor
  · intro h
    split
    · next h0 => subst h0; exact ⟨h3, by simp⟩
    · next h0 =>
      rw [show p + W - a = (p - a) + W by omega, Nat.add_mod_right, Nat.mod_eq_of_lt (show p - a < W by omega),
        Nat.sub_add_cancel h, Nat.mod_self]
      exact ⟨by omega, rfl⟩
  · intro h
    rw [if_neg (by omega), Nat.mod_eq_of_lt (show p + W - a < W by omega), show p + W - a + a = W + p by omega, Nat.add_mod_right]
    exact h4

-- the sum of two residues modulo 200 that does not fit a byte
example : Release.add 8 200 150 150 = 44 ∧ (150 + 150) % 200 = 100 := by decide +kernel
-- an inverse below and above a quarter of the range of bytes
example : Release.tryInvReduce 8 17 61 = some (some 18) ∧ Release.tryInvReduce 8 12 73 = some (some 58) ∧
    12 * 58 % 73 ≠ 1 := by decide +kernel
-- the ciphertexts whose generation panics in the checked build (`C36_sample_overflow`)
example : ∃ B sn, Basis.new 8 17 4 = some B ∧ Poly.toNtt 8 barrett17 tbl17 [1, 0, 1, 0] = some sn ∧
    (Release.rgswOne ⟨8, barrett17, tbl17⟩ sn B
      [([1, 2, 3, 4], [0, 1, 0, 16]), ([5, 6, 7, 8], [1, 0, 0, 0])]
      [([1, 2, 3, 4], [0, 1, 0, 16]), ([5, 6, 7, 8], [1, 0, 0, 0])]).isSome = true :=
  ⟨⟨16, 2, 15, 4⟩, [5, 5, 14, 14], by decide +kernel, by decide +kernel, by decide +kernel⟩
-- a draw of -21 modulo 17 and of -21 modulo 61
example : ∃ M, Fp.config 8 61 = some M ∧ Release.cbd 8 M 255 1 0 7 0 0 = some 6 ∧ Release.cbd 8 M 0 0 0 255 255 31 = some 40 :=
  ⟨⟨61, 2 ^ 8 * 2 ^ 8 / 61 % 2 ^ 8, 2 ^ 8 * 2 ^ 8 / 61 / 2 ^ 8⟩, by decide +kernel⟩
example : Release.cbd 8 barrett17 0 0 0 255 255 31 = some 14 ∧ (14 + 21) % 17 ≠ 0 := by decide +kernel

end Verif.Props
