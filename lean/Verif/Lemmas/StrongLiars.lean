import Verif.Spec
import Mathlib.Data.ZMod.Units
import Mathlib.Data.ZMod.Basic
import Mathlib.GroupTheory.Index
import Mathlib.RingTheory.IntegralDomain
import Mathlib.NumberTheory.LegendreSymbol.Basic
import Mathlib.Algebra.Squarefree.Basic
import Mathlib.Data.Nat.Squarefree
import Mathlib.Data.Nat.Totient

/-!
# Rabin's bound: at most a quarter of the units are strong liars
-/

namespace Verif.Liars
open Spec

/-- The subgroup `{1, -1}`. -/
def signs (n : Nat) : Subgroup (ZMod n)ˣ where
  carrier := {x | x = 1 ∨ x = -1}
  one_mem' := Or.inl rfl
  mul_mem' := by
    rintro a b (rfl | rfl) (rfl | rfl) <;> simp
  inv_mem' := by
    rintro a (rfl | rfl) <;> simp

theorem mem_signs {n : Nat} {x : (ZMod n)ˣ} : x ∈ signs n ↔ x = 1 ∨ x = -1 := Iff.rfl

theorem neg_one_ne_one {n : Nat} (h : 2 < n) : (-1 : (ZMod n)ˣ) ≠ 1 := by
  intro he
  have : Fact (2 < n) := ⟨h⟩
  apply ZMod.neg_one_ne_one (n := n)
  have := congrArg Units.val he
  simpa using this

theorem index_four {G : Type} [CommGroup G] [Finite G] {H K : Subgroup G} (h1 : H ≤ K) (h2 : ¬ K ≤ H)
    (h3 : K ≠ ⊤) : 4 ≤ H.index := by
  have a : H.relIndex K ≠ 1 := fun h => h2 (Subgroup.relIndex_eq_one.1 h)
  have b := Subgroup.one_lt_index_of_ne_top h3
  have c := Subgroup.relIndex_mul_index h1
  have d : H.relIndex K ≠ 0 := by
    intro h
    rw [h, zero_mul] at c
    exact Subgroup.index_ne_zero_of_finite c.symm
  nlinarith [Nat.two_le_iff _ |>.2 ⟨d, a⟩]

theorem unitsMap_neg_one {a n : Nat} (h : a ∣ n) : ZMod.unitsMap h (-1) = -1 := by
  ext; simp [ZMod.unitsMap_def]

/-- A unit congruent to a given one modulo `a` and to 1 modulo `b`. -/
theorem crt_unit {n a b : Nat} (hn : n = a * b) (hc : a.Coprime b) (ha : a ∣ n) (hb : b ∣ n) (u : (ZMod n)ˣ) :
    ∃ g : (ZMod n)ˣ, ZMod.unitsMap ha g = ZMod.unitsMap ha u ∧ ZMod.unitsMap hb g = 1 := by
  subst hn
  let e := ZMod.chineseRemainder hc
  let v : (ZMod a × ZMod b)ˣ := MulEquiv.prodUnits.symm (ZMod.unitsMap ha u, 1)
  let g : (ZMod (a * b))ˣ := Units.map e.symm.toMonoidHom v
  have h1 : ZMod.castHom ha (ZMod a) = (RingHom.fst (ZMod a) (ZMod b)).comp e.toRingHom := RingHom.ext_zmod _ _
  have h2 : ZMod.castHom hb (ZMod b) = (RingHom.snd (ZMod a) (ZMod b)).comp e.toRingHom := RingHom.ext_zmod _ _
  have hg : e (g : ZMod (a * b)) = v := by
    change e (e.symm (v : ZMod a × ZMod b)) = v
    simp
  refine ⟨g, ?_, ?_⟩
  · apply Units.ext
    have : ZMod.castHom ha (ZMod a) (g : ZMod (a * b)) = (v : ZMod a × ZMod b).1 := by
      rw [h1]; change (e (g : ZMod (a * b))).1 = _; rw [hg]
    exact this
  · apply Units.ext
    have : ZMod.castHom hb (ZMod b) (g : ZMod (a * b)) = (v : ZMod a × ZMod b).2 := by
      rw [h2]; change (e (g : ZMod (a * b))).2 = _; rw [hg]
    exact this

theorem crt_ext {n a b : Nat} (hn : n = a * b) (hc : a.Coprime b) (ha : a ∣ n) (hb : b ∣ n) {x y : (ZMod n)ˣ}
    (h1 : ZMod.unitsMap ha x = ZMod.unitsMap ha y) (h2 : ZMod.unitsMap hb x = ZMod.unitsMap hb y) : x = y := by
  subst hn
  let e := ZMod.chineseRemainder hc
  have e1 : ZMod.castHom ha (ZMod a) = (RingHom.fst (ZMod a) (ZMod b)).comp e.toRingHom := RingHom.ext_zmod _ _
  have e2 : ZMod.castHom hb (ZMod b) = (RingHom.snd (ZMod a) (ZMod b)).comp e.toRingHom := RingHom.ext_zmod _ _
  apply Units.ext
  apply e.injective
  have k1 : ZMod.castHom ha (ZMod a) (x : ZMod (a * b)) = ZMod.castHom ha (ZMod a) (y : ZMod (a * b)) :=
    congrArg Units.val h1
  have k2 : ZMod.castHom hb (ZMod b) (x : ZMod (a * b)) = ZMod.castHom hb (ZMod b) (y : ZMod (a * b)) :=
    congrArg Units.val h2
  rw [e1] at k1
  rw [e2] at k2
  exact Prod.ext k1 k2

/-- Units whose `m`-th power is a sign. -/
def signPow (n m : Nat) : Subgroup (ZMod n)ˣ := (signs n).comap (powMonoidHom m)

theorem mem_signPow {n m : Nat} {x : (ZMod n)ˣ} : x ∈ signPow n m ↔ x ^ m = 1 ∨ x ^ m = -1 := Iff.rfl

/-- With two coprime factors, one sign can be changed and the other kept. -/
theorem mixed_sign {n a b m : Nat} (hn : n = a * b) (hc : a.Coprime b) (ha : a ∣ n) (hb : b ∣ n)
    (ha2 : 2 < a) (hb2 : 2 < b) {x : (ZMod n)ˣ} (hx : x ^ m = -1) :
    ∃ g : (ZMod n)ˣ, ZMod.unitsMap ha g ^ m = -1 ∧ ZMod.unitsMap hb g = 1 ∧ g ∉ signPow n m ∧
      g ^ (2 * m) = 1 := by
  obtain ⟨g, g1, g2⟩ := crt_unit hn hc ha hb x
  have g3 : ZMod.unitsMap ha g ^ m = -1 := by rw [g1, ← map_pow, hx, unitsMap_neg_one]
  refine ⟨g, g3, g2, ?_, ?_⟩
  · rintro (h | h)
    · have h : g ^ m = 1 := h
      rw [← map_pow, h, map_one] at g3
      exact neg_one_ne_one ha2 g3.symm
    · have h : g ^ m = -1 := h
      have := congrArg (ZMod.unitsMap hb) h
      rw [map_pow, g2, one_pow, unitsMap_neg_one] at this
      exact neg_one_ne_one hb2 this.symm
  · apply crt_ext hn hc ha hb
    · rw [map_pow, mul_comm, pow_mul, g3]; simp
    · rw [map_pow, g2]; simp

/-- A square factor `p²` leaves at most one `p`-th of the units with `x^(n-1) = 1`. -/
theorem square_index {n p : Nat} (hn : 1 < n) (hp : p.Prime) (h : p * p ∣ n) :
    p ≤ (powMonoidHom (n - 1) : (ZMod n)ˣ →* (ZMod n)ˣ).ker.index := by
  have : NeZero n := ⟨by omega⟩
  obtain ⟨t, rfl⟩ := h
  have ht : 0 < t := Nat.pos_of_ne_zero (by rintro rfl; simp at hn)
  have hp2 := hp.two_le
  set n := p * p * t with hnd
  let d : ZMod n := ((p * t : Nat) : ZMod n)
  have hd2 : d * d = 0 := by
    change ((p * t : Nat) : ZMod n) * ((p * t : Nat) : ZMod n) = 0
    rw [← Nat.cast_mul, ZMod.natCast_eq_zero_iff]
    exact ⟨t, by rw [hnd]; ring⟩
  have hpow : ∀ j : Nat, (1 + d) ^ j = 1 + j * d := by
    intro j
    induction j with
    | zero => simp
    | succ j ih =>
      rw [pow_succ, ih]
      push_cast
      linear_combination (j : ZMod n) * hd2
  have hz : (1 + d) ^ p = 1 := by
    rw [hpow]
    have : (p : ZMod n) * d = 0 := by
      change (p : ZMod n) * ((p * t : Nat) : ZMod n) = 0
      rw [← Nat.cast_mul, ZMod.natCast_eq_zero_iff]
      exact ⟨1, by rw [hnd]; ring⟩
    rw [this, add_zero]
  let z : (ZMod n)ˣ := Units.ofPowEqOne (1 + d) p hz hp.ne_zero
  have hzv : (z : ZMod n) = 1 + d := rfl
  have hdne : d ≠ 0 := by
    change ((p * t : Nat) : ZMod n) ≠ 0
    rw [Ne, ZMod.natCast_eq_zero_iff]
    intro hdv
    have := Nat.le_of_dvd (by positivity) hdv
    rw [hnd] at this
    nlinarith [Nat.mul_le_mul_right t (Nat.mul_le_mul_left p hp2), mul_pos hp.pos ht]
  set F := (powMonoidHom (n - 1) : (ZMod n)ˣ →* (ZMod n)ˣ).ker with hF
  have hzF : z ∉ F := by
    intro hmem
    have h1 : z ^ (n - 1) = 1 := hmem
    have h2 : (1 + d) ^ (n - 1) = 1 := by rw [← hzv, ← Units.val_pow_eq_pow_val, h1]; rfl
    rw [hpow] at h2
    have h3 : ((n - 1 : Nat) : ZMod n) = -1 := by
      rw [Nat.cast_sub (by omega)]; simp
    rw [h3] at h2
    apply hdne
    linear_combination -h2
  have : Fact p.Prime := ⟨hp⟩
  have ho : orderOf (QuotientGroup.mk z : (ZMod n)ˣ ⧸ F) = p := by
    apply orderOf_eq_prime
    · have : z ^ p = 1 := by apply Units.ext; rw [Units.val_pow_eq_pow_val, hzv, hz]; rfl
      rw [← QuotientGroup.mk_pow, this]; rfl
    · intro h1
      exact hzF ((QuotientGroup.eq_one_iff z).1 h1)
  have hdv := orderOf_dvd_natCard (QuotientGroup.mk z : (ZMod n)ˣ ⧸ F)
  rw [ho] at hdv
  exact Nat.le_of_dvd (Nat.pos_of_ne_zero Subgroup.index_ne_zero_of_finite) hdv

/-- If every unit satisfies `x^k = 1` then `p - 1` divides `k` for every prime factor `p`. -/
theorem korselt {n p k : Nat} [NeZero n] (hp : p.Prime) (h : p ∣ n) (hk : ∀ x : (ZMod n)ˣ, x ^ k = 1) :
    p - 1 ∣ k := by
  have : Fact p.Prime := ⟨hp⟩
  obtain ⟨g, hg⟩ := IsCyclic.exists_generator (α := (ZMod p)ˣ)
  have ho := orderOf_eq_card_of_forall_mem_zpowers hg
  obtain ⟨x, rfl⟩ := ZMod.unitsMap_surjective h g
  rw [Nat.card_eq_fintype_card, ZMod.card_units_eq_totient, Nat.totient_prime hp] at ho
  rw [← ho, orderOf_dvd_iff_pow_eq_one, ← map_pow, hk, map_one]

/-- The strong liars among the units lie in a subgroup of index at least 4. -/
theorem liar_subgroup {n r q : Nat} (hn : 1 < n) (hnp : ¬ n.Prime) (h5 : ∀ p, p.Prime → p ∣ n → 5 ≤ p)
    (hq : q % 2 = 1) (hr : 1 ≤ r) (hd : n - 1 = 2 ^ r * q) :
    ∃ G : Subgroup (ZMod n)ˣ, 4 ≤ G.index ∧
      ∀ x : (ZMod n)ˣ, x ^ q = 1 ∨ (∃ j, j < r ∧ x ^ (2 ^ j * q) = -1) → x ∈ G := by
  classical
  have : NeZero n := ⟨by omega⟩
  by_cases hsq : Squarefree n
  swap
  · obtain ⟨p, hp, hpp⟩ : ∃ p, p.Prime ∧ p * p ∣ n := by
      rw [Nat.squarefree_iff_prime_squarefree] at hsq
      push Not at hsq
      exact hsq
    refine ⟨_, le_trans (by have := h5 p hp (dvd_trans (dvd_mul_right _ _) hpp); omega)
      (square_index hn hp hpp), ?_⟩
    intro x hx
    change x ^ (n - 1) = 1
    rw [hd]
    rcases hx with hx | ⟨j, hj, hx⟩
    · rw [mul_comm, pow_mul, hx, one_pow]
    · obtain ⟨t, rfl⟩ : ∃ t, r = j + 1 + t := ⟨r - j - 1, by omega⟩
      have : 2 ^ (j + 1 + t) * q = 2 ^ j * q * (2 * 2 ^ t) := by rw [pow_add, pow_succ]; ring
      rw [this, pow_mul, hx, pow_mul]; simp
  -- the largest level at which -1 is a power
  let P : Nat → Prop := fun j => ∃ y : (ZMod n)ˣ, y ^ (2 ^ j) = -1
  let i0 := Nat.findGreatest P (r - 1)
  obtain ⟨y, hy⟩ : P i0 := Nat.findGreatest_spec (m := 0) (by omega) ⟨-1, by simp⟩
  have hi0 : i0 ≤ r - 1 := Nat.findGreatest_le _
  set m := 2 ^ i0 * q with hm
  have hym : y ^ m = -1 := by
    rw [hm, pow_mul, hy]
    exact Odd.neg_one_pow (Nat.odd_iff.2 hq)
  have hsub : ∀ x : (ZMod n)ˣ, x ^ q = 1 ∨ (∃ j, j < r ∧ x ^ (2 ^ j * q) = -1) → x ∈ signPow n m := by
    rintro x (hx | ⟨j, hj, hx⟩)
    · left
      change x ^ m = 1
      rw [hm, mul_comm, pow_mul, hx, one_pow]
    · have hji : j ≤ i0 := Nat.le_findGreatest (by omega) ⟨x ^ q, by rw [← pow_mul, mul_comm]; exact hx⟩
      obtain ⟨t, ht⟩ : ∃ t, i0 = j + t := ⟨i0 - j, by omega⟩
      have he : m = 2 ^ j * q * 2 ^ t := by rw [hm, ht, pow_add]; ring
      rw [mem_signPow, he, pow_mul, hx]
      rcases t with _ | t
      · right; simp
      · left; rw [pow_succ', pow_mul]; simp
  refine ⟨signPow n m, ?_, hsub⟩
  obtain ⟨p, hp, b, rfl⟩ := Nat.exists_prime_and_dvd (show n ≠ 1 by omega)
  have hp5 := h5 p hp (dvd_mul_right _ _)
  have hpb : p.Coprime b := Nat.coprime_of_squarefree_mul hsq
  have hb1 : b ≠ 1 := by rintro rfl; exact hnp (by simpa using hp)
  obtain ⟨s, hs, c, rfl⟩ := Nat.exists_prime_and_dvd hb1
  have hs5 := h5 s hs ⟨p * c, by ring⟩
  have hc0 : 0 < c := Nat.pos_of_ne_zero (by rintro rfl; simp at hn)
  have hsc2 : 2 < s * c := by nlinarith
  obtain ⟨g, g1, g2, g3, g4⟩ := mixed_sign rfl hpb (dvd_mul_right _ _) (dvd_mul_left _ _) (by omega) hsc2 hym
  by_cases hK : (powMonoidHom (2 * m) : (ZMod (p * (s * c)))ˣ →* _).ker = ⊤
  swap
  · refine index_four (K := (powMonoidHom (2 * m) : (ZMod (p * (s * c)))ˣ →* _).ker) ?_ ?_ hK
    · rintro x (hx | hx)
      · change x ^ m = 1 at hx
        change x ^ (2 * m) = 1
        rw [Nat.mul_comm 2 m, pow_mul, hx, one_pow]
      · change x ^ m = -1 at hx
        change x ^ (2 * m) = 1
        rw [Nat.mul_comm 2 m, pow_mul, hx]; simp
    · intro hle
      exact g3 (hle g4)
  · have hall : ∀ x : (ZMod (p * (s * c)))ˣ, x ^ (p * (s * c) - 1) = 1 := by
      intro x
      have hx : x ^ (2 * m) = 1 := by
        have : x ∈ (powMonoidHom (2 * m) : (ZMod (p * (s * c)))ˣ →* _).ker := by rw [hK]; trivial
        exact this
      obtain ⟨t, ht⟩ : ∃ t, r = i0 + 1 + t := ⟨r - i0 - 1, by omega⟩
      have : 2 ^ r * q = 2 * m * 2 ^ t := by rw [hm, ht, pow_add, pow_succ]; ring
      rw [hd, this, pow_mul, hx, one_pow]
    have k1 := korselt hp (dvd_mul_right p (s * c)) hall
    have k2 := korselt hs (⟨p * c, by ring⟩ : s ∣ p * (s * c)) hall
    have hc1 : c ≠ 1 := by
      rintro rfl
      rw [mul_one] at k1 k2 hpb
      have e1 : p * s - 1 = s * (p - 1) + (s - 1) := by
        obtain ⟨p', rfl⟩ : ∃ p', p = p' + 1 := ⟨p - 1, by omega⟩
        obtain ⟨s', rfl⟩ : ∃ s', s = s' + 1 := ⟨s - 1, by omega⟩
        simp only [Nat.add_sub_cancel]
        have : (p' + 1) * (s' + 1) = (s' + 1) * p' + s' + 1 := by ring
        omega
      have e2 : p * s - 1 = p * (s - 1) + (p - 1) := by
        obtain ⟨p', rfl⟩ : ∃ p', p = p' + 1 := ⟨p - 1, by omega⟩
        obtain ⟨s', rfl⟩ : ∃ s', s = s' + 1 := ⟨s - 1, by omega⟩
        simp only [Nat.add_sub_cancel]
        have : (p' + 1) * (s' + 1) = (p' + 1) * s' + p' + 1 := by ring
        omega
      rw [e1, Nat.dvd_add_right (dvd_mul_left _ _)] at k1
      rw [e2, Nat.dvd_add_right (dvd_mul_left _ _)] at k2
      have := Nat.le_of_dvd (by omega) k1
      have := Nat.le_of_dvd (by omega) k2
      have hps : p = s := by omega
      subst hps
      rw [Nat.coprime_self] at hpb
      omega
    have hc5 : 2 < c := by
      obtain ⟨l, hl, hlc⟩ := Nat.exists_prime_and_dvd hc1
      have := h5 l hl (dvd_trans hlc ⟨p * s, by ring⟩)
      have := Nat.le_of_dvd hc0 hlc
      omega
    have hscc : s.Coprime c := Nat.coprime_of_squarefree_mul (Squarefree.of_mul_right hsq)
    have hsp : s.Coprime p := (Nat.Coprime.coprime_mul_right_right hpb).symm
    have hdv : s * c ∣ p * (s * c) := dvd_mul_left _ _
    obtain ⟨f, f1, f2, f3, f4⟩ := mixed_sign (n := p * (s * c)) (a := s) (b := p * c) (by ring)
      (Nat.Coprime.mul_right hsp hscc) ⟨p * c, by ring⟩ ⟨s, by ring⟩ (by omega) (by nlinarith) hym
    refine index_four (K := (signPow (s * c) m).comap (ZMod.unitsMap hdv)) ?_ ?_ ?_
    · rintro x (hx | hx)
      · change x ^ m = 1 at hx
        left
        change ZMod.unitsMap hdv x ^ m = 1
        rw [← map_pow, hx, map_one]
      · change x ^ m = -1 at hx
        right
        change ZMod.unitsMap hdv x ^ m = -1
        rw [← map_pow, hx, unitsMap_neg_one]
    · intro hle
      refine g3 (hle ?_)
      left
      change ZMod.unitsMap hdv g ^ m = 1
      rw [g2, one_pow]
    · intro htop
      have hf : f ∈ (signPow (s * c) m).comap (ZMod.unitsMap hdv) := by rw [htop]; trivial
      have fs : ZMod.unitsMap (dvd_mul_right s c) (ZMod.unitsMap hdv f) ^ m = -1 := by
        rw [← MonoidHom.comp_apply, ZMod.unitsMap_comp]; exact f1
      have fc : ZMod.unitsMap (dvd_mul_left c s) (ZMod.unitsMap hdv f) = 1 := by
        rw [← MonoidHom.comp_apply, ZMod.unitsMap_comp]
        have hcd : c ∣ p * c := dvd_mul_left _ _
        have := congrArg (ZMod.unitsMap hcd) f2
        rw [← MonoidHom.comp_apply, ZMod.unitsMap_comp, map_one] at this
        exact this
      rcases hf with hf | hf
      · change ZMod.unitsMap hdv f ^ m = 1 at hf
        rw [← map_pow, hf, map_one] at fs
        exact neg_one_ne_one (by omega) fs.symm
      · change ZMod.unitsMap hdv f ^ m = -1 at hf
        have := congrArg (ZMod.unitsMap (dvd_mul_left c s)) hf
        rw [map_pow, fc, one_pow, unitsMap_neg_one] at this
        exact neg_one_ne_one hc5 this.symm

/-- Rabin's bound, for moduli without the factors 2 and 3: four times the number of strong liars below `n` is
at most the number of units. -/
theorem liars_card {n : Nat} (hn : 1 < n) (hnp : ¬ n.Prime) (h5 : ∀ p, p.Prime → p ∣ n → 5 ≤ p)
    (s : Finset Nat) (hs : ∀ a ∈ s, a < n ∧ StrongLiar n a) : 4 * s.card ≤ n.totient := by
  classical
  have : NeZero n := ⟨by omega⟩
  rcases s.eq_empty_or_nonempty with rfl | ⟨a0, ha0⟩
  · simp
  obtain ⟨r, q, hq, hd, _⟩ := (hs a0 ha0).2
  have hodd : n % 2 = 1 := by
    by_contra h
    have := h5 2 Nat.prime_two (Nat.dvd_of_mod_eq_zero (by omega))
    omega
  have hr : 1 ≤ r := by
    rcases r with _ | r
    · rw [pow_zero, one_mul] at hd; omega
    · omega
  obtain ⟨G, hG, hsub⟩ := liar_subgroup hn hnp h5 hq hr hd
  have hmem : ∀ a ∈ s, ∃ x : (ZMod n)ˣ, x ∈ G ∧ (x : ZMod n) = (a : ZMod n) := by
    intro a ha
    obtain ⟨_, r', q', hq', hd', h⟩ := hs a ha
    obtain ⟨rfl, rfl⟩ : r = r' ∧ q = q' := by
      have h2 := hd.symm.trans hd'
      have hrr : r = r' := by
        have f : ∀ {r q : Nat}, q % 2 = 1 → (2 ^ r * q).factorization 2 = r := by
          intro r q hq
          rw [Nat.factorization_mul (by positivity) (by omega), Nat.factorization_pow]
          simp [Nat.prime_two.factorization_self, Nat.factorization_eq_zero_of_not_dvd
            (show ¬ 2 ∣ q by omega)]
        rw [← f (r := r) hq, h2, f hq']
      subst hrr
      exact ⟨rfl, Nat.eq_of_mul_eq_mul_left (Nat.two_pow_pos _) h2⟩
    have cast_one : ∀ k : Nat, a ^ k % n = 1 → (a : ZMod n) ^ k = 1 := by
      intro k hk
      have : ((a ^ k % n : Nat) : ZMod n) = ((1 : Nat) : ZMod n) := by rw [hk]
      rw [ZMod.natCast_mod] at this
      push_cast at this
      exact this
    have cast_neg : ∀ k : Nat, a ^ k % n = n - 1 → (a : ZMod n) ^ k = -1 := by
      intro k hk
      have : ((a ^ k % n : Nat) : ZMod n) = ((n - 1 : Nat) : ZMod n) := by rw [hk]
      rw [ZMod.natCast_mod, Nat.cast_sub (by omega)] at this
      push_cast at this
      simpa using this
    have hunit : (a : ZMod n) ^ (2 ^ r * q) = 1 := by
      rcases h with h | ⟨j, hj, h⟩
      · rw [mul_comm, pow_mul, cast_one _ h, one_pow]
      · obtain ⟨t, rfl⟩ : ∃ t, r = j + 1 + t := ⟨r - j - 1, by omega⟩
        have : 2 ^ (j + 1 + t) * q = 2 ^ j * q * (2 * 2 ^ t) := by rw [pow_add, pow_succ]; ring
        rw [this, pow_mul, cast_neg _ h, pow_mul]; simp
    let x : (ZMod n)ˣ := Units.ofPowEqOne (a : ZMod n) _ hunit (Nat.mul_ne_zero (by positivity) (by omega))
    refine ⟨x, hsub x ?_, rfl⟩
    rcases h with h | ⟨j, hj, h⟩
    · left
      apply Units.ext
      rw [Units.val_pow_eq_pow_val]
      exact cast_one _ h
    · right
      refine ⟨j, hj, ?_⟩
      apply Units.ext
      rw [Units.val_pow_eq_pow_val]
      exact cast_neg _ h
  choose! f hf1 hf2 using hmem
  have hinj : s.card ≤ Nat.card G := by
    have h1 : s.card ≤ (Finset.univ.filter fun x : (ZMod n)ˣ => x ∈ G).card := by
      refine Finset.card_le_card_of_injOn f (fun a ha => by simpa using hf1 a ha) ?_
      intro a ha b hb hab
      have h1 := hf2 a ha
      have h2 := hf2 b hb
      rw [hab, h2] at h1
      have := (ZMod.natCast_eq_natCast_iff' b a n).1 h1
      rw [Nat.mod_eq_of_lt (hs a ha).1, Nat.mod_eq_of_lt (hs b hb).1] at this
      exact this.symm
    rw [Nat.card_eq_fintype_card, Fintype.card_subtype]
    exact h1
  have hc := Subgroup.card_mul_index G
  rw [Nat.card_eq_fintype_card (α := (ZMod n)ˣ), ZMod.card_units_eq_totient] at hc
  rw [← hc]
  nlinarith

end Verif.Liars
