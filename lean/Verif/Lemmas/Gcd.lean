import Verif.Model.Gcd
import Verif.Lemmas.Exp
import Mathlib.Data.Int.GCD
import Mathlib.Tactic.Linarith

namespace Verif

theorem chkS_eq {w : Nat} {x : Int} (h1 : -(2 ^ (w - 1) : Int) ≤ x) (h2 : x < 2 ^ (w - 1)) :
    chkS w x = some x := by simp [chkS, h1, h2]

theorem toSigned_eq {w x : Nat} (h : x < 2 ^ (w - 1)) : toSigned w x = x := by
  simp [toSigned, h]

/-- Common power of two of a pair of words, as computed from the bitwise or. -/
theorem tz_or {w m n : Nat} (hm : m < 2 ^ w) (hn : n < 2 ^ w) (h0 : ¬ (m = 0 ∨ n = 0)) :
    ∃ s, s = trailingZeros w (m ||| n) ∧ s < w ∧ 2 ^ s ∣ m ∧ 2 ^ s ∣ n ∧
      ¬ (m / 2 ^ s % 2 = 0 ∧ n / 2 ^ s % 2 = 0) := by
  have hor : m ||| n < 2 ^ w := Nat.or_lt_two_pow hm hn
  have hne : m ||| n ≠ 0 := by rw [Ne, Nat.or_eq_zero_iff]; tauto
  obtain ⟨h1, h2, h3⟩ := trailingZeros_spec hne hor
  refine ⟨_, rfl, h1, ?_⟩
  generalize trailingZeros w (m ||| n) = s at *
  have hd : (m ||| n) % 2 ^ s = 0 := by rw [h2]; exact Nat.mul_mod_right _ _
  rw [Nat.or_mod_two_pow, Nat.or_eq_zero_iff] at hd
  refine ⟨Nat.dvd_of_mod_eq_zero hd.1, Nat.dvd_of_mod_eq_zero hd.2, ?_⟩
  rintro ⟨e1, e2⟩
  rw [← Nat.shiftRight_eq_div_pow, Nat.shiftRight_or_distrib, Nat.shiftRight_eq_div_pow,
    Nat.shiftRight_eq_div_pow] at h3
  have : (m / 2 ^ s ||| n / 2 ^ s) % 2 ^ 1 = 0 := by
    rw [Nat.or_mod_two_pow, Nat.or_eq_zero_iff]; exact ⟨e1, e2⟩
  rw [Nat.pow_one] at this
  omega

namespace Gcd

theorem oddPart_spec {w x : Nat} (hx : x < 2 ^ w) (h0 : x ≠ 0) :
    ∃ o k, oddPart w x = some o ∧ x = 2 ^ k * o ∧ o % 2 = 1 ∧ o ≤ x := by
  obtain ⟨h1, h2, h3⟩ := trailingZeros_spec h0 hx
  refine ⟨_, _, by simp only [oddPart, shrC, h1, if_true], h2, h3, Nat.div_le_self _ _⟩

theorem coprime_two_pow_of_odd {n k : Nat} (h : n % 2 = 1) : Nat.Coprime (2 ^ k) n := by
  apply Nat.Coprime.pow_left
  rw [Nat.coprime_comm, Nat.coprime_two_right, Nat.odd_iff]; exact h

theorem gcdLoop_eq {w : Nat} : ∀ (fuel m n : Nat), m < 2 ^ w → n < 2 ^ w → m % 2 = 1 → n % 2 = 1 →
    m + n ≤ fuel → gcdLoop w fuel m n = some (Nat.gcd m n)
  | 0, m, n, _, _, hm, hn, hf => by omega
  | fuel + 1, m, n, hml, hnl, hm, hn, hf => by
    unfold gcdLoop
    split
    · next h => subst h; simp
    · next hne =>
      split
      · next hlt =>
        obtain ⟨o, k, e, h1, h2, h3⟩ := oddPart_spec (w := w) (x := m - n) (by omega) (by omega)
        simp only [subC_eq hlt.le, e, Option.bind_eq_bind, Option.bind_some]
        rw [gcdLoop_eq fuel o n (by omega) hnl h2 hn (by omega)]
        congr 1
        rw [← Nat.gcd_sub_self_left hlt.le, h1,
          Nat.Coprime.gcd_mul_left_cancel _ (coprime_two_pow_of_odd hn)]
      · next hge =>
        have hlt : m < n := by omega
        obtain ⟨o, k, e, h1, h2, h3⟩ := oddPart_spec (w := w) (x := n - m) (by omega) (by omega)
        simp only [subC_eq hlt.le, e, Option.bind_eq_bind, Option.bind_some]
        rw [gcdLoop_eq fuel m o hml (by omega) hm h2 (by omega)]
        congr 1
        rw [← Nat.gcd_sub_self_right hlt.le, h1,
          Nat.Coprime.gcd_mul_left_cancel_right _ (coprime_two_pow_of_odd hm)]

theorem gcd_eq {w m n : Nat} (hm : m < 2 ^ w) (hn : n < 2 ^ w) :
    gcd w m n = some (Nat.gcd m n) := by
  unfold gcd
  split
  · next h =>
    rcases h with rfl | rfl <;> simp
  · next h =>
    obtain ⟨s, es, hs, d1, d2, hodd⟩ := tz_or hm hn h
    obtain ⟨m', k1, e1, f1, o1, l1⟩ := oddPart_spec hm (by tauto)
    obtain ⟨n', k2, e2, f2, o2, l2⟩ := oddPart_spec hn (by tauto)
    simp only [e1, e2, gcdLoop_eq (w := w) (m' + n') m' n' (by omega) (by omega) o1 o2 (le_refl _),
      Option.bind_eq_bind, Option.bind_some, ← es, shlC, hs, if_true]
    congr 1
    obtain ⟨m1, rfl⟩ := d1
    obtain ⟨n1, rfl⟩ := d2
    have hp : 0 < 2 ^ s := Nat.two_pow_pos s
    rw [Nat.mul_div_cancel_left _ hp, Nat.mul_div_cancel_left _ hp] at hodd
    -- the odd parts of `m1` and `n1`
    have aux : ∀ {z z' k : Nat}, 2 ^ s * z = 2 ^ k * z' → z' % 2 = 1 → ∃ j, z = 2 ^ j * z' := by
      intro z z' k he ho
      have hks : s ≤ k := by
        by_contra hc
        obtain ⟨t, rfl⟩ : ∃ t, s = k + 1 + t := ⟨s - k - 1, by omega⟩
        rw [Nat.pow_add, Nat.pow_succ, Nat.mul_assoc, Nat.mul_assoc] at he
        have := Nat.eq_of_mul_eq_mul_left (Nat.two_pow_pos k) he
        omega
      obtain ⟨t, rfl⟩ : ∃ t, k = s + t := ⟨k - s, by omega⟩
      rw [Nat.pow_add, Nat.mul_assoc] at he
      exact ⟨t, Nat.eq_of_mul_eq_mul_left hp he⟩
    obtain ⟨j1, rfl⟩ := aux f1 o1
    obtain ⟨j2, rfl⟩ := aux f2 o2
    have hg : Nat.gcd (2 ^ j1 * m') (2 ^ j2 * n') = Nat.gcd m' n' := by
      by_cases hj : j1 = 0
      · subst hj
        rw [Nat.pow_zero, Nat.one_mul,
          Nat.Coprime.gcd_mul_left_cancel_right _ (coprime_two_pow_of_odd o1)]
      · have hj2 : j2 = 0 := by
          by_contra hj2
          obtain ⟨a, rfl⟩ : ∃ a, j1 = a + 1 := ⟨j1 - 1, by omega⟩
          obtain ⟨b, rfl⟩ : ∃ b, j2 = b + 1 := ⟨j2 - 1, by omega⟩
          apply hodd
          constructor
          · rw [Nat.pow_succ, Nat.mul_right_comm]; exact Nat.mul_mod_left _ _
          · rw [Nat.pow_succ, Nat.mul_right_comm]; exact Nat.mul_mod_left _ _
        subst hj2
        rw [Nat.pow_zero, Nat.one_mul,
          Nat.Coprime.gcd_mul_left_cancel _ (coprime_two_pow_of_odd o2)]
    rw [Nat.gcd_mul_left, hg, Nat.mul_comm]
    apply Nat.mod_eq_of_lt
    refine Nat.lt_of_le_of_lt ?_ hm
    rw [← hg]
    exact Nat.mul_le_mul_left _ (Nat.gcd_le_left _ (by
      rcases Nat.eq_zero_or_pos (2 ^ j1 * m') with h0 | h0
      · exfalso; apply h; left; rw [h0]; rfl
      · exact h0))

/-- Bounds and relation of one pair of coefficients after the halving loop. -/
structure Tight (x y : Int) (u : Nat) (a b : Int) : Prop where
  rel : a * x + b * y = u
  a1 : -y ≤ a
  a2 : a ≤ y
  b1 : -x ≤ b
  b2 : b ≤ x

/-- Bounds before the halving loop. -/
structure Loose (x y : Int) (u : Nat) (a b : Int) : Prop where
  rel : a * x + b * y = u
  a1 : -(2 * y) ≤ a
  a2 : a ≤ 2 * y
  b1 : -(2 * x) ≤ b
  b2 : b ≤ 2 * x

theorem Tight.loose {x y : Int} {u : Nat} {a b : Int} (hx : 0 < x) (hy : 0 < y)
    (t : Tight x y u a b) : Loose x y u a b :=
  ⟨t.rel, by linarith [t.a1], by linarith [t.a2], by linarith [t.b1], by linarith [t.b2]⟩

theorem parity {x y a b : Int} {u : Nat} (hodd : ¬ (x % 2 = 0 ∧ y % 2 = 0))
    (rel : a * x + b * y = u) (hu : u % 2 = 0) (hab : ¬ (a % 2 = 0 ∧ b % 2 = 0)) :
    (a + y) % 2 = 0 ∧ (b + x) % 2 = 0 := by
  have hr : (a * x + b * y) % 2 = 0 := by rw [rel]; omega
  have key : (a % 2 * (x % 2) + b % 2 * (y % 2)) % 2 = 0 := by
    rw [← hr, Int.add_emod (a * x), Int.mul_emod a x, Int.mul_emod b y]; simp
  rcases Int.emod_two_eq_zero_or_one a with ha | ha <;>
  rcases Int.emod_two_eq_zero_or_one b with hb | hb <;>
  rcases Int.emod_two_eq_zero_or_one x with hx | hx <;>
  rcases Int.emod_two_eq_zero_or_one y with hy | hy <;>
  simp [ha, hb, hx, hy] at key hodd hab ⊢ <;> omega

theorem halve_step {x y a b : Int} {u : Nat} (hu : u % 2 = 0) (rel : a * x + b * y = u)
    (ha : a % 2 = 0) (hb : b % 2 = 0) : a / 2 * x + b / 2 * y = ((u / 2 : Nat) : Int) := by
  obtain ⟨a', rfl⟩ : ∃ a', a = 2 * a' := ⟨a / 2, by omega⟩
  obtain ⟨b', rfl⟩ : ∃ b', b = 2 * b' := ⟨b / 2, by omega⟩
  obtain ⟨u', rfl⟩ : ∃ u', u = 2 * u' := ⟨u / 2, by omega⟩
  have e1 : 2 * a' / 2 = a' := by omega
  have e2 : 2 * b' / 2 = b' := by omega
  have e3 : 2 * u' / 2 = u' := by omega
  rw [e1, e2, e3]
  push_cast at rel
  linarith

theorem halve_spec {w : Nat} {x y : Int} (hx0 : 0 < x) (hy0 : 0 < y) (hx : 2 * x < 2 ^ (w - 1))
    (hy : 2 * y < 2 ^ (w - 1)) (hodd : ¬ (x % 2 = 0 ∧ y % 2 = 0)) (bound : Int)
    (hbd : bound = x ∨ bound = y) :
    ∀ (fuel u : Nat) (a b : Int), 0 < u → u ≤ fuel → (u : Int) ≤ bound →
      (Tight x y u a b ∨ (u % 2 = 0 ∧ Loose x y u a b)) →
      ∃ u' a' b' k, halve w x y fuel u a b = some (u', a', b') ∧ u = 2 ^ k * u' ∧ u' % 2 = 1 ∧
        Tight x y u' a' b'
  | 0, u, a, b, h0, hf, _, _ => by omega
  | fuel + 1, u, a, b, h0, hf, hub, hab => by
    unfold halve
    by_cases hu : u % 2 = 0
    · rw [if_pos hu]
      have hl : Loose x y u a b := by
        rcases hab with h | h
        · exact h.loose hx0 hy0
        · exact h.2
      have hstep : ∀ a b : Int, Tight x y (u / 2) a b → ∃ u' a' b' k,
          halve w x y fuel (u / 2) a b = some (u', a', b') ∧ u = 2 ^ k * u' ∧ u' % 2 = 1 ∧
            Tight x y u' a' b' := by
        intro a b ht
        obtain ⟨u', a', b', k, e, f, o, t⟩ := halve_spec hx0 hy0 hx hy hodd bound hbd fuel (u / 2)
          a b (by omega) (by omega) (by omega) (Or.inl ht)
        refine ⟨u', a', b', k + 1, e, ?_, o, t⟩
        rw [Nat.pow_succ, Nat.mul_right_comm, ← f]; omega
      by_cases h2 : a % 2 = 0 ∧ b % 2 = 0
      · rw [if_pos h2]
        refine hstep _ _ ⟨halve_step hu hl.rel h2.1 h2.2, ?_, ?_, ?_, ?_⟩
        · have := hl.a1; omega
        · have := hl.a2; omega
        · have := hl.b1; omega
        · have := hl.b2; omega
      · rw [if_neg h2]
        obtain ⟨p1, p2⟩ := parity hodd hl.rel hu h2
        have hrel := hl.rel
        have ha1 := hl.a1
        have ha2 := hl.a2
        have hb1 := hl.b1
        have hb2 := hl.b2
        have hu0 : (0 : Int) < u := by exact_mod_cast h0
        by_cases h3 : x < b
        · rw [if_pos h3]
          -- b > x forces a ≤ 0
          have ha : a ≤ 0 := by
            by_contra hc
            have h4 : 1 * x ≤ a * x := Int.mul_le_mul_of_nonneg_right (by omega) hx0.le
            have h5 : (x + 1) * y ≤ b * y := Int.mul_le_mul_of_nonneg_right (by omega) hy0.le
            have h6 : x * 1 ≤ x * y := Int.mul_le_mul_of_nonneg_left (by omega) hx0.le
            rcases hbd with rfl | rfl <;> nlinarith
          rw [chkS_eq (by omega) (by omega), chkS_eq (by omega) (by omega)]
          refine hstep _ _ ⟨halve_step hu ?_ (by omega) (by omega), by omega, by omega, by omega,
            by omega⟩
          rw [← hrel]; ring
        · rw [if_neg h3]
          have ha : -y ≤ a := by
            by_contra hc
            have h4 : a * x ≤ (-y - 1) * x := Int.mul_le_mul_of_nonneg_right (by omega) hx0.le
            have h5 : b * y ≤ x * y := Int.mul_le_mul_of_nonneg_right (by omega) hy0.le
            nlinarith
          rw [chkS_eq (by omega) (by omega), chkS_eq (by omega) (by omega)]
          refine hstep _ _ ⟨halve_step hu ?_ (by omega) (by omega), by omega, by omega, by omega,
            by omega⟩
          rw [← hrel]; ring
    · rw [if_neg hu]
      refine ⟨u, a, b, 0, rfl, by simp, by omega, ?_⟩
      rcases hab with h | h
      · exact h
      · exact absurd h.1 hu

theorem egcdLoop_spec {w : Nat} {x y : Int} (hx0 : 0 < x) (hy0 : 0 < y)
    (hx : 2 * x < 2 ^ (w - 1)) (hy : 2 * y < 2 ^ (w - 1)) (hodd : ¬ (x % 2 = 0 ∧ y % 2 = 0)) :
    ∀ (fuel u v : Nat) (a b c d : Int), 0 < u → 0 < v → u + v ≤ fuel → (u : Int) ≤ x →
      (v : Int) ≤ y → Nat.gcd u v % 2 = 1 →
      (Tight x y u a b ∨ (u % 2 = 0 ∧ Loose x y u a b)) →
      (Tight x y v c d ∨ (v % 2 = 0 ∧ Loose x y v c d)) →
      ∃ c' d', egcdLoop w x y fuel u v a b c d = some (c', d', Nat.gcd u v) ∧
        Tight x y (Nat.gcd u v) c' d'
  | 0, u, v, a, b, c, d, hu, hv, hf, _, _, _, _, _ => by omega
  | fuel + 1, u, v, a, b, c, d, hu, hv, hf, hux, hvy, hg, hab, hcd => by
    obtain ⟨u', a', b', k, e1, f1, o1, t1⟩ := halve_spec hx0 hy0 hx hy hodd x (Or.inl rfl) u u a b
      hu (le_refl _) hux hab
    obtain ⟨v', c', d', k', e2, f2, o2, t2⟩ := halve_spec hx0 hy0 hx hy hodd y (Or.inr rfl) v v c d
      hv (le_refl _) hvy hcd
    have hgcd : Nat.gcd u v = Nat.gcd u' v' := by
      have hgo : Nat.gcd u v ∣ u' := by
        have : Nat.gcd u v ∣ 2 ^ k * u' := f1 ▸ Nat.gcd_dvd_left u v
        exact (Nat.Coprime.dvd_mul_left (coprime_two_pow_of_odd hg).symm).1 this
      have hgo' : Nat.gcd u v ∣ v' := by
        have : Nat.gcd u v ∣ 2 ^ k' * v' := f2 ▸ Nat.gcd_dvd_right u v
        exact (Nat.Coprime.dvd_mul_left (coprime_two_pow_of_odd hg).symm).1 this
      apply Nat.dvd_antisymm (Nat.dvd_gcd hgo hgo')
      apply Nat.dvd_gcd
      · rw [f1]; exact Dvd.dvd.mul_left (Nat.gcd_dvd_left _ _) _
      · rw [f2]; exact Dvd.dvd.mul_left (Nat.gcd_dvd_right _ _) _
    have hu' : u' ≤ u := by rw [f1]; exact Nat.le_mul_of_pos_left _ (Nat.two_pow_pos _)
    have hv' : v' ≤ v := by rw [f2]; exact Nat.le_mul_of_pos_left _ (Nat.two_pow_pos _)
    simp only [egcdLoop, e1, e2, Option.bind_eq_bind, Option.bind_some]
    have := t1.a1; have := t1.a2; have := t1.b1; have := t1.b2
    have := t2.a1; have := t2.a2; have := t2.b1; have := t2.b2
    rw [hgcd] at hg ⊢
    by_cases hle : v' ≤ u'
    · rw [if_pos hle, chkS_eq (by omega) (by omega), chkS_eq (by omega) (by omega)]
      simp only [Option.bind_some]
      by_cases hz : u' - v' = 0
      · rw [if_pos hz]
        have : u' = v' := by omega
        subst this
        rw [Nat.gcd_self]
        exact ⟨c', d', rfl, t2⟩
      · rw [if_neg hz]
        have hg' : Nat.gcd (u' - v') v' = Nat.gcd u' v' := Nat.gcd_sub_self_left hle
        have := egcdLoop_spec hx0 hy0 hx hy hodd fuel (u' - v') v' (a' - c') (b' - d') c' d'
          (by omega) (by omega) (by omega) (by omega) (by omega) (by rw [hg']; exact hg)
          (Or.inr ⟨by omega, ⟨by
            rw [Nat.cast_sub hle, ← t1.rel, ← t2.rel]; ring,
            by omega, by omega, by omega, by omega⟩⟩) (Or.inl t2)
        rw [hg'] at this
        exact this
    · rw [if_neg hle, chkS_eq (by omega) (by omega), chkS_eq (by omega) (by omega)]
      simp only [Option.bind_some]
      rw [if_neg (by omega)]
      have hg' : Nat.gcd u' (v' - u') = Nat.gcd u' v' := Nat.gcd_sub_self_right (by omega)
      have := egcdLoop_spec hx0 hy0 hx hy hodd fuel u' (v' - u') a' b' (c' - a') (d' - b')
        (by omega) (by omega) (by omega) (by omega) (by omega) (by rw [hg']; exact hg)
        (Or.inl t1) (Or.inr ⟨by omega, ⟨by
          rw [Nat.cast_sub (by omega), ← t1.rel, ← t2.rel]; ring,
          by omega, by omega, by omega, by omega⟩⟩)
      rw [hg'] at this
      exact this

theorem extendedGcd_eq {w x y : Nat} (hx : x < 2 ^ (w - 2)) (hy : y < 2 ^ (w - 2)) (hx0 : x ≠ 0)
    (hy0 : y ≠ 0) :
    ∃ a b, extendedGcd w x y = some (a, b, Nat.gcd x y) ∧ a * x + b * y = (Nat.gcd x y : Int) ∧
      |a| ≤ y ∧ |b| ≤ x := by
  have hw : 2 ≤ w := by
    by_contra hc
    rw [show w - 2 = 0 by omega] at hx; simp at hx; omega
  have p1 : 2 ^ w = 4 * 2 ^ (w - 2) := by
    conv_lhs => rw [show w = w - 2 + 2 by omega, Nat.pow_add]
    omega
  have p2 : 2 ^ (w - 1) = 2 * 2 ^ (w - 2) := by
    conv_lhs => rw [show w - 1 = w - 2 + 1 by omega, Nat.pow_succ]
    omega
  have h0 : ¬ (x = 0 ∨ y = 0) := by tauto
  obtain ⟨s, es, hs, ⟨x1, f1⟩, ⟨y1, f2⟩, hodd⟩ := tz_or (w := w) (by omega) (by omega) h0
  have hp : 0 < 2 ^ s := Nat.two_pow_pos s
  have e1 : x / 2 ^ s = x1 := by rw [f1, Nat.mul_div_cancel_left _ hp]
  have e2 : y / 2 ^ s = y1 := by rw [f2, Nat.mul_div_cancel_left _ hp]
  rw [e1, e2] at hodd
  have hx1 : x1 ≤ x := by rw [f1]; exact Nat.le_mul_of_pos_left _ hp
  have hy1 : y1 ≤ y := by rw [f2]; exact Nat.le_mul_of_pos_left _ hp
  have hx10 : 0 < x1 := Nat.pos_of_ne_zero (by rintro rfl; exact hx0 f1)
  have hy10 : 0 < y1 := Nat.pos_of_ne_zero (by rintro rfl; exact hy0 f2)
  have hsw : 2 ^ s < 2 ^ w := Nat.pow_lt_pow_right (by decide) hs
  have c2 : (2 ^ (w - 1) : Int) = ((2 ^ (w - 1) : Nat) : Int) := by push_cast; rfl
  have hgo : Nat.gcd x1 y1 % 2 = 1 := by
    by_contra hc
    apply hodd
    have h2 : 2 ∣ Nat.gcd x1 y1 := Nat.dvd_of_mod_eq_zero (by omega)
    exact ⟨Nat.mod_eq_zero_of_dvd (h2.trans (Nat.gcd_dvd_left _ _)),
      Nat.mod_eq_zero_of_dvd (h2.trans (Nat.gcd_dvd_right _ _))⟩
  obtain ⟨c, d, eL, t⟩ := egcdLoop_spec (w := w) (x := (x1 : Int)) (y := (y1 : Int))
    (by omega) (by omega) (by omega) (by omega) (by omega) (x1 + y1) x1 y1 1 0 0 1 hx10 hy10
    (le_refl _) (le_refl _) (le_refl _) hgo
    (Or.inl ⟨by ring, by omega, by omega, by omega, by omega⟩)
    (Or.inl ⟨by ring, by omega, by omega, by omega, by omega⟩)
  have hgx : Nat.gcd x y = 2 ^ s * Nat.gcd x1 y1 := by rw [f1, f2, Nat.gcd_mul_left]
  have hgle : Nat.gcd x y ≤ x := Nat.gcd_le_left _ (by omega)
  refine ⟨c, d, ?_, ?_, ?_, ?_⟩
  · simp only [extendedGcd, if_neg h0, ← es, shrC, shlC, hs, if_true, e1, e2, Option.bind_eq_bind,
      Option.bind_some, toSigned_eq (w := w) (x := x1) (by omega),
      toSigned_eq (w := w) (x := y1) (by omega), eL, Nat.one_mul, Nat.mod_eq_of_lt hsw]
    rw [mulC_eq (by omega), hgx]; rfl
  · rw [hgx, f1, f2]
    push_cast
    have := t.rel
    calc c * (2 ^ s * x1) + d * (2 ^ s * y1) = 2 ^ s * (c * x1 + d * y1) := by ring
      _ = _ := by rw [this]
  · rw [abs_le]
    have := t.a1; have := t.a2
    constructor <;> omega
  · rw [abs_le]
    have := t.b1; have := t.b2
    constructor <;> omega

/-! A run that does not panic is also a run on wider words. -/

theorem chkS_wider {w W : Nat} (h : w ≤ W) {x r : Int} (e : chkS w x = some r) : chkS W x = some r := by
  unfold chkS at *
  split at e
  · next hc =>
    have : (2 : Int) ^ (w - 1) ≤ 2 ^ (W - 1) := by
      exact_mod_cast Nat.pow_le_pow_right (by norm_num) (show w - 1 ≤ W - 1 by omega)
    rw [if_pos ⟨by omega, by omega⟩]; exact e
  · simp at e

theorem halve_wider {w W : Nat} (h : w ≤ W) {x y : Int} : ∀ (fuel u : Nat) (a b : Int) {r : Nat × Int × Int},
    halve w x y fuel u a b = some r → halve W x y fuel u a b = some r
  | 0, u, a, b, r, e => e
  | fuel + 1, u, a, b, r, e => by
    unfold halve at *
    dsimp only at *
    split at e
    · next hu =>
      rw [if_pos hu]
      split at e
      · next h2 => rw [if_pos h2]; exact halve_wider h _ _ _ _ e
      · next h2 =>
        rw [if_neg h2]
        split at e
        · next h3 =>
          rw [if_pos h3]
          obtain ⟨p, hp, e⟩ := Option.bind_eq_some_iff.1 e
          obtain ⟨q, hq, e⟩ := Option.bind_eq_some_iff.1 e
          rw [chkS_wider h hp, chkS_wider h hq]
          exact halve_wider h _ _ _ _ e
        · next h3 =>
          rw [if_neg h3]
          obtain ⟨p, hp, e⟩ := Option.bind_eq_some_iff.1 e
          obtain ⟨q, hq, e⟩ := Option.bind_eq_some_iff.1 e
          rw [chkS_wider h hp, chkS_wider h hq]
          exact halve_wider h _ _ _ _ e
    · next hu => rw [if_neg hu]; exact e

theorem egcdLoop_wider {w W : Nat} (h : w ≤ W) {x y : Int} : ∀ (fuel u v : Nat) (a b c d : Int) {r : Int × Int × Nat},
    egcdLoop w x y fuel u v a b c d = some r → egcdLoop W x y fuel u v a b c d = some r
  | 0, _, _, _, _, _, _, r, e => e
  | fuel + 1, u, v, a, b, c, d, r, e => by
    unfold egcdLoop at *
    obtain ⟨⟨u', a', b'⟩, h1, e⟩ := Option.bind_eq_some_iff.1 e
    obtain ⟨⟨v', c', d'⟩, h2, e⟩ := Option.bind_eq_some_iff.1 e
    rw [halve_wider h _ _ _ _ h1]
    simp only [Option.bind_eq_bind, Option.bind_some]
    rw [halve_wider h _ _ _ _ h2]
    simp only [Option.bind_some]
    dsimp only at e
    split at e
    · next hle =>
      rw [if_pos hle]
      obtain ⟨p, hp, e⟩ := Option.bind_eq_some_iff.1 e
      obtain ⟨q, hq, e⟩ := Option.bind_eq_some_iff.1 e
      rw [chkS_wider h hp, Option.bind_some, chkS_wider h hq, Option.bind_some]
      split at e
      · next hz => rw [if_pos hz]; exact e
      · next hz => rw [if_neg hz]; exact egcdLoop_wider h _ _ _ _ _ _ _ e
    · next hle =>
      rw [if_neg hle]
      obtain ⟨p, hp, e⟩ := Option.bind_eq_some_iff.1 e
      obtain ⟨q, hq, e⟩ := Option.bind_eq_some_iff.1 e
      rw [chkS_wider h hp, Option.bind_some, chkS_wider h hq, Option.bind_some]
      split at e
      · next hz => rw [if_pos hz]; exact e
      · next hz => rw [if_neg hz]; exact egcdLoop_wider h _ _ _ _ _ _ _ e

theorem trailingZeros_wider : ∀ (w k x : Nat), trailingZeros w x < w → trailingZeros (w + k) x = trailingZeros w x
  | 0, _, _, h => by omega
  | w + 1, k, x, h => by
    rw [Nat.add_right_comm]
    unfold trailingZeros at *
    split
    · rfl
    · next hx =>
      rw [if_neg hx] at h
      rw [trailingZeros_wider w k (x / 2) (by omega)]

/-- Operands that fit the signed type: a run that does not panic is right. -/
theorem extendedGcd_of_some {w x y : Nat} (hx : x < 2 ^ (w - 1)) (hy : y < 2 ^ (w - 1)) (hx0 : x ≠ 0) (hy0 : y ≠ 0)
    {r : Int × Int × Nat} (e : extendedGcd w x y = some r) :
    r.2.2 = Nat.gcd x y ∧ r.1 * x + r.2.1 * y = (Nat.gcd x y : Int) ∧ |r.1| ≤ y ∧ |r.2.1| ≤ x := by
  have hw : w - 1 ≤ w := Nat.sub_le _ _
  have hle : (2 : Nat) ^ (w - 1) ≤ 2 ^ w := Nat.pow_le_pow_right (by norm_num) hw
  have h0 : ¬ (x = 0 ∨ y = 0) := by tauto
  have hW : (2 : Nat) ^ (w + 2 - 2) = 2 ^ w := rfl
  have hwide : extendedGcd (w + 2) x y = some r := by
    obtain ⟨s, es, hs, ⟨x1, f1⟩, ⟨y1, f2⟩, hodd⟩ := tz_or (w := w) (by omega) (by omega) h0
    have et : s = trailingZeros (w + 2) (x ||| y) := by rw [trailingZeros_wider w 2 _ (by omega)]; exact es
    have hsw : 2 ^ s < 2 ^ w := Nat.pow_lt_pow_right (by norm_num) hs
    have hx1 : x / 2 ^ s ≤ x := Nat.div_le_self _ _
    have hy1 : y / 2 ^ s ≤ y := Nat.div_le_self _ _
    have hle2 : (2 : Nat) ^ (w - 1) ≤ 2 ^ (w + 2 - 1) := Nat.pow_le_pow_right (by norm_num) (by omega)
    have hle3 : (2 : Nat) ^ w ≤ 2 ^ (w + 2) := Nat.pow_le_pow_right (by norm_num) (by omega)
    simp only [extendedGcd, if_neg h0, ← es, shrC, shlC, hs, if_true, Option.bind_eq_bind, Option.bind_some,
      Nat.one_mul, Nat.mod_eq_of_lt hsw, toSigned_eq (w := w) (x := x / 2 ^ s) (by omega),
      toSigned_eq (w := w) (x := y / 2 ^ s) (by omega)] at e
    simp only [extendedGcd, if_neg h0, ← et, shrC, shlC, show s < w + 2 by omega, if_true, Option.bind_eq_bind,
      Option.bind_some, Nat.one_mul, Nat.mod_eq_of_lt (show 2 ^ s < 2 ^ (w + 2) by omega),
      toSigned_eq (w := w + 2) (x := x / 2 ^ s) (by omega), toSigned_eq (w := w + 2) (x := y / 2 ^ s) (by omega)]
    obtain ⟨⟨c, d, v⟩, hl, e⟩ := Option.bind_eq_some_iff.1 e
    obtain ⟨g, hg, e⟩ := Option.bind_eq_some_iff.1 e
    rw [egcdLoop_wider (by omega) _ _ _ _ _ _ _ hl, Option.bind_some]
    have : mulC (w + 2) (2 ^ s) v = some g := by
      unfold mulC at *
      split at hg
      · next hc => rw [if_pos (lt_of_lt_of_le hc hle3)]; exact hg
      · simp at hg
    rw [this]
    exact e
  obtain ⟨a, b, e', h1, h2, h3⟩ := extendedGcd_eq (w := w + 2) (x := x) (y := y) (by omega) (by omega) hx0 hy0
  rw [hwide] at e'
  cases e'
  exact ⟨rfl, h1, h2, h3⟩

end Gcd
end Verif
