import Verif.Model.SignedExp
import Verif.Lemmas.Exp

namespace Verif

theorem trailingZeros_two_pow_mul : ∀ (t w y : Nat), t < w → y % 2 = 1 → trailingZeros w (2 ^ t * y) = t
  | _, 0, _, h, _ => by omega
  | 0, w + 1, y, _, hy => by rw [trailingZeros, pow_zero, Nat.one_mul, if_pos hy]
  | t + 1, w + 1, y, h, hy => by
    have e : 2 ^ (t + 1) * y = 2 * (2 ^ t * y) := by rw [Nat.pow_succ]; ring
    rw [trailingZeros, e, if_neg (by omega), Nat.mul_div_cancel_left _ (by decide : 0 < 2),
      trailingZeros_two_pow_mul t w y (by omega) hy]
    omega

theorem bitPattern_odd {E : Nat} (hE : 1 ≤ E) (e : Int) : (bitPattern E e % 2 = 1) ↔ e % 2 = 1 := by
  have hp : (0 : Int) < 2 ^ E := by positivity
  have h0 := Int.emod_nonneg e hp.ne'
  have hd : e % 2 ^ E % 2 = e % 2 := Int.emod_emod_of_dvd e (dvd_pow_self 2 (by omega))
  unfold bitPattern
  omega

theorem expLoopS_eq {α : Type} {E : Nat} (hE : 2 ≤ E) (mul : α → α → Option α) :
    ∀ (n : Nat) (e : Int) (p : Nat) (x y : α), ((2 : Int) ^ (n + 1) ∣ e - p) →
      expLoopS E mul n e x y = expLoop mul n p x y
  | 0, _, _, _, _, _ => rfl
  | n + 1, e, p, x, y, h => by
    obtain ⟨c, hc⟩ := h
    have hc' : e - p = 2 * (2 ^ (n + 1) * c) := by rw [hc, pow_succ (2 : Int) (n + 1)]; ring
    have hd : e / 2 - ((p / 2 : Nat) : Int) = 2 ^ (n + 1) * c := by
      generalize (2 : Int) ^ (n + 1) * c = z at *; omega
    have ho : (e / 2) % 2 = 1 ↔ p / 2 % 2 = 1 := by
      have : e / 2 - ((p / 2 : Nat) : Int) = 2 * (2 ^ n * c) := by rw [hd, pow_succ]; ring
      generalize (2 : Int) ^ n * c = z at *; omega
    have ih := fun x y => expLoopS_eq hE mul n (e / 2) (p / 2) x y ⟨c, hd⟩
    simp only [expLoopS, expLoop, sarC, if_pos (show 1 < E by omega), pow_one, Option.bind_eq_bind,
      Option.bind_some, ih, bitPattern_odd (show 1 ≤ E by omega), ho]

/-- On a non-negative exponent the signed version does what the unsigned one does. -/
theorem expReduceSWith_nonneg {α : Type} {E n : Nat} (hE : 2 ≤ E) (hn : n < 2 ^ (E - 1))
    (mul : α → α → Option α) (one : α) (ok : α → Bool) (a : α) :
    expReduceSWith E mul one ok a (n : Int) = expReduceWith E mul one ok a n := by
  have hlt : n < 2 ^ E := lt_of_lt_of_le hn (Nat.pow_le_pow_right (by decide) (by omega))
  have hpat : ∀ m : Nat, m < 2 ^ E → bitPattern E (m : Int) = m := by
    intro m hm
    unfold bitPattern
    rw [Int.emod_eq_of_lt (by omega) (by exact_mod_cast hm)]; rfl
  rcases Nat.eq_zero_or_pos n with rfl | h0
  · simp [expReduceSWith, expReduceWith]
  · obtain ⟨t1, t2, t3⟩ := trailingZeros_spec (by omega) hlt
    rw [expReduceSWith, expReduceWith, if_neg (show ¬ (n : Int) = 0 by omega),
      if_neg (show ¬ n = 0 by omega), hpat n hlt]
    simp only [sarC, shrC, if_pos t1, Option.bind_eq_bind, Option.bind_some]
    generalize trailingZeros E n = t at *
    have hdiv : (n : Int) / 2 ^ t = ((n / 2 ^ t : Nat) : Int) := by push_cast; rfl
    have hx : n / 2 ^ t < 2 ^ E := lt_of_le_of_lt (Nat.div_le_self _ _) hlt
    rw [hdiv]
    simp only [hpat _ hx, Nat.cast_eq_one]
    have hb : bitLen (n / 2 ^ t) ≤ E := bitLen_le_iff.2 hx
    rw [show E - leadingZeros E (n / 2 ^ t) = bitLen (n / 2 ^ t) by unfold leadingZeros; omega]
    simp only [expLoopS_eq hE mul _ ((n / 2 ^ t : Nat) : Int) (n / 2 ^ t) _ _ (by simp)]

/-- On a negative exponent `-(2^t k)` with odd `k` it raises to `2^(E+t) - 2^t k`. -/
theorem expReduceSWith_neg {α R : Type} [CommMonoid R] {P : α → Prop} {φ : α → R}
    {mul : α → α → Option α} {one : α} {ok : α → Bool} (h : Refines P φ mul)
    {E t k : Nat} (hE : 2 ≤ E) (hk : k % 2 = 1) (hr : 2 ^ t * k ≤ 2 ^ (E - 1))
    (a : α) (ha : P a) (hok : ok a = true) :
    ∃ c, expReduceSWith E mul one ok a (-(2 ^ t * k : Nat)) = some c ∧ P c ∧
      φ c = φ a ^ (2 ^ (E + t) - 2 ^ t * k) := by
  have hk1 : 1 ≤ k := by omega
  have htE : t < E := by
    have h1 : 2 ^ t ≤ 2 ^ (E - 1) := le_trans (Nat.le_mul_of_pos_right _ hk1) hr
    have := (Nat.pow_le_pow_iff_right (by decide : 1 < 2)).1 h1
    omega
  have hp2 : (2 : Nat) ^ E = 2 * 2 ^ (E - 1) := by
    rw [← pow_succ', show E - 1 + 1 = E by omega]
  have hpt : (2 : Nat) ^ E = 2 ^ t * 2 ^ (E - t) := by rw [← Nat.pow_add]; congr 1; omega
  have htp := Nat.two_pow_pos t
  have hkle : k ≤ 2 ^ (E - 1) := le_trans (Nat.le_mul_of_pos_left _ htp) hr
  have hkE : k < 2 ^ (E - t) := by
    have : 2 ^ t * k < 2 ^ t * 2 ^ (E - t) := by
      have := Nat.two_pow_pos (E - 1); omega
    exact lt_of_mul_lt_mul_left this (Nat.zero_le _)
  have hneg : ∀ m : Nat, 0 < m → m ≤ 2 ^ (E - 1) → bitPattern E (-(m : Int)) = 2 ^ E - m := by
    intro m h0 hm
    have hm2 : (m : Int) ≤ 2 ^ E := by
      have : m ≤ 2 ^ E := by omega
      exact_mod_cast this
    have e1 : (-(m : Int)) % 2 ^ E = 2 ^ E - m := by
      rw [show (-(m : Int)) = (2 ^ E - m) + 2 ^ E * (-1) by ring, Int.add_mul_emod_self_left,
        Int.emod_eq_of_lt (by omega) (by omega)]
    unfold bitPattern
    rw [e1]
    have : ((2 : Int) ^ E) = ((2 ^ E : Nat) : Int) := by push_cast; rfl
    rw [this]; omega
  have hpos : 0 < 2 ^ t * k := Nat.mul_pos htp hk1
  have htz : trailingZeros E (bitPattern E (-((2 ^ t * k : Nat) : Int))) = t := by
    rw [hneg _ hpos hr, hpt, ← Nat.mul_sub]
    apply trailingZeros_two_pow_mul t E _ htE
    have : 2 ^ (E - t) % 2 = 0 := by
      rw [show E - t = E - t - 1 + 1 by omega, Nat.pow_succ]; omega
    omega
  have hsar : sarC E (-((2 ^ t * k : Nat) : Int)) t = some (-(k : Int)) := by
    rw [sarC, if_pos htE]
    congr 1
    push_cast
    rw [show -((2 : Int) ^ t * k) = 2 ^ t * (-k) by ring, Int.mul_ediv_cancel_left _ (by positivity)]
  obtain ⟨p, e, hp, hφ⟩ := sqTimes_spec h t a ha
  have hkp : bitPattern E (-(k : Int)) = 2 ^ E - k := hneg k hk1 hkle
  have hbl : bitLen (2 ^ E - k) = E := by
    have h1 : bitLen (2 ^ E - k) ≤ E := bitLen_le_iff.2 (by have := Nat.two_pow_pos E; omega)
    have h2 : ¬ bitLen (2 ^ E - k) ≤ E - 1 := by
      rw [bitLen_le_iff]; omega
    omega
  have hlz : E - leadingZeros E (bitPattern E (-(k : Int))) - 1 = E - 1 := by
    rw [hkp, leadingZeros, hbl]; omega
  have hloop : expLoopS E mul (E - 1) (-(k : Int)) p p = expLoop mul (E - 1) (2 ^ E - k) p p := by
    apply expLoopS_eq hE
    rw [show E - 1 + 1 = E by omega, Nat.cast_sub (by omega)]
    exact ⟨-1, by push_cast; ring⟩
  obtain ⟨c, e', hc, hφ'⟩ := expLoop_spec h (E - 1) (2 ^ E - k) p p hp hp (by omega)
  refine ⟨c, ?_, hc, ?_⟩
  · have hne1 : ¬ (-(k : Int)) = 1 := by omega
    rw [expReduceSWith, if_neg (by omega), if_pos hok, htz]
    simp only [e, hsar, Option.bind_eq_bind, Option.bind_some, if_neg hne1, hlz, hloop, e']
  · rw [hφ', ← pow_succ', hφ, ← pow_mul]
    congr 1
    have : 2 * ((2 ^ E - k) / 2) + 1 = 2 ^ E - k := by omega
    rw [this, Nat.mul_sub, Nat.pow_add, Nat.mul_comm (2 ^ E)]

end Verif
