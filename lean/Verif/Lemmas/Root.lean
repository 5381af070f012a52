import Verif.Lemmas.NTT
import Verif.Lemmas.PowOf2
import Mathlib.RingTheory.RootsOfUnity.PrimitiveRoots
import Mathlib.NumberTheory.LegendreSymbol.Basic

/-! # Lemmas about the primitive root search -/

namespace Verif.Fp
open Props Ntt

/-- The field operations used below, for a derived field of prime modulus. -/
structure Config (w q : Nat) (M : Barrett) : Prop where
  even : w % 2 = 0
  conf : Fp.config w q = some M

theorem Config.value {w q : Nat} {M : Barrett} (C : Config w q M) : M.value = q :=
  (Barrett.new_valid C.even (config_new C.conf)).2

theorem Config.two_le {w q : Nat} {M : Barrett} (C : Config w q M) : 2 ≤ q :=
  (Barrett.new_cond (config_new C.conf)).1

theorem Config.four_mul_lt {w q : Nat} {M : Barrett} (C : Config w q M) : 4 * q < 2 ^ w := by
  have := (Barrett.new_valid C.even (config_new C.conf)).1.four_mul_lt
  rw [C.value] at this; exact this

theorem eq_of_cast {q a b : Nat} (ha : a < q) (hb : b < q) (h : (a : ZMod q) = b) : a = b := by
  rw [ZMod.natCast_eq_natCast_iff', Nat.mod_eq_of_lt ha, Nat.mod_eq_of_lt hb] at h
  exact h

theorem neg_one_ne_one {q : Nat} (hq : 2 < q) : (-1 : ZMod q) ≠ 1 := by
  have : Fact (2 < q) := ⟨hq⟩
  exact ZMod.neg_one_ne_one

theorem order_iff {q m : Nat} [Fact q.Prime] (hq : 2 < q) (x : ZMod q) :
    x ^ 2 ^ m = -1 ↔ orderOf x = 2 ^ (m + 1) := by
  constructor
  · intro h
    apply orderOf_eq_prime_pow (p := 2)
    · rw [h]; exact neg_one_ne_one hq
    · rw [pow_succ, pow_mul, h]; ring
  · intro h
    have h1 : (x ^ 2 ^ m) ^ 2 = 1 := by
      rw [← pow_mul, ← pow_succ, ← h]; exact pow_orderOf_eq_one x
    rcases sq_eq_one_iff.1 h1 with h2 | h2
    · exfalso
      have := orderOf_dvd_of_pow_eq_one h2
      rw [h] at this
      have := Nat.le_of_dvd (Nat.two_pow_pos m) this
      rw [pow_succ] at this
      have := Nat.two_pow_pos m
      omega
    · exact h2

theorem isPrimitiveRoot_eq {w q : Nat} {M : Barrett} (C : Config w q M) {r m : Nat} (hr : r < q)
    (hm : 2 ^ (m + 1) < 2 ^ w) :
    Fp.isPrimitiveRoot w M r (2 ^ (m + 1)) = some (decide ((r : ZMod q) ^ 2 ^ m = -1)) := by
  have h1 : 1 < 2 ^ (m + 1) := Nat.one_lt_two_pow (by omega)
  have h4 := C.four_mul_lt
  have h2 := C.two_le
  have hpw : 1 < w := one_lt_of (by omega) h4
  have e2 : 2 ^ (m + 1) = 2 * 2 ^ m := pow_succ' 2 m
  unfold Fp.isPrimitiveRoot
  rw [C.value, if_pos hr, if_pos ⟨h1, isPow2_iff.2 ⟨_, rfl⟩⟩]
  split
  · next h0 =>
    subst h0
    congr 1
    symm
    rw [decide_eq_false_iff_not, Nat.cast_zero, zero_pow (by positivity)]
    intro hc
    have : (1 : ZMod q) = 0 := by linear_combination hc
    rw [← Nat.cast_one, ← Nat.cast_zero] at this
    have := eq_of_cast (by omega) (by omega) this
    omega
  · have hsh : shrC w (2 ^ (m + 1)) 1 = some (2 ^ m) := by
      unfold shrC
      rw [if_pos hpw, pow_one, e2, Nat.mul_div_cancel_left _ (by omega)]
    obtain ⟨-, -, ⟨n1, en, ln, cn⟩, -, -, -, -, -, ⟨p, ep, lp, cp⟩, -⟩ :=
      C49_field_ops w q C.even M C.conf r 0 0 (2 ^ m) hr (by omega) (by omega) (by omega)
    have en' : subC q 1 = some n1 := by rw [← C.value]; exact en
    rw [mbind hsh, mbind ep, mbind en', ← cp, ← cn]
    show some _ = some _
    congr 1
    by_cases hpn : p = n1
    · subst hpn; simp
    · have : ¬ (p : ZMod q) = n1 := fun h => hpn (eq_of_cast lp ln h)
      simp [hpn, this]

theorem searchRoot_spec {w q : Nat} {M : Barrett} [Fact q.Prime] (C : Config w q M) {m : Nat}
    (hm : 2 ^ (m + 1) < 2 ^ w) {Q : Nat} (hQ : Q < 2 ^ w) :
    ∀ draws : List Nat, (∀ x ∈ draws, x < q) →
      (∃ c, searchRoot w M Q (2 ^ (m + 1)) draws = some (some c) ∧ c < q ∧
        (c : ZMod q) ^ 2 ^ m = -1 ∧ ∃ x ∈ draws, (c : ZMod q) = (x : ZMod q) ^ Q) ∨
      (searchRoot w M Q (2 ^ (m + 1)) draws = some none ∧
        ∀ x ∈ draws, ((x : ZMod q) ^ Q) ^ 2 ^ m ≠ -1)
  | [], _ => Or.inr ⟨rfl, by simp⟩
  | x :: xs, h => by
    have hx := h x (by simp)
    obtain ⟨-, -, -, -, -, -, -, -, ⟨c, ec, lc, cc⟩, -⟩ :=
      C49_field_ops w q C.even M C.conf x 0 0 Q hx (by omega) (by omega) hQ
    have ei := isPrimitiveRoot_eq C lc hm
    unfold searchRoot
    rw [mbind ec, mbind ei]
    by_cases hc : (c : ZMod q) ^ 2 ^ m = -1
    · left
      rw [if_pos (by simpa using hc)]
      exact ⟨c, rfl, lc, hc, x, by simp, cc⟩
    · rw [if_neg (by simpa using hc)]
      rcases searchRoot_spec C hm hQ xs (fun y hy => h y (by simp [hy])) with
        ⟨c', e, l, r, y, hy, cy⟩ | ⟨e, r⟩
      · exact Or.inl ⟨c', e, l, r, y, by simp [hy], cy⟩
      · refine Or.inr ⟨e, ?_⟩
        intro y hy
        rcases List.mem_cons.1 hy with rfl | hy
        · rw [← cc]; exact hc
        · exact r y hy

theorem minimalLoop_spec {w q : Nat} {M : Barrett} (C : Config w q M) {s : Shoup} {x : ZMod q}
    (hs : IsFac w q s x) :
    ∀ (k root cur : Nat), root < q → cur < q →
      ∃ r, minimalLoop w M s k root cur = some r ∧ r < q ∧ r ≤ root ∧
        (r = root ∨ ∃ j, j < k ∧ (r : ZMod q) = cur * x ^ j) ∧
        ∀ j y, j < k → y < q → (y : ZMod q) = cur * x ^ j → r ≤ y
  | 0, root, cur, hr, hc => ⟨root, rfl, hr, le_refl _, Or.inl rfl, by simp⟩
  | k + 1, root, cur, hr, hc => by
    have h4 := C.four_mul_lt
    have hv := C.value
    subst hv
    obtain ⟨nx, en, ln, cn⟩ := mulRoot_spec (a := cur) (by omega) hs (by omega)
    obtain ⟨r, er, lr, r1, r2, r3⟩ := minimalLoop_spec C hs k (if cur < root then cur else root) nx
      (by split <;> omega) ln
    refine ⟨r, ?_, lr, ?_, ?_, ?_⟩
    · unfold minimalLoop
      rw [mbind en]; exact er
    · split at r1 <;> omega
    · rcases r2 with h | ⟨j, hj, e⟩
      · split at h
        · right; exact ⟨0, by omega, by rw [h]; ring⟩
        · left; exact h
      · right
        refine ⟨j + 1, by omega, ?_⟩
        rw [e, cn]; ring
    · intro j y hj hy e
      cases j with
      | zero =>
        have : y = cur := eq_of_cast hy hc (by rw [e]; ring)
        subst this
        split at r1 <;> omega
      | succ j =>
        apply r3 j y (by omega) hy
        rw [e, cn]; ring

theorem pow2_dvd_lt {q m : Nat} (h2 : 2 ≤ q) (hd : 2 ^ (m + 1) ∣ q - 1) : 2 ^ (m + 1) < q := by
  have := Nat.le_of_dvd (by omega) hd
  omega

/-- The search with the divisibility test. -/
theorem tryPrimitiveRoot_spec {w q : Nat} {M : Barrett} [hp : Fact q.Prime] (C : Config w q M) {m : Nat}
    (hm : 2 ^ (m + 1) < 2 ^ w) (draws : List Nat) (hd : ∀ x ∈ draws, 2 ≤ x ∧ x < q) :
    (¬ 2 ^ (m + 1) ∣ q - 1 ∧ tryPrimitiveRoot w M (2 ^ (m + 1)) draws = some none) ∨
    (2 ^ (m + 1) ∣ q - 1 ∧ (∀ x ∈ draws.take 100, IsSquare (x : ZMod q)) ∧
      tryPrimitiveRoot w M (2 ^ (m + 1)) draws = some none) ∨
    (2 ^ (m + 1) ∣ q - 1 ∧ (∃ x ∈ draws.take 100, ¬ IsSquare (x : ZMod q)) ∧
      ∃ c, tryPrimitiveRoot w M (2 ^ (m + 1)) draws = some (some c) ∧ c < q ∧
        orderOf (c : ZMod q) = 2 ^ (m + 1)) := by
  have h2 := C.two_le
  have h4 := C.four_mul_lt
  have hpos := Nat.two_pow_pos (m + 1)
  have hle : (q - 1) / 2 ^ (m + 1) * 2 ^ (m + 1) ≤ q - 1 := Nat.div_mul_le_self _ _
  have hstart : tryPrimitiveRoot w M (2 ^ (m + 1)) draws =
      if q - 1 ≠ (q - 1) / 2 ^ (m + 1) * 2 ^ (m + 1) then some none
      else searchRoot w M ((q - 1) / 2 ^ (m + 1)) (2 ^ (m + 1)) (draws.take 100) := by
    unfold tryPrimitiveRoot
    rw [if_neg (by omega), C.value, mbind (subC_eq (by omega))]
    dsimp only
    rw [mbind (mulC_eq (by omega))]
    by_cases hd' : q - 1 = (q - 1) / 2 ^ (m + 1) * 2 ^ (m + 1)
    · have h3 : 2 ^ 1 ≤ q - 1 := le_trans (Nat.pow_le_pow_right (by decide) (by omega))
        (Nat.le_of_dvd (by omega) (Dvd.intro_left _ hd'.symm))
      rw [if_neg (by simpa using hd'), if_neg (show ¬ q - 1 < 2 by omega), if_neg (by simpa using hd')]
    · rw [if_pos hd', if_pos hd']; rfl
  by_cases hdv : 2 ^ (m + 1) ∣ q - 1
  · have hlt := pow2_dvd_lt h2 hdv
    have hq2 : 2 < q := by have := Nat.one_lt_two_pow (n := m + 1) (by omega); omega
    rw [if_neg (by rw [Nat.div_mul_cancel hdv]; simp)] at hstart
    obtain ⟨Q, hQ⟩ : ∃ Q, Q = (q - 1) / 2 ^ (m + 1) := ⟨_, rfl⟩
    have hQm : Q * 2 ^ (m + 1) = q - 1 := by rw [hQ]; exact Nat.div_mul_cancel hdv
    rw [← hQ] at hstart
    have hhalf : Q * 2 ^ m = q / 2 := by
      have : Q * 2 ^ (m + 1) = 2 * (Q * 2 ^ m) := by rw [pow_succ]; ring
      omega
    have hQlt : Q < 2 ^ w := by
      have : Q ≤ Q * 2 ^ (m + 1) := Nat.le_mul_of_pos_right _ hpos
      omega
    have hne : ∀ x ∈ draws, (x : ZMod q) ≠ 0 := by
      intro x hx h0
      rw [ZMod.natCast_eq_zero_iff] at h0
      have := Nat.le_of_dvd (by have := (hd x hx).1; omega) h0
      have := (hd x hx).2
      omega
    have hsq : ∀ x ∈ draws, (((x : ZMod q) ^ Q) ^ 2 ^ m = -1 ↔ ¬ IsSquare (x : ZMod q)) := by
      intro x hx
      rw [← pow_mul, hhalf, ZMod.euler_criterion q (hne x hx)]
      rcases ZMod.pow_div_two_eq_neg_one_or_one q (hne x hx) with h | h
      · rw [h]
        simp [Ne.symm (neg_one_ne_one hq2)]
      · rw [h]
        simp [neg_one_ne_one hq2]
    have mem : ∀ {x}, x ∈ draws.take 100 → x ∈ draws := fun h => List.mem_of_mem_take h
    rcases searchRoot_spec C hm hQlt (draws.take 100) (fun x hx => (hd x (mem hx)).2) with
      ⟨c, e, l, r, x, hx, cx⟩ | ⟨e, r⟩
    · right; right
      refine ⟨hdv, ⟨x, hx, (hsq x (mem hx)).1 (by rw [← cx]; exact r)⟩, c, by rw [hstart]; exact e, l, ?_⟩
      exact (order_iff hq2 _).1 r
    · right; left
      refine ⟨hdv, ?_, by rw [hstart]; exact e⟩
      intro x hx
      by_contra hc
      exact r x hx ((hsq x (mem hx)).2 hc)
  · left
    refine ⟨hdv, ?_⟩
    rw [hstart, if_pos]
    intro h
    exact hdv ⟨_, by rw [Nat.mul_comm]; exact h⟩

theorem zmod_two_cases (z : ZMod 2) : z = 0 ∨ z = 1 := by revert z; decide

/-- The minimisation over the odd powers returns the least element of the same order. -/
theorem minimal_spec {w q : Nat} {M : Barrett} [hp : Fact q.Prime] (C : Config w q M) {m c : Nat}
    (hlt : c < q) (hord : orderOf (c : ZMod q) = 2 ^ (m + 1)) :
    ∃ r, (do
        let sq ← mul w M c c
        let sqr ← toRoot w M sq
        let r ← minimalLoop w M sqr (2 ^ (m + 1)) c c
        return some r : Option (Option Nat)) = some (some r) ∧ r < q ∧
      orderOf (r : ZMod q) = 2 ^ (m + 1) ∧
      ∀ y, y < q → orderOf (y : ZMod q) = 2 ^ (m + 1) → r ≤ y := by
  have h2 := C.two_le
  have hpos := Nat.two_pow_pos (m + 1)
  have hq2 : 2 < q := by
    by_contra hc
    have : q = 2 := by omega
    subst this
    have hcr : (c : ZMod 2) = 0 ∨ (c : ZMod 2) = 1 :=
      zmod_two_cases _
    have h1 := Nat.one_lt_two_pow (n := m + 1) (by omega)
    rcases hcr with h | h
    · rw [h, orderOf_zero] at hord; omega
    · rw [h, orderOf_one] at hord; omega
  obtain ⟨-, -, -, -, -, -, -, ⟨sq, es, ls, cs⟩, -, -⟩ :=
      C49_field_ops w q C.even M C.conf c c 0 0 hlt hlt (by omega) (by positivity)
  obtain ⟨sf, esf⟩ := exists_fac (w := w) ls
  have hsf := IsFac.of_new esf
  have esf' : toRoot w M sq = some sf := by unfold toRoot; rw [C.value]; exact esf
  obtain ⟨r, er, lr, r1, r2, r3⟩ := minimalLoop_spec C hsf (2 ^ (m + 1)) c c hlt hlt
  refine ⟨r, ?_, lr, ?_, ?_⟩
  · rw [mbind es, mbind esf', mbind er]; rfl
  · rcases r2 with h | ⟨j, hj, e⟩
    · rw [h]; exact hord
    · rw [← order_iff hq2] at hord ⊢
      rw [e, cs, mul_pow, hord, ← pow_mul, ← pow_two, ← pow_mul,
        show 2 * (j * 2 ^ m) = 2 ^ m * (2 * j) by ring, pow_mul, hord]
      simp
  · intro y hy hyo
    have hprim : IsPrimitiveRoot (c : ZMod q) (2 ^ (m + 1)) := by
      rw [← hord]; exact IsPrimitiveRoot.orderOf _
    have hy1 : (y : ZMod q) ^ 2 ^ (m + 1) = 1 := by rw [← hyo]; exact pow_orderOf_eq_one _
    have : NeZero (2 ^ (m + 1)) := ⟨by positivity⟩
    obtain ⟨i, hi, ei⟩ := hprim.eq_pow_of_pow_eq_one hy1
    rcases Nat.even_or_odd' i with ⟨j, rfl | rfl⟩
    · exfalso
      have h1 := (order_iff hq2 _).2 hyo
      rw [← ei, ← pow_mul, show 2 * j * 2 ^ m = 2 ^ (m + 1) * j by rw [pow_succ]; ring,
        pow_mul, hprim.pow_eq_one, one_pow] at h1
      exact neg_one_ne_one hq2 h1.symm
    · apply r3 j y (by omega) hy
      rw [← ei, cs, ← pow_two, ← pow_mul]; ring

end Verif.Fp
