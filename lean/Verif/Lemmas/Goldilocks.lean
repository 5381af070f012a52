import Verif.Model.Goldilocks
import Verif.Lemmas.Exp
import Verif.Lemmas.PowMod
import Verif.Spec
import Mathlib.FieldTheory.Finite.Basic

namespace Verif

theorem overflowingAdd_lt {w a b : Nat} (h : a + b < 2 ^ w) :
    overflowingAdd w a b = (a + b, false) := by
  simp [overflowingAdd, Nat.mod_eq_of_lt h, h]

theorem overflowingAdd_ge {w a b : Nat} (h : 2 ^ w ≤ a + b) (h2 : a + b < 2 ^ w + 2 ^ w) :
    overflowingAdd w a b = (a + b - 2 ^ w, true) := by
  simp only [overflowingAdd, h, decide_true]
  rw [Nat.mod_eq_sub_mod h, Nat.mod_eq_of_lt (by omega)]

theorem overflowingSub_ge {w a b : Nat} (ha : a < 2 ^ w) (h : b ≤ a) :
    overflowingSub w a b = (a - b, false) := by
  have := wrappingSub_of_le ha h
  simp only [wrappingSub] at this
  simp [overflowingSub, this, h]

theorem overflowingSub_lt {w a b : Nat} (h : a < b) (hb : b ≤ 2 ^ w) :
    overflowingSub w a b = (a + 2 ^ w - b, true) := by
  have := wrappingSub_of_lt h hb
  simp only [wrappingSub] at this
  simp [overflowingSub, this, h]

namespace Goldilocks
open Spec

instance : Fact (Nat.Prime P) := ⟨prime_goldilocks⟩

/-! The arithmetic is proved for an abstract half-word base `H = 2^h`, so that no proof
mentions the literal constants. -/

/-- `addNoCanonicalize` with the width and `EPSILON` as parameters. -/
def addNoCanonicalizeG (w E x y : Nat) : Option Nat := do
  let s := overflowingAdd w x y
  let e ← mulC w E s.2.toNat
  addC w s.1 e

def reduce96G (w E lo hi : Nat) : Option Nat := do
  let t1 ← mulC w hi E
  addNoCanonicalizeG w E lo t1

def reduce128G (w h E x : Nat) : Option Nat := do
  let lo := trunc w x
  let hi := trunc w (x / 2 ^ w)
  let hihi := hi / 2 ^ h
  let hilo := hi &&& E
  let s := overflowingSub w lo hihi
  let t0 ← if s.2 then subC s.1 E else some s.1
  let t1 ← mulC w hilo E
  addNoCanonicalizeG w E t0 t1

def addReduceG (w E a b : Nat) : Option Nat := do
  let s := overflowingAdd w a b
  let e ← mulC w s.2.toNat E
  let s := overflowingAdd w s.1 e
  if s.2 then addC w s.1 E else some s.1

def subReduceG (w E a b : Nat) : Option Nat := do
  let s := overflowingSub w a b
  let e ← mulC w s.2.toNat E
  let s := overflowingSub w s.1 e
  if s.2 then subC s.1 E else some s.1

theorem mod_of_eq_add {p a b : Nat}
    (h : a = b + p ∨ a + p = b ∨ a = b ∨ a = b + 2 * p ∨ a + 2 * p = b) :
    a % p = b % p := by
  rcases h with rfl | h | rfl | rfl | h
  · rw [Nat.add_mod_right]
  · rw [← h, Nat.add_mod_right]
  · rfl
  · rw [Nat.add_mul_mod_self_right]
  · rw [← h, Nat.add_mul_mod_self_right]

section generic
variable {w E p : Nat}

theorem mul_toNat_true (hE : E < 2 ^ w) : mulC w E true.toNat = some E := by
  have := mulC_eq (w := w) (a := E) (b := 1) (by omega)
  simpa using this
theorem mul_toNat_false : mulC w E false.toNat = some 0 := by
  have := mulC_eq (w := w) (a := E) (b := 0) (by simp)
  simpa using this
theorem mul_toNat_true' (hE : E < 2 ^ w) : mulC w true.toNat E = some E := by
  have := mulC_eq (w := w) (a := 1) (b := E) (by omega)
  simpa using this
theorem mul_toNat_false' : mulC w false.toNat E = some 0 := by
  have := mulC_eq (w := w) (a := 0) (b := E) (by simp)
  simpa using this

theorem addNoCanonicalizeG_eq (hp : p + E = 2 ^ w) (hp0 : 0 < p) {x y : Nat}
    (h : x + y < 2 ^ w + p) :
    ∃ r, addNoCanonicalizeG w E x y = some r ∧ r < 2 ^ w ∧ r % p = (x + y) % p := by
  unfold addNoCanonicalizeG
  by_cases hc : x + y < 2 ^ w
  · simp only [overflowingAdd_lt hc, mul_toNat_false, Option.bind_eq_bind, Option.bind_some]
    rw [addC_eq (by omega)]
    exact ⟨_, rfl, hc, rfl⟩
  · simp only [overflowingAdd_ge (by omega : 2 ^ w ≤ x + y) (by omega),
      mul_toNat_true (show E < 2 ^ w by omega), Option.bind_eq_bind, Option.bind_some]
    rw [addC_eq (by omega)]
    exact ⟨_, rfl, by omega, mod_of_eq_add (Or.inr (Or.inl (by omega)))⟩

theorem addReduceG_eq (hp : p + E = 2 ^ w) (hE : E < p) {a b : Nat} (ha : a < 2 ^ w)
    (hb : b < 2 ^ w) :
    ∃ r, addReduceG w E a b = some r ∧ r < 2 ^ w ∧ r % p = (a + b) % p := by
  unfold addReduceG
  by_cases hc : a + b < 2 ^ w
  · simp only [overflowingAdd_lt hc, mul_toNat_false', Option.bind_eq_bind, Option.bind_some,
      overflowingAdd_lt (w := w) (a := a + b) (b := 0) hc, Bool.false_eq_true, if_false]
    exact ⟨_, rfl, hc, rfl⟩
  · simp only [overflowingAdd_ge (by omega : 2 ^ w ≤ a + b) (by omega),
      mul_toNat_true' (show E < 2 ^ w by omega), Option.bind_eq_bind, Option.bind_some]
    by_cases hd : a + b - 2 ^ w + E < 2 ^ w
    · simp only [overflowingAdd_lt hd, Bool.false_eq_true, if_false]
      exact ⟨_, rfl, hd, mod_of_eq_add (Or.inr (Or.inl (by omega)))⟩
    · have hd' : 2 ^ w ≤ a + b - 2 ^ w + E := by omega
      simp only [overflowingAdd_ge hd' (by omega), if_true]
      rw [addC_eq (by omega)]
      exact ⟨_, rfl, by omega, mod_of_eq_add (Or.inr (Or.inr (Or.inr (Or.inr (by omega)))))⟩

theorem subReduceG_eq (hp : p + E = 2 ^ w) (hE : E < p) {a b : Nat} (ha : a < 2 ^ w)
    (hb : b < 2 ^ w) :
    ∃ r, subReduceG w E a b = some r ∧ r < 2 ^ w ∧ (r + b) % p = a % p := by
  unfold subReduceG
  by_cases hc : b ≤ a
  · simp only [overflowingSub_ge ha hc, mul_toNat_false', Option.bind_eq_bind, Option.bind_some,
      overflowingSub_ge (w := w) (a := a - b) (b := 0) (by omega) (by omega), Bool.false_eq_true,
      if_false]
    exact ⟨_, rfl, by omega, by congr 1; omega⟩
  · simp only [overflowingSub_lt (by omega : a < b) hb.le,
      mul_toNat_true' (show E < 2 ^ w by omega), Option.bind_eq_bind, Option.bind_some]
    by_cases hd : E ≤ a + 2 ^ w - b
    · simp only [overflowingSub_ge (w := w) (by omega) hd, Bool.false_eq_true, if_false]
      exact ⟨_, rfl, by omega, mod_of_eq_add (Or.inl (by omega))⟩
    · simp only [overflowingSub_lt (w := w) (a := a + 2 ^ w - b) (b := E) (by omega)
        (by omega), if_true]
      rw [subC_eq (by omega)]
      exact ⟨_, rfl, by omega, mod_of_eq_add (Or.inr (Or.inr (Or.inr (Or.inl (by omega)))))⟩

end generic

section halves
variable {w h E p : Nat}

/-- The relations between the constants: `w = 2h`, `E = 2^h - 1`, `p = 2^w - E`. -/
structure Consts (w h E p : Nat) : Prop where
  hw : 2 ^ w = 2 ^ h * 2 ^ h
  hE : E + 1 = 2 ^ h
  hp : p + E = 2 ^ w
  hh : 4 ≤ 2 ^ h

theorem Consts.p_eq (c : Consts w h E p) : p = 2 ^ h * E + 1 := by
  have := c.hw; have := c.hE; have := c.hp
  nlinarith

theorem Consts.E_lt (c : Consts w h E p) : E < p := by
  have := c.p_eq; have := c.hh; nlinarith

theorem Consts.mul_le (c : Consts w h E p) {l : Nat} (hl : l < 2 ^ h) : l * E + E ≤ p - 1 := by
  have h1 := c.p_eq
  have : l * E + E = (l + 1) * E := by ring
  have : (l + 1) * E ≤ 2 ^ h * E := Nat.mul_le_mul_right _ hl
  omega

theorem reduce96G_eq (c : Consts w h E p) {lo hi : Nat} (hlo : lo < 2 ^ w) (hhi : hi < 2 ^ h) :
    ∃ r, reduce96G w E lo hi = some r ∧ r < 2 ^ w ∧ r % p = (lo + 2 ^ w * hi) % p := by
  have h1 := c.mul_le hhi
  have h2 := c.hp
  have h3 := c.E_lt
  have ht : hi * E < 2 ^ w := by omega
  obtain ⟨r, e, l1, l2⟩ := addNoCanonicalizeG_eq (x := lo) (y := hi * E) c.hp (by omega) (by omega)
  refine ⟨r, (bind_of_eq (mulC_eq ht) _).trans e, l1, ?_⟩
  rw [l2, ← Nat.add_mul_mod_self_right (lo + hi * E) hi p]
  congr 1
  rw [← h2]; ring

theorem reduce128G_eq (c : Consts w h E p) {x : Nat} (hx : x < 2 ^ w * 2 ^ w) :
    ∃ r, reduce128G w h E x = some r ∧ r < 2 ^ w ∧ r % p = x % p := by
  have hlo : x % 2 ^ w < 2 ^ w := Nat.mod_lt _ (Nat.two_pow_pos _)
  have hhi : x / 2 ^ w < 2 ^ w := Nat.div_lt_of_lt_mul hx
  have hdm : x = 2 ^ w * (x / 2 ^ w) + x % 2 ^ w := (Nat.div_add_mod x _).symm
  unfold reduce128G
  simp only [trunc, Nat.mod_eq_of_lt hhi]
  generalize x % 2 ^ w = lo at *
  generalize x / 2 ^ w = hi at *
  have hl : hi &&& E = hi % 2 ^ h := by
    rw [show E = 2 ^ h - 1 by have := c.hE; omega]
    exact Nat.and_two_pow_sub_one_eq_mod hi h
  have hll : hi % 2 ^ h < 2 ^ h := Nat.mod_lt _ (Nat.two_pow_pos _)
  have hhl : hi / 2 ^ h < 2 ^ h := Nat.div_lt_of_lt_mul (by rw [← c.hw]; exact hhi)
  have hdm2 : hi = 2 ^ h * (hi / 2 ^ h) + hi % 2 ^ h := (Nat.div_add_mod hi _).symm
  rw [hl]
  generalize hi % 2 ^ h = l at *
  generalize hi / 2 ^ h = u at *
  have h1 := c.mul_le hll
  have h2 := c.hp
  have h3 := c.E_lt
  have h4 := c.hE
  have ht : l * E < 2 ^ w := by omega
  -- the exact integer relation
  have key : (x : Int) = lo - u + l * E + p * (l + u * 2 ^ h + u) := by
    rw [hdm, hdm2]
    have e1 : ((2 ^ w : Nat) : Int) = 2 ^ h * 2 ^ h := by exact_mod_cast c.hw
    have e2 : (2 ^ h : Int) = E + 1 := by exact_mod_cast h4.symm
    have e3 : (p : Int) + E = 2 ^ h * 2 ^ h := by
      have : ((p + E : Nat) : Int) = ((2 ^ w : Nat) : Int) := by rw [h2]
      rw [e1] at this; push_cast at this; exact this
    rw [e2] at e1 e3
    have e4 : (p : Int) = (E + 1) * (E + 1) - E := by linarith
    push_cast at e1 ⊢
    rw [e1, e2, e4]; ring
  by_cases hb : u ≤ lo
  · simp only [overflowingSub_ge hlo hb, mulC_eq ht, Option.bind_eq_bind, Option.bind_some,
      Bool.false_eq_true, if_false]
    obtain ⟨r, e, l1, l2⟩ := addNoCanonicalizeG_eq c.hp (by omega) (x := lo - u) (y := l * E)
      (by omega)
    refine ⟨r, e, l1, ?_⟩
    rw [l2, ← Nat.add_mul_mod_self_left (lo - u + l * E) p (l + u * 2 ^ h + u)]
    congr 1
    zify [hb]
    rw [key]
  · have hu : u < 2 ^ w := by omega
    have hs : E ≤ lo + 2 ^ w - u := by omega
    simp only [overflowingSub_lt (by omega : lo < u) (by omega : u ≤ 2 ^ w), mulC_eq ht,
      Option.bind_eq_bind, Option.bind_some, if_true, subC_eq hs]
    obtain ⟨r, e, l1, l2⟩ := addNoCanonicalizeG_eq c.hp (by omega) (x := lo + 2 ^ w - u - E)
      (y := l * E) (by omega)
    refine ⟨r, e, l1, ?_⟩
    have hx1 : lo + 2 ^ w - u - E + u = lo + p := by omega
    have hx2 : (((lo + 2 ^ w - u - E : Nat)) : Int) = lo + p - u := by
      have : ((lo + 2 ^ w - u - E + u : Nat) : Int) = ((lo + p : Nat) : Int) := by rw [hx1]
      push_cast at this ⊢; linarith
    rw [l2]
    generalize lo + 2 ^ w - u - E = z at *
    have : z + l * E + p * (l + u * 2 ^ h + u) = x + p := by
      zify
      rw [key, hx2]; ring
    rw [← Nat.add_mod_right x p, ← this, Nat.add_mul_mod_self_left]

end halves

theorem consts : Consts 64 32 EPSILON P := ⟨by decide, by decide, by decide, by decide⟩

theorem addNoCanonicalize_eqG : addNoCanonicalize = addNoCanonicalizeG 64 EPSILON := rfl
theorem reduce96_eqG : reduce96 = reduce96G 64 EPSILON := rfl
theorem reduce128_eqG : reduce128 = reduce128G 64 32 EPSILON := rfl
theorem addReduce_eqG : addReduce = addReduceG 64 EPSILON := rfl
theorem subReduce_eqG : subReduce = subReduceG 64 EPSILON := rfl

theorem reduce96_eq {lo hi : Nat} (hlo : lo < 2 ^ 64) (hhi : hi < 2 ^ 32) :
    ∃ r, reduce96 lo hi = some r ∧ r < 2 ^ 64 ∧ r % P = (lo + 2 ^ 64 * hi) % P := by
  rw [reduce96_eqG]; exact reduce96G_eq consts hlo hhi

theorem reduce128_eq {x : Nat} (hx : x < 2 ^ 128) :
    ∃ r, reduce128 x = some r ∧ r < 2 ^ 64 ∧ r % P = x % P := by
  rw [reduce128_eqG]
  exact reduce128G_eq consts (by rw [← two_pow_two_mul]; exact hx)

theorem addReduce_eq {a b : Nat} (ha : a < 2 ^ 64) (hb : b < 2 ^ 64) :
    ∃ r, addReduce a b = some r ∧ r < 2 ^ 64 ∧ r % P = (a + b) % P := by
  rw [addReduce_eqG]; exact addReduceG_eq consts.hp consts.E_lt ha hb

theorem subReduce_eq {a b : Nat} (ha : a < 2 ^ 64) (hb : b < 2 ^ 64) :
    ∃ r, subReduce a b = some r ∧ r < 2 ^ 64 ∧ (r + b) % P = a % P := by
  rw [subReduce_eqG]; exact subReduceG_eq consts.hp consts.E_lt ha hb

theorem mulReduce_eq {a b : Nat} (ha : a < 2 ^ 64) (hb : b < 2 ^ 64) :
    ∃ r, mulReduce a b = some r ∧ r < 2 ^ 64 ∧ r % P = a * b % P := by
  have h : a * b < 2 ^ 128 := by
    have := mul_lt_sq ha hb
    rw [← two_pow_two_mul] at this; exact this
  obtain ⟨r, e, h1, h2⟩ := reduce128_eq h
  exact ⟨r, (bind_of_eq (mulC_eq h) _).trans e, h1, h2⟩

theorem refines_mul : Refines (fun x => x < 2 ^ 64) (fun x : Nat => (x : ZMod P)) mulReduce := by
  intro a b ha hb
  obtain ⟨r, e, h1, h2⟩ := mulReduce_eq ha hb
  refine ⟨r, e, h1, ?_⟩
  show (r : ZMod P) = (a : ZMod P) * (b : ZMod P)
  rw [← Nat.cast_mul, ZMod.natCast_eq_natCast_iff']; exact h2

theorem expAcc_spec (n : Nat) {a b : Nat} (ha : a < 2 ^ 64) (hb : b < 2 ^ 64) :
    ∃ c, expAcc n a b = some c ∧ c < 2 ^ 64 ∧ (c : ZMod P) = (a : ZMod P) ^ (2 ^ n) * b := by
  obtain ⟨x, e, h1, h2⟩ := sqTimes_spec refines_mul n a ha
  obtain ⟨y, e', h1', h2'⟩ := refines_mul x b h1 hb
  exact ⟨y, (bind_of_eq e _).trans e', h1', h2'.trans (congrArg (· * (b : ZMod P)) h2)⟩

theorem tryInverse_pow {a : Nat} (ha : a < 2 ^ 64) (h0 : a ≠ 0) :
    ∃ c, tryInverse a = some (some c) ∧ c < 2 ^ 64 ∧ (c : ZMod P) = (a : ZMod P) ^ (P - 2) := by
  obtain ⟨x1, e1, l1, d1⟩ := refines_mul a a ha ha
  obtain ⟨x2, e2, l2, d2⟩ := refines_mul x1 a l1 ha
  obtain ⟨x3, e3, l3, d3⟩ := refines_mul x2 x2 l2 l2
  obtain ⟨x4, e4, l4, d4⟩ := refines_mul x3 a l3 ha
  obtain ⟨x5, e5, l5, d5⟩ := expAcc_spec 3 l4 l4
  obtain ⟨x6, e6, l6, d6⟩ := expAcc_spec 6 l5 l5
  obtain ⟨x7, e7, l7, d7⟩ := expAcc_spec 12 l6 l6
  obtain ⟨x8, e8, l8, d8⟩ := expAcc_spec 6 l7 l5
  obtain ⟨x9, e9, l9, d9⟩ := refines_mul x8 x8 l8 l8
  obtain ⟨x10, e10, l10, d10⟩ := refines_mul x9 a l9 ha
  obtain ⟨x11, e11, l11, d11⟩ := expAcc_spec 32 l10 l10
  obtain ⟨x12, e12, l12, d12⟩ := refines_mul x11 x11 l11 l11
  obtain ⟨x13, e13, l13, d13⟩ := refines_mul x12 a l12 ha
  refine ⟨x13, ?_, l13, ?_⟩
  · simp only [tryInverse, if_neg h0, e1, e2, e3, e4, e5, e6, e7, e8, e9, e10, e11, e12, e13,
      Option.bind_eq_bind, Option.bind_some]
    rfl
  · simp only at d1 d2 d3 d4 d9 d10 d12 d13
    rw [d13, d12, d11, d10, d9, d8, d7, d6, d5, d4, d3, d2, d1]
    simp only [← pow_mul, ← pow_add, ← pow_succ, ← pow_two]
    exact congrArg ((a : ZMod P) ^ ·) (by decide)

theorem dot_foldG {p : Nat} {ok : Nat → Prop} {mul add : Nat → Nat → Option Nat}
    (hmul : ∀ a b, ok a → ok b → ∃ r, mul a b = some r ∧ ok r ∧ r % p = a * b % p)
    (hadd : ∀ a b, ok a → ok b → ∃ r, add a b = some r ∧ ok r ∧ r % p = (a + b) % p) :
    ∀ (a b : List Nat) (acc : Nat), a.length = b.length →
    (∀ x ∈ a, ok x) → (∀ x ∈ b, ok x) → ok acc →
    ∃ c, (a.zip b).foldlM (fun acc xy => do
      let p ← mul xy.1 xy.2
      add p acc) acc = some c ∧ ok c ∧ c % p = (dot a b + acc) % p
  | [], [], acc, _, _, _, h => ⟨acc, rfl, h, by simp [dot]⟩
  | x :: a, y :: b, acc, hl, ha, hb, h => by
    obtain ⟨q, e1, l1, d1⟩ := hmul x y (ha x (by simp)) (hb y (by simp))
    obtain ⟨s, e2, l2, d2⟩ := hadd q acc l1 h
    obtain ⟨c, e3, l3, d3⟩ := dot_foldG hmul hadd a b s (by simpa using hl)
      (fun z hz => ha z (by simp [hz])) (fun z hz => hb z (by simp [hz])) l2
    refine ⟨c, ?_, l3, ?_⟩
    · simp only [List.zip_cons_cons, List.foldlM_cons, e1, e2, Option.bind_eq_bind,
        Option.bind_some]
      exact e3
    · rw [d3, Nat.add_mod, d2, ← Nat.add_mod, Nat.add_comm q, ← Nat.add_assoc, Nat.add_mod, d1,
        ← Nat.add_mod]
      congr 1
      simp only [dot]; omega

end Goldilocks
end Verif
