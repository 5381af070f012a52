import Verif.Lemmas.NTT
import Mathlib.Algebra.BigOperators.Intervals

/-! # The transform as evaluation at odd powers of the root -/

namespace Verif.Ntt
open Props Finset

theorem reverseBits_double (k c : Nat) : reverseBits (k + 1) (2 * c) = reverseBits k c := by
  simp [reverseBits]

theorem reverseBits_double_add_one (k c : Nat) :
    reverseBits (k + 1) (2 * c + 1) = 2 ^ k + reverseBits k c := by
  rw [reverseBits, show (2 * c + 1) % 2 = 1 by omega, show (2 * c + 1) / 2 = c by omega, one_mul]

theorem reverseBits_zero (k : Nat) : reverseBits k 0 = 0 := by
  induction k with
  | zero => rfl
  | succ k ih => simp [reverseBits, ih]

theorem reverseBits_ones (k : Nat) : reverseBits k (2 ^ k - 1) = 2 ^ k - 1 := by
  induction k with
  | zero => rfl
  | succ k ih =>
    have := Nat.two_pow_pos k
    rw [show 2 ^ (k + 1) - 1 = 2 * (2 ^ k - 1) + 1 by rw [pow_succ]; omega,
      reverseBits_double_add_one, ih]
    omega

/-- The exponent of the forward root of chunk `c` in layer `l`. -/
theorem reverseBits_root : ∀ (l k c : Nat), l < k → c < 2 ^ l →
    reverseBits k (2 ^ l + c) = 2 ^ (k - 1 - l) * (2 * reverseBits l c + 1) := by
  intro l
  induction l with
  | zero =>
    intro k c hk hc
    have : c = 0 := by simpa using hc
    subst this
    obtain ⟨k, rfl⟩ : ∃ j, k = j + 1 := ⟨k - 1, by omega⟩
    simp [reverseBits_zero, reverseBits]
  | succ l ih =>
    intro k c hk hc
    obtain ⟨k, rfl⟩ : ∃ j, k = j + 1 := ⟨k - 1, by omega⟩
    have e : k + 1 - 1 - (l + 1) = k - 1 - l := by omega
    have e2 : 2 ^ k = 2 ^ (k - 1 - l) * (2 * 2 ^ l) := by
      rw [← pow_succ', ← pow_add]; congr 1; omega
    rcases Nat.even_or_odd' c with ⟨d, rfl | rfl⟩
    · rw [show 2 ^ (l + 1) + 2 * d = 2 * (2 ^ l + d) by ring, reverseBits_double,
        reverseBits_double, ih k d (by omega) (by rw [pow_succ] at hc; omega), e]
    · rw [show 2 ^ (l + 1) + (2 * d + 1) = 2 * (2 ^ l + d) + 1 by ring,
        reverseBits_double_add_one, reverseBits_double_add_one,
        ih k d (by omega) (by rw [pow_succ] at hc; omega), e, e2]
      ring

/-- The exponent of the inverse root of chunk `c` in layer `l`. -/
theorem reverseBits_inv_root : ∀ (l k c : Nat), l < k → c < 2 ^ l →
    reverseBits k (2 ^ k - 2 ^ (l + 1) + c) + 1 = 2 ^ (k - 1 - l) * (2 * reverseBits l c + 1) := by
  intro l
  induction l with
  | zero =>
    intro k c hk hc
    have : c = 0 := by simpa using hc
    subst this
    obtain ⟨k, rfl⟩ : ∃ j, k = j + 1 := ⟨k - 1, by omega⟩
    have := Nat.two_pow_pos k
    rw [show 2 ^ (k + 1) - 2 ^ (0 + 1) + 0 = 2 * (2 ^ k - 1) by rw [pow_succ]; omega,
      reverseBits_double, reverseBits_ones]
    simp [reverseBits]; omega
  | succ l ih =>
    intro k c hk hc
    obtain ⟨k, rfl⟩ : ∃ j, k = j + 1 := ⟨k - 1, by omega⟩
    have e : k + 1 - 1 - (l + 1) = k - 1 - l := by omega
    have e2 : 2 ^ k = 2 ^ (k - 1 - l) * (2 * 2 ^ l) := by
      rw [← pow_succ', ← pow_add]; congr 1; omega
    have hle : 2 ^ (l + 1) ≤ 2 ^ k := Nat.pow_le_pow_right (by omega) (by omega)
    rcases Nat.even_or_odd' c with ⟨d, rfl | rfl⟩
    · rw [show 2 ^ (k + 1) - 2 ^ (l + 1 + 1) + 2 * d = 2 * (2 ^ k - 2 ^ (l + 1) + d) by
          rw [pow_succ 2 k, pow_succ 2 (l + 1)]; omega, reverseBits_double,
        reverseBits_double, ih k d (by omega) (by rw [pow_succ] at hc; omega), e]
    · rw [show 2 ^ (k + 1) - 2 ^ (l + 1 + 1) + (2 * d + 1) = 2 * (2 ^ k - 2 ^ (l + 1) + d) + 1 by
          rw [pow_succ 2 k, pow_succ 2 (l + 1)]; omega,
        reverseBits_double_add_one, reverseBits_double_add_one, add_assoc,
        ih k d (by omega) (by rw [pow_succ] at hc; omega), e, e2]
      ring

theorem sum_even_odd {R : Type} [CommRing R] (f : Nat → R) (N : Nat) :
    ∑ m ∈ range (2 * N), f m = ∑ m ∈ range N, f (2 * m) + ∑ m ∈ range N, f (2 * m + 1) := by
  induction N with
  | zero => simp
  | succ N ih =>
    rw [show 2 * (N + 1) = 2 * N + 1 + 1 by ring, sum_range_succ, sum_range_succ, ih,
      sum_range_succ, sum_range_succ]
    ring

variable {q : Nat}

/-- The root exponentiated for layer `l`, chunk `c`: the chunk is reduced modulo `X^g - th`. -/
def th (ψ : ZMod q) (k l c : Nat) : ZMod q := ψ ^ (2 ^ (k - l) * (2 * reverseBits l c + 1))

/-- The coefficient of `X^i` of the polynomial with coefficients `a`, modulo `X^(2^(k-l)) - th`. -/
def chunkCoeff (ψ : ZMod q) (a : Nat → ZMod q) (k l c i : Nat) : ZMod q :=
  ∑ m ∈ range (2 ^ l), a (i + m * 2 ^ (k - l)) * th ψ k l c ^ m

theorem th_even (ψ : ZMod q) (k l c : Nat) :
    th ψ k (l + 1) (2 * c) = ψ ^ (2 ^ (k - 1 - l) * (2 * reverseBits l c + 1)) := by
  unfold th
  rw [reverseBits_double, show k - (l + 1) = k - 1 - l by omega]

theorem th_odd (ψ : ZMod q) (k l c : Nat) (hl : l < k) (hψ : ψ ^ 2 ^ k = -1) :
    th ψ k (l + 1) (2 * c + 1) = -ψ ^ (2 ^ (k - 1 - l) * (2 * reverseBits l c + 1)) := by
  unfold th
  rw [reverseBits_double_add_one, show k - (l + 1) = k - 1 - l by omega]
  have : 2 ^ (k - 1 - l) * (2 * (2 ^ l + reverseBits l c) + 1)
      = 2 ^ k + 2 ^ (k - 1 - l) * (2 * reverseBits l c + 1) := by
    have e2 : 2 ^ k = 2 ^ (k - 1 - l) * (2 * 2 ^ l) := by
      rw [← pow_succ', ← pow_add]; congr 1; omega
    rw [e2]; ring
  rw [this, pow_add, hψ]; ring

theorem th_sq (ψ : ZMod q) (k l c : Nat) (hl : l < k) :
    th ψ k l c = (ψ ^ (2 ^ (k - 1 - l) * (2 * reverseBits l c + 1))) ^ 2 := by
  unfold th
  rw [← pow_mul]
  congr 1
  rw [show k - l = (k - 1 - l) + 1 by omega, pow_succ]; ring

theorem chunk_split (ψ : ZMod q) (a : Nat → ZMod q) (k l c c' i : Nat) (hl : l < k)
    (r : ZMod q) (hr : th ψ k (l + 1) c' = r) (hr2 : th ψ k l c = r ^ 2) :
    chunkCoeff ψ a k (l + 1) c' i =
      chunkCoeff ψ a k l c i + r * chunkCoeff ψ a k l c (2 ^ (k - 1 - l) + i) := by
  unfold chunkCoeff
  rw [hr, hr2, pow_succ, Nat.mul_comm, sum_even_odd, mul_sum, show k - (l + 1) = k - 1 - l by omega,
    show 2 ^ (k - l) = 2 * 2 ^ (k - 1 - l) by rw [← pow_succ']; congr 1; omega]
  congr 1
  · apply sum_congr rfl
    intro m _
    rw [pow_mul]
    congr 2; ring
  · apply sum_congr rfl
    intro m _
    rw [pow_succ, pow_mul, show i + (2 * m + 1) * 2 ^ (k - 1 - l)
      = 2 ^ (k - 1 - l) + i + m * (2 * 2 ^ (k - 1 - l)) by ring]
    ring

theorem chunk_even (ψ : ZMod q) (a : Nat → ZMod q) (k l c i : Nat) (hl : l < k) :
    chunkCoeff ψ a k (l + 1) (2 * c) i = chunkCoeff ψ a k l c i +
      ψ ^ (2 ^ (k - 1 - l) * (2 * reverseBits l c + 1)) *
        chunkCoeff ψ a k l c (2 ^ (k - 1 - l) + i) :=
  chunk_split ψ a k l c _ i hl _ (th_even ψ k l c) (th_sq ψ k l c hl)

theorem chunk_odd (ψ : ZMod q) (a : Nat → ZMod q) (k l c i : Nat) (hl : l < k)
    (hψ : ψ ^ 2 ^ k = -1) :
    chunkCoeff ψ a k (l + 1) (2 * c + 1) i = chunkCoeff ψ a k l c i -
      ψ ^ (2 ^ (k - 1 - l) * (2 * reverseBits l c + 1)) *
        chunkCoeff ψ a k l c (2 ^ (k - 1 - l) + i) := by
  rw [chunk_split ψ a k l c _ i hl _ (th_odd ψ k l c hl hψ)
    (by rw [th_sq ψ k l c hl, neg_sq])]
  ring

theorem chunk_zero (ψ : ZMod q) (a : Nat → ZMod q) (k i : Nat) :
    chunkCoeff ψ a k 0 0 i = a i := by
  simp [chunkCoeff]

theorem chunk_full (ψ : ZMod q) (a : Nat → ZMod q) (k c : Nat) :
    chunkCoeff ψ a k k c 0 = ∑ m ∈ range (2 ^ k), a m * (ψ ^ (2 * reverseBits k c + 1)) ^ m := by
  simp [chunkCoeff, th]

/-- A prepared table for the root `ψ`. -/
structure IsTable (w : Nat) (M : Barrett) (t : NTTTable) (ψ : ZMod M.value) (k : Nat) : Prop where
  logN : t.logN = k
  n : t.n = 2 ^ k
  k_lt : k < 63
  rev : t.rev = (List.range (2 ^ k)).map (reverseBits k)
  ord_len : t.ordinal.length = 2 * 2 ^ k
  ord : ∀ i, i < 2 * 2 ^ k → IsFac w M.value (t.ordinal.getD i defaultRoot) (ψ ^ i)
  rp_len : t.rootPowers.length = 2 ^ k
  rp : ∀ c, c < 2 ^ k → IsFac w M.value (t.rootPowers.getD c defaultRoot) (ψ ^ reverseBits k c)
  irp_len : t.invRootPowers.length = 2 ^ k
  irp : ∀ x, x + 1 < 2 ^ k →
    IsFac w M.value (t.invRootPowers.getD (x + 1) defaultRoot) (ψ ^ (2 * 2 ^ k - (reverseBits k x + 1)))
  deg : ∃ d, IsFac w M.value t.invDegree d ∧ d * (2 ^ k : Nat) = 1
  neg_one : ψ ^ 2 ^ k = -1

/-- The values hold the chunk coefficients of layer `l`, scaled by `s`. -/
def Holds (ψ : ZMod q) (a : Nat → ZMod q) (k l : Nat) (s : ZMod q) (v : List Nat) : Prop :=
  ∀ c i, c < 2 ^ l → i < 2 ^ (k - l) →
    ((v.getD (c * 2 ^ (k - l) + i) 0 : Nat) : ZMod q) = s * chunkCoeff ψ a k l c i

theorem shlC_one {x : Nat} (h : x < 64) : shlC 64 1 x = some (2 ^ x) := by
  unfold shlC
  rw [if_pos h, one_mul, Nat.mod_eq_of_lt (Nat.pow_lt_pow_right (by omega) h)]

theorem fwdLoop_spec {w : Nat} {M : Barrett} {t : NTTTable} {ψ : ZMod M.value} {k : Nat}
    (T : IsTable w M t ψ k) (h0 : 0 < M.value) (hq : 4 * M.value < 2 ^ w) (a : Nat → ZMod M.value) :
    ∀ (x l : Nat) (vals : List Nat), x + l = k → vals.length = 2 ^ k →
      (∀ v ∈ vals, v < 4 * M.value) → Holds ψ a k l 1 vals →
      ∃ out, fwdLoop w M.value x (t.rootPowers.drop (2 ^ l)) vals
          = some (t.rootPowers.drop (2 ^ k), out) ∧
        out.length = 2 ^ k ∧ (∀ v ∈ out, v < 4 * M.value) ∧ Holds ψ a k k 1 out := by
  intro x
  induction x with
  | zero =>
    intro l vals hx hl hv hH
    have : l = k := by omega
    subst this
    exact ⟨vals, rfl, hl, hv, hH⟩
  | succ x ih =>
    intro l vals hx hl hv hH
    have hk : 2 ^ k = 2 ^ l * (2 * 2 ^ x) := by
      rw [← pow_succ', ← pow_add]; congr 1; omega
    have ex : k - 1 - l = x := by omega
    have ekl : k - l = x + 1 := by omega
    obtain ⟨out, e, lo, ho, hR⟩ := layer_spec (fwdButterfly_spec h0 hq) (2 ^ x) (2 ^ l)
      (t.rootPowers.drop (2 ^ l)) vals (fun c => ψ ^ (2 ^ x * (2 * reverseBits l c + 1)))
      (by
        rw [List.length_drop, T.rp_len]
        have : 2 ^ (l + 1) ≤ 2 ^ k := Nat.pow_le_pow_right (by omega) (by omega)
        rw [pow_succ] at this; omega)
      (by
        intro c hc
        have hlt : 2 ^ l + c < 2 ^ k := by
          have : 2 ^ (l + 1) ≤ 2 ^ k := Nat.pow_le_pow_right (by omega) (by omega)
          rw [pow_succ] at this; omega
        have := T.rp (2 ^ l + c) hlt
        rw [reverseBits_root l k c (by omega) hc, ex] at this
        rw [getD_drop]; exact this)
      (by rw [hl, hk]) hv
    have hdrop : (t.rootPowers.drop (2 ^ l)).drop (2 ^ l) = t.rootPowers.drop (2 ^ (l + 1)) := by
      rw [List.drop_drop]; congr 1; rw [pow_succ]; omega
    have hH' : Holds ψ a k (l + 1) 1 out := by
      intro c' i hc' hi
      rw [show k - (l + 1) = x by omega] at hi ⊢
      rw [pow_succ] at hc'
      have hpos : 2 ^ (x + 1) = 2 * 2 ^ x := pow_succ' 2 x
      rcases Nat.even_or_odd' c' with ⟨c, rfl | rfl⟩
      · have r := (hR c i (by omega) hi).1
        have h1 := hH c i (by omega) (by rw [ekl]; omega)
        have h2 := hH c (2 ^ x + i) (by omega) (by rw [ekl]; omega)
        rw [ekl, hpos] at h1 h2
        rw [show 2 * c * 2 ^ x + i = c * (2 * 2 ^ x) + i by ring, r, h1, ← ex,
          chunk_even ψ a k l c i (by omega), ex,
          show c * (2 * 2 ^ x) + 2 ^ x + i = c * (2 * 2 ^ x) + (2 ^ x + i) by ring, h2]
        ring
      · have r := (hR c i (by omega) hi).2
        have h1 := hH c i (by omega) (by rw [ekl]; omega)
        have h2 := hH c (2 ^ x + i) (by omega) (by rw [ekl]; omega)
        rw [ekl, hpos] at h1 h2
        rw [show (2 * c + 1) * 2 ^ x + i = c * (2 * 2 ^ x) + 2 ^ x + i by ring, r, h1, ← ex,
          chunk_odd ψ a k l c i (by omega) T.neg_one, ex,
          show c * (2 * 2 ^ x) + 2 ^ x + i = c * (2 * 2 ^ x) + (2 ^ x + i) by ring, h2]
        ring
    obtain ⟨out', e', lo', ho', hH''⟩ := ih (l + 1) out (by omega) (by omega) ho hH'
    refine ⟨out', ?_, lo', ho', hH''⟩
    unfold fwdLoop
    have hx64 : x < 64 := by have := T.k_lt; omega
    have hcnt : vals.length / (2 ^ x * 2) = 2 ^ l := by
      rw [hl, hk, Nat.mul_comm (2 ^ x) 2]
      exact Nat.mul_div_cancel _ (by positivity)
    rw [mbind (shlC_one hx64), hcnt, mbind e, hdrop]
    exact e'

/-- Mapping a word operation that always succeeds. -/
theorem mapM_spec {f : Nat → Option Nat} {P : Nat → Prop} {R : Nat → Nat → Prop}
    (hf : ∀ a, P a → ∃ r, f a = some r ∧ R a r) :
    ∀ l : List Nat, (∀ a ∈ l, P a) → ∃ out, l.mapM f = some out ∧ out.length = l.length ∧
      ∀ i, i < l.length → R (l.getD i 0) (out.getD i 0)
  | [], _ => ⟨[], rfl, rfl, by simp⟩
  | a :: l, h => by
    obtain ⟨r, e, hr⟩ := hf a (h a (by simp))
    obtain ⟨out, e', ho, hR⟩ := mapM_spec hf l (fun x hx => h x (by simp [hx]))
    refine ⟨r :: out, by simp [List.mapM_cons, e, e'], by simp [ho], ?_⟩
    intro i hi
    cases i with
    | zero => simpa using hr
    | succ i => simpa using hR i (by simpa using hi)

theorem transform_spec {w : Nat} {M : Barrett} {t : NTTTable} {ψ : ZMod M.value} {k : Nat}
    (T : IsTable w M t ψ k) (h0 : 0 < M.value) (hq : 4 * M.value < 2 ^ w) (vals : List Nat)
    (hl : vals.length = 2 ^ k) (hv : ∀ v ∈ vals, v < 4 * M.value) :
    ∃ out, transform w M t vals = some out ∧ out.length = 2 ^ k ∧
      ∀ c, c < 2 ^ k → out.getD c 0 < M.value ∧
        ((out.getD c 0 : Nat) : ZMod M.value) =
          ∑ m ∈ range (2 ^ k), ((vals.getD m 0 : Nat) : ZMod M.value)
            * (ψ ^ (2 * reverseBits k c + 1)) ^ m := by
  obtain ⟨o1, e1, l1, b1, H1⟩ := fwdLoop_spec T h0 hq (fun m => ((vals.getD m 0 : Nat) : ZMod M.value))
    k 0 vals (by omega) hl hv (by
      intro c i hc hi
      have : c = 0 := by simpa using hc
      subst this
      rw [chunk_zero]; simp)
  obtain ⟨o2, e2, l2, r2⟩ := mapM_spec (f := normalize w M.value)
    (R := fun a r => r < M.value ∧ (r : ZMod M.value) = a) (fun a ha => normalize_spec h0 hq ha) o1 b1
  refine ⟨o2, ?_, by omega, ?_⟩
  · unfold transform
    rw [mbind (shlC_one (by rw [T.logN]; have := T.k_lt; omega)), T.logN,
      if_neg (by rw [hl, T.rp_len]; have := Nat.two_pow_pos k; omega)]
    rw [show 2 ^ 0 = 1 from rfl] at e1
    rw [mbind e1]
    exact e2
  · intro c hc
    obtain ⟨a1, a2⟩ := r2 c (by omega)
    refine ⟨a1, ?_⟩
    have := H1 c 0 hc (by simp)
    rw [chunk_full] at this
    rw [a2, ← one_mul (∑ m ∈ _, _), ← this]
    simp

theorem inv_root_mul {ψ : ZMod q} {k e : Nat} (hψ : ψ ^ 2 ^ k = -1) (he : e ≤ 2 * 2 ^ k) :
    ψ ^ (2 * 2 ^ k - e) * ψ ^ e = 1 := by
  rw [← pow_add, Nat.sub_add_cancel he, Nat.mul_comm, pow_mul, hψ]; ring

theorem root_exp_le {k l c : Nat} (hl : l < k) :
    2 ^ (k - 1 - l) * (2 * reverseBits l c + 1) ≤ 2 * 2 ^ k := by
  have h1 : reverseBits l c < 2 ^ l := reverseBits_lt l c
  have e2 : 2 ^ k = 2 ^ (k - 1 - l) * (2 * 2 ^ l) := by
    rw [← pow_succ', ← pow_add]; congr 1; omega
  calc 2 ^ (k - 1 - l) * (2 * reverseBits l c + 1) ≤ 2 ^ (k - 1 - l) * (2 * 2 ^ l) :=
        Nat.mul_le_mul_left _ (by omega)
    _ ≤ 2 * 2 ^ k := by rw [← e2]; omega

theorem inv_fac {w : Nat} {M : Barrett} {t : NTTTable} {ψ : ZMod M.value} {k : Nat}
    (T : IsTable w M t ψ k) {l c : Nat} (hl : l < k) (hc : c < 2 ^ l) :
    IsFac w M.value (t.invRootPowers.getD (1 + (2 ^ k - 2 ^ (l + 1)) + c) defaultRoot)
      (ψ ^ (2 * 2 ^ k - 2 ^ (k - 1 - l) * (2 * reverseBits l c + 1))) := by
  have hle : 2 ^ (l + 1) ≤ 2 ^ k := Nat.pow_le_pow_right (by omega) (by omega)
  have hps : 2 ^ (l + 1) = 2 * 2 ^ l := pow_succ' 2 l
  have := T.irp (2 ^ k - 2 ^ (l + 1) + c) (by omega)
  rw [reverseBits_inv_root l k c hl hc] at this
  rw [show 1 + (2 ^ k - 2 ^ (l + 1)) + c = 2 ^ k - 2 ^ (l + 1) + c + 1 by omega]
  exact this

theorem invLoop_spec {w : Nat} {M : Barrett} {t : NTTTable} {ψ : ZMod M.value} {k : Nat}
    (T : IsTable w M t ψ k) (h0 : 0 < M.value) (hq : 4 * M.value < 2 ^ w) (a : Nat → ZMod M.value) :
    ∀ (r x : Nat) (vals : List Nat), x + r + 1 = k → vals.length = 2 ^ k →
      (∀ v ∈ vals, v < 2 * M.value) → Holds ψ a k (r + 1) (2 ^ x) vals →
      ∃ out, invLoop w M.value x r (t.invRootPowers.drop (1 + (2 ^ k - 2 ^ (r + 1)))) vals
          = some (t.invRootPowers.drop (1 + (2 ^ k - 2 ^ 1)), out) ∧
        out.length = 2 ^ k ∧ (∀ v ∈ out, v < 2 * M.value) ∧ Holds ψ a k 1 (2 ^ (k - 1)) out := by
  intro r
  induction r with
  | zero =>
    intro x vals hx hl hv hH
    refine ⟨vals, rfl, hl, hv, ?_⟩
    rw [show k - 1 = x by omega]; exact hH
  | succ r ih =>
    intro x vals hx hl hv hH
    have hk : 2 ^ k = 2 ^ (r + 1) * (2 * 2 ^ x) := by
      rw [← pow_succ', ← pow_add]; congr 1; omega
    have ex : k - 1 - (r + 1) = x := by omega
    have ekl : k - (r + 1) = x + 1 := by omega
    have hle : 2 ^ (r + 1 + 1) ≤ 2 ^ k := Nat.pow_le_pow_right (by omega) (by omega)
    have hps : 2 ^ (r + 1 + 1) = 2 * 2 ^ (r + 1) := pow_succ' 2 (r + 1)
    obtain ⟨out, e, lo, ho, hR⟩ := layer_spec (invButterfly_spec h0 hq) (2 ^ x) (2 ^ (r + 1))
      (t.invRootPowers.drop (1 + (2 ^ k - 2 ^ (r + 1 + 1)))) vals
      (fun c => ψ ^ (2 * 2 ^ k - 2 ^ x * (2 * reverseBits (r + 1) c + 1)))
      (by
        rw [List.length_drop, T.irp_len]
        have := Nat.two_pow_pos (r + 1); omega)
      (by
        intro c hc
        rw [getD_drop]
        have := inv_fac T (l := r + 1) (by omega) hc
        rw [ex] at this
        exact this)
      (by rw [hl, hk]) hv
    have hdrop : (t.invRootPowers.drop (1 + (2 ^ k - 2 ^ (r + 1 + 1)))).drop (2 ^ (r + 1))
        = t.invRootPowers.drop (1 + (2 ^ k - 2 ^ (r + 1))) := by
      rw [List.drop_drop]; congr 1; omega
    have hH' : Holds ψ a k (r + 1) (2 ^ (x + 1)) out := by
      intro c i hc hi
      rw [ekl] at hi ⊢
      have hpos : 2 ^ (x + 1) = 2 * 2 ^ x := pow_succ' 2 x
      have hcast : ((2 : ZMod M.value) ^ (x + 1)) = 2 ^ x * 2 := pow_succ 2 x
      have key : ∀ j, j < 2 ^ x →
          ((vals.getD (c * (2 * 2 ^ x) + j) 0 : Nat) : ZMod M.value)
            = 2 ^ x * chunkCoeff ψ a k (r + 1 + 1) (2 * c) j ∧
          ((vals.getD (c * (2 * 2 ^ x) + 2 ^ x + j) 0 : Nat) : ZMod M.value)
            = 2 ^ x * chunkCoeff ψ a k (r + 1 + 1) (2 * c + 1) j := by
        intro j hj
        have h1 := hH (2 * c) j (by omega) (by rw [show k - (r + 1 + 1) = x by omega]; exact hj)
        have h2 := hH (2 * c + 1) j (by omega) (by rw [show k - (r + 1 + 1) = x by omega]; exact hj)
        rw [show k - (r + 1 + 1) = x by omega] at h1 h2
        constructor
        · rw [← h1]; congr 3; ring
        · rw [← h2]; congr 3; ring
      by_cases hi2 : i < 2 ^ x
      · obtain ⟨k1, k2⟩ := key i hi2
        have rr := (hR c i hc hi2).1
        rw [hpos, rr, k1, k2, chunk_even ψ a k _ c i (by omega),
          chunk_odd ψ a k _ c i (by omega) T.neg_one, hcast]
        ring
      · obtain ⟨j, rfl⟩ : ∃ j, i = 2 ^ x + j := ⟨i - 2 ^ x, by omega⟩
        obtain ⟨k1, k2⟩ := key j (by omega)
        have rr := (hR c j hc (by omega)).2
        have hinv := inv_root_mul (ψ := ψ) (e := 2 ^ x * (2 * reverseBits (r + 1) c + 1)) T.neg_one
          (by rw [← ex]; exact root_exp_le (by omega))
        rw [hpos, show c * (2 * 2 ^ x) + (2 ^ x + j) = c * (2 * 2 ^ x) + 2 ^ x + j by ring, rr, k1, k2,
          chunk_even ψ a k _ c j (by omega), chunk_odd ψ a k _ c j (by omega) T.neg_one, ex, hcast]
        linear_combination (2 * 2 ^ x * chunkCoeff ψ a k (r + 1) c (2 ^ x + j)) * hinv
    obtain ⟨out', e', lo', ho', hH''⟩ := ih (x + 1) out (by omega) (by omega) ho hH'
    refine ⟨out', ?_, lo', ho', hH''⟩
    unfold invLoop
    have hx64 : x < 64 := by have := T.k_lt; omega
    have hcnt : vals.length / (2 ^ x * 2) = 2 ^ (r + 1) := by
      rw [hl, hk, Nat.mul_comm (2 ^ x) 2]
      exact Nat.mul_div_cancel _ (by positivity)
    rw [mbind (shlC_one hx64), hcnt, mbind e, hdrop]
    exact e'

/-- The inverse transform of the evaluations of `a` are the coefficients of `a`. -/
theorem inverse_spec {w : Nat} {M : Barrett} {t : NTTTable} {ψ : ZMod M.value} {k : Nat}
    (T : IsTable w M t ψ k) (h0 : 0 < M.value) (hq : 4 * M.value < 2 ^ w) (hk : 0 < k)
    (vals : List Nat) (hl : vals.length = 2 ^ k) (hv : ∀ v ∈ vals, v < 2 * M.value)
    (a : Nat → ZMod M.value)
    (ha : ∀ c, c < 2 ^ k → ((vals.getD c 0 : Nat) : ZMod M.value) =
      ∑ m ∈ range (2 ^ k), a m * (ψ ^ (2 * reverseBits k c + 1)) ^ m) :
    ∃ out, inverse w M t vals = some out ∧ out.length = 2 ^ k ∧
      ∀ i, i < 2 ^ k → out.getD i 0 < M.value ∧ ((out.getD i 0 : Nat) : ZMod M.value) = a i := by
  have hk63 := T.k_lt
  obtain ⟨k', rfl⟩ : ∃ j, k = j + 1 := ⟨k - 1, by omega⟩
  obtain ⟨o1, e1, l1, b1, H1⟩ := invLoop_spec T h0 hq a k' 0 vals (by omega) hl hv (by
    intro c i hc hi
    have : i = 0 := by simpa using hi
    subst this
    rw [chunk_full, ← ha c hc]; simp)
  simp only [Nat.add_sub_cancel, Nat.sub_self, Nat.add_zero] at e1 H1
  have hps : 2 ^ (k' + 1) = 2 * 2 ^ k' := pow_succ' 2 k'
  have hpp := Nat.two_pow_pos k'
  obtain ⟨d, hd, hd1⟩ := T.deg
  have hf := inv_fac T (l := 0) (c := 0) (by omega) (by simp)
  simp only [Nat.zero_add, Nat.add_zero] at hf
  have hlt : 1 + (2 ^ (k' + 1) - 2 ^ 1) < t.invRootPowers.length := by rw [T.irp_len]; omega
  obtain ⟨sr, es, hs, cs⟩ := mulRoot_spec (a := (t.invRootPowers.getD
    (1 + (2 ^ (k' + 1) - 2 ^ 1)) defaultRoot).value) (by omega) hd (by have := hf.lt; omega)
  obtain ⟨sf, esf⟩ := exists_fac (w := w) hs
  have hsf := IsFac.of_new esf
  obtain ⟨as, bs, ez, la, lb, oa, ob, hR⟩ := zipButterfly_spec
    (lastButterfly_spec h0 hq _ _ _ _ hd hsf)
    (o1.take (2 ^ k')) (o1.drop (2 ^ k')) (by simp; omega)
    (fun x hx => b1 x (List.mem_of_mem_take hx)) (fun x hx => b1 x (List.mem_of_mem_drop hx))
  have la' : as.length = 2 ^ k' := by rw [la]; simp; omega
  have lb' : bs.length = 2 ^ k' := by rw [lb]; simp; omega
  obtain ⟨o2, e2, l2, r2⟩ := mapM_spec (f := invNormalize M.value)
    (R := fun a r => r < M.value ∧ (r : ZMod M.value) = a) (fun a ha => invNormalize_spec ha)
    (as ++ bs) (by
      intro x hx
      rcases List.mem_append.1 hx with h | h
      exacts [oa x h, ob x h])
  refine ⟨o2, ?_, by rw [l2, List.length_append]; omega, ?_⟩
  · unfold inverse
    have hhead : (t.invRootPowers.drop (1 + (2 ^ (k' + 1) - 2 ^ 1))).head?
        = some (t.invRootPowers.getD (1 + (2 ^ (k' + 1) - 2 ^ 1)) defaultRoot) := by
      rw [List.head?_drop, List.getD_eq_getElem _ _ hlt, List.getElem?_eq_getElem hlt]
    rw [mbind (shlC_one (by rw [T.logN]; omega)), T.logN,
      if_neg (by rw [hl, T.irp_len]; omega), mbind (subC_eq (by omega)), Nat.add_sub_cancel]
    rw [mbind e1]
    dsimp only
    rw [mbind (shlC_one (show k' < 64 by omega)), mbind hhead]
    unfold Fp.fromRoot
    rw [mbind es]
    unfold Fp.toRoot
    rw [mbind esf, mbind ez]
    exact e2
  · intro i hi
    obtain ⟨a1, a2⟩ := r2 i (by rw [List.length_append]; omega)
    refine ⟨a1, ?_⟩
    rw [a2]
    have hd2 : d * (2 ^ (k' + 1) : ZMod M.value) = 1 := by rw [← hd1]; push_cast; ring
    have hp2 : (2 : ZMod M.value) ^ (k' + 1) = 2 * 2 ^ k' := pow_succ' _ _
    have key : ∀ j, j < 2 ^ k' →
        ((o1.getD j 0 : Nat) : ZMod M.value) = 2 ^ k' * chunkCoeff ψ a (k' + 1) (0 + 1) (2 * 0) j ∧
        ((o1.getD (2 ^ k' + j) 0 : Nat) : ZMod M.value)
          = 2 ^ k' * chunkCoeff ψ a (k' + 1) (0 + 1) (2 * 0 + 1) j := by
      intro j hj
      have h1 := H1 0 j (by simp) hj
      have h2 := H1 1 j (by simp) hj
      simp only [Nat.zero_mul, Nat.zero_add, Nat.one_mul] at h1 h2
      exact ⟨h1, h2⟩
    have e1' : k' + 1 - 1 - 0 = k' := by omega
    by_cases hi2 : i < 2 ^ k'
    · obtain ⟨k1, k2⟩ := key i hi2
      have rr := (hR i (by simp; omega)).1
      rw [getD_take _ _ hi2, getD_drop] at rr
      rw [List.getD_append _ _ _ _ (by omega), rr, k1, k2, chunk_even ψ a _ _ _ i (by omega),
        chunk_odd ψ a _ _ _ i (by omega) T.neg_one, chunk_zero]
      linear_combination (a i) * hd2 + (-d * a i) * hp2
    · obtain ⟨j, rfl⟩ : ∃ j, i = 2 ^ k' + j := ⟨i - 2 ^ k', by omega⟩
      obtain ⟨k1, k2⟩ := key j (by omega)
      have rr := (hR j (by simp; omega)).2
      rw [getD_take _ _ (by omega), getD_drop] at rr
      have hinv := inv_root_mul (ψ := ψ) (e := 2 ^ (k' + 1 - 1 - 0) * (2 * reverseBits 0 0 + 1)) T.neg_one
          (root_exp_le (by omega))
      rw [List.getD_append_right _ _ _ _ (by omega), la', Nat.add_sub_cancel_left, rr, k1, k2, cs, hf.cast,
        chunk_even ψ a _ _ _ j (by omega), chunk_odd ψ a _ _ _ j (by omega) T.neg_one, chunk_zero,
        chunk_zero, e1'] 
      rw [e1'] at hinv
      linear_combination (a (2 ^ k' + j) * d * 2 * 2 ^ k') * hinv + (a (2 ^ k' + j)) * hd2 +
        (-d * a (2 ^ k' + j)) * hp2

end Verif.Ntt
