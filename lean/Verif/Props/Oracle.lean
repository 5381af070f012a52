import Verif.SpecOracle
import Verif.Props.WrongKey

/-! # C92: whoever gets chosen ciphertexts decrypted gets the key -/

namespace Verif.Props
open Spec

theorem dot_zeros (n : Nat) : ∀ sk : List Nat, dot (List.replicate n 0) sk = 0 := by
  induction n with
  | zero => intro sk; simp [dot]
  | succ n ih =>
    intro sk
    cases sk with
    | nil => simp [List.replicate_succ, dot]
    | cons c sk => rw [List.replicate_succ, dot, ih]; simp

theorem dot_probe (d : Nat) : ∀ (n j : Nat) (sk : List Nat), sk.length = n → j < n →
    dot ((List.replicate n 0).set j d) sk = d * sk.getD j 0
  | 0, _, _, _, hj => absurd hj (Nat.not_lt_zero _)
  | n + 1, _, [], hl, _ => by simp at hl
  | n + 1, 0, c :: sk, _, _ => by simp [List.replicate_succ, dot, dot_zeros]
  | n + 1, j + 1, c :: sk, hl, hj => by
    have := dot_probe d n j sk (by simpa using hl) (by omega)
    simp [List.replicate_succ, dot, this]

/-- The decryption of a probe: `v - s` modulo the plaintext modulus. -/
theorem decrypt_probe {P : LWEParams} {i k n : Nat} (h : LWEParamsOk P i k) (hi : 0 < i) {sk : List Nat}
    (hs : sk.length = n) {j : Nat} (hj : j < n) {v u : Nat} (hv : v < 2 ^ i) (hu : u < 2 ^ i)
    (he : (2 ^ i : ℤ) ∣ (v : ℤ) - (sk.getD j 0 : Nat) - u) (msg : Plain.Msg) :
    P.decrypt msg sk (probe (2 ^ (k - i)) n j v) = Plain.shrink msg u := by
  have hik := h.lt
  have hk : 2 ^ k = 2 ^ i * 2 ^ (k - i) := by rw [← pow_add]; congr 1; omega
  have hS := Nat.two_pow_pos (k - i)
  refine decrypt_shrink h hs (n := n) (z := 0) ⟨⟨by simp [probe], fun x hx => ?_⟩, ?_⟩ hu ?_ ?_ msg
  · rcases List.mem_or_eq_of_mem_set hx with hx | rfl
    · rw [List.eq_of_mem_replicate hx]; exact Nat.two_pow_pos k
    · exact Nat.pow_lt_pow_right (by decide) (by omega)
  · show v * 2 ^ (k - i) < 2 ^ k
    rw [hk]
    exact Nat.mul_lt_mul_of_pos_right hv hS
  · unfold NoiseInRange; constructor <;> simp
  · unfold lwePhase probe
    dsimp only
    rw [dot_probe _ n j sk hs hj, Nat.pow_div hik.le (by decide)]
    obtain ⟨r, hr⟩ := he
    have e2 : ((v : ℤ) - (sk.getD j 0 : Nat)) * 2 ^ (k - i) = u * 2 ^ (k - i) + 2 ^ k * r := by
      rw [show (v : ℤ) - (sk.getD j 0 : Nat) = u + 2 ^ i * r by linarith, add_mul,
        show (2 : ℤ) ^ k = 2 ^ i * 2 ^ (k - i) by exact_mod_cast hk]
      ring
    have e3 := congrArg (fun x : ℤ => (x : ZMod (2 ^ k))) e2
    push_cast at e3 ⊢
    rw [show ((2 : ZMod (2 ^ k)) ^ k) = 0 by exact_mod_cast ZMod.natCast_self (2 ^ k), zero_mul, add_zero] at e3
    rw [add_zero, ← e3]
    ring

section
variable (P : LWEParams) (i k n : Nat) (h : LWEParamsOk P i k) (hi : 2 ≤ i) (sk : List Nat)
  (hs : SmallKey (2 ^ k) n sk)
include h hi hs

/-- The replies to the probes for word `j`, by the value of the word. -/
theorem probe_replies (j : Nat) (hj : j < n) :
    (sk.getD j 0 = 0 ∧ P.decrypt .bool sk (probe (2 ^ (k - i)) n j 1) = some 1 ∧
      P.decrypt .bool sk (probe (2 ^ (k - i)) n j 2) = none) ∨
    (sk.getD j 0 = 1 ∧ P.decrypt .bool sk (probe (2 ^ (k - i)) n j 1) = some 0 ∧
      P.decrypt .bool sk (probe (2 ^ (k - i)) n j 2) = some 1) ∨
    (sk.getD j 0 = 2 ^ k - 1 ∧ P.decrypt .bool sk (probe (2 ^ (k - i)) n j 1) = none) := by
  have h4 : 2 ^ 2 ≤ 2 ^ i := Nat.pow_le_pow_right (by decide) hi
  have hik := h.lt
  have hmem : sk.getD j 0 ∈ sk := by
    rw [List.getD_eq_getElem _ _ (by rw [hs.1]; exact hj)]; exact List.getElem_mem _
  have D : ∀ {v u : Nat}, v < 2 ^ i → u < 2 ^ i → (2 ^ i : ℤ) ∣ (v : ℤ) - (sk.getD j 0 : Nat) - u → _ := fun hv hu he =>
    decrypt_probe h (by omega) hs.1 hj hv hu he .bool
  rcases hs.2 _ hmem with e | e | e
  · exact .inl ⟨e, D (u := 1) (by omega) (by omega) (by rw [e]; simp), D (u := 2) (by omega) (by omega) (by rw [e]; simp)⟩
  · exact .inr (.inl ⟨e, D (u := 0) (by omega) (by omega) (by rw [e]; simp),
      D (u := 1) (by omega) (by omega) (by rw [e]; simp)⟩)
  · refine .inr (.inr ⟨e, D (u := 2) (by omega) (by omega) ?_⟩)
    rw [e, Nat.cast_sub (Nat.two_pow_pos k)]
    push_cast
    rw [show (1 : ℤ) - (2 ^ k - 1) - 2 = -(2 ^ k) by ring]
    exact (pow_dvd_pow _ hik.le).neg_right

/-- C92: `n` decryptions of fixed ciphertexts give the whole key. -/
theorem C92_key_recovery : recoverKey (2 ^ k) (2 ^ (k - i)) n (P.decrypt .bool sk) = sk := by
  unfold recoverKey
  refine List.ext_getElem (by simp [hs.1]) fun j h1 h2 => ?_
  have hj : j < n := by rw [← hs.1]; exact h2
  rw [List.getElem_map, List.getElem_range]
  rw [← List.getD_eq_getElem _ 0 h2]
  rcases probe_replies P i k n h hi sk hs j hj with ⟨e, r, -⟩ | ⟨e, r, -⟩ | ⟨e, r⟩ <;> rw [e, r] <;> rfl

/-- C92: it is enough to know which of `2 n` decryptions panic. -/
theorem C92_panics :
    recoverKeyFromPanics (2 ^ k) (2 ^ (k - i)) n (fun c => (P.decrypt .bool sk c).isNone) = sk := by
  unfold recoverKeyFromPanics
  refine List.ext_getElem (by simp [hs.1]) fun j h1 h2 => ?_
  have hj : j < n := by rw [← hs.1]; exact h2
  rw [List.getElem_map, List.getElem_range]
  rw [← List.getD_eq_getElem _ 0 h2]
  rcases probe_replies P i k n h hi sk hs j hj with ⟨e, r, r'⟩ | ⟨e, r, r'⟩ | ⟨e, r⟩
  · rw [e]; simp [r, r']
  · rw [e]; simp [r, r']
  · rw [e]; simp [r]

end

-- a ternary key of dimension 3 and the parameters of the crate's plaintexts
example : recoverKey 1024 256 3 (LWEParams.decrypt ⟨16, 4, 1024⟩ .bool [1, 1023, 0]) = [1, 1023, 0] :=
  C92_key_recovery ⟨16, 4, 1024⟩ 2 10 3 (by constructor <;> norm_num) (by decide) _ ⟨rfl, by decide⟩

end Verif.Props
