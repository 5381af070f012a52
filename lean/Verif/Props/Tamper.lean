import Verif.SpecTamper
import Verif.Props.Masks

/-! # C97: changed ciphertexts -/

namespace Verif.Props
open Spec

theorem dot_near {q β : Nat} : ∀ (s a a' : List Nat), a.length = s.length → a'.length = s.length →
    (∀ x ∈ s, x = 0 ∨ x = 1 ∨ x = q - 1) → 0 < q →
    (∀ j < s.length, s.getD j 0 = 0 ∨ Near q β (a.getD j 0) (a'.getD j 0)) →
    ∃ E : ℤ, |E| ≤ (β * keyWeight s : Nat) ∧ ((dot a' s : Nat) : ZMod q) = (dot a s : Nat) + (E : ZMod q)
  | [], [], [], _, _, _, _, _ => ⟨0, by simp [keyWeight], by simp [dot]⟩
  | [], _ :: _, _, h, _, _, _, _ => by simp at h
  | [], [], _ :: _, _, h, _, _, _ => by simp at h
  | _ :: _, [], _, h, _, _, _, _ => by simp at h
  | _ :: _, _ :: _, [], _, h, _, _, _ => by simp at h
  | x :: s, y :: a, y' :: a', h1, h2, hs, hq, hn => by
    obtain ⟨E, hE, e⟩ := dot_near s a a' (by simpa using h1) (by simpa using h2) (fun x hx => hs x (by simp [hx])) hq
      (fun j hj => by have := hn (j + 1) (by simpa using hj); simpa using this)
    have hw : keyWeight (x :: s) = keyWeight s + if x = 0 then 0 else 1 := by
      unfold keyWeight
      rw [List.countP_cons]
      by_cases hx : x = 0 <;> simp [hx]
    by_cases hx : x = 0
    · refine ⟨E, by rw [hw, if_pos hx]; exact hE, ?_⟩
      simp only [dot, hx, mul_zero, zero_add]
      exact e
    · obtain ⟨f, hf, ef⟩ := (hn 0 (by simp)).resolve_left (by simpa using hx)
      simp only [List.getD_cons_zero] at ef
      obtain ⟨σ, hσ, eσ⟩ : ∃ σ : ℤ, |σ| = 1 ∧ (x : ZMod q) = (σ : ZMod q) := by
        rcases hs x (by simp) with h | h | h
        · exact absurd h hx
        · exact ⟨1, by simp, by simp [h]⟩
        · refine ⟨-1, by simp, ?_⟩
          rw [h, Nat.cast_sub (by omega), ZMod.natCast_self]
          simp
      refine ⟨f * σ + E, ?_, ?_⟩
      · rw [hw, if_neg hx]
        have : |f * σ + E| ≤ |f * σ| + |E| := abs_add_le _ _
        rw [abs_mul, hσ, mul_one] at this
        push_cast at hE ⊢
        linarith
      · simp only [dot, Nat.cast_add, Nat.cast_mul, e, ef, eσ]
        push_cast
        ring

section
variable (P : LWEParams) (i k n : Nat) (h : LWEParamsOk P i k)
include h

/-- C97: changes of words that decryption tolerates. If every word of a ciphertext of `m` with noise `z` is changed by at
most `β`, then it still decrypts to `m` as long as `|z| + β (w + 1)` is below `q/2t`, where `w` is the number of non-zero
key words; words at positions where the key is zero do not matter at all. -/
theorem C97_tolerates (sk : List Nat) (hs : SmallKey P.q n sk) (c c' : LWE) (hc : LWEReduced P.q n c)
    (hc' : LWEReduced P.q n c') (β : Nat) (hβ : Changed P.q n β sk c c') (m : Nat) (hm : m < P.t) (z : ℤ)
    (hp : lwePhase P.q sk c.a c.b = (m * (P.q / P.t) : Nat) + (z : ZMod P.q))
    (hz : 2 * P.t * (|z| + β * (keyWeight sk + 1)) < P.q) (msg : Plain.Msg) (hf : Fits msg m) :
    P.decrypt msg sk c = some m ∧ P.decrypt msg sk c' = some m := by
  rw [h.t, h.q] at *
  obtain ⟨E, hE, e⟩ := dot_near sk c.a c'.a (by rw [hc.1.1, hs.1]) (by rw [hc'.1.1, hs.1]) hs.2 (Nat.two_pow_pos k)
    (fun j hj => hβ.mask j (by rw [← hs.1]; exact hj))
  obtain ⟨f, hf', ef⟩ := hβ.body
  have hi : (0 : ℤ) < (2 ^ i : Nat) := by positivity
  have hw : (0 : ℤ) ≤ (keyWeight sk : ℤ) := by positivity
  have hb : (0 : ℤ) ≤ (β : ℤ) := by positivity
  push_cast at hE
  have hz0 : NoiseInRange (2 ^ i) (2 ^ k) z := by
    have := abs_le.1 (le_refl |z|)
    have h1 : (0 : ℤ) ≤ β * (keyWeight sk + 1) := by positivity
    constructor <;> nlinarith
  have hz1 : NoiseInRange (2 ^ i) (2 ^ k) (z + (f - E)) := by
    have h1 : |z + (f - E)| ≤ |z| + β * (keyWeight sk + 1) := by
      have h2 := abs_add_le z (f - E)
      have h3 := abs_sub f E
      nlinarith
    have := abs_le.1 h1
    constructor <;> nlinarith
  refine ⟨C31_decrypt P i k n h sk hs.1 c hc m z hm hz0 hp msg hf,
    C31_decrypt P i k n h sk hs.1 c' hc' m _ hm hz1 ?_ msg hf⟩
  unfold lwePhase at hp ⊢
  rw [e, ef]
  push_cast at hp ⊢
  linear_combination hp

/-- C97: changes that decryption does not notice. Whoever adds a public ciphertext of `d` to any ciphertext at all, even
one that was never encrypted, adds `d` modulo `t` to the message that decryption finds, under every key. -/
theorem C97_malleable (c : LWE) (hc : LWEReduced P.q n c) (d : Nat) (hd : d < P.t) :
    ∃ O c', P.ops = some O ∧ LWE.addRef O c (publicCiphertext P.t P.q n d) = some c' ∧
      ∀ (sk : List Nat), sk.length = n → ∃ u < P.t, ∀ msg : Plain.Msg,
        (P.decrypt msg sk c = some u ↔ Fits msg u) ∧
        (P.decrypt msg sk c' = some ((u + d) % P.t) ↔ Fits msg ((u + d) % P.t)) := by
  rw [h.t, h.q] at *
  obtain ⟨M, hM, eO⟩ := h.ops
  have hO := powOf2_isModOps (w := P.w) h.fits hM
  have hk : 2 ^ i * (2 ^ k / 2 ^ i) = 2 ^ k := Nat.mul_div_cancel' (pow_dvd_pow 2 h.lt.le)
  have hD : 0 < 2 ^ k / 2 ^ i := Nat.div_pos (Nat.pow_le_pow_right (by decide) h.lt.le) (Nat.two_pow_pos i)
  have hkd : 2 ^ k / 2 ^ i = 2 ^ (k - i) := Nat.pow_div h.lt.le (by decide)
  have : NeZero (2 ^ i) := ⟨(Nat.two_pow_pos i).ne'⟩
  have hpub : LWEReduced (2 ^ k) n (publicCiphertext (2 ^ i) (2 ^ k) n d) :=
    ⟨⟨by simp [publicCiphertext], fun x hx => by
      rw [List.eq_of_mem_replicate hx]; exact Nat.two_pow_pos k⟩, by
      show d * (2 ^ k / 2 ^ i) < 2 ^ k
      conv_rhs => rw [← hk]
      exact Nat.mul_lt_mul_of_pos_right hd hD⟩
  obtain ⟨c', e, -, hc', hp⟩ := C33_add _ n _ hO c _ hc hpub
  refine ⟨_, c', eO, e, fun sk hs => ?_⟩
  set u := (decodedPhase i k (lwePhase (2 ^ k) sk c.a c.b)).val with hu
  have hlt : u < 2 ^ i := ZMod.val_lt _
  have e1 : (decodedPhase i k (lwePhase (2 ^ k) sk c'.a c'.b)).val = (u + d) % 2 ^ i := by
    have e2 : ∀ d : Nat, decodedPhase i k (lwePhase (2 ^ k) sk c.a c.b + ((d * 2 ^ (k - i) : Nat) : ZMod (2 ^ k))) =
        decodedPhase i k (lwePhase (2 ^ k) sk c.a c.b) + (d : ZMod (2 ^ i)) := fun d => by
      induction d with
      | zero => simp
      | succ d ih =>
        rw [add_mul, one_mul, Nat.cast_add, ← add_assoc, decodedPhase_shift h.lt, ih]
        push_cast
        ring
    rw [hp sk]
    unfold publicCiphertext
    rw [show lwePhase (2 ^ k) sk (List.replicate n 0) (d * (2 ^ k / 2 ^ i)) = ((d * 2 ^ (k - i) : Nat) : ZMod (2 ^ k)) by
      unfold lwePhase; rw [dot_noMask, hkd]; simp, e2, ZMod.val_add, ZMod.val_natCast, Nat.add_mod_mod]
  have sh : ∀ (msg : Plain.Msg) (v : Nat), Plain.shrink msg v = some v ↔ Fits msg v := fun msg v => by
    refine ⟨fun h => ?_, (shrink_eq msg v).1⟩
    by_contra hn
    rw [(shrink_eq msg v).2 hn] at h
    exact absurd h (by simp)
  refine ⟨u, hlt, fun msg => ⟨?_, ?_⟩⟩
  · rw [decrypt_phase h hs hc msg]
    exact sh msg u
  · rw [decrypt_phase h hs hc' msg, e1]
    exact sh msg _

end

-- The modulus 1024, four messages, the ternary key (1, 0, -1), a ciphertext of 3 with noise -5: the words of the second
-- ciphertext differ by at most 40, and arbitrarily where the key is zero
example : ∀ msg, Fits msg 3 →
    LWEParams.decrypt ⟨16, 4, 1024⟩ msg [1, 0, 1023] ⟨[17, 1000, 23], 757⟩ = some 3 ∧
    LWEParams.decrypt ⟨16, 4, 1024⟩ msg [1, 0, 1023] ⟨[1001, 5, 60], 720⟩ = some 3 := fun msg hf =>
  C97_tolerates ⟨16, 4, 1024⟩ 2 10 3 ⟨rfl, rfl, by decide, by decide, by decide⟩ [1, 0, 1023] ⟨rfl, by decide⟩
    ⟨[17, 1000, 23], 757⟩ ⟨[1001, 5, 60], 720⟩ ⟨⟨rfl, by decide⟩, by decide⟩ ⟨⟨rfl, by decide⟩, by decide⟩ 40
    ⟨fun j hj => match j, hj with
      | 0, _ => .inr ⟨-40, by decide, by decide⟩
      | 1, _ => .inl rfl
      | 2, _ => .inr ⟨37, by decide, by decide⟩,
     ⟨-37, by decide, by decide⟩⟩ 3 (by decide) (-5) (by decide) (by decide) msg hf

-- A ciphertext that decrypts to false becomes one that decrypts to true, without the key
example : ∃ c', LWE.addRef (PowOf2.ops 16 ⟨1023⟩) ⟨[17, 1000, 23], 1013⟩ (publicCiphertext 4 1024 3 1) = some c' ∧
    LWEParams.decrypt ⟨16, 4, 1024⟩ .bool [1, 0, 1023] ⟨[17, 1000, 23], 1013⟩ = some 0 ∧
    LWEParams.decrypt ⟨16, 4, 1024⟩ .bool [1, 0, 1023] c' = some 1 := by
  obtain ⟨O, c', e0, e, hd⟩ := C97_malleable ⟨16, 4, 1024⟩ 2 10 3 ⟨rfl, rfl, by decide, by decide, by decide⟩
    ⟨[17, 1000, 23], 1013⟩ ⟨⟨rfl, by decide⟩, by decide⟩ 1 (by decide)
  obtain ⟨u, hu, hm⟩ := hd [1, 0, 1023] rfl
  have e1 : LWEParams.decrypt ⟨16, 4, 1024⟩ .bool [1, 0, 1023] ⟨[17, 1000, 23], 1013⟩ = some 0 := by decide +kernel
  have e2 : LWEParams.decrypt ⟨16, 4, 1024⟩ (.uint 8) [1, 0, 1023] ⟨[17, 1000, 23], 1013⟩ = some 0 := by decide +kernel
  have hu0 : u = 0 := by
    have := (hm (.uint 8)).1.2 (show u < 2 ^ 8 from lt_trans hu (by decide))
    rw [e2] at this
    exact (Option.some.inj this).symm
  subst hu0
  refine ⟨c', ?_, e1, (hm .bool).2.2 (show (0 + 1) % 4 < 2 by decide)⟩
  rw [← e, ← Option.some.inj (show some (PowOf2.ops 16 ⟨1023⟩) = some O from e0)]

end Verif.Props
