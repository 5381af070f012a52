import Verif.SpecWrongKey
import Verif.Props.Secrecy

/-! # C91: a key decrypts ciphertexts of another key to uniformly random messages -/

namespace Verif.Props
open Spec
open scoped ENNReal

/-- A function that a permutation of its uniform argument shifts by one is uniform. -/
theorem uniform_of_shift {α : Type} [Fintype α] [Nonempty α] {N : Nat} [NeZero N] (e : α ≃ α) (f : α → ZMod N)
    (h : ∀ a, f (e a) = f a + 1) : (PMF.uniformOfFintype α).map f = PMF.uniformOfFintype (ZMod N) := by
  classical
  set p := (PMF.uniformOfFintype α).map f with hp
  have h1 : p.map (· + 1) = p := by
    have : p = ((PMF.uniformOfFintype α).map e).map f := by rw [uniform_equiv]
    conv_rhs => rw [this]
    rw [hp, PMF.map_comp, PMF.map_comp]
    congr 1
    funext a
    exact (h a).symm
  have h2 : ∀ x, p (x + 1) = p x := fun x => by
    conv_lhs => rw [← h1, PMF.map_apply, tsum_eq_single x (fun y hy => by
      rw [if_neg]
      intro e
      exact hy (add_right_cancel e.symm))]
    simp
  have h3 : ∀ c : Nat, p (c : ZMod N) = p 0 := fun c => by
    induction c with
    | zero => simp
    | succ c ih => rw [← ih, Nat.cast_succ, h2]
  refine uniform_unique fun a b => ?_
  rw [← ZMod.natCast_zmod_val a, ← ZMod.natCast_zmod_val b, h3, h3]

theorem uniformBelow_zmod (q : Nat) [NeZero q] :
    uniformBelow q = (PMF.uniformOfFintype (ZMod q)).map ZMod.val := by
  unfold uniformBelow
  rw [← uniform_equiv (ZMod.finEquiv q).toEquiv, PMF.map_comp]
  congr 1
  funext i
  obtain ⟨m, rfl⟩ : ∃ m, q = m + 1 := ⟨q - 1, by have := NeZero.ne q; omega⟩
  rfl

/-- The decoded value of a phase. -/
def decodedPhase (i k : Nat) (p : ZMod (2 ^ k)) : ZMod (2 ^ i) :=
  (((p.val + 2 ^ (k - i - 1)) / 2 ^ (k - i) : Nat) : ZMod (2 ^ i))

theorem decodedPhase_shift {i k : Nat} (hik : i < k) (p : ZMod (2 ^ k)) :
    decodedPhase i k (p + ((2 ^ (k - i) : Nat) : ZMod (2 ^ k))) = decodedPhase i k p + 1 := by
  have : NeZero (2 ^ k) := ⟨(Nat.two_pow_pos k).ne'⟩
  have hS := Nat.two_pow_pos (k - i)
  have hk : 2 ^ k = 2 ^ (k - i) * 2 ^ i := by rw [← pow_add]; congr 1; omega
  have hle : 2 ^ (k - i) ≤ 2 ^ k := Nat.pow_le_pow_right (by decide) (by omega)
  have hv := ZMod.val_lt p
  unfold decodedPhase
  have hval : (p + ((2 ^ (k - i) : Nat) : ZMod (2 ^ k))).val = (p.val + 2 ^ (k - i)) % 2 ^ k := by
    rw [ZMod.val_add, ZMod.val_natCast, Nat.add_mod_mod]
  rw [hval]
  generalize p.val = x at hv
  generalize 2 ^ (k - i - 1) = H
  rcases Nat.lt_or_ge (x + 2 ^ (k - i)) (2 ^ k) with h | h
  · rw [Nat.mod_eq_of_lt h, show x + 2 ^ (k - i) + H = x + H + 2 ^ (k - i) by ring, Nat.add_div_right _ hS]
    push_cast
    rfl
  · have e : (x + 2 ^ (k - i)) % 2 ^ k = x + 2 ^ (k - i) - 2 ^ k := by
      rw [Nat.mod_eq_sub_mod h, Nat.mod_eq_of_lt (by omega)]
    have e2 : x + H + 2 ^ (k - i) = (x + 2 ^ (k - i) - 2 ^ k + H) + 2 ^ (k - i) * 2 ^ i := by rw [← hk]; omega
    have e3 : (x + H) / 2 ^ (k - i) + 1 = (x + 2 ^ (k - i) - 2 ^ k + H) / 2 ^ (k - i) + 2 ^ i := by
      rw [← Nat.add_div_right _ hS, e2, Nat.add_mul_div_left _ _ hS]
    rw [e]
    have := congrArg (fun c : Nat => (c : ZMod (2 ^ i))) e3
    push_cast at this
    rw [show ((2 : ZMod (2 ^ i)) ^ i) = 0 by exact_mod_cast ZMod.natCast_self (2 ^ i), add_zero] at this
    exact this.symm

/-- The decryption of a ciphertext is the decoded phase. -/
theorem decrypt_phase {P : LWEParams} {i k n : Nat} (h : LWEParamsOk P i k) {sk : List Nat} (hs : sk.length = n)
    {c : LWE} (hc : LWEReduced (2 ^ k) n c) (msg : Plain.Msg) :
    P.decrypt msg sk c = Plain.shrink msg (decodedPhase i k (lwePhase (2 ^ k) sk c.a c.b)).val := by
  obtain ⟨M, hM, e⟩ := h.ops
  obtain ⟨p, ep, hp1, hp2⟩ := phase_eq h hM hs hc
  have hk : k < 64 := by have := h.fits; have := h.width; omega
  have hik := h.lt
  have hcw : p < 2 ^ 64 := lt_trans hp1 (two_pow_lt hk)
  unfold LWEParams.decrypt
  rw [mbind e, mbind ep, h.t, h.q]
  unfold Plain.decode
  rw [mbind (C30_decode_rounds i k p hik hk hcw), ← hp2, decodedPhase, ZMod.val_natCast, ZMod.val_cast_of_lt hp1]
  congr 2
  obtain ⟨s, rfl⟩ : ∃ s, k = i + (s + 1) := ⟨k - i - 1, by omega⟩
  rw [show i + (s + 1) - i = s + 1 by omega, Nat.add_sub_cancel,
    show (2 * p * 2 ^ i + 2 ^ (i + (s + 1))) = (p + 2 ^ s) * (2 ^ i * 2) by ring,
    show 2 * 2 ^ (i + (s + 1)) = 2 ^ (s + 1) * (2 ^ i * 2) by ring, Nat.mul_div_mul_right _ _ (by positivity)]

theorem wrong_of_factor (w i k n : Nat) [NeZero (2 ^ k)] (h : LWEParamsOk ⟨w, 2 ^ i, 2 ^ k⟩ i k) (χ : PMF ℤ)
    (hχ : ∀ z ∈ χ.support, NoiseInRange (2 ^ i) (2 ^ k) z)
    (sk sk' : List Nat) (hs : sk.length = n) (hs' : sk'.length = n) (j : Fin n) (t : ZMod (2 ^ k))
    (ht : t * (keyVector (2 ^ k) n sk j - keyVector (2 ^ k) n sk' j) = ((2 ^ (k - i) : Nat) : ZMod (2 ^ k)))
    (msg : Plain.Msg) (m : Nat) (hm : m < 2 ^ i) :
    decryptWrong ⟨w, 2 ^ i, 2 ^ k⟩ n χ msg sk sk' m =
      (PMF.uniformOfFintype (ZMod (2 ^ i))).map fun v => Plain.shrink msg v.val := by
  classical
  unfold decryptWrong
  rw [C67_ciphertext_law ⟨w, 2 ^ i, 2 ^ k⟩ i k n h χ hχ sk hs m hm, PMF.map_comp]
  unfold lweSample
  rw [PMF.map_bind]
  have e1 : ∀ a : Fin n → ZMod (2 ^ k), PMF.map ((fun c : Option LWE => c.bind (LWEParams.decrypt ⟨w, 2 ^ i, 2 ^ k⟩ msg sk')) ∘
      fun x => some (maskMessage (2 ^ k) n (2 ^ i) m x))
        (χ.map fun e : ℤ => (a, ∑ i, a i * keyVector (2 ^ k) n sk i + (e : ZMod (2 ^ k)))) =
      χ.bind fun e : ℤ => PMF.pure (Plain.shrink msg (decodedPhase i k (∑ i, a i * (keyVector (2 ^ k) n sk i -
        keyVector (2 ^ k) n sk' i) + ((e : ZMod (2 ^ k)) + ((m * (2 ^ k / 2 ^ i) : Nat) : ZMod (2 ^ k))))).val) := by
    intro a
    rw [PMF.map_comp]
    show χ.bind _ = _
    congr 1
    funext e
    show PMF.pure (LWEParams.decrypt ⟨w, 2 ^ i, 2 ^ k⟩ msg sk' (maskMessage (2 ^ k) n (2 ^ i) m (a, _))) = _
    rw [decrypt_phase h hs' (c := maskMessage _ _ _ _ _) ⟨⟨by simp [maskMessage], fun x hx => by
      obtain ⟨j, rfl⟩ := (List.mem_ofFn' _ _).1 hx
      exact ZMod.val_lt _⟩, ZMod.val_lt _⟩ msg]
    congr 4
    unfold maskMessage lwePhase
    dsimp only
    rw [dot_ofFn a sk' hs', ZMod.natCast_zmod_val]
    simp only [mul_sub, Finset.sum_sub_distrib]
    ring
  rw [show (fun a => PMF.map _ _) = _ from funext e1, PMF.bind_comm]
  have e2 : ∀ e : ℤ, ((PMF.uniformOfFintype (Fin n → ZMod (2 ^ k))).bind fun a =>
      PMF.pure (Plain.shrink msg (decodedPhase i k (∑ i, a i * (keyVector (2 ^ k) n sk i -
        keyVector (2 ^ k) n sk' i) + ((e : ZMod (2 ^ k)) + ((m * (2 ^ k / 2 ^ i) : Nat) : ZMod (2 ^ k))))).val)) =
      (PMF.uniformOfFintype (ZMod (2 ^ i))).map fun v => Plain.shrink msg v.val := by
    intro e
    rw [← uniform_of_shift (N := 2 ^ i) (Equiv.addRight (Pi.single j t : Fin n → ZMod (2 ^ k)))
      (fun a => decodedPhase i k (∑ i, a i * (keyVector (2 ^ k) n sk i -
        keyVector (2 ^ k) n sk' i) + ((e : ZMod (2 ^ k)) + ((m * (2 ^ k / 2 ^ i) : Nat) : ZMod (2 ^ k))))) ?_, PMF.map_comp]
    · rfl
    · intro a
      rw [← decodedPhase_shift h.lt, ← ht]
      congr 1
      have e3 : ∑ x, (Pi.single j t : Fin n → ZMod (2 ^ k)) x * (keyVector (2 ^ k) n sk x - keyVector (2 ^ k) n sk' x) =
          t * (keyVector (2 ^ k) n sk j - keyVector (2 ^ k) n sk' j) := by
        rw [Finset.sum_eq_single j (fun b _ hb => by rw [Pi.single_eq_of_ne hb, zero_mul])
          (fun hj => absurd (Finset.mem_univ j) hj), Pi.single_eq_same]
      simp only [Equiv.coe_addRight, Pi.add_apply, add_mul, Finset.sum_add_distrib]
      rw [e3]
      ring
  rw [show (fun e : ℤ => PMF.bind _ _) = _ from funext e2]
  exact PMF.bind_const _ _

theorem guess_eq (i : Nat) [NeZero (2 ^ i)] (msg : Plain.Msg) :
    (PMF.uniformOfFintype (ZMod (2 ^ i))).map (fun v => Plain.shrink msg v.val) = guess (2 ^ i) msg := by
  unfold guess
  rw [uniformBelow_zmod, PMF.map_comp]
  congr 1
  funext v
  rw [Function.comp]
  split
  · next hf => exact (shrink_eq msg _).1 hf
  · next hf => exact (shrink_eq msg _).2 hf

/-- A multiple of the difference of two secret words is the distance of neighbouring messages. -/
theorem factor_exists {i k : Nat} (hik : i < k) {d : ℤ} (hd : ¬ (2 ^ (k - i + 1) : ℤ) ∣ d) :
    ∃ t : ZMod (2 ^ k), t * (d : ZMod (2 ^ k)) = ((2 ^ (k - i) : Nat) : ZMod (2 ^ k)) := by
  have hd0 : d ≠ 0 := fun h => hd (h ▸ dvd_zero _)
  obtain ⟨v, u, hu, rfl⟩ : ∃ (v : Nat) (u : ℤ), ¬ (2 : ℤ) ∣ u ∧ d = 2 ^ v * u := by
    have hf : FiniteMultiplicity (2 : ℤ) d := Int.finiteMultiplicity_iff.2 ⟨by decide, hd0⟩
    obtain ⟨u, e, hu⟩ := hf.exists_eq_pow_mul_and_not_dvd
    exact ⟨_, u, hu, e⟩
  have hv : v ≤ k - i := by
    by_contra hv
    exact hd (dvd_mul_of_dvd_left (pow_dvd_pow _ (by omega)) _)
  have hc : IsCoprime u ((2 : ℤ) ^ k) :=
    ((Int.prime_two.coprime_iff_not_dvd.2 hu).symm).pow_right
  obtain ⟨a, b, hab⟩ := hc
  refine ⟨((2 ^ (k - i - v) * a : ℤ) : ZMod (2 ^ k)), ?_⟩
  have h1 : (a * u : ZMod (2 ^ k)) = 1 := by
    have := congrArg (fun x : ℤ => (x : ZMod (2 ^ k))) hab
    push_cast at this
    rw [show ((2 : ZMod (2 ^ k)) ^ k) = 0 by exact_mod_cast ZMod.natCast_self (2 ^ k), mul_zero, add_zero] at this
    exact this
  push_cast
  calc (2 : ZMod (2 ^ k)) ^ (k - i - v) * a * (2 ^ v * u) = 2 ^ (k - i - v) * 2 ^ v * (a * u) := by ring
    _ = _ := by rw [h1, mul_one, ← pow_add]; congr 1; omega

section
variable (P : LWEParams) (i k n : Nat) [NeZero P.q] [NeZero (2 ^ i)] (h : LWEParamsOk P i k) (χ : PMF ℤ)
  (hχ : ∀ z ∈ χ.support, NoiseInRange (2 ^ i) (2 ^ k) z)
include h hχ

/-- C91: keys of any words. If some word differs, not by a multiple of twice the distance of neighbouring messages, then
the decryption with the other key is uniformly random, whatever the message and the law of the noise are. -/
theorem C91_general (sk sk' : List Nat) (hs : sk.length = n) (hs' : sk'.length = n) (j : Nat) (hj : j < n)
    (hd : ¬ (2 ^ (k - i + 1) : ℤ) ∣ (sk.getD j 0 : ℤ) - (sk'.getD j 0 : ℤ)) (msg : Plain.Msg) (m : Nat)
    (hm : m < 2 ^ i) : decryptWrong P n χ msg sk sk' m = guess (2 ^ i) msg := by
  obtain ⟨w, T, q⟩ := P
  obtain rfl : T = 2 ^ i := h.t
  obtain rfl : q = 2 ^ k := h.q
  obtain ⟨t, ht⟩ := factor_exists h.lt hd
  rw [← guess_eq]
  refine wrong_of_factor w i k n h χ hχ sk sk' hs hs' ⟨j, hj⟩ t ?_ msg m hm
  rw [← ht]
  unfold keyVector
  push_cast
  rfl

/-- C91: two different keys with words 0, 1 and -1. -/
theorem C91_wrong_key (sk sk' : List Nat) (hs : SmallKey (2 ^ k) n sk) (hs' : SmallKey (2 ^ k) n sk') (hne : sk ≠ sk')
    (msg : Plain.Msg) (m : Nat) (hm : m < 2 ^ i) : decryptWrong P n χ msg sk sk' m = guess (2 ^ i) msg := by
  obtain ⟨j, hj, hd⟩ : ∃ j < n, sk.getD j 0 ≠ sk'.getD j 0 := by
    by_contra hall
    push Not at hall
    refine hne (List.ext_getElem (by rw [hs.1, hs'.1]) fun j h1 h2 => ?_)
    have := hall j (by rw [← hs.1]; exact h1)
    rwa [List.getD_eq_getElem _ _ h1, List.getD_eq_getElem _ _ h2] at this
  refine C91_general P i k n h χ hχ sk sk' hs.1 hs'.1 j hj (fun hdvd => ?_) msg m hm
  have a1 : sk.getD j 0 = 0 ∨ sk.getD j 0 = 1 ∨ sk.getD j 0 = 2 ^ k - 1 := by
    rw [List.getD_eq_getElem _ _ (by rw [hs.1]; exact hj)]; exact hs.2 _ (List.getElem_mem _)
  have a2 : sk'.getD j 0 = 0 ∨ sk'.getD j 0 = 1 ∨ sk'.getD j 0 = 2 ^ k - 1 := by
    rw [List.getD_eq_getElem _ _ (by rw [hs'.1]; exact hj)]; exact hs'.2 _ (List.getElem_mem _)
  have h4 : (4 : ℤ) ∣ (sk.getD j 0 : ℤ) - (sk'.getD j 0 : ℤ) := by
    refine dvd_trans ?_ hdvd
    have := h.lt
    rw [show k - i + 1 = 2 + (k - i - 1) by omega, pow_add]
    exact dvd_mul_right _ _
  generalize sk.getD j 0 = x at *
  generalize sk'.getD j 0 = y at *
  obtain rfl | hk : k = 1 ∨ 2 ≤ k := by have := h.lt; omega
  · omega
  · obtain ⟨c, hc⟩ : ∃ c, 2 ^ k = 4 * c := ⟨2 ^ (k - 2), by
      rw [show 4 = 2 ^ 2 by rfl, ← pow_add]; congr 1; omega⟩
    have := Nat.two_pow_pos k
    omega

/-- C91: a history of encryptions. Every message may depend on the earlier replies of the other key; the replies are
independent and uniform. -/
theorem C91_history (sk sk' : List Nat) (hs : SmallKey (2 ^ k) n sk) (hs' : SmallKey (2 ^ k) n sk') (hne : sk ≠ sk')
    (msg : Plain.Msg) (pick : List (Option Nat) → Nat) (hp : ∀ seen, pick seen < 2 ^ i) (c : Nat) :
    queries (decryptWrong P n χ msg sk sk') pick c [] = draws (guess (2 ^ i) msg) c := by
  rw [queries_congr (o' := fun _ => guess (2 ^ i) msg)
    (fun seen => C91_wrong_key P i k n h χ hχ sk sk' hs hs' hne msg _ (hp seen))]
  have e := queries_map (guess (2 ^ i) msg) (fun _ x => x) pick c []
  rw [show (fun _ : Nat => guess (2 ^ i) msg) = fun _ => (guess (2 ^ i) msg).map fun x => x from
    funext fun _ => (PMF.map_id _).symm, e]
  convert PMF.map_id _ using 2
  funext l
  have : ∀ (l a : List (Option Nat)), l.foldl (fun seen y => seen ++ [y]) a = a ++ l := fun l => by
    induction l with
    | nil => simp
    | cons x l ih => intro a; rw [List.foldl_cons, ih]; simp
  exact this l []

end

open Classical in
theorem agree_eq (p : PMF Nat) : agree p = mean p fun x => mean p fun y => if x = y then 1 else 0 := by
  unfold agree
  rw [prob_eq, mean_pair]
  refine mean_congr fun x _ => mean_congr fun y _ => ?_
  by_cases h : x = y <;> simp [h]

open Classical in
theorem agree_draws (p : PMF Nat) : ∀ n : Nat,
    (mean (draws p n) fun l => mean (draws p n) fun l' => if l = l' then 1 else 0) = agree p ^ n
  | 0 => by rw [mean_draws_zero, mean_draws_zero]; simp
  | n + 1 => by
    rw [pow_succ', ← agree_draws p n, agree_eq, mean_draws_succ, ← mean_mul_right]
    refine mean_congr fun x _ => ?_
    rw [← mean_mul_left]
    refine mean_congr fun l _ => ?_
    rw [mean_draws_succ, ← mean_mul_right]
    refine mean_congr fun y _ => ?_
    rw [← mean_mul_left]
    refine mean_congr fun l' _ => ?_
    by_cases hx : x = y <;> by_cases hl : l = l' <;> simp [hx, hl]

section
variable (P : LWEParams) (i k n : Nat) [NeZero P.q] [NeZero (2 ^ i)] (h : LWEParamsOk P i k) (χ : PMF ℤ)
  (hχ : ∀ z ∈ χ.support, NoiseInRange (2 ^ i) (2 ^ k) z)
include h hχ

/-- C91: two keys generated independently. Up to the probability that they are equal, the replies of the other key are
uniform. -/
theorem C91_fresh_keys (p : PMF Nat) (hp : ∀ s ∈ p.support, s = 0 ∨ s = 1 ∨ s = 2 ^ k - 1) (msg : Plain.Msg) (m : Nat)
    (hm : m < 2 ^ i) (D : Set (Option Nat)) :
    advantage ((draws p n).bind fun sk => (draws p n).bind fun sk' => decryptWrong P n χ msg sk sk' m)
      (guess (2 ^ i) msg) D ≤ (agree p ^ n).toReal := by
  classical
  set L := (draws p n).bind fun sk => (draws p n).bind fun sk' => decryptWrong P n χ msg sk sk' m with hL
  set g := (guess (2 ^ i) msg).toOuterMeasure D with hg
  have hle : ∀ (r : PMF (Option Nat)), r.toOuterMeasure D ≤ 1 := fun r => by
    rw [prob_eq]
    refine le_trans (mean_mono (g := fun _ => 1) fun a _ => ?_) (mean_const _ _).le
    split <;> simp
  have hc : agree p ^ n ≠ ⊤ := by
    rw [← agree_draws]
    refine ne_top_of_le_ne_top ENNReal.one_ne_top (le_trans (mean_mono (g := fun _ => 1) fun a _ => ?_) (mean_const _ _).le)
    refine le_trans (mean_mono (g := fun _ => 1) fun b _ => ?_) (mean_const _ _).le
    split <;> simp
  have hsk : ∀ sk ∈ (draws p n).support, SmallKey (2 ^ k) n sk := fun sk hs =>
    ⟨(mem_support_draws hs).1, fun s hs' => hp s ((mem_support_draws hs).2 s hs')⟩
  have eL : L.toOuterMeasure D = mean (draws p n) fun sk => mean (draws p n) fun sk' =>
      (decryptWrong P n χ msg sk sk' m).toOuterMeasure D := by
    rw [prob_eq, hL, mean_bind]
    refine mean_congr fun sk _ => ?_
    rw [mean_bind]
    refine mean_congr fun sk' _ => ?_
    rw [prob_eq]
  have eq : ∀ sk ∈ (draws p n).support, ∀ sk' ∈ (draws p n).support, sk ≠ sk' →
      (decryptWrong P n χ msg sk sk' m).toOuterMeasure D = g := fun sk hs sk' hs' hne => by
    rw [C91_wrong_key P i k n h χ hχ sk sk' (hsk sk hs) (hsk sk' hs') hne msg m hm]
  have up : L.toOuterMeasure D ≤ g + agree p ^ n := by
    rw [eL, ← agree_draws, ← mean_const (draws p n) g, ← mean_add]
    refine mean_mono fun sk hs => ?_
    rw [← mean_const (draws p n) g, ← mean_add]
    refine mean_mono fun sk' hs' => ?_
    by_cases e : sk = sk'
    · rw [if_pos e]; exact le_trans (hle _) le_add_self
    · rw [if_neg e, eq sk hs sk' hs' e]; simp
  have lo : g ≤ L.toOuterMeasure D + agree p ^ n := by
    rw [eL, ← agree_draws, ← mean_add]
    refine le_trans (mean_const (draws p n) g).ge (mean_mono fun sk hs => ?_)
    rw [← mean_add]
    refine le_trans (mean_const (draws p n) g).ge (mean_mono fun sk' hs' => ?_)
    by_cases e : sk = sk'
    · rw [if_pos e]; exact le_trans (hle _) le_add_self
    · rw [if_neg e, eq sk hs sk' hs' e]; simp
  have fL : L.toOuterMeasure D ≠ ⊤ := ne_top_of_le_ne_top ENNReal.one_ne_top (hle _)
  have fg : g ≠ ⊤ := ne_top_of_le_ne_top ENNReal.one_ne_top (hle _)
  unfold advantage
  rw [abs_le]
  constructor
  · have := ENNReal.toReal_mono (ENNReal.add_ne_top.2 ⟨fL, hc⟩) lo
    rw [ENNReal.toReal_add fL hc] at this
    linarith
  · have := ENNReal.toReal_mono (ENNReal.add_ne_top.2 ⟨fg, hc⟩) up
    rw [ENNReal.toReal_add fg hc] at this
    linarith

end

/-- C91: independent binary keys agree in one word with probability 1/2. -/
theorem C91_binary_agree : agree (uniformBelow 2) = 1 / 2 := by
  rw [agree_eq]
  simp only [mean_uniformBelow]
  rw [show (∑ x ∈ Finset.range 2, ((2 : Nat) : ℝ≥0∞)⁻¹ * ∑ y ∈ Finset.range 2, if x = y then (1 : ℝ≥0∞) else 0) = 1 by
    simp [Finset.sum_range_succ, ENNReal.inv_two_add_inv_two], mul_one]
  simp

/-- C91: independent ternary keys agree in one word with probability 3/8. -/
theorem C91_ternary_agree (q : Nat) (hq : 2 < q) : agree (ternaryLaw q) = 3 / 8 := by
  rw [agree_eq]
  unfold ternaryLaw
  simp only [mean_map, mean_uniformBelow]
  have h1 : q - 1 ≠ 0 := by omega
  have h2 : q - 1 ≠ 1 := by omega
  simp only [Finset.sum_range_succ, Finset.sum_range_zero]
  simp [h1, h2, h1.symm, h2.symm]
  have h4 : (4 : ℝ≥0∞) = ENNReal.ofReal 4 := by simp
  have e4 : (4 : ℝ≥0∞)⁻¹ = ENNReal.ofReal (1 / 4) := by
    rw [h4, ← ENNReal.ofReal_inv_of_pos (by norm_num)]; norm_num
  have e8 : (3 : ℝ≥0∞) / 8 = ENNReal.ofReal (3 / 8) := by
    rw [ENNReal.ofReal_div_of_pos (by norm_num)]; simp
  have e2 : (1 + 1 : ℝ≥0∞) = ENNReal.ofReal 2 := by rw [one_add_one_eq_two]; simp
  rw [e4, e8, e2, ← ENNReal.ofReal_mul (by norm_num), ← ENNReal.ofReal_add (by norm_num) (by norm_num),
    ← ENNReal.ofReal_add (by norm_num) (by norm_num), ← ENNReal.ofReal_add (by norm_num) (by norm_num),
    ← ENNReal.ofReal_mul (by norm_num)]
  norm_num

theorem decrypt_shrink {P : LWEParams} {i k n : Nat} (h : LWEParamsOk P i k) {sk : List Nat} (hs : sk.length = n)
    {c : LWE} (hc : LWEReduced (2 ^ k) n c) {u : Nat} {z : ℤ} (hu : u < 2 ^ i) (hz : NoiseInRange (2 ^ i) (2 ^ k) z)
    (hp : lwePhase (2 ^ k) sk c.a c.b = (u * (2 ^ k / 2 ^ i) : Nat) + (z : ZMod (2 ^ k))) (msg : Plain.Msg) :
    P.decrypt msg sk c = Plain.shrink msg u := by
  have hi64 : i ≤ 64 := by have := h.lt; have := h.fits; have := h.width; omega
  have hF : Fits (.uint 64) u := lt_of_lt_of_le hu (Nat.pow_le_pow_right (by decide) hi64)
  have e1 := C31_decrypt P i k n h sk hs c hc u z hu hz hp (.uint 64) hF
  rw [decrypt_phase h hs hc] at e1 ⊢
  have hF' : Fits (.uint 64) (decodedPhase i k (lwePhase (2 ^ k) sk c.a c.b)).val := by
    by_contra hn
    rw [(shrink_eq _ _).2 hn] at e1
    cases e1
  rw [(shrink_eq _ _).1 hF'] at e1
  rw [Option.some.inj e1]

theorem dot_dvd_sub {D : ℤ} : ∀ (a sk sk' : List Nat), sk.length = sk'.length →
    (∀ j < sk.length, D ∣ (sk.getD j 0 : ℤ) - (sk'.getD j 0 : ℤ)) → D ∣ (dot a sk : ℤ) - (dot a sk' : ℤ)
  | [], _, _, _, _ => by simp [dot]
  | _ :: _, [], [], _, _ => by simp [dot]
  | x :: a, c :: sk, c' :: sk', hl, h => by
    have h0 : D ∣ (c : ℤ) - c' := by simpa using h 0 (by simp)
    have h1 := dot_dvd_sub a sk sk' (by simpa using hl) fun j hj => by simpa using h (j + 1) (by simpa using hj)
    rw [dot, dot]
    push_cast
    rw [show (x : ℤ) * c + dot a sk - (x * c' + dot a sk') = x * (c - c') + (dot a sk - dot a sk') by ring]
    exact dvd_add (h0.mul_left _) h1

/-- C91: the condition on the difference of the keys is needed. If all words differ by multiples of twice the distance
of neighbouring messages, then the other key gets the lowest bit of every message. -/
theorem C91_condition_needed (P : LWEParams) (i k n : Nat) (h : LWEParamsOk P i k) (hi : 0 < i) (sk sk' : List Nat)
    (hs : sk.length = n) (hs' : sk'.length = n)
    (hd : ∀ j < n, (2 ^ (k - i + 1) : ℤ) ∣ (sk.getD j 0 : ℤ) - (sk'.getD j 0 : ℤ))
    (mask : List Nat) (hl : n ≤ mask.length) (hr : ∀ x ∈ mask, x < 2 ^ k) (z : ℤ)
    (hz : NoiseInRange (2 ^ i) (2 ^ k) z) (m : Nat) (hm : m < 2 ^ i) (msg : Plain.Msg) :
    ∃ c, P.encrypt sk mask z m = some c ∧ ∀ v, P.decrypt msg sk' c = some v → v % 2 = m % 2 := by
  obtain ⟨c, ec, hc, -, hp, -⟩ := C31_encrypt_decrypt P i k n h sk mask hs hl hr m z hm hz
  refine ⟨c, ec, fun v hv => ?_⟩
  have hik := h.lt
  obtain ⟨y, hy⟩ := dot_dvd_sub c.a sk sk' (by rw [hs, hs']) (by rw [hs]; exact hd)
  obtain ⟨u, hu⟩ : ∃ u : Nat, ((u : Nat) : ℤ) = (m + 2 * y) % 2 ^ i :=
    ⟨((m + 2 * y) % 2 ^ i).toNat, Int.toNat_of_nonneg (Int.emod_nonneg _ (by positivity))⟩
  have hu2 : u < 2 ^ i := by
    have := Int.emod_lt_of_pos (m + 2 * y : ℤ) (show (0 : ℤ) < 2 ^ i by positivity)
    rw [← hu] at this
    exact_mod_cast this
  have hΔ : 2 ^ k / 2 ^ i = 2 ^ (k - i) := Nat.pow_div hik.le (by decide)
  obtain ⟨r, hr'⟩ : ∃ r : ℤ, (m + 2 * y : ℤ) = u + 2 ^ i * r :=
    ⟨(m + 2 * y) / 2 ^ i, by rw [hu]; exact (Int.emod_add_mul_ediv _ _).symm⟩
  have hp' : lwePhase (2 ^ k) sk' c.a c.b = (u * (2 ^ k / 2 ^ i) : Nat) + (z : ZMod (2 ^ k)) := by
    have e1 : lwePhase (2 ^ k) sk' c.a c.b =
        lwePhase (2 ^ k) sk c.a c.b + (((2 : ℤ) ^ (k - i + 1) * y : ℤ) : ZMod (2 ^ k)) := by
      rw [← hy]
      unfold lwePhase
      push_cast
      ring
    rw [e1, hp, hΔ]
    have e2 : ((m : ℤ) + 2 * y) * 2 ^ (k - i) = u * 2 ^ (k - i) + 2 ^ k * r := by
      rw [hr', add_mul, show (2 : ℤ) ^ k = 2 ^ i * 2 ^ (k - i) by rw [← pow_add]; congr 1; omega]
      ring
    have e3 := congrArg (fun x : ℤ => (x : ZMod (2 ^ k))) e2
    push_cast at e3 ⊢
    rw [show ((2 : ZMod (2 ^ k)) ^ k) = 0 by exact_mod_cast ZMod.natCast_self (2 ^ k), zero_mul, add_zero] at e3
    rw [← e3]
    ring
  rw [decrypt_shrink h hs' hc hu2 hz hp'] at hv
  have hvu : v = u := by
    by_cases hf : Fits msg u
    · rw [(shrink_eq _ _).1 hf] at hv; exact (Option.some.inj hv).symm
    · rw [(shrink_eq _ _).2 hf] at hv; cases hv
  have h2 : (2 : ℤ) ∣ 2 ^ i := dvd_pow_self _ hi.ne'
  obtain ⟨g, hg⟩ := h2
  rw [hg] at hr'
  have : (2 : ℤ) * g * r = 2 * (g * r) := by ring
  rw [this] at hr'
  omega

/-- The default plaintext modulus with the Boolean message type: the other key gets `false` and `true` with probability
1/4 each and panics with probability 1/2. -/
theorem C91_boolean : guess 4 .bool (some 0) = 1 / 4 ∧ guess 4 .bool (some 1) = 1 / 4 ∧ guess 4 .bool none = 1 / 2 := by
  classical
  have key : ∀ r, guess 4 .bool r = ∑ v : Fin 4, (4 : ℝ≥0∞)⁻¹ * if r = (if v.val < 2 then some v.val else none) then 1 else 0 := by
    intro r
    unfold guess uniformBelow
    rw [PMF.map_comp, PMF.map_apply, tsum_fintype]
    refine Finset.sum_congr rfl fun v _ => ?_
    rw [PMF.uniformOfFintype_apply, Fintype.card_fin]
    simp only [Function.comp, Fits, mul_ite, mul_one, mul_zero]
    congr
  have half : (4 : ℝ≥0∞)⁻¹ + 4⁻¹ = 2⁻¹ := by
    rw [show (4 : ℝ≥0∞) = 2 * 2 by norm_num, ENNReal.mul_inv (by simp) (by simp), ← mul_add, ENNReal.inv_two_add_inv_two,
      mul_one]
  refine ⟨?_, ?_, ?_⟩
  · rw [key]; simp [Fin.sum_univ_succ]
  · rw [key]; simp [Fin.sum_univ_succ]
  · rw [key]; simp [Fin.sum_univ_succ]; rw [two_mul, half]

-- binary keys of dimension 512 that differ in one word
example (l : List Nat) (hl : l.length = 511) (hb : ∀ s ∈ l, s < 2) (b : Nat) (hb2 : b < 2) :
    decryptWrong ⟨16, 4, 1024⟩ 512 smallError .bool (0 :: l) (1 :: l) b none = 1 / 2 := by
  have hk : ∀ x, x < 2 → SmallKey (2 ^ 10) 512 (x :: l) := fun x hx => ⟨by simp [hl], fun s hs => by
    rcases List.mem_cons.1 hs with rfl | hs
    · omega
    · have := hb s hs; omega⟩
  rw [C91_wrong_key ⟨16, 4, 1024⟩ 2 10 512 (by constructor <;> norm_num) smallError smallError_range _ _ (hk 0 (by decide))
    (hk 1 (by decide)) (by simp) .bool b (by omega)]
  exact C91_boolean.2.2

-- two independent binary keys of dimension 512
example (b : Nat) (hb : b < 2) (D : Set (Option Nat)) :
    advantage ((draws (uniformBelow 2) 512).bind fun sk => (draws (uniformBelow 2) 512).bind fun sk' =>
      decryptWrong ⟨16, 4, 1024⟩ 512 smallError .bool sk sk' b) (guess (2 ^ 2) .bool) D ≤ (1 / 2) ^ 512 := by
  refine le_trans (C91_fresh_keys ⟨16, 4, 1024⟩ 2 10 512 (by constructor <;> norm_num) smallError smallError_range
    (uniformBelow 2) (fun s hs => ?_) .bool b (by omega) D) ?_
  · have := mem_support_uniformBelow hs
    omega
  · rw [C91_binary_agree, ENNReal.toReal_pow]
    simp

-- keys that differ by half of the modulus only
example : ∃ c, LWEParams.encrypt ⟨16, 4, 1024⟩ [0] [77] 1 3 = some c ∧
    ∀ v, LWEParams.decrypt ⟨16, 4, 1024⟩ (.uint 8) [512] c = some v → v % 2 = 1 :=
  C91_condition_needed ⟨16, 4, 1024⟩ 2 10 1 (by constructor <;> norm_num) (by decide) [0] [512] rfl rfl
    (fun j hj => by obtain rfl : j = 0 := by omega
                    decide) [77] (by simp) (by simp) 1 (by unfold NoiseInRange; norm_num) 3 (by decide) _

end Verif.Props
