import Verif.Props.TableUnit

/-!
# C75: the mask of the accumulator after a blind rotation with a fresh key

Concrete cases that meet the hypotheses are in `Props/AccDefaults.lean`.
-/

namespace Verif.Props
open Fp Finset Spec Ntt
open scoped ENNReal

section
variable {R : Ctx} {q k : Nat} [Fact q.Prime]

/-- The first step that changes a rotated unit is good. -/
theorem init_good [Nontrivial (ZMod q)] (hodd : q ≠ 2) {bits len a : Nat} (hlen : q ≤ 2 ^ (bits * len))
    (h0 : 0 < a) (ha : a < 2 * 2 ^ k) {lut l : List Nat} (hu : TableUnit q (2 ^ k) lut) (b : ℤ)
    (hl : Rq.ofWords q (2 ^ k) l = Rq.ofWords q (2 ^ k) lut * Rq.monoZ (-b)) :
    StepGood q (2 ^ k) bits len a (BlindRotation.init l).acc := by
  intro r hr
  by_contra hc
  push Not at hc
  have hz := digits_evalAt hlen (l := stepWords q (2 ^ k) a (BlindRotation.init l).acc 1)
    (rep_iff.1 (wordsOf_rep _)).1 r fun j hj => hc 1 (by omega) j hj
  unfold stepWords at hz
  rw [(rep_iff.1 (wordsOf_rep _)).2, if_neg (by omega), Rq.evalAt_mul _ hr, Rq.evalAt_sub, Rq.evalAt_one,
    Rq.evalAt_mono _ hr] at hz
  rcases mul_eq_zero.1 hz with h | h
  · exact root_pow_ne_one hodd h0 ha hr (sub_eq_zero.1 h)
  · change (Rq.ofWords q (2 ^ k) l).evalAt (RingHom.id _) r = 0 at h
    rw [hl, Rq.evalAt_mul _ hr] at h
    rcases mul_eq_zero.1 h with h | h
    · refine hu r hr ?_
      rw [← h, ← seq_sum_eq_evalAt]
      refine sum_congr rfl fun i hi => ?_
      rw [Rq.seq_lt _ (mem_range.1 hi)]
      rfl
    · have e := Rq.monoZ_neg_mul (R := ZMod q) (n := 2 ^ k) b
      have := congrArg (Rq.evalAt (RingHom.id _) r) e
      rw [Rq.evalAt_mul _ hr, h, zero_mul, Rq.evalAt_one] at this
      exact zero_ne_one this

/-- A rotation with independent uniform key elements: a set of masks without the zero mask is at most as likely as for a
uniform mask, up to the probabilities of common roots. -/
theorem rotate_mask [NeZero q] [Nontrivial (ZMod q)] (hk : 0 < k) (F : TableField R.w q R.M R.tbl k) {K α : Type}
    {t bits len : Nat} (ht : t ≤ k) (hq : (2 ^ t * (2 ^ bits - 1)) ^ 2 ^ t < q) (hlen : q ≤ 2 ^ (bits * len))
    (s : List Nat) (p : PMF α) (C : ℝ) (digit : Nat → ℤ) (gen : Nat → α → Option K)
    (generate : List Nat → List α → Option (List K)) (h0 : ∀ l, generate [] l = some [])
    (h1 : ∀ x xs d ds, generate (x :: xs) (d :: ds) =
      (gen x d).bind fun g => (generate xs ds).bind fun gs => some (g :: gs))
    (step : BlindRotation.State → K → Nat → Option BlindRotation.State)
    (hstep : ∀ x, StepNoise q (2 ^ k) (Rq.ofWords q (2 ^ k) s) p C (Nat.two_pow_pos k) (gen x) step (digit x))
    (hzero : ∀ st g, step st g 0 = some st)
    (hunif : ∀ x, StepUniform q (2 ^ k) bits len (Rq.ofWords q (2 ^ k) s) p (gen x) step)
    (secret : List Nat) (lut : List Nat) (hl : Reduced q (2 ^ k) lut) (hu : TableUnit q (2 ^ k) lut) (c : LWE)
    (hcl : c.a.length = secret.length) (ha : ∀ x ∈ c.a, x < 2 * 2 ^ k) (hb : c.b < 2 * 2 ^ k)
    (X : Set (List Nat)) (hX : Poly.zero (2 ^ k) ∉ X) :
    ∃ l', BlindRotation.rotateLut R lut c.b = some l' ∧ l'.length = 2 ^ k ∧
      (draws p secret.length).toOuterMeasure {d | ∃ key st, generate secret d = some key ∧
        BlindRotation.loop step key c.a (BlindRotation.init l') = some st ∧ st.acc.a ∈ X} ≤
      (draws (uniformBelow q) (2 ^ k)).toOuterMeasure X + secret.length * rootTail q (2 ^ k) t := by
  have hodd : q ≠ 2 := by have := table_odd hk F; omega
  obtain ⟨l, el, hl'⟩ : ∃ l, BlindRotation.rotateLut R lut c.b = some l ∧ Reduced q (2 ^ k) l ∧
      Rq.ofWords q (2 ^ k) l = Rq.ofWords q (2 ^ k) lut * Rq.monoZ (-(c.b : ℤ)) := by
    obtain ⟨t, hq, E⟩ := F.env hk
    subst hq
    obtain ⟨l, el, h⟩ := rotateLut_spec E (rep_exists hl) hb
    exact ⟨l, el, rep_iff.1 h⟩
  refine ⟨l, el, hl'.1.1, ?_⟩
  classical
  obtain ⟨f, hf⟩ : ∃ f : Option (List Nat) → ℝ≥0∞, f = fun o => if ∃ x ∈ X, o = some x then 1 else 0 := ⟨_, rfl⟩
  have hf1 : ∀ o, f o ≤ 1 := fun o => by rw [hf]; dsimp only; split <;> simp
  obtain ⟨hm, hn⟩ := loop_mask (2 ^ k) (Nat.two_pow_pos k) bits len (rootTail q (2 ^ k) t)
    (fun a h0 ha => step_root_prob hk F hodd ht hq hlen h0 ha) (Rq.ofWords q (2 ^ k) s) p C digit gen generate h0 h1
    step hstep hzero hunif f hf1 secret c.a hcl ha _ _ (init_inv (2 ^ k) _ l hl'.1)
  obtain ⟨A, hA⟩ : ∃ A : Set (List α), A = {d | ∃ key st, generate secret d = some key ∧
    BlindRotation.loop step key c.a (BlindRotation.init l) = some st ∧ st.acc.a ∈ X} := ⟨_, rfl⟩
  rw [← hA]
  cases hfind : c.a.find? (· ≠ 0) with
  | none =>
    refine le_trans (le_of_eq ?_) zero_le
    rw [PMF.toOuterMeasure_apply_eq_zero_iff, Set.disjoint_left]
    intro d hd hbad
    rw [hA] at hbad
    obtain ⟨key, st, ek, es, hx⟩ := hbad
    obtain ⟨key', ek', es'⟩ := hn hfind d hd
    obtain rfl := Option.some.inj (ek.symm.trans ek')
    obtain rfl := Option.some.inj (es.symm.trans es')
    refine hX ?_
    rw [← hl'.1.1]
    exact hx
  | some a =>
    have hpos : 0 < a := Nat.pos_of_ne_zero (by simpa using List.find?_some hfind)
    have hlt := ha a (List.mem_of_find?_eq_some hfind)
    have := hm (firstGood_of hfind (init_good hodd hlen hpos hlt hu _ hl'.2))
    rw [prob_eq, prob_eq]
    refine le_trans (le_of_eq ?_) (this.trans_eq ?_)
    · refine mean_congr fun d _ => ?_
      rw [hf]
      dsimp only
      refine if_congr ?_ rfl rfl
      rw [hA]
      constructor
      · rintro ⟨key, st, ek, es, hx⟩
        exact ⟨_, hx, by rw [ek, Option.bind_some, es]; rfl⟩
      · rintro ⟨x, hx, e⟩
        obtain ⟨key, ek, e⟩ := Option.bind_eq_some_iff.1 e
        obtain ⟨st, es, rfl⟩ := Option.map_eq_some_iff.1 e
        exact ⟨key, st, ek, es, hx⟩
    · congr 1
      refine mean_congr fun d _ => ?_
      rw [hf]
      dsimp only
      refine if_congr ?_ rfl rfl
      constructor
      · rintro ⟨x, hx, e⟩
        rwa [Option.some.inj e]
      · exact fun h => ⟨d, h, rfl⟩

variable {χ : PMF Nat} {v : ℝ}

/-- C75: with a fresh binary key with uniform masks and any table that is a unit, the mask of the accumulator is in a set
without the zero mask with at most the probability of a uniform mask, plus `rootTail` for every step. -/
theorem C75_binary [NeZero q] (hk : 0 < k) (F : TableField R.w q R.M R.tbl k) (bits : Nat) (B : Basis)
    (hB : Basis.new R.w q bits = some B) {t : Nat} (ht : t ≤ k) (hq : (2 ^ t * (2 ^ bits - 1)) ^ 2 ^ t < q)
    (s sn : List Nat) (hs : Reduced q (2 ^ k) s) (hsn : Poly.toNtt R.w R.M R.tbl s = some sn) (secret : List Nat)
    (h : SubGaussian q χ v) (hv : 0 ≤ v)
    (lut : List Nat) (hl : Reduced q (2 ^ k) lut) (hu : TableUnit q (2 ^ k) lut) (c : LWE)
    (hlen : c.a.length = secret.length) (ha : ∀ x ∈ c.a, x < 2 * 2 ^ k) (hb : c.b < 2 * 2 ^ k)
    (X : Set (List Nat)) (hX : Poly.zero (2 ^ k) ∉ X) :
    (draws (rgswLaw (draws (uniformBelow q) (2 ^ k)) χ (2 ^ k) B.decomposeLen) secret.length).toOuterMeasure
      {d | ∃ key r, BlindRotation.binaryGenerate R sn B secret d = some key ∧
        BlindRotation.binary R key lut c = some r ∧ r.a ∈ X} ≤
    (draws (uniformBelow q) (2 ^ k)).toOuterMeasure X + secret.length * rootTail q (2 ^ k) t := by
  have C : Config R.w q R.M := ⟨F.even, F.conf⟩
  have := C.two_le
  have : Nontrivial (ZMod q) := ZMod.nontrivial_iff.2 (by omega)
  have hum : ∀ a ∈ (draws (uniformBelow q) (2 ^ k)).support, Reduced q (2 ^ k) a := fun a ha => by
    obtain ⟨e1, e2⟩ := mem_support_draws ha
    exact ⟨e1, fun v hv => mem_support_uniformBelow (e2 v hv)⟩
  obtain ⟨l', el, hll, hd⟩ := rotate_mask hk F ht hq (len_bounds (by have := C.four_mul_lt; omega) (by omega) hB).1 s _ _ binaryDigit
    (BlindRotation.binaryKey R sn B) (BlindRotation.binaryGenerate R sn B) (fun l => by cases l <;> rfl)
    (fun _ _ _ _ => rfl) (BlindRotation.binaryStep R (2 ^ k))
    (binary_step_noise hk F bits B hB s sn hs hsn h hv hum) (fun _ _ => if_pos rfl)
    (binary_step_uniform hk F bits B hB s sn hs hsn h.lt) secret lut hl hu c hlen ha hb X hX
  refine le_trans (prob_mono fun d _ hx => ?_) hd
  obtain ⟨key, r, ek, er, hr⟩ := hx
  unfold BlindRotation.binary at er
  rw [mbind el, hll] at er
  obtain ⟨st, es, e⟩ := Option.bind_eq_some_iff.1 er
  obtain rfl := Option.some.inj e
  exact ⟨key, st, ek, es, hr⟩

/-- C75: the same with a fresh ternary key. -/
theorem C75_ternary [NeZero q] (hk : 0 < k) (hk' : k ≤ 31) (F : TableField R.w q R.M R.tbl k) (bits : Nat) (B : Basis)
    (hB : Basis.new R.w q bits = some B) {t : Nat} (ht : t ≤ k) (hq : (2 ^ t * (2 ^ bits - 1)) ^ 2 ^ t < q)
    (s sn : List Nat) (hs : Reduced q (2 ^ k) s) (hsn : Poly.toNtt R.w R.M R.tbl s = some sn) (secret : List Nat)
    (h : SubGaussian q χ v) (hv : 0 ≤ v)
    (lut : List Nat) (hl : Reduced q (2 ^ k) lut) (hu : TableUnit q (2 ^ k) lut) (c : LWE)
    (hlen : c.a.length = secret.length) (ha : ∀ x ∈ c.a, x < 2 * 2 ^ k) (hb : c.b < 2 * 2 ^ k)
    (X : Set (List Nat)) (hX : Poly.zero (2 ^ k) ∉ X) :
    (draws (pair (rgswLaw (draws (uniformBelow q) (2 ^ k)) χ (2 ^ k) B.decomposeLen)
      (rgswLaw (draws (uniformBelow q) (2 ^ k)) χ (2 ^ k) B.decomposeLen)) secret.length).toOuterMeasure
      {d | ∃ key r, BlindRotation.ternaryGenerate R sn B secret d = some key ∧
        BlindRotation.ternary R key lut c = some r ∧ r.a ∈ X} ≤
    (draws (uniformBelow q) (2 ^ k)).toOuterMeasure X + secret.length * rootTail q (2 ^ k) t := by
  have C : Config R.w q R.M := ⟨F.even, F.conf⟩
  have := C.two_le
  have : Nontrivial (ZMod q) := ZMod.nontrivial_iff.2 (by omega)
  obtain ⟨tb, htb, htf⟩ : ∃ t, R.tbl k = some t ∧ Poly.tableFor R.tbl (2 ^ k) = some t := by
    obtain ⟨t, _, E⟩ := F.env hk
    exact ⟨t, E.tb, E.tableFor⟩
  have hum : ∀ a ∈ (draws (uniformBelow q) (2 ^ k)).support, Reduced q (2 ^ k) a := fun a ha => by
    obtain ⟨e1, e2⟩ := mem_support_draws ha
    exact ⟨e1, fun v hv => mem_support_uniformBelow (e2 v hv)⟩
  obtain ⟨l', el, hll, hd⟩ := rotate_mask hk F ht hq (len_bounds (by have := C.four_mul_lt; omega) (by omega) hB).1 s _ _ ternaryDigit
    (BlindRotation.ternaryKey R sn B) (BlindRotation.ternaryGenerate R sn B) (fun l => by cases l <;> rfl)
    (fun _ _ _ _ => rfl) (BlindRotation.ternaryStep R tb (2 ^ k))
    (ternary_step_noise hk hk' F bits B hB s sn hs hsn tb htb h hv hum) (fun _ _ => if_pos rfl)
    (ternary_step_uniform hk hk' F bits B hB s sn hs hsn tb htb h.lt) secret lut hl hu c hlen ha hb X hX
  refine le_trans (prob_mono fun d _ hx => ?_) hd
  obtain ⟨key, r, ek, er, hr⟩ := hx
  unfold BlindRotation.ternary at er
  rw [hl.1, mbind htf, mbind el, hll] at er
  obtain ⟨st, es, e⟩ := Option.bind_eq_some_iff.1 er
  obtain rfl := Option.some.inj e
  exact ⟨key, st, ek, es, hr⟩

end
end Verif.Props
