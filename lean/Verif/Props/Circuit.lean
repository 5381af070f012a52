import Verif.SpecCircuit
import Verif.Props.KeyGen

/-!
# C44: circuits of any depth

Concrete cases that meet the hypotheses are in `Props/EndToEnd.lean`.
-/

namespace Verif.Props
open Fp Finset Spec Ntt

theorem norm1_nonneg (S : List ℤ) : 0 ≤ norm1 S :=
  List.sum_nonneg fun x hx => by
    obtain ⟨z, _, rfl⟩ := List.mem_map.1 hx
    exact abs_nonneg z

theorem inError_nonneg (k m : Nat) (S : List ℤ) : 0 ≤ inError k m S := by
  unfold inError
  have := norm1_nonneg S
  split_ifs <;> omega

section
variable {K : EvalKey} {Q k m : Nat} [Fact Q.Prime] (G : GateParams K.w K.R K.P Q k m)
  {sk z : List Nat} {S Z : List ℤ} {E E' : Nat} (V : K.Valid Q k m sk z S Z E E') {Λ : Level}

omit [Fact Q.Prime] in
include G in
/-- The tables are polynomials over the field. -/
theorem lut_reduced {step : Nat} (es : K.P.lutStep = some step) {l : List Nat}
    (h : Lut.nand K.R K.P.ringDimension step = some l ∨
      Lut.andMajority K.R K.P.ringDimension step = some l ∨
      Lut.or K.R K.P.ringDimension step = some l ∨ Lut.nor K.R K.P.ringDimension step = some l ∨
      Lut.xor K.R K.P.ringDimension step = some l ∨ Lut.xnor K.R K.P.ringDimension step = some l) :
    Reduced Q (2 ^ k) l := by
  obtain ⟨s', es', h0, hd, -⟩ := C42_step K.P k m G.two_le (by have := G.le; omega) (by have := G.lwe.lt; omega)
    G.ring G.lwe.q
  obtain rfl : step = s' := Option.some.inj (es.symm.trans es')
  have C : Config K.R.w Q K.R.M := ⟨G.field.even, G.field.conf⟩
  have hg := gate_dim G
  rw [G.ring] at h
  rcases h with h | h | h | h | h | h
  · obtain ⟨l', e, hr, -⟩ := C42_nand C hg.1 hg.2 h0 hd
    rw [h] at e; exact Option.some.inj e ▸ hr
  · obtain ⟨l', e, hr, -⟩ := C42_and C hg.1 hg.2 h0 hd
    rw [h] at e; exact Option.some.inj e ▸ hr
  · obtain ⟨l', e, hr, -⟩ := C42_or C hg.1 hg.2 h0 hd
    rw [h] at e; exact Option.some.inj e ▸ hr
  · obtain ⟨l', e, hr, -⟩ := C42_nor C hg.1 hg.2 h0 hd
    rw [h] at e; exact Option.some.inj e ▸ hr
  · obtain ⟨l', e, hr, -⟩ := C42_xor C hg.1 hg.2 h0 hd
    rw [h] at e; exact Option.some.inj e ▸ hr
  · obtain ⟨l', e, hr, -⟩ := C42_xnor C hg.1 hg.2 h0 hd
    rw [h] at e; exact Option.some.inj e ▸ hr

/-- Every run has noises of at most `L`. -/
def AllRuns (K : EvalKey) (Q k m : Nat) (sk z : List Nat) (S Z : List ℤ) (L : Level) : Prop :=
  ∀ c lut, LWEReduced (2 ^ m) sk.length c → Reduced Q (2 ^ k) lut →
    K.RunNoise Q k m sk z S Z L c lut

include G V in
/-- C44: a valid key bounds the noise of every run, by the errors of its elements. -/
theorem C44_noise_bound : AllRuns K Q k m sk z S Z (worstLevel K Q k m S Z E E') := fun _ _ hc hl =>
  runNoise_of_valid G V (by rw [← keyWords_length V.keyS]; exact hc) hl

variable {η : ℤ} (hη : Stable K.P.steps Q k m Λ η)

omit [Fact Q.Prime] in
include hη in
theorem gate_cond {e : ℤ} (h : |e| ≤ 3 * η) :
    8 * 2 ^ k * |e| + 2 * 2 ^ m * Λ.inp < 2 ^ k * 2 ^ m := by
  have h1 := mul_le_mul_of_nonneg_left h (by positivity : (0 : ℤ) ≤ 8 * 2 ^ k)
  have := hη.gate
  linarith

include hη in
theorem refreshed_encrypts {r : Option LWE} {x : Bool} (h : K.Refreshed Q m sk Λ r x) :
    ∃ out, r = some out ∧ Encrypts (2 ^ m) sk η out x := by
  obtain ⟨out, e, er, ho, hp, hb, -⟩ := h
  refine ⟨out, er, ho, e, ?_, hp⟩
  have hQ : (0 : ℤ) < 4 * Q := by
    have : (0 : ℤ) < Q := by exact_mod_cast (Fact.out : Q.Prime).pos
    linarith
  have h1 := hb.trans hη.fresh
  rw [abs_mul, abs_of_pos hQ] at h1
  exact le_of_mul_le_mul_left h1 hQ

include G V hη in
/-- C57: a circuit of any size and depth, evaluated with noises that are in fact at most `Λ`. If the inputs have noises
of at most the level `η` and `η` is stable for `Λ`, the evaluation returns a ciphertext of the value of the circuit with
a noise of at most `η`, which decrypts to that value. -/
theorem C57_circuit (c : Nat → LWE) (b : Nat → Bool) (hc : ∀ i, Encrypts (2 ^ m) sk η (c i) (b i))
    (X : Circuit) (hX : X.NoiseWithin K Q k m sk z S Z Λ c) : ∃ out, X.run K c = some out ∧ Encrypts (2 ^ m) sk η out (X.eval b) ∧
      (K.P.lwe K.w).decrypt .bool sk out = some (X.eval b).toNat := by
  have add2 : ∀ {e f : ℤ}, |e| ≤ η → |f| ≤ η → |e + f| ≤ 3 * η := fun {e f} he hf => by
    have := abs_add_le e f
    have := abs_nonneg e
    linarith
  have sub2 : ∀ {e f : ℤ}, |e| ≤ η → |f| ≤ η → |e - f| ≤ 3 * η := fun {e f} he hf => by
    rw [sub_eq_add_neg]; exact add2 he (by rwa [abs_neg])
  have hin := hη.nonneg
  have hdiff : ∀ {e : ℤ}, |e| ≤ 3 * η → 8 * 2 ^ k * |e| + 2 ^ m * Λ.inp < 2 ^ k * 2 ^ m :=
    fun {e} h => by
      have h1 := gate_cond hη h
      have h2 : 0 ≤ 2 ^ m * Λ.inp := mul_nonneg (by positivity) hin
      linarith
  have key : ∃ out, X.run K c = some out ∧ Encrypts (2 ^ m) sk η out (X.eval b) := by
    induction X with
    | input i => exact ⟨c i, rfl, hc i⟩
    | not x ih =>
      obtain ⟨o, eo, ho, e, he, hp⟩ := ih hX
      obtain ⟨o', eo', ho', hp'⟩ := C44_not G ho hp
      refine ⟨o', ?_, ho', -e, by rwa [abs_neg], hp'⟩
      unfold Circuit.run; rw [mbind eo, eo']
    | nand x y ihx ihy =>
      obtain ⟨o, eo, ho, e, he, hp⟩ := ihx hX.1
      obtain ⟨u, eu, hu, f, hf, hq⟩ := ihy hX.2.1
      unfold Circuit.run; rw [mbind eo, mbind eu]
      exact refreshed_encrypts hη (C44_nand G V ho hu hp hq (gate_cond hη (add2 he hf))
        (hX.2.2 o u eo eu))
    | and x y ihx ihy =>
      obtain ⟨o, eo, ho, e, he, hp⟩ := ihx hX.1
      obtain ⟨u, eu, hu, f, hf, hq⟩ := ihy hX.2.1
      unfold Circuit.run; rw [mbind eo, mbind eu]
      exact refreshed_encrypts hη (C44_and G V ho hu hp hq (gate_cond hη (add2 he hf))
        (hX.2.2 o u eo eu))
    | or x y ihx ihy =>
      obtain ⟨o, eo, ho, e, he, hp⟩ := ihx hX.1
      obtain ⟨u, eu, hu, f, hf, hq⟩ := ihy hX.2.1
      unfold Circuit.run; rw [mbind eo, mbind eu]
      exact refreshed_encrypts hη (C44_or G V ho hu hp hq (gate_cond hη (add2 he hf))
        (hX.2.2 o u eo eu))
    | nor x y ihx ihy =>
      obtain ⟨o, eo, ho, e, he, hp⟩ := ihx hX.1
      obtain ⟨u, eu, hu, f, hf, hq⟩ := ihy hX.2.1
      unfold Circuit.run; rw [mbind eo, mbind eu]
      exact refreshed_encrypts hη (C44_nor G V ho hu hp hq (gate_cond hη (add2 he hf))
        (hX.2.2 o u eo eu))
    | xor x y ihx ihy =>
      obtain ⟨o, eo, ho, e, he, hp⟩ := ihx hX.1
      obtain ⟨u, eu, hu, f, hf, hq⟩ := ihy hX.2.1
      unfold Circuit.run; rw [mbind eo, mbind eu]
      have := refreshed_encrypts hη (C44_xor G V ho hu hp hq (hdiff (sub2 he hf))
        (hX.2.2 o u eo eu))
      exact this
    | xnor x y ihx ihy =>
      obtain ⟨o, eo, ho, e, he, hp⟩ := ihx hX.1
      obtain ⟨u, eu, hu, f, hf, hq⟩ := ihy hX.2.1
      unfold Circuit.run; rw [mbind eo, mbind eu]
      have := refreshed_encrypts hη (C44_xnor G V ho hu hp hq (hdiff (sub2 he hf))
        (hX.2.2 o u eo eu))
      have hb : (!(x.eval b ^^ y.eval b)) = (x.eval b == y.eval b) := by
        cases x.eval b <;> cases y.eval b <;> rfl
      rw [hb] at this
      exact this
    | majority x y z ihx ihy ihz =>
      obtain ⟨o, eo, ho, e, he, hp⟩ := ihx hX.1
      obtain ⟨u, eu, hu, f, hf, hq⟩ := ihy hX.2.1
      obtain ⟨v, ev, hv, g, hg, hr⟩ := ihz hX.2.2.1
      unfold Circuit.run; rw [mbind eo, mbind eu, mbind ev]
      have h3 : |e + f + g| ≤ 3 * η := by
        have h1 := abs_add_le (e + f) g
        have h2 := abs_add_le e f
        linarith
      exact refreshed_encrypts hη (C44_majority G V ho hu hv hp hq hr (gate_cond hη h3)
        (hX.2.2.2 o u v eo eu ev))
    | mux x y z ihx ihy ihz =>
      obtain ⟨o, eo, ho, e, he, hp⟩ := ihx hX.1
      obtain ⟨u, eu, hu, f, hf, hq⟩ := ihy hX.2.1
      obtain ⟨v, ev, hv, g, hg, hr⟩ := ihz hX.2.2.1
      unfold Circuit.run; rw [mbind eo, mbind eu, mbind ev]
      have hQ : (0 : ℤ) < Q := by exact_mod_cast (Fact.out : Q.Prime).pos
      have hη0 : 0 ≤ η := (abs_nonneg e).trans he
      have hm : 4 * 2 ^ k * outError K.P.steps Q m Λ + 2 * Q * 2 ^ m * Λ.inp <
          Q * 2 ^ k * 2 ^ m := by
        have h1 := mul_le_mul_of_nonneg_left hη.fresh (by positivity : (0 : ℤ) ≤ 4 * 2 ^ k)
        have h2 := mul_lt_mul_of_pos_left hη.gate hQ
        have h3 : (0 : ℤ) ≤ Q * (2 ^ k * η) := by positivity
        linarith
      exact refreshed_encrypts hη (C44_mux G V ho hu hv hp hq hr (gate_cond hη (add2 he hf))
        (gate_cond hη (sub2 hg he)) hm (hX.2.2.2 o u v eo eu ev))
  obtain ⟨out, eo, ho, e, he, hp⟩ := key
  refine ⟨out, eo, ⟨ho, e, he, hp⟩, ?_⟩
  have hQ := (Fact.out : Q.Prime).pos
  refine decrypt_bit G hQ ho hp (b := 4 * Q * η) ?_ ?_
  · rw [abs_mul, abs_of_nonneg (by positivity : (0 : ℤ) ≤ 4 * Q)]
    exact mul_le_mul_of_nonneg_left he (by positivity)
  · have hη0 : 0 ≤ η := (abs_nonneg e).trans he
    have h1 : (24 * η) * 2 ^ k < 2 ^ m * 2 ^ k := by
      have h2 : 0 ≤ 2 * 2 ^ m * Λ.inp := mul_nonneg (by positivity) hin
      have := hη.gate
      linarith
    have h2 : 24 * η < 2 ^ m := lt_of_mul_lt_mul_right h1 (by positivity)
    have hQ' : (0 : ℤ) < Q := by exact_mod_cast hQ
    have h3 := mul_lt_mul_of_pos_left h2 hQ'
    have h4 : (0 : ℤ) ≤ Q * η := mul_nonneg hQ'.le hη0
    linarith

variable (hrun : AllRuns K Q k m sk z S Z Λ)

omit [Fact Q.Prime] in
include G hrun in
theorem sumNoise_of_all {c0 c1 : LWE} (h0 : LWEReduced (2 ^ m) sk.length c0)
    (h1 : LWEReduced (2 ^ m) sk.length c1) (L : Ctx → Nat → Nat → Option (List Nat))
    (hL : ∀ step l, K.P.lutStep = some step → L K.R K.P.ringDimension step = some l →
      Reduced Q (2 ^ k) l) : K.SumNoise Q k m sk z S Z Λ L c0 c1 := by
  intro O c step l eO ec es el
  obtain ⟨O', eO', hO⟩ := gate_ops G
  obtain rfl : O = O' := Option.some.inj (eO.symm.trans eO')
  obtain ⟨c', ec', -, hc, -⟩ := C33_add (2 ^ m) sk.length O hO c0 c1 h0 h1
  obtain rfl : c = c' := Option.some.inj (ec.symm.trans ec')
  exact hrun c l hc (hL step l es el)

omit [Fact Q.Prime] in
include G hrun in
theorem diffNoise_of_all {c0 c1 : LWE} (h0 : LWEReduced (2 ^ m) sk.length c0)
    (h1 : LWEReduced (2 ^ m) sk.length c1) (L : Ctx → Nat → Nat → Option (List Nat))
    (hL : ∀ step l, K.P.lutStep = some step → L K.R K.P.ringDimension step = some l →
      Reduced Q (2 ^ k) l) : K.DiffNoise Q k m sk z S Z Λ L c0 c1 := by
  intro O c d step l eO ec ed es el
  obtain ⟨O', eO', hO⟩ := gate_ops G
  obtain rfl : O = O' := Option.some.inj (eO.symm.trans eO')
  have h2 : 2 < 2 ^ m := by
    have := G.lwe.lt
    calc 2 < 2 ^ 2 := by decide
      _ ≤ 2 ^ m := Nat.pow_le_pow_right (by decide) (by omega)
  obtain ⟨c', ec', -, hc, -⟩ := C33_sub (2 ^ m) sk.length O hO c0 c1 h0 h1
  obtain rfl : c = c' := Option.some.inj (ec.symm.trans ec')
  obtain ⟨d', ed', hd, -⟩ := (C33_scalar_neg (2 ^ m) sk.length O hO c hc 2 h2).1
  obtain rfl : d = d' := Option.some.inj (ed.symm.trans ed')
  exact hrun d l hd (hL step l es el)

omit [Fact Q.Prime] in
include G hrun in
theorem majNoise_of_all {c0 c1 c2 : LWE} (h0 : LWEReduced (2 ^ m) sk.length c0)
    (h1 : LWEReduced (2 ^ m) sk.length c1) (h2 : LWEReduced (2 ^ m) sk.length c2) :
    K.MajNoise Q k m sk z S Z Λ c0 c1 c2 := by
  intro O c d step l eO ec ed es el
  obtain ⟨O', eO', hO⟩ := gate_ops G
  obtain rfl : O = O' := Option.some.inj (eO.symm.trans eO')
  obtain ⟨c', ec', -, hc, -⟩ := C33_add (2 ^ m) sk.length O hO c0 c1 h0 h1
  obtain rfl : c = c' := Option.some.inj (ec.symm.trans ec')
  obtain ⟨d', -, ed', hd, -⟩ := C33_add (2 ^ m) sk.length O hO c c2 hc h2
  obtain rfl : d = d' := Option.some.inj (ed.symm.trans ed')
  exact hrun d l hd (lut_reduced G es (.inr (.inl el)))

include G V hrun hη in
/-- Bounds for all runs are bounds for the runs of every circuit. -/
theorem within_of_all (c : Nat → LWE) (b : Nat → Bool) (hc : ∀ i, Encrypts (2 ^ m) sk η (c i) (b i))
    (X : Circuit) : X.NoiseWithin K Q k m sk z S Z Λ c := by
  have red : ∀ {x : Circuit} {a : LWE}, x.NoiseWithin K Q k m sk z S Z Λ c → x.run K c = some a →
      LWEReduced (2 ^ m) sk.length a := fun {x a} hx ea => by
    obtain ⟨out, eo, ho, -⟩ := C57_circuit G V hη c b hc x hx
    exact Option.some.inj (eo.symm.trans ea) ▸ ho.1
  induction X with
  | input i => trivial
  | not x ih => exact ih
  | nand x y ihx ihy =>
    exact ⟨ihx, ihy, fun a d ea ed => sumNoise_of_all G hrun (red ihx ea) (red ihy ed) _
      fun s l es el => lut_reduced G es (.inl el)⟩
  | and x y ihx ihy =>
    exact ⟨ihx, ihy, fun a d ea ed => sumNoise_of_all G hrun (red ihx ea) (red ihy ed) _
      fun s l es el => lut_reduced G es (.inr (.inl el))⟩
  | or x y ihx ihy =>
    exact ⟨ihx, ihy, fun a d ea ed => sumNoise_of_all G hrun (red ihx ea) (red ihy ed) _
      fun s l es el => lut_reduced G es (.inr (.inr (.inl el)))⟩
  | nor x y ihx ihy =>
    exact ⟨ihx, ihy, fun a d ea ed => sumNoise_of_all G hrun (red ihx ea) (red ihy ed) _
      fun s l es el => lut_reduced G es (.inr (.inr (.inr (.inl el))))⟩
  | xor x y ihx ihy =>
    exact ⟨ihx, ihy, fun a d ea ed => diffNoise_of_all G hrun (red ihx ea) (red ihy ed) _
      fun s l es el => lut_reduced G es (.inr (.inr (.inr (.inr (.inl el)))))⟩
  | xnor x y ihx ihy =>
    exact ⟨ihx, ihy, fun a d ea ed => diffNoise_of_all G hrun (red ihx ea) (red ihy ed) _
      fun s l es el => lut_reduced G es (.inr (.inr (.inr (.inr (.inr el)))))⟩
  | majority x y w ihx ihy ihw =>
    exact ⟨ihx, ihy, ihw, fun a d f ea ed ef =>
      majNoise_of_all G hrun (red ihx ea) (red ihy ed) (red ihw ef)⟩
  | mux x y w ihx ihy ihw =>
    refine ⟨ihx, ihy, ihw, fun a d f ea ed ef => ?_⟩
    have hand : ∀ {x y : Circuit} {a d r : LWE}, x.NoiseWithin K Q k m sk z S Z Λ c →
        y.NoiseWithin K Q k m sk z S Z Λ c → x.run K c = some a → y.run K c = some d →
        K.and a d = some r → LWEReduced (2 ^ m) sk.length r := fun {x y a d r} hx hy ea ed er => by
      refine red (x := .and x y) ⟨hx, hy, fun a d ea ed => sumNoise_of_all G hrun (red hx ea) (red hy ed) _
        fun s l es el => lut_reduced G es (.inr (.inl el))⟩ ?_
      unfold Circuit.run
      rw [mbind ea, mbind ed, er]
    have hnot : ∀ {n0}, K.not a = some n0 → (Circuit.not x).run K c = some n0 := fun {n0} en => by
      unfold Circuit.run
      rw [mbind ea, en]
    have ihn : (Circuit.not x).NoiseWithin K Q k m sk z S Z Λ c := ihx
    refine ⟨?_, fun n0 en => ?_, fun n0 t0 t1 en e0 e1 => ?_⟩
    · exact sumNoise_of_all G hrun (red ihx ea) (red ihy ed) _
        fun s l es el => lut_reduced G es (.inr (.inl el))
    · exact sumNoise_of_all G hrun (red ihn (hnot en)) (red ihw ef) _
        fun s l es el => lut_reduced G es (.inr (.inl el))
    · exact sumNoise_of_all G hrun (hand ihx ihy ea ed e0) (hand ihn ihw (hnot en) ef e1) _
        fun s l es el => lut_reduced G es (.inr (.inr (.inl el)))

include G V hrun hη in
/-- C44: a circuit of any size and depth, with bounds that hold for all runs. -/
theorem C44_circuit (c : Nat → LWE) (b : Nat → Bool) (hc : ∀ i, Encrypts (2 ^ m) sk η (c i) (b i))
    (X : Circuit) : ∃ out, X.run K c = some out ∧ Encrypts (2 ^ m) sk η out (X.eval b) ∧
      (K.P.lwe K.w).decrypt .bool sk out = some (X.eval b).toNat :=
  C57_circuit G V hη c b hc X (within_of_all G V hη hrun c b hc X)

end

end Verif.Props
