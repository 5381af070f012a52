import Verif.SpecFunctions
import Verif.Props.TunedDefaults

/-! # C103: every function of bits can be evaluated on ciphertexts -/

namespace Verif
open Spec Props

/-- The numbered bits after gates that were evaluated one by one. -/
def bitsAfter : List Circuit → (Nat → Bool) → Nat → Bool
  | [], b => b
  | g :: gs, b => bitsAfter gs (prepend [g.eval b] b)

theorem prepend_zero {α : Type} (x : α) (b : Nat → α) : prepend [x] b 0 = x := rfl

theorem prepend_succ {α : Type} (x : α) (b : Nat → α) (i : Nat) : prepend [x] b (i + 1) = b i := by
  simp [prepend]

theorem bitsAfter_append : ∀ (gs hs : List Circuit) (b : Nat → Bool), bitsAfter (gs ++ hs) b = bitsAfter hs (bitsAfter gs b)
  | [], _, _ => rfl
  | g :: gs, hs, b => by rw [List.cons_append, bitsAfter, bitsAfter, bitsAfter_append gs hs]

theorem bitsAfter_old : ∀ (gs : List Circuit) (b : Nat → Bool) (j : Nat), bitsAfter gs b (j + gs.length) = b j
  | [], _, _ => rfl
  | g :: gs, b, j => by
    rw [bitsAfter, List.length_cons, ← Nat.add_assoc, Nat.add_right_comm, bitsAfter_old gs, prepend_succ]

theorem thenGate_spec {g : Circuit → Circuit → Circuit} {x y : Circuit} {s : Nat} {c b : Nat → Bool}
    (hg : ∀ {u v u' v' : Circuit} {b b' : Nat → Bool}, u.eval b = u'.eval b' → v.eval b = v'.eval b' →
      (g u v).eval b = (g u' v').eval b')
    (hc : ∀ i, c (s + i) = b i)
    (hx : bitsAfter (x.schedule s).1 c (x.schedule s).2 = x.eval b)
    (hy : ∀ c' : Nat → Bool, (∀ i, c' (s + (x.schedule s).1.length + i) = b i) →
      bitsAfter (y.schedule (s + (x.schedule s).1.length)).1 c' (y.schedule (s + (x.schedule s).1.length)).2 = y.eval b) :
    let r := Circuit.thenGate g (x.schedule s) (y.schedule (s + (x.schedule s).1.length))
    bitsAfter r.1 c r.2 = (g x y).eval b := by
  unfold Circuit.thenGate
  dsimp only
  rw [bitsAfter_append, bitsAfter_append, bitsAfter, bitsAfter, prepend_zero]
  refine hg ?_ ?_
  · rw [Circuit.eval, bitsAfter_old, hx]
  · rw [Circuit.eval]
    refine hy _ fun i => ?_
    rw [Nat.add_right_comm, bitsAfter_old, hc]

theorem schedule_spec : ∀ (X : Circuit), X.Binary → ∀ (s : Nat) (c b : Nat → Bool), (∀ i, c (s + i) = b i) →
    bitsAfter (X.schedule s).1 c (X.schedule s).2 = X.eval b
  | .input i, _, s, c, b, hc => hc i
  | .not x, hX, s, c, b, hc => by
    have := schedule_spec x hX s c b hc
    simp only [Circuit.schedule]
    rw [bitsAfter_append, bitsAfter, bitsAfter, prepend_zero]
    simp only [Circuit.eval]
    rw [this]
  | .nand x y, hX, s, c, b, hc => thenGate_spec (fun h h' => by simp only [Circuit.eval, h, h']) hc (schedule_spec x hX.1 s c b hc)
    fun c' hc' => schedule_spec y hX.2 _ c' b hc'
  | .and x y, hX, s, c, b, hc => thenGate_spec (fun h h' => by simp only [Circuit.eval, h, h']) hc (schedule_spec x hX.1 s c b hc)
    fun c' hc' => schedule_spec y hX.2 _ c' b hc'
  | .or x y, hX, s, c, b, hc => thenGate_spec (fun h h' => by simp only [Circuit.eval, h, h']) hc (schedule_spec x hX.1 s c b hc)
    fun c' hc' => schedule_spec y hX.2 _ c' b hc'
  | .nor x y, hX, s, c, b, hc => thenGate_spec (fun h h' => by simp only [Circuit.eval, h, h']) hc (schedule_spec x hX.1 s c b hc)
    fun c' hc' => schedule_spec y hX.2 _ c' b hc'
  | .xor x y, hX, s, c, b, hc => thenGate_spec (fun h h' => by simp only [Circuit.eval, h, h']) hc (schedule_spec x hX.1 s c b hc)
    fun c' hc' => schedule_spec y hX.2 _ c' b hc'
  | .xnor x y, hX, s, c, b, hc => thenGate_spec (fun h h' => by simp only [Circuit.eval, h, h']) hc (schedule_spec x hX.1 s c b hc)
    fun c' hc' => schedule_spec y hX.2 _ c' b hc'

theorem schedule_size : ∀ (X : Circuit), X.Binary → ∀ s, (X.schedule s).1.length = X.size
  | .input _, _, _ => rfl
  | .not x, hX, s => by simp [Circuit.schedule, Circuit.size, schedule_size x hX s]
  | .nand x y, hX, s | .and x y, hX, s | .or x y, hX, s | .nor x y, hX, s | .xor x y, hX, s | .xnor x y, hX, s => by
    simp [Circuit.schedule, Circuit.thenGate, Circuit.size, schedule_size x hX.1, schedule_size y hX.2, Nat.add_assoc]

theorem schedule_result : ∀ (X : Circuit), X.Binary → 0 < X.size → (X.schedule 0).2 = 0
  | .input _, _, h => absurd h (by simp [Circuit.size])
  | .not _, _, _ => rfl
  | .nand _ _, _, _ | .and _ _, _, _ | .or _ _, _, _ | .nor _ _, _, _ | .xor _ _, _, _ | .xnor _ _, _, _ => rfl

theorem schedule_single : ∀ (X : Circuit), X.Binary → ∀ s, ∀ g ∈ (X.schedule s).1, g.Single 2
  | .input _, _, _, g, hg => by simp [Circuit.schedule] at hg
  | .not x, hX, s, g, hg => by
    rcases List.mem_append.1 hg with hg | hg
    · exact schedule_single x hX s g hg
    · rw [List.mem_singleton] at hg; subst hg; trivial
  | .nand x y, hX, s, g, hg | .and x y, hX, s, g, hg | .or x y, hX, s, g, hg | .nor x y, hX, s, g, hg
  | .xor x y, hX, s, g, hg | .xnor x y, hX, s, g, hg => by
    simp only [Circuit.schedule, Circuit.thenGate, List.mem_append, List.mem_singleton] at hg
    rcases hg with (hg | hg) | rfl
    · exact schedule_single x hX.1 _ g hg
    · exact schedule_single y hX.2 _ g hg
    · exact le_refl 2

/-- The gates in the log are those of the plan. -/
theorem renewedLaw_log {keys : PMF (Option EvalKey)} {gs : List Circuit} : ∀ (D t : Nat) (c : Nat → LWE)
    (log : List (List (Circuit × LWE))),
    some log ∈ (renewedLaw keys (fun t _ => (gs[t]?).toList) D t c).support → t + D = gs.length →
    List.Forall₂ (fun layer g => ∃ out, layer = [(g, out)]) log (gs.drop t)
  | 0, t, c, log, h, hD => by
    rw [renewedLaw, PMF.support_pure, Set.mem_singleton_iff] at h
    cases h
    rw [List.drop_eq_nil_of_le (by omega)]
    exact List.Forall₂.nil
  | D + 1, t, c, log, h, hD => by
    have ht : t < gs.length := by omega
    rw [renewedLaw, PMF.mem_support_bind_iff] at h
    obtain ⟨K, _, h⟩ := h
    cases K with
    | none =>
      rw [show ((none : Option EvalKey).bind _) = none from rfl] at h
      simp only [PMF.support_pure, Set.mem_singleton_iff, reduceCtorEq] at h
    | some K =>
      rw [Option.bind_some, List.getElem?_eq_getElem ht] at h
      simp only [Option.toList_some, List.mapM_cons, List.mapM_nil] at h
      cases e : gs[t].run K c with
      | none =>
        rw [e] at h
        simp at h
      | some out =>
        rw [e] at h
        obtain ⟨r, hr, e'⟩ := (PMF.mem_support_map_iff _ _ _).1 h
        cases r with
        | none => simp at e'
        | some log' =>
          obtain rfl := Option.some.inj e'.symm
          rw [List.drop_eq_getElem_cons ht]
          exact List.Forall₂.cons ⟨out, rfl⟩ (renewedLaw_log D (t + 1) _ log' hr (by omega))

/-- If all results are right, the last one is the last bit. -/
theorem allRight_last {decrypt : LWE → Option Nat} : ∀ {log : List (List (Circuit × LWE))} {gs : List Circuit} {b : Nat → Bool},
    List.Forall₂ (fun layer g => ∃ out, layer = [(g, out)]) log gs → gs ≠ [] → AllRight decrypt b log →
    LastIs decrypt (bitsAfter gs b 0) log
  | [], _, _, h, hne, _ => absurd (List.forall₂_nil_left_iff.1 h) hne
  | layer :: log, [], _, h, _, _ => by cases h
  | layer :: log, g :: gs, b, h, _, ha => by
    cases h with
    | cons h1 h2 =>
      obtain ⟨out, rfl⟩ := h1
      cases gs with
      | nil =>
        cases h2
        refine ⟨g, out, rfl, ?_⟩
        have := ha.1 (g, out) (by simp)
        rw [bitsAfter, bitsAfter, prepend_zero]
        exact this
      | cons g' gs =>
        obtain ⟨X, o, e, hd⟩ := allRight_last (gs := g' :: gs) h2 (by simp) ha.2
        refine ⟨X, o, ?_, hd⟩
        cases h2
        rw [List.getLast?_cons_cons]
        exact e

end Verif

namespace Verif.Props
open Spec Gaussian F64
open scoped ENNReal

/-- C103: if all gates of a plan are evaluated rightly except with a probability of `ε`, then the last result of the plan of a circuit
decrypts to the value of the circuit, except with this probability. -/
theorem C103_schedule (keys : PMF (Option EvalKey)) (decrypt : LWE → Option Nat) (c : Nat → LWE) (b : Nat → Bool) (X : Circuit)
    (hX : X.Binary) (h0 : 0 < X.size) (ε : ℝ≥0∞)
    (h : (renewedLaw keys X.plan X.size 0 c).toOuterMeasure {r | ∃ log, r = some log ∧ AllRight decrypt b log}ᶜ ≤ ε) :
    (renewedLaw keys X.plan X.size 0 c).toOuterMeasure {r | ∃ log, r = some log ∧ LastIs decrypt (X.eval b) log}ᶜ ≤ ε := by
  refine le_trans (prob_mono ?_) h
  rintro r hr hbad ⟨log, rfl, hlog⟩
  refine hbad ⟨log, rfl, ?_⟩
  have hl := renewedLaw_log X.size 0 c log hr (by rw [schedule_size X hX]; omega)
  rw [List.drop_zero] at hl
  have hne : (X.schedule 0).1 ≠ [] := fun e => by
    have := schedule_size X hX 0
    rw [e] at this
    simp at this
    omega
  have := allRight_last hl hne hlog
  rwa [← schedule_spec X hX 0 b b (fun i => by rw [Nat.zero_add]), schedule_result X hX h0]

/-- C103: every function of `n` bits is the value of a circuit with fewer than `5 2^n` gates of one or two operands. -/
theorem C103_function : ∀ (n : Nat) (f : (Fin n → Bool) → Bool),
    (Spec.decide n f).Binary ∧ 0 < (Spec.decide n f).size ∧ (Spec.decide n f).size + 4 = 5 * 2 ^ n ∧
      ∀ b : Nat → Bool, (Spec.decide n f).eval b = f fun i => b i
  | 0, f => by
    have e : ∀ b : Nat → Bool, (fun i : Fin 0 => b i) = Fin.elim0 := fun b => funext fun i => i.elim0
    unfold Spec.decide
    split_ifs with h
    · exact ⟨⟨trivial, trivial⟩, by simp [Circuit.size], by simp [Circuit.size], fun b => by simp [Circuit.eval, e, h]⟩
    · exact ⟨⟨trivial, trivial⟩, by simp [Circuit.size], by simp [Circuit.size], fun b => by simp [Circuit.eval, e, h]⟩
  | n + 1, f => by
    obtain ⟨h1, _, h3, h4⟩ := C103_function n fun b => f (Fin.snoc (α := fun _ => Bool) b true)
    obtain ⟨g1, _, g3, g4⟩ := C103_function n fun b => f (Fin.snoc (α := fun _ => Bool) b false)
    unfold Spec.decide
    refine ⟨⟨⟨trivial, h1⟩, trivial, g1⟩, by simp [Circuit.size], ?_, fun b => ?_⟩
    · simp only [Circuit.size]
      rw [pow_succ]
      omega
    · simp only [Circuit.eval]
      rw [h4, g4]
      have e : (fun i : Fin (n + 1) => b i) = Fin.snoc (α := fun _ => Bool) (fun i : Fin n => b i) (b n) := by
        funext i
        refine Fin.lastCases ?_ (fun i => ?_) i
        · simp
        · simp
      rw [e]
      cases b n <;> simp

/-- C103: at the default parameters every circuit of gates of one or two operands, of any depth, can be evaluated on
ciphertexts with a new evaluation key for each gate: the last result decrypts to the value of the circuit on the encrypted
bits, except with probability `2 exp(-20)` for each gate. -/
theorem C103_default [DefaultBuild] [NeZero 132120577] (δ : PMF ℚ) (hδ : Deviates δ (13 / 2)) (dk : KeyDraws)
    (b : Nat → Bool) (masks : Nat → List Nat) (z : Nat → ℤ)
    (hm : ∀ i, 1024 ≤ (masks i).length ∧ ∀ x ∈ masks i, x < 1024)
    (s : Sampler) (hs : noise (rnd (16 / 5)) = some s) (hz : ∀ i, ∃ x, accept s x = true ∧ z i = roundAway x) :
    ∃ pack, KeyPack.new defaultCtx defaultParams dk = some pack ∧ ∃ c : Nat → LWE,
      (∀ i, (defaultParams.lwe 16).encrypt pack.lwe (masks i) (z i) (b i).toNat = some (c i)) ∧
      ∀ X : Circuit, X.Binary → 0 < X.size →
        (renewedLaw ((evalLaw 16 defaultCtx defaultParams 132120577 10 10
            (defaultGaussLaws δ (draws (uniformBelow 132120577) (2 ^ 10))
              (draws (uniformBelow 132120577) (2 ^ 10)))).map fun d => EvalKey.new 16 defaultCtx defaultParams pack d)
          X.plan X.size 0 c).toOuterMeasure
          {r | ∃ log, r = some log ∧ LastIs ((defaultParams.lwe 16).decrypt .bool pack.lwe) (X.eval b) log}ᶜ ≤
        ENNReal.ofReal (2 * X.size * Real.exp (-20)) := by
  obtain ⟨pack, ep, c, ec, h⟩ := C104_default δ hδ dk b masks z hm s hs hz
  refine ⟨pack, ep, c, ec, fun X hX h0 => C103_schedule _ _ c b X hX h0 _ ?_⟩
  have := h X.plan (fun _ => 1) (fun t c => ⟨?_, fun g hg => ?_⟩) X.size
  · rwa [Finset.sum_const, Finset.card_range, smul_eq_mul, mul_one, show X.size * (2 * Real.exp (-20)) = 2 * X.size * Real.exp (-20) by ring] at this
  · unfold Circuit.plan
    cases (X.schedule 0).1[t]? <;> simp
  · unfold Circuit.plan at hg
    rw [Option.mem_toList] at hg
    exact schedule_single X hX 0 g (List.mem_of_getElem? hg)

/-- C103: at the default parameters every function of `n` bits can be evaluated on ciphertexts of the bits, with a new
evaluation key for each gate, and fails with probability at most `10 2^n exp(-20)`. -/
theorem C103_every_function [DefaultBuild] [NeZero 132120577] (δ : PMF ℚ) (hδ : Deviates δ (13 / 2)) (dk : KeyDraws)
    (b : Nat → Bool) (masks : Nat → List Nat) (z : Nat → ℤ)
    (hm : ∀ i, 1024 ≤ (masks i).length ∧ ∀ x ∈ masks i, x < 1024)
    (s : Sampler) (hs : noise (rnd (16 / 5)) = some s) (hz : ∀ i, ∃ x, accept s x = true ∧ z i = roundAway x) :
    ∃ pack, KeyPack.new defaultCtx defaultParams dk = some pack ∧ ∃ c : Nat → LWE,
      (∀ i, (defaultParams.lwe 16).encrypt pack.lwe (masks i) (z i) (b i).toNat = some (c i)) ∧
      ∀ (n : Nat) (f : (Fin n → Bool) → Bool), ∃ X : Circuit, X.Binary ∧ X.size < 5 * 2 ^ n ∧
        (renewedLaw ((evalLaw 16 defaultCtx defaultParams 132120577 10 10
            (defaultGaussLaws δ (draws (uniformBelow 132120577) (2 ^ 10))
              (draws (uniformBelow 132120577) (2 ^ 10)))).map fun d => EvalKey.new 16 defaultCtx defaultParams pack d)
          X.plan X.size 0 c).toOuterMeasure
          {r | ∃ log, r = some log ∧ LastIs ((defaultParams.lwe 16).decrypt .bool pack.lwe) (f fun i => b i) log}ᶜ ≤
        ENNReal.ofReal (10 * 2 ^ n * Real.exp (-20)) := by
  obtain ⟨pack, ep, c, ec, h⟩ := C103_default δ hδ dk b masks z hm s hs hz
  refine ⟨pack, ep, c, ec, fun n f => ?_⟩
  obtain ⟨h1, h2, h3, h4⟩ := C103_function n f
  refine ⟨Spec.decide n f, h1, by omega, ?_⟩
  rw [← h4 b]
  refine le_trans (h _ h1 h2) (ENNReal.ofReal_le_ofReal ?_)
  refine mul_le_mul_of_nonneg_right ?_ (Real.exp_pos _).le
  have : ((Spec.decide n f).size : ℝ) ≤ 5 * 2 ^ n := by
    have : (Spec.decide n f).size ≤ 5 * 2 ^ n := by omega
    exact_mod_cast this
  linarith

/-- The carry of a full adder: its four gates, with the numbers of their operands. -/
example : ((Circuit.or (.and (.input 0) (.input 1)) (.and (.input 2) (.xor (.input 0) (.input 1)))).schedule 0).1 =
    [.and (.input 0) (.input 1), .xor (.input 1) (.input 2), .and (.input 4) (.input 0), .or (.input 2) (.input 0)] := rfl

/-- The sum bit of a full adder, for all eight inputs. -/
example : ∀ x y z : Bool, (Spec.decide 3 fun b => (b 0 ^^ b 1) ^^ b 2).eval (fun i => [x, y, z].getD i false) = ((x ^^ y) ^^ z) := by
  decide

/-- The bound says something: a function of ten bits fails with probability below 0.00003. -/
example : 10 * 2 ^ 10 * Real.exp (-20) < 0.00003 := by
  have h : Real.exp (-20) = (Real.exp 1)⁻¹ ^ 20 := by
    rw [← Real.exp_neg, ← Real.exp_nat_mul]; norm_num
  have h1 : (Real.exp 1)⁻¹ < (2.7182818283 : ℝ)⁻¹ := by
    have := Real.exp_one_gt_d9
    exact inv_strictAnti₀ (by norm_num) this
  have h2 := pow_lt_pow_left₀ h1 (inv_nonneg.2 (Real.exp_pos 1).le) (n := 20) (by norm_num)
  rw [h]
  refine lt_of_lt_of_le (mul_lt_mul_of_pos_left h2 (by norm_num)) (by norm_num)

end Verif.Props
