import Verif.SpecLayers
import Verif.Props.Functions
import Mathlib.Algebra.Order.BigOperators.Group.Finset

/-! # C105: as many evaluation keys as the depth of the circuit -/

namespace Verif
open Spec Props

theorem part_self (X : Circuit) : X ∈ X.parts := by cases X <;> simp [Circuit.parts]

theorem parts_eq (X : Circuit) : X.parts = X :: X.operands.flatMap Circuit.parts := by
  cases X <;> simp [Circuit.parts, Circuit.operands]

theorem depth_operand {X y : Circuit} (h : y ∈ X.operands) : y.depth < X.depth := by
  cases X <;> simp only [Circuit.operands, List.mem_cons, List.not_mem_nil, or_false] at h <;>
    simp only [Circuit.depth]
  · subst h; omega
  all_goals first
    | (rcases h with rfl | rfl <;> omega)
    | (rcases h with rfl | rfl | rfl <;> omega)

theorem depth_zero {X : Circuit} (h : X.depth = 0) : ∃ i, X = .input i := by
  cases X <;> simp [Circuit.depth] at h ⊢

/-- Parts other than the whole have a smaller depth, and their operands are parts. -/
theorem part_facts : ∀ (n : Nat) (X : Circuit), X.depth = n → ∀ y ∈ X.parts,
    (y = X ∨ y.depth < X.depth) ∧ ∀ z ∈ y.operands, z ∈ X.parts := by
  intro n
  induction n using Nat.strong_induction_on with
  | _ n ih =>
    intro X hX y hy
    rw [parts_eq] at hy
    rcases List.mem_cons.1 hy with rfl | hy
    · refine ⟨.inl rfl, fun z hz => ?_⟩
      rw [parts_eq]
      exact List.mem_cons_of_mem _ (List.mem_flatMap.2 ⟨z, hz, part_self z⟩)
    · obtain ⟨x, hx, hy⟩ := List.mem_flatMap.1 hy
      have hd := depth_operand hx
      obtain ⟨h1, h2⟩ := ih x.depth (by omega) x rfl y hy
      refine ⟨.inr ?_, fun z hz => ?_⟩
      · rcases h1 with rfl | h1 <;> omega
      · rw [parts_eq]
        exact List.mem_cons_of_mem _ (List.mem_flatMap.2 ⟨x, hx, h2 z hz⟩)

theorem upto_operand {ary : Nat} {X y : Circuit} (hX : X.Upto ary) (h : y ∈ X.operands) : y.Upto ary := by
  cases X <;> simp only [Circuit.operands, List.mem_cons, List.not_mem_nil, or_false] at h <;>
    simp only [Circuit.Upto] at hX
  · subst h; exact hX
  all_goals first
    | (rcases h with rfl | rfl; exacts [hX.2.1, hX.2.2])
    | (rcases h with rfl | rfl | rfl; exacts [hX.2.1, hX.2.2.1, hX.2.2.2])

theorem upto_part {ary : Nat} : ∀ (n : Nat) (X : Circuit), X.depth = n → X.Upto ary → ∀ y ∈ X.parts, y.Upto ary := by
  intro n
  induction n using Nat.strong_induction_on with
  | _ n ih =>
    intro X hX hu y hy
    rw [parts_eq] at hy
    rcases List.mem_cons.1 hy with rfl | hy
    · exact hu
    · obtain ⟨x, hx, hy⟩ := List.mem_flatMap.1 hy
      exact ih x.depth (by have := depth_operand hx; omega) x rfl (upto_operand hu hx) y hy

theorem depth_le_max {Xs : List Circuit} {X : Circuit} (h : X ∈ Xs) : X.depth ≤ Circuits.depth Xs := by
  induction Xs with
  | nil => simp at h
  | cons Y Xs ih =>
    unfold Circuits.depth at ih ⊢
    rw [List.map_cons, List.foldr_cons]
    rcases List.mem_cons.1 h with rfl | h
    · exact le_max_left _ _
    · exact (ih h).trans (le_max_right _ _)

theorem max_depth_le {Xs : List Circuit} {D : Nat} (h : ∀ X ∈ Xs, X.depth ≤ D) : Circuits.depth Xs ≤ D := by
  induction Xs with
  | nil => exact Nat.zero_le _
  | cons Y Xs ih =>
    simp only [List.mem_cons, forall_eq_or_imp] at h
    exact max_le h.1 (ih h.2)

theorem depth_single (X : Circuit) : Circuits.depth [X] = X.depth := by simp [Circuits.depth]

theorem parts_single (X : Circuit) : Circuits.parts [X] = X.parts := by simp [Circuits.parts]

theorem part_operands {Xs : List Circuit} {y z : Circuit} (hy : y ∈ Circuits.parts Xs) (hz : z ∈ y.operands) :
    z ∈ Circuits.parts Xs := by
  obtain ⟨X, hX, hy⟩ := List.mem_flatMap.1 hy
  exact List.mem_flatMap.2 ⟨X, hX, (part_facts _ X rfl y hy).2 z hz⟩

theorem part_depth {Xs : List Circuit} {y : Circuit} (hy : y ∈ Circuits.parts Xs) : y.depth ≤ Circuits.depth Xs := by
  obtain ⟨X, hX, hy⟩ := List.mem_flatMap.1 hy
  refine le_trans ?_ (depth_le_max hX)
  rcases (part_facts _ X rfl y hy).1 with rfl | h
  · exact le_rfl
  · exact h.le

theorem mem_level {Xs : List Circuit} {y : Circuit} {t : Nat} :
    y ∈ Circuits.level Xs t ↔ y ∈ Circuits.parts Xs ∧ y.depth = t := by
  simp [Circuits.level]

theorem eval_withOperands {f : Circuit → Circuit} {b b' : Nat → Bool} {y : Circuit} (h0 : 0 < y.depth)
    (h : ∀ z ∈ y.operands, (f z).eval b' = z.eval b) : (y.withOperands f).eval b' = y.eval b := by
  cases y with
  | input i => simp [Circuit.depth] at h0
  | _ => simp_all [Circuit.operands, Circuit.withOperands, Circuit.eval]

theorem single_withOperands {ary : Nat} {p : Circuit → Nat} {y : Circuit} (h0 : 0 < y.depth) (hu : y.Upto ary) :
    (y.withOperands fun z => .input (p z)).Single ary := by
  cases y with
  | input i => simp [Circuit.depth] at h0
  | not x => trivial
  | mux x y z => exact hu.elim
  | _ => exact hu.1

/-- The numbered bits after some layers. -/
def bitsFrom (ls : List (List Circuit)) (b : Nat → Bool) : Nat → Bool :=
  ls.foldl (fun b l => prepend (l.map fun g => g.eval b) b) b

theorem bitsFrom_snoc (ls : List (List Circuit)) (l : List Circuit) (b : Nat → Bool) :
    bitsFrom (ls ++ [l]) b = prepend (l.map fun g => g.eval (bitsFrom ls b)) (bitsFrom ls b) := by
  unfold bitsFrom
  rw [List.foldl_append]
  rfl

/-- The results of all parts are where `place` says. -/
theorem place_spec (Xs : List Circuit) (b : Nat → Bool) : ∀ t, ∀ y ∈ Circuits.parts Xs, y.depth ≤ t →
    bitsFrom ((List.range t).map (Circuits.layer Xs)) b (Circuits.place Xs t y) = y.eval b
  | 0, y, _, h => by
    obtain ⟨i, rfl⟩ := depth_zero (Nat.le_zero.1 h)
    rfl
  | t + 1, y, hy, h => by
    rw [List.range_succ, List.map_append, List.map_singleton, bitsFrom_snoc, Circuits.place]
    split_ifs with hd
    · have hm : y ∈ Circuits.level Xs (t + 1) := mem_level.2 ⟨hy, hd⟩
      have hi := List.idxOf_lt_length_of_mem hm
      unfold prepend Circuits.layer
      rw [List.map_map, List.getElem?_map, List.getElem?_eq_getElem hi, List.getElem_idxOf]
      refine eval_withOperands (by omega) fun z hz => ?_
      exact place_spec Xs b t z (part_operands hy hz) (by have := depth_operand hz; omega)
    · unfold prepend Circuits.layer
      rw [List.map_map, List.getElem?_eq_none (by rw [List.length_map]; omega), List.length_map,
        Nat.add_sub_cancel_left, Option.getD_none]
      exact place_spec Xs b t y hy (by omega)

theorem layer_value (X : Circuit) (b : Nat → Bool) (h0 : 0 < X.depth) :
    Circuits.layer [X] (X.depth - 1) = [X.withOperands fun y => .input (Circuits.place [X] (X.depth - 1) y)] ∧
      (X.withOperands fun y => .input (Circuits.place [X] (X.depth - 1) y)).eval
        (bitsFrom ((List.range (X.depth - 1)).map (Circuits.layer [X])) b) = X.eval b := by
  constructor
  · have h : Circuits.level [X] X.depth = [X] := by
      have hd := List.nodup_dedup ((Circuits.parts [X]).filter fun y => y.depth = X.depth)
      have hm : ∀ y, y ∈ Circuits.level [X] X.depth ↔ y = X := fun y => by
        rw [mem_level, parts_single]
        constructor
        · rintro ⟨h1, h2⟩
          rcases (part_facts _ X rfl y h1).1 with h | h
          · exact h
          · omega
        · rintro rfl
          exact ⟨part_self y, rfl⟩
      exact List.perm_singleton.1 ((List.perm_ext_iff_of_nodup hd (List.nodup_singleton X)).2 fun y => by
        rw [List.mem_singleton]; exact hm y)
    unfold Circuits.layer
    rw [Nat.sub_add_cancel h0, h, List.map_singleton]
  · refine eval_withOperands h0 fun z hz => place_spec [X] b _ z (part_operands ?_ hz) (by have := depth_operand hz; omega)
    rw [parts_single]
    exact part_self X

theorem gates_card (Xs : List Circuit) : Circuits.gates Xs = ((Circuits.parts Xs).toFinset.filter fun y => 0 < y.depth).card := by
  unfold Circuits.gates
  rw [← List.toFinset_card_of_nodup (List.nodup_dedup _)]
  congr 1
  ext y
  simp

/-- The layers together have as many gates as there are different ones. -/
theorem layers_gates (Xs : List Circuit) :
    ∑ t ∈ Finset.range (Circuits.depth Xs), (Circuits.layer Xs t).length = Circuits.gates Xs := by
  have hl : ∀ t, (Circuits.layer Xs t).length = ((Circuits.parts Xs).toFinset.filter fun y => y.depth = t + 1).card := fun t => by
    unfold Circuits.layer Circuits.level
    rw [List.length_map, ← List.toFinset_card_of_nodup (List.nodup_dedup _)]
    congr 1
    ext y
    simp
  rw [gates_card, Finset.card_eq_sum_card_fiberwise (f := fun y => y.depth - 1) (t := Finset.range (Circuits.depth Xs))]
  · refine Finset.sum_congr rfl fun t _ => ?_
    rw [hl, Finset.filter_filter]
    congr 1
    refine Finset.filter_congr fun y _ => ?_
    omega
  · intro y hy
    have hy' := Finset.mem_filter.1 (Finset.mem_coe.1 hy)
    have h1 := part_depth (List.mem_toFinset.1 hy'.1)
    refine Finset.mem_coe.2 (Finset.mem_range.2 ?_)
    change y.depth - 1 < _
    omega

theorem parts_size (X : Circuit) : (X.parts.filter fun y => 0 < y.depth).length = X.size := by
  induction X <;> simp_all [Circuit.parts, Circuit.size, Circuit.depth, Nat.add_assoc]

theorem gates_le_size (X : Circuit) : Circuits.gates [X] ≤ X.size := by
  unfold Circuits.gates
  rw [← parts_size, parts_single]
  exact (List.dedup_sublist _).length_le

/-- The gates in the log are those of the layers. -/
theorem renewedLaw_gates {keys : PMF (Option EvalKey)} {ls : Nat → List Circuit} : ∀ (D t : Nat) (c : Nat → LWE)
    (log : List (List (Circuit × LWE))), some log ∈ (renewedLaw keys (fun t _ => ls t) D t c).support →
    log.map (fun l => l.map Prod.fst) = (List.range' t D).map ls
  | 0, t, c, log, h => by
    rw [renewedLaw, PMF.support_pure, Set.mem_singleton_iff] at h
    cases h
    rfl
  | D + 1, t, c, log, h => by
    rw [renewedLaw, PMF.mem_support_bind_iff] at h
    obtain ⟨K, _, h⟩ := h
    cases e : K.bind fun K => (ls t).mapM fun X => (X.run K c).map fun out => (X, out) with
    | none =>
      rw [e] at h
      simp only [PMF.support_pure, Set.mem_singleton_iff, reduceCtorEq] at h
    | some l =>
      rw [e] at h
      obtain ⟨r, hr, e'⟩ := (PMF.mem_support_map_iff _ _ _).1 h
      cases r with
      | none => simp at e'
      | some log' =>
        obtain rfl := Option.some.inj e'.symm
        obtain ⟨K, rfl, e⟩ := Option.bind_eq_some_iff.1 e
        have hfst : ∀ (gs : List Circuit) (l : List (Circuit × LWE)),
            (gs.mapM fun X => (X.run K c).map fun out => (X, out)) = some l → l.map Prod.fst = gs := by
          intro gs
          induction gs with
          | nil => intro l e; cases e; rfl
          | cons g gs ih =>
            intro l e
            rw [List.mapM_cons] at e
            obtain ⟨x, ex, e⟩ := Option.bind_eq_some_iff.1 e
            obtain ⟨l', el, e⟩ := Option.bind_eq_some_iff.1 e
            cases e
            obtain ⟨out, -, rfl⟩ := Option.map_eq_some_iff.1 ex
            rw [List.map_cons, ih l' el]
        rw [List.map_cons, hfst _ _ e, List.range'_succ, List.map_cons, renewedLaw_gates D (t + 1) _ log' hr]

/-- If all results are right, those of the last layer are. -/
theorem allRight_final {decrypt : LWE → Option Nat} : ∀ {log : List (List (Circuit × LWE))} {ls : List (List Circuit)}
    {g : Circuit} {b : Nat → Bool}, log.map (fun l => l.map Prod.fst) = ls ++ [[g]] → AllRight decrypt b log →
    LastIs decrypt (g.eval (bitsFrom ls b)) log
  | [], ls, g, b, e, _ => by simp at e
  | l :: log, [], g, b, e, h => by
    simp only [List.map_cons, List.nil_append, List.cons.injEq, List.map_eq_nil_iff] at e
    obtain ⟨e, rfl⟩ := e
    obtain ⟨x, rfl, rfl⟩ := List.map_eq_singleton_iff.1 e
    exact ⟨x.1, x.2, rfl, h.1 x (by simp)⟩
  | l :: log, l' :: ls, g, b, e, h => by
    simp only [List.map_cons, List.cons_append, List.cons.injEq] at e
    obtain ⟨rfl, e⟩ := e
    have h2 := h.2
    rw [show (l.map fun x => x.1.eval b) = (l.map Prod.fst).map fun g => g.eval b by rw [List.map_map]; rfl] at h2
    obtain ⟨X, out, el, hd⟩ := allRight_final e h2
    refine ⟨X, out, ?_, hd⟩
    cases log with
    | nil => simp at el
    | cons a log => rw [List.getLast?_cons_cons]; exact el

end Verif

namespace Verif.Props
open Spec Gaussian F64
open scoped ENNReal

/-- C105: if all gates of the layers of a circuit are evaluated rightly except with a probability of `ε`, then the last result
decrypts to the value of the circuit, except with this probability. -/
theorem C105_layers (keys : PMF (Option EvalKey)) (decrypt : LWE → Option Nat) (c : Nat → LWE) (b : Nat → Bool) (X : Circuit)
    (h0 : 0 < X.depth) (ε : ℝ≥0∞)
    (h : (renewedLaw keys (Circuits.plan [X]) X.depth 0 c).toOuterMeasure {r | ∃ log, r = some log ∧ AllRight decrypt b log}ᶜ ≤ ε) :
    (renewedLaw keys (Circuits.plan [X]) X.depth 0 c).toOuterMeasure {r | ∃ log, r = some log ∧ LastIs decrypt (X.eval b) log}ᶜ ≤ ε := by
  refine le_trans (prob_mono ?_) h
  rintro r hr hbad ⟨log, rfl, hlog⟩
  refine hbad ⟨log, rfl, ?_⟩
  have hl := renewedLaw_gates (ls := Circuits.layer [X]) X.depth 0 c log hr
  obtain ⟨h1, h2⟩ := layer_value X b h0
  rw [← List.range_eq_range', show X.depth = X.depth - 1 + 1 by omega, List.range_succ, List.map_append,
    List.map_singleton, h1] at hl
  rw [← h2]
  exact allRight_final hl hlog

/-- The circuits of C103 have the depth `2n + 1`. -/
theorem decide_depth : ∀ (n : Nat) (f : (Fin n → Bool) → Bool), (Spec.decide n f).depth = 2 * n + 1 ∧ (Spec.decide n f).Upto 2
  | 0, f => by
    unfold Spec.decide
    split_ifs <;> simp [Circuit.depth, Circuit.Upto]
  | n + 1, f => by
    obtain ⟨h1, h2⟩ := decide_depth n fun b => f (Fin.snoc (α := fun _ => Bool) b true)
    obtain ⟨g1, g2⟩ := decide_depth n fun b => f (Fin.snoc (α := fun _ => Bool) b false)
    unfold Spec.decide
    refine ⟨?_, le_rfl, ⟨le_rfl, trivial, h2⟩, le_rfl, trivial, g2⟩
    simp only [Circuit.depth, h1, g1]
    omega

section
variable [DefaultBuild] [NeZero 132120577] (δ : PMF ℚ) (hδ : Deviates δ (13 / 2)) (dk : KeyDraws)
    (b : Nat → Bool) (masks : Nat → List Nat) (z : Nat → ℤ)
    (hm : ∀ i, 1024 ≤ (masks i).length ∧ ∀ x ∈ masks i, x < 1024)
    (s : Sampler) (hs : noise (rnd (16 / 5)) = some s) (hz : ∀ i, ∃ x, accept s x = true ∧ z i = roundAway x)
include hδ hm hs hz

omit hδ hm hs hz in
theorem default_layers {ary : Nat} {B : ℝ}
    (h : ∃ pack, KeyPack.new defaultCtx defaultParams dk = some pack ∧ ∃ c : Nat → LWE,
      (∀ i, (defaultParams.lwe 16).encrypt pack.lwe (masks i) (z i) (b i).toNat = some (c i)) ∧
      ∀ (plan : Nat → (Nat → LWE) → List Circuit) (g : Nat → Nat),
        (∀ t c, (plan t c).length ≤ g t ∧ ∀ X ∈ plan t c, X.Single ary) → ∀ D : Nat,
        (renewedLaw ((evalLaw 16 defaultCtx defaultParams 132120577 10 10
            (defaultGaussLaws δ (draws (uniformBelow 132120577) (2 ^ 10))
              (draws (uniformBelow 132120577) (2 ^ 10)))).map fun d => EvalKey.new 16 defaultCtx defaultParams pack d)
          plan D 0 c).toOuterMeasure
          {r | ∃ log, r = some log ∧ AllRight ((defaultParams.lwe 16).decrypt .bool pack.lwe) b log}ᶜ ≤
        ENNReal.ofReal ((∑ i ∈ Finset.range D, g i : Nat) * B)) :
    ∃ pack, KeyPack.new defaultCtx defaultParams dk = some pack ∧ ∃ c : Nat → LWE,
      (∀ i, (defaultParams.lwe 16).encrypt pack.lwe (masks i) (z i) (b i).toNat = some (c i)) ∧
      ∀ Xs : List Circuit, (∀ X ∈ Xs, X.Upto ary) →
        (renewedLaw ((evalLaw 16 defaultCtx defaultParams 132120577 10 10
            (defaultGaussLaws δ (draws (uniformBelow 132120577) (2 ^ 10))
              (draws (uniformBelow 132120577) (2 ^ 10)))).map fun d => EvalKey.new 16 defaultCtx defaultParams pack d)
          (Circuits.plan Xs) (Circuits.depth Xs) 0 c).toOuterMeasure
          {r | ∃ log, r = some log ∧ AllRight ((defaultParams.lwe 16).decrypt .bool pack.lwe) b log}ᶜ ≤
        ENNReal.ofReal (Circuits.gates Xs * B) := by
  obtain ⟨pack, ep, c, ec, h⟩ := h
  refine ⟨pack, ep, c, ec, fun Xs hX => ?_⟩
  have := h (Circuits.plan Xs) (fun t => (Circuits.layer Xs t).length) (fun t c => ⟨le_rfl, fun g hg => ?_⟩) (Circuits.depth Xs)
  · rwa [layers_gates] at this
  · obtain ⟨y, hy, rfl⟩ := List.mem_map.1 hg
    obtain ⟨h1, h2⟩ := mem_level.1 hy
    obtain ⟨X, hX', h1⟩ := List.mem_flatMap.1 h1
    exact single_withOperands (by omega) (upto_part _ X rfl (hX X hX') y h1)

/-- C105: at the default parameters a circuit of gates of one or two operands is evaluated with as many evaluation keys as its
depth, and fails with probability at most `2 exp(-20)` for each of its different gates. -/
theorem C105_default :
    ∃ pack, KeyPack.new defaultCtx defaultParams dk = some pack ∧ ∃ c : Nat → LWE,
      (∀ i, (defaultParams.lwe 16).encrypt pack.lwe (masks i) (z i) (b i).toNat = some (c i)) ∧
      ∀ X : Circuit, X.Upto 2 → 0 < X.depth →
        (renewedLaw ((evalLaw 16 defaultCtx defaultParams 132120577 10 10
            (defaultGaussLaws δ (draws (uniformBelow 132120577) (2 ^ 10))
              (draws (uniformBelow 132120577) (2 ^ 10)))).map fun d => EvalKey.new 16 defaultCtx defaultParams pack d)
          (Circuits.plan [X]) X.depth 0 c).toOuterMeasure
          {r | ∃ log, r = some log ∧ LastIs ((defaultParams.lwe 16).decrypt .bool pack.lwe) (X.eval b) log}ᶜ ≤
        ENNReal.ofReal (Circuits.gates [X] * (2 * Real.exp (-20))) := by
  obtain ⟨pack, ep, c, ec, h⟩ := default_layers δ dk b masks z (C104_default δ hδ dk b masks z hm s hs hz)
  refine ⟨pack, ep, c, ec, fun X hX h0 => C105_layers _ _ c b X h0 _ ?_⟩
  have := h [X] (by simpa using hX)
  rwa [depth_single] at this

/-- C105: with `majority` among the gates. -/
theorem C105_default_majority :
    ∃ pack, KeyPack.new defaultCtx defaultParams dk = some pack ∧ ∃ c : Nat → LWE,
      (∀ i, (defaultParams.lwe 16).encrypt pack.lwe (masks i) (z i) (b i).toNat = some (c i)) ∧
      ∀ X : Circuit, X.Upto 3 → 0 < X.depth →
        (renewedLaw ((evalLaw 16 defaultCtx defaultParams 132120577 10 10
            (defaultGaussLaws δ (draws (uniformBelow 132120577) (2 ^ 10))
              (draws (uniformBelow 132120577) (2 ^ 10)))).map fun d => EvalKey.new 16 defaultCtx defaultParams pack d)
          (Circuits.plan [X]) X.depth 0 c).toOuterMeasure
          {r | ∃ log, r = some log ∧ LastIs ((defaultParams.lwe 16).decrypt .bool pack.lwe) (X.eval b) log}ᶜ ≤
        ENNReal.ofReal (Circuits.gates [X] * (2 * Real.exp (-8))) := by
  obtain ⟨pack, ep, c, ec, h⟩ := default_layers δ dk b masks z (C104_default_majority δ hδ dk b masks z hm s hs hz)
  refine ⟨pack, ep, c, ec, fun X hX h0 => C105_layers _ _ c b X h0 _ ?_⟩
  have := h [X] (by simpa using hX)
  rwa [depth_single] at this

/-- C105: at the default parameters every function of `n` bits can be evaluated with `2n + 1` evaluation keys. -/
theorem C105_every_function :
    ∃ pack, KeyPack.new defaultCtx defaultParams dk = some pack ∧ ∃ c : Nat → LWE,
      (∀ i, (defaultParams.lwe 16).encrypt pack.lwe (masks i) (z i) (b i).toNat = some (c i)) ∧
      ∀ (n : Nat) (f : (Fin n → Bool) → Bool), ∃ X : Circuit,
        (renewedLaw ((evalLaw 16 defaultCtx defaultParams 132120577 10 10
            (defaultGaussLaws δ (draws (uniformBelow 132120577) (2 ^ 10))
              (draws (uniformBelow 132120577) (2 ^ 10)))).map fun d => EvalKey.new 16 defaultCtx defaultParams pack d)
          (Circuits.plan [X]) (2 * n + 1) 0 c).toOuterMeasure
          {r | ∃ log, r = some log ∧ LastIs ((defaultParams.lwe 16).decrypt .bool pack.lwe) (f fun i => b i) log}ᶜ ≤
        ENNReal.ofReal (10 * 2 ^ n * Real.exp (-20)) := by
  obtain ⟨pack, ep, c, ec, h⟩ := C105_default δ hδ dk b masks z hm s hs hz
  refine ⟨pack, ep, c, ec, fun n f => ?_⟩
  obtain ⟨-, -, h3, h4⟩ := C103_function n f
  obtain ⟨h1, h2⟩ := decide_depth n f
  refine ⟨Spec.decide n f, ?_⟩
  rw [← h4 b, ← h1]
  refine le_trans (h _ h2 (by omega)) (ENNReal.ofReal_le_ofReal ?_)
  rw [show (10 : ℝ) * 2 ^ n * Real.exp (-20) = 5 * 2 ^ n * (2 * Real.exp (-20)) by ring]
  refine mul_le_mul_of_nonneg_right ?_ (by positivity)
  have : Circuits.gates [Spec.decide n f] ≤ 5 * 2 ^ n := (gates_le_size _).trans (by omega)
  exact_mod_cast this

end

/-- The carry of a full adder: its three layers, with the numbers of the operands. -/
example : let X := Circuit.or (.and (.input 0) (.input 1)) (.and (.input 2) (.xor (.input 0) (.input 1)))
    (List.range X.depth).map (Circuits.layer [X]) =
      [[.and (.input 0) (.input 1), .xor (.input 0) (.input 1)], [.and (.input 4) (.input 1)], [.or (.input 1) (.input 0)]] ∧
    Circuits.gates [X] = 4 := by
  decide +kernel

/-- The hypotheses are met: the carry of a full adder with three evaluation keys, for truncated normal deviates. -/
example [DefaultBuild] [NeZero 132120577] (dk : KeyDraws) (s : Sampler) (hs : noise (rnd (16 / 5)) = some s) (b : Nat → Bool) :
    ∃ pack, KeyPack.new defaultCtx defaultParams dk = some pack ∧ ∃ c : Nat → LWE,
      (∀ i, (defaultParams.lwe 16).encrypt pack.lwe (List.replicate 1024 0) 0 (b i).toNat = some (c i)) ∧
        (renewedLaw ((evalLaw 16 defaultCtx defaultParams 132120577 10 10
            (defaultGaussLaws (normalDeviates (32 / 5) 40) (draws (uniformBelow 132120577) (2 ^ 10))
              (draws (uniformBelow 132120577) (2 ^ 10)))).map fun d => EvalKey.new 16 defaultCtx defaultParams pack d)
          (fun t _ => [[.and (.input 0) (.input 1), .xor (.input 0) (.input 1)], [.and (.input 4) (.input 1)],
            [.or (.input 1) (.input 0)]].getD t [])
          3 0 c).toOuterMeasure
          {r | ∃ log, r = some log ∧
            LastIs ((defaultParams.lwe 16).decrypt .bool pack.lwe) ((b 0 && b 1) || (b 2 && (b 0 ^^ b 1))) log}ᶜ ≤
        ENNReal.ofReal (8 * Real.exp (-20)) := by
  have hl : ∀ t, Circuits.layer [.or (.and (.input 0) (.input 1)) (.and (.input 2) (.xor (.input 0) (.input 1)))] t =
      [[.and (.input 0) (.input 1), .xor (.input 0) (.input 1)], [.and (.input 4) (.input 1)],
        [.or (.input 1) (.input 0)]].getD t [] := fun t => by
    match t with
    | 0 => decide +kernel
    | 1 => decide +kernel
    | 2 => decide +kernel
    | t + 3 =>
      unfold Circuits.layer
      rw [List.map_eq_nil_iff.2 (List.eq_nil_iff_forall_not_mem.2 fun y hy => ?_)]
      · rfl
      obtain ⟨h1, h2⟩ := mem_level.1 hy
      have := part_depth h1
      rw [depth_single] at this
      simp [Circuit.depth] at this
      omega
  have hg : Circuits.gates [.or (.and (.input 0) (.input 1)) (.and (.input 2) (.xor (.input 0) (.input 1)))] = 4 := by
    decide +kernel
  obtain ⟨pack, ep, c, ec, h⟩ := C105_default (normalDeviates (32 / 5) 40)
    (deviates_mono (C71_normal _ _) (by positivity) (by push_cast; norm_num)) dk b (fun _ => List.replicate 1024 0)
    (fun _ => 0) (fun _ => ⟨by rw [List.length_replicate], fun x hx => by rw [List.eq_of_mem_replicate hx]; decide⟩) s hs
    (fun _ => ⟨0, by
      have h0 : (noise (rnd (16 / 5))).all (fun s => accept s 0) = true := by decide +kernel
      rwa [hs] at h0, by decide +kernel⟩)
  refine ⟨pack, ep, c, ec, ?_⟩
  have := h (.or (.and (.input 0) (.input 1)) (.and (.input 2) (.xor (.input 0) (.input 1))))
    ⟨le_rfl, ⟨le_rfl, trivial, trivial⟩, le_rfl, trivial, le_rfl, trivial, trivial⟩ (by simp [Circuit.depth])
  rw [hg, show ((4 : Nat) : ℝ) * (2 * Real.exp (-20)) = 8 * Real.exp (-20) by push_cast; ring] at this
  rw [← show Circuits.plan _ = _ from funext fun t => funext fun _ => hl t]
  exact this

/-- Equal parts are evaluated once: the parity of two equal conjunctions has two gates. -/
example : Circuits.gates [.xor (.and (.input 0) (.input 1)) (.and (.input 0) (.input 1))] = 2 ∧
    (Circuit.xor (.and (.input 0) (.input 1)) (.and (.input 0) (.input 1))).size = 3 := by
  decide +kernel

end Verif.Props
