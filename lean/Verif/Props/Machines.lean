import Verif.SpecMachines
import Verif.Props.Numbers

/-! # C107: sequential machines on encrypted bits -/

namespace Verif
open Spec Props

theorem eval_subst (σ : Nat → Circuit) (b : Nat → Bool) (X : Circuit) :
    (X.subst σ).eval b = X.eval fun i => (σ i).eval b := by
  induction X <;> simp_all [Circuit.subst, Circuit.eval]

theorem upto_subst {ary : Nat} {σ : Nat → Circuit} (hσ : ∀ i, (σ i).Upto ary) {X : Circuit} (hX : X.Upto ary) :
    (X.subst σ).Upto ary := by
  induction X <;> simp_all [Circuit.subst, Circuit.Upto]

theorem depth_subst {σ : Nat → Circuit} {D : Nat} (hσ : ∀ i, (σ i).depth ≤ D) (X : Circuit) :
    (X.subst σ).depth ≤ X.depth + D := by
  induction X with
  | input i => simpa [Circuit.subst, Circuit.depth] using hσ i
  | _ => simp only [Circuit.subst, Circuit.depth]; omega

theorem depth_subst_pos {σ : Nat → Circuit} {X : Circuit} (h : 0 < X.depth) : 0 < (X.subst σ).depth := by
  cases X with
  | input i => simp [Circuit.depth] at h
  | _ => exact Nat.succ_pos _

theorem parts_subst {σ : Nat → Circuit} {X y : Circuit} (hy : y ∈ (X.subst σ).parts) :
    (∃ x ∈ X.parts, 0 < x.depth ∧ y = x.subst σ) ∨ ∃ i, y ∈ (σ i).parts := by
  induction X with
  | input i => exact .inr ⟨i, hy⟩
  | not x ih =>
    simp only [Circuit.subst, Circuit.parts, List.mem_cons] at hy ⊢
    rcases hy with rfl | hy
    · exact .inl ⟨.not x, .inl rfl, Nat.succ_pos _, rfl⟩
    · rcases ih hy with ⟨u, h1, h2, h3⟩ | h
      exacts [.inl ⟨u, .inr h1, h2, h3⟩, .inr h]
  | nand x y ihx ihy | and x y ihx ihy | or x y ihx ihy | nor x y ihx ihy | xor x y ihx ihy | xnor x y ihx ihy =>
    simp only [Circuit.subst, Circuit.parts, List.mem_cons, List.mem_append] at hy ⊢
    rcases hy with rfl | hy | hy
    · exact .inl ⟨_, .inl rfl, Nat.succ_pos _, rfl⟩
    · rcases ihx hy with ⟨u, h1, h2, h3⟩ | h
      exacts [.inl ⟨u, .inr (.inl h1), h2, h3⟩, .inr h]
    · rcases ihy hy with ⟨u, h1, h2, h3⟩ | h
      exacts [.inl ⟨u, .inr (.inr h1), h2, h3⟩, .inr h]
  | majority x y z ihx ihy ihz | mux x y z ihx ihy ihz =>
    simp only [Circuit.subst, Circuit.parts, List.mem_cons, List.mem_append] at hy ⊢
    rcases hy with rfl | (hy | hy) | hy
    · exact .inl ⟨_, .inl rfl, Nat.succ_pos _, rfl⟩
    · rcases ihx hy with ⟨u, h1, h2, h3⟩ | h
      exacts [.inl ⟨u, .inr (.inl (.inl h1)), h2, h3⟩, .inr h]
    · rcases ihy hy with ⟨u, h1, h2, h3⟩ | h
      exacts [.inl ⟨u, .inr (.inl (.inr h1)), h2, h3⟩, .inr h]
    · rcases ihz hy with ⟨u, h1, h2, h3⟩ | h
      exacts [.inl ⟨u, .inr (.inr h1), h2, h3⟩, .inr h]

theorem covers_subst {σ : Nat → Circuit} {S : Finset Circuit} (hσ : ∀ i, Covers S [σ i]) (F : List Circuit) :
    ∃ S' : Finset Circuit, S'.card ≤ S.card + Circuits.gates F ∧ Covers S' (F.map (Circuit.subst σ)) := by
  refine ⟨((Circuits.parts F).toFinset.filter fun y => 0 < y.depth).image (Circuit.subst σ) ∪ S, ?_, ?_⟩
  · have h1 := Finset.card_union_le (((Circuits.parts F).toFinset.filter fun y => 0 < y.depth).image (Circuit.subst σ)) S
    have h2 := Finset.card_image_le (s := (Circuits.parts F).toFinset.filter fun y => 0 < y.depth) (f := Circuit.subst σ)
    rw [← gates_card] at h2
    omega
  · intro X hX y hy h0
    obtain ⟨X, hF', rfl⟩ := List.mem_map.1 hX
    rcases parts_subst hy with ⟨x, h1, h2, rfl⟩ | ⟨i, h⟩
    · refine Finset.mem_union_left _ (Finset.mem_image_of_mem _ (Finset.mem_filter.2 ⟨List.mem_toFinset.2 ?_, h2⟩))
      exact List.mem_flatMap.2 ⟨X, hF', h1⟩
    · exact Finset.mem_union_right _ (hσ i _ (by simp) y h h0)

/-- What is put in place of the inputs in step `t`. -/
def wires (F : List Circuit) (n k t i : Nat) : Circuit :=
  if i < n then (Circuits.unroll F n k t).getD i (.input 0) else .input (n + t * k + (i - n))

theorem wires_cases (F : List Circuit) (n k t i : Nat) :
    wires F n k t i ∈ Circuits.unroll F n k t ∨ ∃ j, wires F n k t i = .input j := by
  unfold wires
  split_ifs
  · rw [List.getD_eq_getElem?_getD]
    cases e : (Circuits.unroll F n k t)[i]? with
    | none => exact .inr ⟨0, rfl⟩
    | some X => exact .inl (List.mem_of_getElem? e)
  · exact .inr ⟨_, rfl⟩

theorem unroll_succ (F : List Circuit) (n k t : Nat) : Circuits.unroll F n k (t + 1) = F.map (Circuit.subst (wires F n k t)) := rfl

/-- The circuits compute the states. -/
theorem unroll_eval (F : List Circuit) (n k : Nat) (hF : F.length = n) (b : Nat → Bool) : ∀ t,
    (Circuits.unroll F n k t).map (fun X => X.eval b) = machine F n k b t
  | 0 => by
    rw [Circuits.unroll, machine, List.map_map]
    rfl
  | t + 1 => by
    rw [unroll_succ, machine, List.map_map]
    refine List.map_congr_left fun X _ => ?_
    change (X.subst _).eval b = _
    rw [eval_subst]
    congr 1
    funext i
    unfold wires
    split_ifs with h
    · have hl : (Circuits.unroll F n k t).length = n := by
        cases t with
        | zero => simp [Circuits.unroll]
        | succ t => rw [unroll_succ, List.length_map, hF]
      rw [← unroll_eval F n k hF b t, List.getD_eq_getElem?_getD, List.getD_eq_getElem?_getD, List.getElem?_map,
        List.getElem?_eq_getElem (by omega)]
      rfl
    · rfl

theorem unroll_facts (F : List Circuit) (n k : Nat) (hF : ∀ X ∈ F, X.Upto 2) : ∀ t,
    (∀ X ∈ Circuits.unroll F n k t, X.Upto 2) ∧ Circuits.depth (Circuits.unroll F n k t) ≤ t * Circuits.depth F ∧
    ∃ S : Finset Circuit, S.card ≤ t * Circuits.gates F ∧ Covers S (Circuits.unroll F n k t)
  | 0 => by
    have h : ∀ X ∈ Circuits.unroll F n k 0, ∃ i, X = .input i := fun X hX => by
      obtain ⟨i, -, rfl⟩ := List.mem_map.1 hX
      exact ⟨i, rfl⟩
    refine ⟨fun X hX => ?_, max_depth_le fun X hX => ?_, ∅, by simp, fun X hX y hy h0 => ?_⟩
    · obtain ⟨i, rfl⟩ := h X hX
      trivial
    · obtain ⟨i, rfl⟩ := h X hX
      exact Nat.zero_le _
    · obtain ⟨i, rfl⟩ := h X hX
      rw [Circuit.parts, List.mem_singleton] at hy
      rw [hy, Circuit.depth] at h0
      omega
  | t + 1 => by
    obtain ⟨h1, h2, S, h3, h4⟩ := unroll_facts F n k hF t
    rw [unroll_succ]
    refine ⟨fun X hX => ?_, max_depth_le fun X hX => ?_, ?_⟩
    · obtain ⟨X, hF', rfl⟩ := List.mem_map.1 hX
      refine upto_subst (fun i => ?_) (hF X hF')
      rcases wires_cases F n k t i with h | ⟨j, h⟩
      · exact h1 _ h
      · rw [h]; trivial
    · obtain ⟨X, hF', rfl⟩ := List.mem_map.1 hX
      refine (depth_subst (D := t * Circuits.depth F) (fun i => ?_) X).trans ?_
      · rcases wires_cases F n k t i with h | ⟨j, h⟩
        · exact (depth_le_max h).trans h2
        · rw [h]; exact Nat.zero_le _
      · have := depth_le_max hF'
        rw [Nat.succ_mul]
        omega
    · have hw : ∀ i, Covers S [wires F n k t i] := fun i => by
        rcases wires_cases F n k t i with h | ⟨j, h⟩
        · intro X hX
          rw [List.mem_singleton.1 hX]
          exact h4 _ h
        · rw [h]
          exact covers_inputs S j 1
      obtain ⟨S', h5, h6⟩ := covers_subst hw F
      exact ⟨S', by rw [Nat.succ_mul]; omega, h6⟩

/-- The circuits of any function that gives the next state. -/
def tables {n k : Nat} (step : (Fin n → Bool) → (Fin k → Bool) → Fin n → Bool) : List Circuit :=
  List.ofFn fun j => Spec.decide (n + k) fun x => step (fun i => x (Fin.castAdd k i)) (fun i => x (Fin.natAdd n i)) j

theorem tables_machine {n k : Nat} (step : (Fin n → Bool) → (Fin k → Bool) → Fin n → Bool) (b : Nat → Bool) : ∀ t,
    machine (tables step) n k b t = List.ofFn (steps step b t)
  | 0 => by
    refine List.ext_getElem (by simp [machine]) fun i h1 h2 => ?_
    simp [machine, steps]
  | t + 1 => by
    rw [machine, tables_machine step b t, tables, List.map_ofFn]
    congr 1
    funext j
    change (Spec.decide (n + k) _).eval _ = _
    rw [(C103_function (n + k) _).2.2.2]
    change step _ _ j = step _ _ j
    congr 1
    · funext i
      simp
    · funext i
      simp

end Verif

namespace Verif.Props
open Spec Gaussian F64
open scoped ENNReal

/-- C107: a sequential machine on encrypted bits at the default parameters. Its first state and everything it reads is encrypted
bit by bit. After `T` steps, for any `T`, the bits of its state decrypt to the state the machine has on the bits themselves. This takes
`T` times as many evaluation keys as the depth of one step, and fails with probability at most `2 exp(-20)` for each gate of each step. -/
theorem C107_machine [DefaultBuild] [NeZero 132120577] (δ : PMF ℚ) (hδ : Deviates δ (13 / 2)) (dk : KeyDraws)
    (b : Nat → Bool) (masks : Nat → List Nat) (z : Nat → ℤ)
    (hm : ∀ i, 1024 ≤ (masks i).length ∧ ∀ x ∈ masks i, x < 1024)
    (s : Sampler) (hs : noise (rnd (16 / 5)) = some s) (hz : ∀ i, ∃ x, accept s x = true ∧ z i = roundAway x) :
    ∃ pack, KeyPack.new defaultCtx defaultParams dk = some pack ∧ ∃ c : Nat → LWE,
      (∀ i, (defaultParams.lwe 16).encrypt pack.lwe (masks i) (z i) (b i).toNat = some (c i)) ∧
      ∀ (F : List Circuit) (n k T : Nat), F.length = n → (∀ X ∈ F, X.Upto 2 ∧ 0 < X.depth) → 0 < T →
        let Xs := Circuits.unroll F n k T
        Circuits.depth Xs ≤ T * Circuits.depth F ∧
        (renewedLaw ((evalLaw 16 defaultCtx defaultParams 132120577 10 10
            (defaultGaussLaws δ (draws (uniformBelow 132120577) (2 ^ 10))
              (draws (uniformBelow 132120577) (2 ^ 10)))).map fun d => EvalKey.new 16 defaultCtx defaultParams pack d)
          (Circuits.plan Xs) (Circuits.depth Xs) 0 c).toOuterMeasure
          {r | ∃ log, r = some log ∧ (Circuits.results Xs c log).mapM ((defaultParams.lwe 16).decrypt .bool pack.lwe) =
            some ((machine F n k b T).map Bool.toNat)}ᶜ ≤
        ENNReal.ofReal (T * Circuits.gates F * (2 * Real.exp (-20))) := by
  obtain ⟨pack, ep, c, ec, h⟩ := C106_default δ hδ dk b masks z hm s hs hz
  refine ⟨pack, ep, c, ec, fun F n k T hn hF hT => ?_⟩
  obtain ⟨h1, h2, S, h3, h4⟩ := unroll_facts F n k (fun X hX => (hF X hX).1) T
  refine ⟨h2, ?_⟩
  rw [← unroll_eval F n k hn b T, List.map_map]
  refine (h _ fun X hX => ⟨h1 X hX, ?_⟩).trans (ENNReal.ofReal_le_ofReal (mul_le_mul_of_nonneg_right ?_ (by positivity)))
  · obtain ⟨t, rfl⟩ : ∃ t, T = t + 1 := ⟨T - 1, by omega⟩
    rw [unroll_succ] at hX
    obtain ⟨X, hF', rfl⟩ := List.mem_map.1 hX
    exact depth_subst_pos (hF X hF').2
  · exact_mod_cast h4.gates.trans h3

/-- C107: any machine. Whatever function gives the next state, there are circuits for the state after `T` steps that need at most
`T (2(n + k) + 1)` evaluation keys and fail with probability at most `10 n T 2^(n + k) exp(-20)`. -/
theorem C107_every_machine [DefaultBuild] [NeZero 132120577] (δ : PMF ℚ) (hδ : Deviates δ (13 / 2)) (dk : KeyDraws)
    (b : Nat → Bool) (masks : Nat → List Nat) (z : Nat → ℤ)
    (hm : ∀ i, 1024 ≤ (masks i).length ∧ ∀ x ∈ masks i, x < 1024)
    (s : Sampler) (hs : noise (rnd (16 / 5)) = some s) (hz : ∀ i, ∃ x, accept s x = true ∧ z i = roundAway x) :
    ∃ pack, KeyPack.new defaultCtx defaultParams dk = some pack ∧ ∃ c : Nat → LWE,
      (∀ i, (defaultParams.lwe 16).encrypt pack.lwe (masks i) (z i) (b i).toNat = some (c i)) ∧
      ∀ (n k : Nat) (step : (Fin n → Bool) → (Fin k → Bool) → Fin n → Bool) (T : Nat), 0 < T →
        ∃ Xs : List Circuit, Circuits.depth Xs ≤ T * (2 * (n + k) + 1) ∧
        (renewedLaw ((evalLaw 16 defaultCtx defaultParams 132120577 10 10
            (defaultGaussLaws δ (draws (uniformBelow 132120577) (2 ^ 10))
              (draws (uniformBelow 132120577) (2 ^ 10)))).map fun d => EvalKey.new 16 defaultCtx defaultParams pack d)
          (Circuits.plan Xs) (Circuits.depth Xs) 0 c).toOuterMeasure
          {r | ∃ log, r = some log ∧ (Circuits.results Xs c log).mapM ((defaultParams.lwe 16).decrypt .bool pack.lwe) =
            some (List.ofFn fun j => (steps step b T j).toNat)}ᶜ ≤
        ENNReal.ofReal (10 * n * T * 2 ^ (n + k) * Real.exp (-20)) := by
  obtain ⟨pack, ep, c, ec, h⟩ := C107_machine δ hδ dk b masks z hm s hs hz
  refine ⟨pack, ep, c, ec, fun n k step T hT => ⟨Circuits.unroll (tables step) n k T, ?_⟩⟩
  have hX : ∀ X ∈ tables step, (X.Upto 2 ∧ 0 < X.depth) ∧ X.size ≤ 5 * 2 ^ (n + k) ∧ X.depth ≤ 2 * (n + k) + 1 := fun X hX => by
    obtain ⟨j, rfl⟩ := List.mem_ofFn.1 hX
    obtain ⟨h1, h2⟩ := decide_depth (n + k) fun x => step (fun i => x (Fin.castAdd k i)) (fun i => x (Fin.natAdd n i)) j
    obtain ⟨-, -, h3, -⟩ := C103_function (n + k) fun x => step (fun i => x (Fin.castAdd k i)) (fun i => x (Fin.natAdd n i)) j
    exact ⟨⟨h2, by omega⟩, by omega, h1.le⟩
  have hl : (tables step).length = n := List.length_ofFn
  obtain ⟨h1, h2⟩ := h (tables step) n k T hl (fun X h => (hX X h).1) hT
  refine ⟨h1.trans (Nat.mul_le_mul_left _ (max_depth_le fun X h => (hX X h).2.2)), ?_⟩
  rw [tables_machine, List.map_ofFn] at h2
  refine h2.trans (ENNReal.ofReal_le_ofReal ?_)
  have hg := (gates_le_sizes (tables step)).trans
    (List.sum_le_card_nsmul _ (5 * 2 ^ (n + k)) fun y hy => by
      obtain ⟨X, hX', rfl⟩ := List.mem_map.1 hy
      exact (hX X hX').2.1)
  rw [List.length_map, hl, smul_eq_mul] at hg
  have hg' : (Circuits.gates (tables step) : ℝ) ≤ n * (5 * 2 ^ (n + k)) := by exact_mod_cast hg
  have := mul_le_mul_of_nonneg_right (mul_le_mul_of_nonneg_left hg' (Nat.cast_nonneg T))
    (by positivity : 0 ≤ 2 * Real.exp (-20))
  linarith

/-- A counter of two bits that counts the bits that are true among those it reads: after reading true, false, true it holds 2. -/
example : (List.ofFn (steps (n := 2) (k := 1) (fun s x => ![s 0 ^^ x 0, s 1 ^^ (s 0 && x 0)])
    (fun i => [false, false, true, false, true].getD i false) 3)) = [false, true] := by
  decide

/-- A machine that adds two numbers bit by bit: the state is the carry and the last bit of the sum. After three steps with
the bits of 3 and 6 it has the carry 1 and the bit 0 of 9 = 1001. -/
example : machine [.or (.and (.input 2) (.input 3)) (.and (.xor (.input 2) (.input 3)) (.input 0)),
      .xor (.xor (.input 2) (.input 3)) (.input 0)] 2 2
    (fun i => [false, false, true, false, true, true, false, true].getD i false) 3 = [true, false] := by
  decide

/-- The hypotheses are met: this machine, for up to a million steps, with truncated normal deviates and any bits. -/
example [DefaultBuild] [NeZero 132120577] (dk : KeyDraws) (s : Sampler) (hs : noise (rnd (16 / 5)) = some s) (b : Nat → Bool)
    (T : Nat) (h0 : 0 < T) (hT : T ≤ 1000000) :
    let F : List Circuit := [.or (.and (.input 2) (.input 3)) (.and (.xor (.input 2) (.input 3)) (.input 0)),
      .xor (.xor (.input 2) (.input 3)) (.input 0)]
    let Xs := Circuits.unroll F 2 2 T
    ∃ pack, KeyPack.new defaultCtx defaultParams dk = some pack ∧ ∃ c : Nat → LWE,
      (∀ i, (defaultParams.lwe 16).encrypt pack.lwe (List.replicate 1024 0) 0 (b i).toNat = some (c i)) ∧
        (renewedLaw ((evalLaw 16 defaultCtx defaultParams 132120577 10 10
            (defaultGaussLaws (normalDeviates (32 / 5) 40) (draws (uniformBelow 132120577) (2 ^ 10))
              (draws (uniformBelow 132120577) (2 ^ 10)))).map fun d => EvalKey.new 16 defaultCtx defaultParams pack d)
          (Circuits.plan Xs) (Circuits.depth Xs) 0 c).toOuterMeasure
          {r | ∃ log, r = some log ∧ (Circuits.results Xs c log).mapM ((defaultParams.lwe 16).decrypt .bool pack.lwe) =
            some ((machine F 2 2 b T).map Bool.toNat)}ᶜ ≤
        ENNReal.ofReal (10000000 * Real.exp (-20)) := by
  intro F Xs
  obtain ⟨pack, ep, c, ec, h⟩ := C107_machine (normalDeviates (32 / 5) 40)
    (deviates_mono (C71_normal _ _) (by positivity) (by push_cast; norm_num)) dk b (fun _ => List.replicate 1024 0)
    (fun _ => 0) (fun _ => ⟨by rw [List.length_replicate], fun x hx => by rw [List.eq_of_mem_replicate hx]; decide⟩) s hs
    (fun _ => ⟨0, by
      have h0 : (noise (rnd (16 / 5))).all (fun s => accept s 0) = true := by decide +kernel
      rwa [hs] at h0, by decide +kernel⟩)
  refine ⟨pack, ep, c, ec, ?_⟩
  have hg : Circuits.gates F = 5 := by decide +kernel
  refine (h F 2 2 T rfl (by simp [F, Circuit.Upto, Circuit.depth]) h0).2.trans (ENNReal.ofReal_le_ofReal ?_)
  rw [hg]
  have hT' : (T : ℝ) ≤ 1000000 := by exact_mod_cast hT
  have := mul_le_mul_of_nonneg_right hT' (Real.exp_nonneg (-20))
  push_cast
  nlinarith

end Verif.Props
