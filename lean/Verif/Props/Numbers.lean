import Verif.SpecNumbers
import Verif.Props.Layers

/-! # C106: arithmetic on encrypted numbers -/

namespace Verif
open Spec Props

/-- The number that a list of circuits computes. -/
def wordOf (b : Nat → Bool) (Xs : List Circuit) : Nat := number (Xs.map fun X => (X.eval b).toNat)

theorem wordOf_nil (b : Nat → Bool) : wordOf b [] = 0 := rfl

theorem wordOf_cons (b : Nat → Bool) (X : Circuit) (Xs : List Circuit) :
    wordOf b (X :: Xs) = (X.eval b).toNat + 2 * wordOf b Xs := rfl

theorem wordOf_addCarry (b : Nat → Bool) : ∀ (xs ys : List Circuit) (c : Circuit),
    wordOf b (Circuits.addCarry xs ys c) = wordOf b xs + wordOf b ys + (c.eval b).toNat
  | [], [], c => by rw [Circuits.addCarry, wordOf_cons]; simp [wordOf, number]
  | x :: xs, [], c => by
    rw [Circuits.addCarry, wordOf_cons, wordOf_addCarry b xs [], wordOf_cons, wordOf_nil]
    simp only [Circuit.eval]
    cases x.eval b <;> cases c.eval b <;> simp <;> omega
  | [], y :: ys, c => by
    rw [Circuits.addCarry, wordOf_cons, wordOf_addCarry b [] ys, wordOf_cons, wordOf_nil]
    simp only [Circuit.eval]
    cases y.eval b <;> cases c.eval b <;> simp <;> omega
  | x :: xs, y :: ys, c => by
    rw [Circuits.addCarry, wordOf_cons, wordOf_addCarry b xs ys, wordOf_cons, wordOf_cons]
    simp only [Circuit.eval]
    cases x.eval b <;> cases y.eval b <;> cases c.eval b <;> simp <;> omega

theorem wordOf_add (b : Nat → Bool) : ∀ xs ys : List Circuit, wordOf b (Circuits.add xs ys) = wordOf b xs + wordOf b ys
  | [], ys => by rw [Circuits.add]; simp [wordOf, number]
  | x :: xs, [] => by rw [Circuits.add]; simp [wordOf, number]; simp
  | x :: xs, y :: ys => by
    rw [Circuits.add, wordOf_cons, wordOf_addCarry b xs ys, wordOf_cons, wordOf_cons]
    simp only [Circuit.eval]
    cases x.eval b <;> cases y.eval b <;> simp <;> omega

theorem wordOf_and (b : Nat → Bool) (y : Circuit) : ∀ xs : List Circuit,
    wordOf b (xs.map fun x => .and x y) = wordOf b xs * (y.eval b).toNat
  | [] => by simp [wordOf, number]
  | x :: xs => by
    rw [List.map_cons, wordOf_cons, wordOf_cons, wordOf_and b y xs]
    simp only [Circuit.eval]
    cases x.eval b <;> cases y.eval b <;> simp

theorem wordOf_mulFrom (b : Nat → Bool) (xs : List Circuit) (h0 : xs ≠ []) : ∀ (hi ys : List Circuit),
    wordOf b (Circuits.mulFrom xs hi ys) = wordOf b hi + wordOf b xs * wordOf b ys
  | hi, [] => by rw [Circuits.mulFrom, wordOf_nil, Nat.mul_zero, Nat.add_zero]
  | hi, y :: ys => by
    have h := wordOf_add b hi (xs.map fun x => .and x y)
    rw [wordOf_and] at h
    rw [Circuits.mulFrom, wordOf_cons]
    cases e : Circuits.add hi (xs.map fun x => .and x y) with
    | nil =>
      exfalso
      match hi, xs, h0 with
      | [], x :: xs, _ => simp [Circuits.add] at e
      | z :: hi, x :: xs, _ => simp [Circuits.add] at e
    | cons s hi' =>
      rw [e, wordOf_cons] at h
      simp only
      rw [wordOf_cons, wordOf_mulFrom b xs h0 hi' ys]
      linear_combination h

theorem wordOf_mul (b : Nat → Bool) (xs ys : List Circuit) : wordOf b (Circuits.mul xs ys) = wordOf b xs * wordOf b ys := by
  match xs, ys with
  | [], ys => simp [Circuits.mul, wordOf_nil]
  | x :: xs, [] => simp [Circuits.mul, wordOf_nil]
  | x :: xs, y :: ys =>
    rw [Circuits.mul, wordOf_cons, wordOf_mulFrom b _ (by simp), wordOf_and, wordOf_cons, wordOf_cons b y]
    simp only [Circuit.eval]
    cases x.eval b <;> cases y.eval b <;> simp <;> ring

theorem eval_lessFrom (b : Nat → Bool) : ∀ (xs ys : List Circuit) (r : Circuit), xs.length = ys.length →
    ((Circuits.lessFrom xs ys r).eval b = true ↔ wordOf b xs < wordOf b ys ∨ wordOf b xs = wordOf b ys ∧ r.eval b = true)
  | [], [], r, _ => by simp [Circuits.lessFrom, wordOf, number]
  | x :: xs, [], r, h => by simp at h
  | [], y :: ys, r, h => by simp at h
  | x :: xs, y :: ys, r, h => by
    rw [Circuits.lessFrom, eval_lessFrom b xs ys _ (by simpa using h), wordOf_cons, wordOf_cons]
    simp only [Circuit.eval]
    cases x.eval b <;> cases y.eval b <;> cases r.eval b <;> simp <;> omega

theorem eval_less (b : Nat → Bool) {xs ys : List Circuit} (h : xs.length = ys.length) :
    (Circuits.less xs ys).eval b = Decidable.decide (wordOf b xs < wordOf b ys) := by
  rw [Bool.eq_iff_iff, decide_eq_true_iff]
  match xs, ys, h with
  | [], [], _ => simp [Circuits.less, Circuit.eval]
  | x :: xs, y :: ys, h =>
    rw [Circuits.less, eval_lessFrom b xs ys _ (by simpa using h), wordOf_cons, wordOf_cons]
    simp only [Circuit.eval]
    cases x.eval b <;> cases y.eval b <;> simp <;> omega

theorem wordOf_inputs {b : Nat → Bool} : ∀ {n s x : Nat}, x < 2 ^ n → (∀ i < n, b (s + i) = x.testBit i) →
    wordOf b (Circuits.inputs s n) = x
  | 0, s, x, h, _ => by simp at h; subst h; rfl
  | n + 1, s, x, h, hb => by
    have e : Circuits.inputs s (n + 1) = .input s :: Circuits.inputs (s + 1) n := rfl
    rw [e, wordOf_cons, wordOf_inputs (x := x / 2) (by omega) fun i hi => by
      rw [Nat.testBit_div_two, ← hb (i + 1) (by omega)]; congr 1; omega]
    have h0 := hb 0 (by omega)
    rw [Nat.testBit_zero] at h0
    simp only [Circuit.eval]
    rw [Nat.add_zero] at h0
    rw [h0]
    rcases Nat.mod_two_eq_zero_or_one x with h | h <;> simp [h] <;> omega

theorem gates_le_sizes (Xs : List Circuit) : Circuits.gates Xs ≤ (Xs.map Circuit.size).sum := by
  have h : ((Circuits.parts Xs).filter fun y => 0 < y.depth).length = (Xs.map Circuit.size).sum := by
    induction Xs with
    | nil => rfl
    | cons X Xs ih =>
      unfold Circuits.parts at ih ⊢
      rw [List.flatMap_cons, List.filter_append, List.length_append, ih, parts_size, List.map_cons, List.sum_cons]
  rw [← h]
  exact (List.dedup_sublist _).length_le

/-- All gates of the circuits are in `S`. -/
def Covers (S : Finset Circuit) (Xs : List Circuit) : Prop := ∀ X ∈ Xs, ∀ y ∈ X.parts, 0 < y.depth → y ∈ S

theorem Covers.gates {S : Finset Circuit} {Xs : List Circuit} (h : Covers S Xs) : Circuits.gates Xs ≤ S.card := by
  rw [gates_card]
  refine Finset.card_le_card fun y hy => ?_
  obtain ⟨h1, h2⟩ := Finset.mem_filter.1 hy
  obtain ⟨X, hX, hy⟩ := List.mem_flatMap.1 (List.mem_toFinset.1 h1)
  exact h X hX y hy h2

theorem Covers.mono {S S' : Finset Circuit} {Xs : List Circuit} (h : Covers S Xs) (hS : S ⊆ S') : Covers S' Xs :=
  fun X hX y hy h0 => hS (h X hX y hy h0)

theorem covers_cons {S : Finset Circuit} {X : Circuit} {Xs : List Circuit} : Covers S (X :: Xs) ↔ Covers S [X] ∧ Covers S Xs := by
  simp [Covers]

/-- A gate is covered if it is in the set and its operands are covered. -/
theorem covers_gate {S : Finset Circuit} {X : Circuit} (hX : X ∈ S) (h : ∀ x ∈ X.operands, Covers S [x]) : Covers S [X] := by
  intro X' hX' y hy h0
  rw [List.mem_singleton.1 hX', parts_eq] at hy
  rcases List.mem_cons.1 hy with rfl | hy
  · exact hX
  · obtain ⟨x, hx, hy⟩ := List.mem_flatMap.1 hy
    exact h x hx x (by simp) y hy h0

theorem card_insert_all {S : Finset Circuit} : ∀ l : List Circuit, (l.toFinset ∪ S).card ≤ S.card + l.length := fun l => by
  have := Finset.card_union_le l.toFinset S
  have := List.toFinset_card_le l
  omega

theorem addCarry_covers : ∀ (xs ys : List Circuit) (c : Circuit) (S : Finset Circuit),
    Covers S xs → Covers S ys → Covers S [c] → ∃ S', S ⊆ S' ∧ S'.card ≤ S.card + 3 * xs.length + 2 * max xs.length ys.length ∧
      Covers S' (Circuits.addCarry xs ys c)
  | [], [], c, S, _, _, hc => ⟨S, subset_rfl, by simp, by rwa [Circuits.addCarry]⟩
  | x :: xs, [], c, S, hx, hy, hc => by
    rw [covers_cons] at hx
    let T := ([Circuit.xor x c, .and x c] : List Circuit).toFinset ∪ S
    have hT : S ⊆ T := Finset.subset_union_right
    have hTc : T.card ≤ S.card + 2 := card_insert_all [Circuit.xor x c, .and x c]
    have hm : ∀ y ∈ ([Circuit.xor x c, .and x c] : List Circuit), y ∈ T :=
      fun y hy => Finset.mem_union_left _ (List.mem_toFinset.2 hy)
    obtain ⟨S', h1, h2, h3⟩ := addCarry_covers xs [] (.and x c) T (hx.2.mono hT) (hy.mono hT)
      (covers_gate (hm _ (by simp)) (by simp [Circuit.operands, hx.1.mono hT, hc.mono hT]))
    refine ⟨S', hT.trans h1, by simp at h2 ⊢; omega, ?_⟩
    rw [Circuits.addCarry, covers_cons]
    exact ⟨(covers_gate (hm _ (by simp)) (by simp [Circuit.operands, hx.1.mono hT, hc.mono hT])).mono h1, h3⟩
  | [], y :: ys, c, S, hx, hy, hc => by
    rw [covers_cons] at hy
    let T := ([Circuit.xor y c, .and y c] : List Circuit).toFinset ∪ S
    have hT : S ⊆ T := Finset.subset_union_right
    have hTc : T.card ≤ S.card + 2 := card_insert_all [Circuit.xor y c, .and y c]
    have hm : ∀ z ∈ ([Circuit.xor y c, .and y c] : List Circuit), z ∈ T :=
      fun z hz => Finset.mem_union_left _ (List.mem_toFinset.2 hz)
    obtain ⟨S', h1, h2, h3⟩ := addCarry_covers [] ys (.and y c) T (hx.mono hT) (hy.2.mono hT)
      (covers_gate (hm _ (by simp)) (by simp [Circuit.operands, hy.1.mono hT, hc.mono hT]))
    refine ⟨S', hT.trans h1, by simp at h2 ⊢; omega, ?_⟩
    rw [Circuits.addCarry, covers_cons]
    exact ⟨(covers_gate (hm _ (by simp)) (by simp [Circuit.operands, hy.1.mono hT, hc.mono hT])).mono h1, h3⟩
  | x :: xs, y :: ys, c, S, hx, hy, hc => by
    rw [covers_cons] at hx hy
    let l : List Circuit := [.xor x y, .xor (.xor x y) c, .and x y, .and (.xor x y) c, .or (.and x y) (.and (.xor x y) c)]
    let T := l.toFinset ∪ S
    have hT : S ⊆ T := Finset.subset_union_right
    have hTc : T.card ≤ S.card + 5 := card_insert_all l
    have hm : ∀ z ∈ l, z ∈ T := fun z hz => Finset.mem_union_left _ (List.mem_toFinset.2 hz)
    have g1 : Covers T [.xor x y] :=
      covers_gate (hm _ (by simp [l])) (by simp [Circuit.operands, hx.1.mono hT, hy.1.mono hT])
    have g2 : Covers T [.and x y] :=
      covers_gate (hm _ (by simp [l])) (by simp [Circuit.operands, hx.1.mono hT, hy.1.mono hT])
    have g3 : Covers T [.and (.xor x y) c] :=
      covers_gate (hm _ (by simp [l])) (by simp [Circuit.operands, g1, hc.mono hT])
    obtain ⟨S', h1, h2, h3⟩ := addCarry_covers xs ys _ T (hx.2.mono hT) (hy.2.mono hT)
      (covers_gate (X := .or (.and x y) (.and (.xor x y) c)) (hm _ (by simp [l])) (by simp [Circuit.operands, g2, g3]))
    refine ⟨S', hT.trans h1, by simp only [List.length_cons] at h2 ⊢; omega, ?_⟩
    rw [Circuits.addCarry, covers_cons]
    exact ⟨(covers_gate (hm _ (by simp [l])) (by simp [Circuit.operands, g1, hc.mono hT])).mono h1, h3⟩

theorem add_covers (xs ys : List Circuit) (S : Finset Circuit) (hx : Covers S xs) (hy : Covers S ys) :
    ∃ S', S ⊆ S' ∧ S'.card ≤ S.card + 3 * xs.length + 2 * max xs.length ys.length ∧ Covers S' (Circuits.add xs ys) := by
  match xs, ys with
  | [], ys => exact ⟨S, subset_rfl, by omega, by rwa [Circuits.add]⟩
  | x :: xs, [] => exact ⟨S, subset_rfl, by omega, by rwa [Circuits.add]; simp⟩
  | x :: xs, y :: ys =>
    rw [covers_cons] at hx hy
    let l : List Circuit := [.xor x y, .and x y]
    let T := l.toFinset ∪ S
    have hT : S ⊆ T := Finset.subset_union_right
    have hTc : T.card ≤ S.card + 2 := card_insert_all l
    have hm : ∀ z ∈ l, z ∈ T := fun z hz => Finset.mem_union_left _ (List.mem_toFinset.2 hz)
    obtain ⟨S', h1, h2, h3⟩ := addCarry_covers xs ys (.and x y) T (hx.2.mono hT) (hy.2.mono hT)
      (covers_gate (hm _ (by simp [l])) (by simp [Circuit.operands, hx.1.mono hT, hy.1.mono hT]))
    refine ⟨S', hT.trans h1, by simp only [List.length_cons] at h2 ⊢; omega, ?_⟩
    rw [Circuits.add, covers_cons]
    exact ⟨(covers_gate (hm _ (by simp [l])) (by simp [Circuit.operands, hx.1.mono hT, hy.1.mono hT])).mono h1, h3⟩

theorem addCarry_length : ∀ (xs ys : List Circuit) (c : Circuit),
    (Circuits.addCarry xs ys c).length = max xs.length ys.length + 1
  | [], [], c => by simp [Circuits.addCarry]
  | x :: xs, [], c => by simp [Circuits.addCarry, addCarry_length xs []]
  | [], y :: ys, c => by simp [Circuits.addCarry, addCarry_length [] ys]
  | x :: xs, y :: ys, c => by simp [Circuits.addCarry, addCarry_length xs ys]

theorem add_length (xs ys : List Circuit) : (Circuits.add xs ys).length ≤ max xs.length ys.length + 1 := by
  match xs, ys with
  | [], ys => rw [Circuits.add]; omega
  | x :: xs, [] => rw [Circuits.add] <;> simp
  | x :: xs, y :: ys => simp [Circuits.add, addCarry_length]

theorem and_covers (y : Circuit) : ∀ (xs : List Circuit) (S : Finset Circuit), Covers S xs → Covers S [y] →
    ∃ S', S ⊆ S' ∧ S'.card ≤ S.card + xs.length ∧ Covers S' (xs.map fun x => .and x y) := fun xs S hx hy => by
  refine ⟨(xs.map fun x => Circuit.and x y).toFinset ∪ S, Finset.subset_union_right, ?_, ?_⟩
  · simpa using card_insert_all (S := S) (xs.map fun x => Circuit.and x y)
  · intro X hX
    obtain ⟨x, hx', rfl⟩ := List.mem_map.1 hX
    have h1 : Covers S [x] := fun z hz => by rw [List.mem_singleton.1 hz]; exact hx x hx'
    have := covers_gate (S := (xs.map fun x => Circuit.and x y).toFinset ∪ S) (X := .and x y)
      (Finset.mem_union_left _ (List.mem_toFinset.2 hX))
      (by simp [Circuit.operands, h1.mono Finset.subset_union_right, hy.mono Finset.subset_union_right])
    exact this _ (by simp)

theorem mulFrom_covers (xs : List Circuit) : ∀ (hi ys : List Circuit) (S : Finset Circuit),
    Covers S xs → Covers S hi → Covers S ys → hi.length ≤ xs.length →
    ∃ S', S ⊆ S' ∧ S'.card ≤ S.card + 6 * xs.length * ys.length ∧ Covers S' (Circuits.mulFrom xs hi ys)
  | hi, [], S, _, hh, _, _ => ⟨S, subset_rfl, by simp, by rwa [Circuits.mulFrom]⟩
  | hi, y :: ys, S, hx, hh, hy, hl => by
    rw [covers_cons] at hy
    obtain ⟨S1, a1, a2, a3⟩ := and_covers y xs S hx hy.1
    obtain ⟨S2, b1, b2, b3⟩ := add_covers hi (xs.map fun x => .and x y) S1 (hh.mono a1) a3
    have hlen := add_length hi (xs.map fun x => .and x y)
    rw [List.length_map] at b2 hlen
    rw [Circuits.mulFrom]
    cases e : Circuits.add hi (xs.map fun x => .and x y) with
    | nil =>
      refine ⟨S, subset_rfl, by omega, fun X hX => by simp at hX⟩
    | cons s hi' =>
      rw [e, covers_cons] at b3
      rw [e, List.length_cons] at hlen
      obtain ⟨S3, c1, c2, c3⟩ := mulFrom_covers xs hi' ys S2 (hx.mono (a1.trans b1)) b3.2 (hy.2.mono (a1.trans b1)) (by omega)
      refine ⟨S3, a1.trans (b1.trans c1), ?_, covers_cons.2 ⟨b3.1.mono c1, c3⟩⟩
      rw [List.length_cons, Nat.mul_add, Nat.mul_one]
      omega

theorem mul_covers (xs ys : List Circuit) (S : Finset Circuit) (hx : Covers S xs) (hy : Covers S ys) :
    ∃ S', S ⊆ S' ∧ S'.card ≤ S.card + 6 * xs.length * ys.length ∧ Covers S' (Circuits.mul xs ys) := by
  match xs, ys with
  | [], ys => exact ⟨S, subset_rfl, by simp, fun X hX => by simp [Circuits.mul] at hX⟩
  | x :: xs, [] => exact ⟨S, subset_rfl, by simp, fun X hX => by simp [Circuits.mul] at hX⟩
  | x :: xs, y :: ys =>
    rw [covers_cons (X := y)] at hy
    obtain ⟨S1, a1, a2, a3⟩ := and_covers y (x :: xs) S hx hy.1
    rw [List.map_cons, covers_cons] at a3
    obtain ⟨S2, b1, b2, b3⟩ := mulFrom_covers (x :: xs) (xs.map fun x => .and x y) ys S1 (hx.mono a1) a3.2 (hy.2.mono a1) (by simp)
    refine ⟨S2, a1.trans b1, ?_, ?_⟩
    · rw [List.length_cons (a := y), Nat.mul_add, Nat.mul_one]
      omega
    · rw [Circuits.mul, covers_cons]
      exact ⟨a3.1.mono b1, b3⟩

theorem lessFrom_covers : ∀ (xs ys : List Circuit) (r : Circuit) (S : Finset Circuit),
    Covers S xs → Covers S ys → Covers S [r] →
    ∃ S', S ⊆ S' ∧ S'.card ≤ S.card + 5 * xs.length ∧ Covers S' [Circuits.lessFrom xs ys r]
  | [], ys, r, S, _, _, hr => ⟨S, subset_rfl, by simp, by rwa [Circuits.lessFrom]; simp⟩
  | x :: xs, [], r, S, _, _, hr => ⟨S, subset_rfl, by omega, by rwa [Circuits.lessFrom]; simp⟩
  | x :: xs, y :: ys, r, S, hx, hy, hr => by
    rw [covers_cons] at hx hy
    let l : List Circuit := [.not x, .and (.not x) y, .xnor x y, .and (.xnor x y) r, .or (.and (.not x) y) (.and (.xnor x y) r)]
    let T := l.toFinset ∪ S
    have hT : S ⊆ T := Finset.subset_union_right
    have hTc : T.card ≤ S.card + 5 := card_insert_all l
    have hm : ∀ z ∈ l, z ∈ T := fun z hz => Finset.mem_union_left _ (List.mem_toFinset.2 hz)
    have g1 : Covers T [.not x] := covers_gate (hm _ (by simp [l])) (by simp [Circuit.operands, hx.1.mono hT])
    have g2 : Covers T [.and (.not x) y] := covers_gate (hm _ (by simp [l])) (by simp [Circuit.operands, g1, hy.1.mono hT])
    have g3 : Covers T [.xnor x y] :=
      covers_gate (hm _ (by simp [l])) (by simp [Circuit.operands, hx.1.mono hT, hy.1.mono hT])
    have g4 : Covers T [.and (.xnor x y) r] := covers_gate (hm _ (by simp [l])) (by simp [Circuit.operands, g3, hr.mono hT])
    obtain ⟨S', h1, h2, h3⟩ := lessFrom_covers xs ys _ T (hx.2.mono hT) (hy.2.mono hT)
      (covers_gate (X := .or (.and (.not x) y) (.and (.xnor x y) r)) (hm _ (by simp [l])) (by simp [Circuit.operands, g2, g4]))
    refine ⟨S', hT.trans h1, by rw [List.length_cons]; omega, ?_⟩
    rwa [Circuits.lessFrom]

theorem covers_inputs (S : Finset Circuit) (s n : Nat) : Covers S (Circuits.inputs s n) := by
  intro X hX y hy h0
  obtain ⟨i, -, rfl⟩ := List.mem_map.1 hX
  rw [Circuit.parts, List.mem_singleton] at hy
  rw [hy, Circuit.depth] at h0
  omega

theorem inputs_length (s n : Nat) : (Circuits.inputs s n).length = n := by simp [Circuits.inputs]

/-- Bit `i` has a depth of at most `a + 2i`. -/
def Rises : Nat → List Circuit → Prop
  | _, [] => True
  | a, x :: xs => x.depth ≤ a ∧ Rises (a + 2) xs

theorem Rises.mono : ∀ {a a' : Nat} {xs : List Circuit}, Rises a xs → a ≤ a' → Rises a' xs
  | _, _, [], _, _ => trivial
  | _, _, _ :: _, h, ha => ⟨h.1.trans ha, Rises.mono h.2 (by omega)⟩

theorem rises_of {a : Nat} : ∀ {xs : List Circuit}, (∀ x ∈ xs, x.depth ≤ a) → Rises a xs
  | [], _ => trivial
  | x :: xs, h => ⟨h x (by simp), (rises_of fun y hy => h y (by simp [hy])).mono (by omega)⟩

theorem Rises.depth : ∀ {a : Nat} {xs : List Circuit}, Rises a xs → Circuits.depth xs ≤ a + 2 * (xs.length - 1)
  | _, [], _ => by simp [Circuits.depth]
  | a, x :: xs, h => by
    refine max_depth_le fun X hX => ?_
    rcases List.mem_cons.1 hX with rfl | hX
    · exact h.1.trans (by omega)
    · have h1 := h.2.depth
      have h2 := depth_le_max hX
      have h3 := List.length_pos_of_mem hX
      rw [List.length_cons]
      omega

theorem addCarry_rises : ∀ {a : Nat} {xs ys : List Circuit} {c : Circuit}, Rises a xs → Rises a ys → c.depth ≤ a + 1 →
    Rises (a + 2) (Circuits.addCarry xs ys c)
  | a, [], [], c, _, _, hc => by rw [Circuits.addCarry]; exact ⟨by omega, trivial⟩
  | a, x :: xs, [], c, hx, _, hc => by
    rw [Circuits.addCarry]
    have := hx.1
    exact ⟨by simp only [Circuit.depth]; omega, addCarry_rises hx.2 trivial (by simp only [Circuit.depth]; omega)⟩
  | a, [], y :: ys, c, _, hy, hc => by
    rw [Circuits.addCarry]
    have := hy.1
    exact ⟨by simp only [Circuit.depth]; omega, addCarry_rises trivial hy.2 (by simp only [Circuit.depth]; omega)⟩
  | a, x :: xs, y :: ys, c, hx, hy, hc => by
    rw [Circuits.addCarry]
    have := hx.1
    have := hy.1
    exact ⟨by simp only [Circuit.depth]; omega, addCarry_rises hx.2 hy.2 (by simp only [Circuit.depth]; omega)⟩

theorem add_rises {a : Nat} {xs ys : List Circuit} (hx : Rises a xs) (hy : Rises a ys) : Rises (a + 2) (Circuits.add xs ys) := by
  match xs, ys, hx, hy with
  | [], ys, _, hy => rw [Circuits.add]; exact hy.mono (by omega)
  | x :: xs, [], hx, _ => rw [Circuits.add]; exacts [hx.mono (by omega), by simp]
  | x :: xs, y :: ys, hx, hy =>
    rw [Circuits.add]
    have := hx.1
    have := hy.1
    exact ⟨by simp only [Circuit.depth]; omega, addCarry_rises hx.2 hy.2 (by simp only [Circuit.depth]; omega)⟩

theorem mulFrom_depth (xs : List Circuit) (hx : ∀ x ∈ xs, x.depth = 0) : ∀ (ys hi : List Circuit) (a : Nat), 1 ≤ a → Rises a hi →
    (∀ y ∈ ys, y.depth = 0) → hi.length ≤ xs.length → Circuits.depth (Circuits.mulFrom xs hi ys) ≤ a + 4 * ys.length + 2 * xs.length
  | [], hi, a, _, hh, _, hl => by
    rw [Circuits.mulFrom]
    exact hh.depth.trans (by omega)
  | y :: ys, hi, a, ha, hh, hy, hl => by
    have hr : Rises (a + 2) (Circuits.add hi (xs.map fun x => .and x y)) := by
      refine add_rises hh (rises_of fun X hX => ?_)
      obtain ⟨x, hx', rfl⟩ := List.mem_map.1 hX
      simp only [Circuit.depth, hx x hx', hy y (by simp)]
      omega
    have hlen := add_length hi (xs.map fun x => .and x y)
    rw [List.length_map] at hlen
    rw [Circuits.mulFrom]
    cases e : Circuits.add hi (xs.map fun x => .and x y) with
    | nil => simp [Circuits.depth]
    | cons s hi' =>
      rw [e] at hr hlen
      rw [List.length_cons] at hlen
      have h1 := mulFrom_depth xs hx ys hi' (a + 4) (by omega) hr.2 (fun y hy' => hy y (by simp [hy'])) (by omega)
      have h2 := hr.1
      refine max_le (by rw [List.length_cons]; omega) (h1.trans (by rw [List.length_cons]; omega))

theorem lessFrom_depth : ∀ (xs ys : List Circuit) (r : Circuit) (a : Nat), (∀ x ∈ xs, x.depth = 0) → (∀ y ∈ ys, y.depth = 0) →
    2 ≤ a → r.depth ≤ a → (Circuits.lessFrom xs ys r).depth ≤ a + 2 * xs.length
  | [], ys, r, a, _, _, _, hr => by rw [Circuits.lessFrom]; exacts [by omega, by simp]
  | x :: xs, [], r, a, _, _, _, hr => by rw [Circuits.lessFrom]; exacts [by omega, by simp]
  | x :: xs, y :: ys, r, a, hx, hy, ha, hr => by
    rw [Circuits.lessFrom]
    refine (lessFrom_depth xs ys _ (a + 2) (fun x hx' => hx x (by simp [hx'])) (fun y hy' => hy y (by simp [hy'])) (by omega) ?_).trans
      (by rw [List.length_cons]; omega)
    simp only [Circuit.depth, hx x (by simp), hy y (by simp)]
    omega

/-- Gates of at most two operands, with at least one gate. -/
def Gated (X : Circuit) : Prop := X.Upto 2 ∧ 0 < X.depth

theorem addCarry_gated : ∀ (xs ys : List Circuit) (c : Circuit), (∀ x ∈ xs, x.Upto 2) → (∀ y ∈ ys, y.Upto 2) → Gated c →
    ∀ X ∈ Circuits.addCarry xs ys c, Gated X
  | [], [], c, _, _, hc => by rw [Circuits.addCarry]; simpa using hc
  | x :: xs, [], c, hx, hy, hc => by
    simp only [List.mem_cons, forall_eq_or_imp] at hx
    rw [Circuits.addCarry]
    simp only [List.mem_cons, forall_eq_or_imp]
    exact ⟨⟨⟨le_rfl, hx.1, hc.1⟩, Nat.succ_pos _⟩, addCarry_gated xs [] _ hx.2 hy ⟨⟨le_rfl, hx.1, hc.1⟩, Nat.succ_pos _⟩⟩
  | [], y :: ys, c, hx, hy, hc => by
    simp only [List.mem_cons, forall_eq_or_imp] at hy
    rw [Circuits.addCarry]
    simp only [List.mem_cons, forall_eq_or_imp]
    exact ⟨⟨⟨le_rfl, hy.1, hc.1⟩, Nat.succ_pos _⟩, addCarry_gated [] ys _ hx hy.2 ⟨⟨le_rfl, hy.1, hc.1⟩, Nat.succ_pos _⟩⟩
  | x :: xs, y :: ys, c, hx, hy, hc => by
    simp only [List.mem_cons, forall_eq_or_imp] at hx hy
    rw [Circuits.addCarry]
    simp only [List.mem_cons, forall_eq_or_imp]
    exact ⟨⟨⟨le_rfl, ⟨le_rfl, hx.1, hy.1⟩, hc.1⟩, Nat.succ_pos _⟩, addCarry_gated xs ys _ hx.2 hy.2
      ⟨⟨le_rfl, ⟨le_rfl, hx.1, hy.1⟩, le_rfl, ⟨le_rfl, hx.1, hy.1⟩, hc.1⟩, Nat.succ_pos _⟩⟩

/-- Sums of gates, or of as many bits, are gates. -/
theorem add_gated (xs ys : List Circuit) (hx : ∀ x ∈ xs, x.Upto 2) (hy : ∀ y ∈ ys, y.Upto 2)
    (h : xs.length = ys.length ∨ (∀ x ∈ xs, 0 < x.depth) ∧ ∀ y ∈ ys, 0 < y.depth) : ∀ X ∈ Circuits.add xs ys, Gated X := by
  match xs, ys with
  | [], ys =>
    rw [Circuits.add]
    intro X hX
    refine ⟨hy X hX, ?_⟩
    rcases h with h | h
    · rw [List.eq_nil_of_length_eq_zero h.symm] at hX
      simp at hX
    · exact h.2 X hX
  | x :: xs, [] =>
    rw [Circuits.add]
    · intro X hX
      refine ⟨hx X hX, ?_⟩
      rcases h with h | h
      · simp at h
      · exact h.1 X hX
    · simp
  | x :: xs, y :: ys =>
    simp only [List.mem_cons, forall_eq_or_imp] at hx hy
    rw [Circuits.add]
    simp only [List.mem_cons, forall_eq_or_imp]
    exact ⟨⟨⟨le_rfl, hx.1, hy.1⟩, Nat.succ_pos _⟩, addCarry_gated xs ys _ hx.2 hy.2 ⟨⟨le_rfl, hx.1, hy.1⟩, Nat.succ_pos _⟩⟩

theorem mulFrom_gated (xs : List Circuit) (hx : ∀ x ∈ xs, x.Upto 2) : ∀ (ys hi : List Circuit), (∀ y ∈ ys, y.Upto 2) →
    (∀ X ∈ hi, Gated X) → ∀ X ∈ Circuits.mulFrom xs hi ys, Gated X
  | [], hi, _, hh => by rwa [Circuits.mulFrom]
  | y :: ys, hi, hy, hh => by
    simp only [List.mem_cons, forall_eq_or_imp] at hy
    have hr : ∀ X ∈ xs.map fun x => Circuit.and x y, Gated X := fun X hX => by
      obtain ⟨x, hx', rfl⟩ := List.mem_map.1 hX
      exact ⟨⟨le_rfl, hx x hx', hy.1⟩, Nat.succ_pos _⟩
    have h := add_gated hi (xs.map fun x => .and x y) (fun X hX => (hh X hX).1) (fun X hX => (hr X hX).1)
      (.inr ⟨fun X hX => (hh X hX).2, fun X hX => (hr X hX).2⟩)
    rw [Circuits.mulFrom]
    cases e : Circuits.add hi (xs.map fun x => .and x y) with
    | nil => simp
    | cons s hi' =>
      rw [e] at h
      simp only [List.mem_cons, forall_eq_or_imp] at h ⊢
      exact ⟨h.1, mulFrom_gated xs hx ys hi' hy.2 h.2⟩

theorem lessFrom_gated : ∀ (xs ys : List Circuit) (r : Circuit), (∀ x ∈ xs, x.Upto 2) → (∀ y ∈ ys, y.Upto 2) → Gated r →
    Gated (Circuits.lessFrom xs ys r)
  | [], ys, r, _, _, hr => by rwa [Circuits.lessFrom]; simp
  | x :: xs, [], r, _, _, hr => by rwa [Circuits.lessFrom]; simp
  | x :: xs, y :: ys, r, hx, hy, hr => by
    simp only [List.mem_cons, forall_eq_or_imp] at hx hy
    rw [Circuits.lessFrom]
    exact lessFrom_gated xs ys _ hx.2 hy.2
      ⟨⟨le_rfl, ⟨le_rfl, hx.1, hy.1⟩, le_rfl, ⟨le_rfl, hx.1, hy.1⟩, hr.1⟩, Nat.succ_pos _⟩

theorem inputs_facts {s n : Nat} {X : Circuit} (h : X ∈ Circuits.inputs s n) : X.Upto 2 ∧ X.depth = 0 := by
  obtain ⟨i, -, rfl⟩ := List.mem_map.1 h
  exact ⟨trivial, rfl⟩

/-- What the arithmetic circuits for numbers of `n` bits need. -/
theorem add_facts (n : Nat) : Circuits.gates (Circuits.add (Circuits.inputs 0 n) (Circuits.inputs n n)) ≤ 5 * n ∧
    Circuits.depth (Circuits.add (Circuits.inputs 0 n) (Circuits.inputs n n)) ≤ 2 * n ∧
    ∀ X ∈ Circuits.add (Circuits.inputs 0 n) (Circuits.inputs n n), Gated X := by
  refine ⟨?_, ?_, add_gated _ _ (fun x hx => (inputs_facts hx).1) (fun x hx => (inputs_facts hx).1)
    (.inl (by rw [inputs_length, inputs_length]))⟩
  · obtain ⟨S, -, h1, h2⟩ := add_covers _ _ ∅ (covers_inputs _ 0 n) (covers_inputs _ n n)
    rw [inputs_length, inputs_length, Finset.card_empty, max_self] at h1
    exact h2.gates.trans (by omega)
  · cases n with
    | zero => exact Nat.le_of_eq rfl
    | succ n =>
      have e : ∀ s, Circuits.inputs s (n + 1) = .input s :: Circuits.inputs (s + 1) n := fun _ => rfl
      rw [e, e, Circuits.add]
      have h := addCarry_rises (a := 0) (c := .and (.input 0) (.input (n + 1)))
        (rises_of fun x hx => (inputs_facts (s := 0 + 1) (n := n) hx).2.le)
        (rises_of fun x hx => (inputs_facts (s := n + 1 + 1) (n := n) hx).2.le) (by simp [Circuit.depth])
      have h1 := h.depth
      rw [addCarry_length, inputs_length, inputs_length, max_self] at h1
      refine max_le ?_ (h1.trans (by omega))
      simp only [Circuit.depth]
      omega

theorem mul_facts (n : Nat) : Circuits.gates (Circuits.mul (Circuits.inputs 0 n) (Circuits.inputs n n)) ≤ 6 * n ^ 2 ∧
    Circuits.depth (Circuits.mul (Circuits.inputs 0 n) (Circuits.inputs n n)) ≤ 6 * n ∧
    ∀ X ∈ Circuits.mul (Circuits.inputs 0 n) (Circuits.inputs n n), Gated X := by
  refine ⟨?_, ?_⟩
  · obtain ⟨S, -, h1, h2⟩ := mul_covers _ _ ∅ (covers_inputs _ 0 n) (covers_inputs _ n n)
    rw [inputs_length, inputs_length, Finset.card_empty] at h1
    exact h2.gates.trans (by nlinarith)
  · cases n with
    | zero => exact ⟨Nat.le_of_eq rfl, by simp [Circuits.inputs, Circuits.mul]⟩
    | succ n =>
      have e : ∀ s, Circuits.inputs s (n + 1) = .input s :: Circuits.inputs (s + 1) n := fun _ => rfl
      rw [e, e, Circuits.mul, ← e 0]
      have hand : ∀ X ∈ (Circuits.inputs (0 + 1) n).map fun x => Circuit.and x (.input (n + 1)), Gated X ∧ X.depth ≤ 1 :=
        fun X hX => by
          obtain ⟨x, hx, rfl⟩ := List.mem_map.1 hX
          obtain ⟨h1, h2⟩ := inputs_facts hx
          exact ⟨⟨⟨le_rfl, h1, trivial⟩, Nat.succ_pos _⟩, by simp [Circuit.depth, h2]⟩
      constructor
      · have h := mulFrom_depth (Circuits.inputs 0 (n + 1)) (fun x hx => (inputs_facts hx).2) (Circuits.inputs (n + 1 + 1) n)
          ((Circuits.inputs (0 + 1) n).map fun x => .and x (.input (n + 1))) 1 le_rfl (rises_of fun X hX => (hand X hX).2)
          (fun x hx => (inputs_facts hx).2) (by simp [inputs_length])
        rw [inputs_length, inputs_length] at h
        refine max_le ?_ (h.trans (by omega))
        simp only [Circuit.depth]
        omega
      · simp only [List.mem_cons, forall_eq_or_imp]
        exact ⟨⟨⟨le_rfl, trivial, trivial⟩, Nat.succ_pos _⟩, mulFrom_gated _ (fun x hx => (inputs_facts hx).1) _ _
          (fun x hx => (inputs_facts hx).1) fun X hX => (hand X hX).1⟩

theorem less_facts (n : Nat) (hn : 0 < n) : Circuits.gates [Circuits.less (Circuits.inputs 0 n) (Circuits.inputs n n)] ≤ 5 * n ∧
    (Circuits.less (Circuits.inputs 0 n) (Circuits.inputs n n)).depth ≤ 2 * n ∧
    Gated (Circuits.less (Circuits.inputs 0 n) (Circuits.inputs n n)) := by
  obtain ⟨n, rfl⟩ : ∃ m, n = m + 1 := ⟨n - 1, by omega⟩
  have e : ∀ s, Circuits.inputs s (n + 1) = .input s :: Circuits.inputs (s + 1) n := fun _ => rfl
  rw [e, e, Circuits.less]
  refine ⟨?_, ?_, lessFrom_gated _ _ _ (fun x hx => (inputs_facts hx).1) (fun x hx => (inputs_facts hx).1)
    ⟨⟨le_rfl, trivial, trivial⟩, Nat.succ_pos _⟩⟩
  · let l : List Circuit := [.not (.input 0), .and (.not (.input 0)) (.input (n + 1))]
    have h0 : ∀ i, Covers l.toFinset [.input i] := fun i => by
      have := covers_inputs l.toFinset i 1
      exact this
    have g1 : Covers l.toFinset [.not (.input 0)] := covers_gate (by simp [l]) (by simp [Circuit.operands, h0])
    obtain ⟨S, -, h1, h2⟩ := lessFrom_covers (Circuits.inputs (0 + 1) n) (Circuits.inputs (n + 1 + 1) n)
      (.and (.not (.input 0)) (.input (n + 1))) l.toFinset (covers_inputs _ _ _) (covers_inputs _ _ _)
      (covers_gate (by simp [l]) (by simp [Circuit.operands, h0, g1]))
    have h3 := List.toFinset_card_le l
    rw [inputs_length] at h1
    have h4 : l.length = 2 := rfl
    exact h2.gates.trans (by omega)
  · have h := lessFrom_depth (Circuits.inputs (0 + 1) n) (Circuits.inputs (n + 1 + 1) n)
      (.and (.not (.input 0)) (.input (n + 1))) 2 (fun x hx => (inputs_facts hx).2) (fun x hx => (inputs_facts hx).2) le_rfl
      (by simp [Circuit.depth])
    rw [inputs_length] at h
    exact h.trans (by omega)

theorem prepend_lt {α : Type} {l : List α} {old : Nat → α} {i : Nat} (h : i < l.length) : prepend l old i = l[i] := by
  unfold prepend
  rw [List.getElem?_eq_getElem h, Option.getD_some]

theorem prepend_ge {α : Type} {l : List α} {old : Nat → α} {i : Nat} (h : l.length ≤ i) : prepend l old i = old (i - l.length) := by
  unfold prepend
  rw [List.getElem?_eq_none h, Option.getD_none]

/-- If all results are right, all numbered ciphertexts after the layers are, except for the inputs. -/
theorem allRight_numbers {decrypt : LWE → Option Nat} : ∀ {log : List (List (Circuit × LWE))} {ls : List (List Circuit)}
    {b : Nat → Bool} {c : Nat → LWE} {M : Nat}, log.map (fun l => l.map Prod.fst) = ls → AllRight decrypt b log →
    (∀ i < M, decrypt (c i) = some (b i).toNat) → ∀ i < M + (ls.map List.length).sum,
      decrypt (log.foldl (fun c l => prepend (l.map Prod.snd) c) c i) = some (bitsFrom ls b i).toNat
  | [], ls, b, c, M, e, _, h, i, hi => by
    subst e
    exact h i hi
  | l :: log, ls, b, c, M, e, hr, h, i, hi => by
    subst e
    rw [List.foldl_cons]
    have hb : bitsFrom ((l :: log).map fun l => l.map Prod.fst) b =
        bitsFrom (log.map fun l => l.map Prod.fst) (prepend (l.map fun x => x.1.eval b) b) := by
      unfold bitsFrom
      rw [List.map_cons, List.foldl_cons, List.map_map]
      rfl
    rw [hb]
    refine allRight_numbers (M := l.length + M) rfl hr.2 (fun j hj => ?_) i ?_
    · rcases Nat.lt_or_ge j l.length with h1 | h1
      · rw [prepend_lt (by rwa [List.length_map]), prepend_lt (by rwa [List.length_map]), List.getElem_map, List.getElem_map]
        exact hr.1 _ (List.getElem_mem _)
      · rw [prepend_ge (by rwa [List.length_map]), prepend_ge (by rwa [List.length_map]), List.length_map, List.length_map]
        exact h _ (by omega)
    · simp only [List.map_cons, List.sum_cons, List.length_map] at hi
      omega

/-- The results of gates come before the inputs. -/
theorem place_lt (Xs : List Circuit) : ∀ t, ∀ y ∈ Circuits.parts Xs, y.depth ≤ t → 0 < y.depth →
    Circuits.place Xs t y < (((List.range t).map (Circuits.layer Xs)).map List.length).sum
  | 0, y, _, h, h0 => by omega
  | t + 1, y, hy, h, h0 => by
    rw [List.range_succ, List.map_append, List.map_append, List.sum_append, List.map_singleton, List.map_singleton,
      List.sum_singleton, Circuits.place]
    have hl : (Circuits.layer Xs t).length = (Circuits.level Xs (t + 1)).length := by
      unfold Circuits.layer
      rw [List.length_map]
    split_ifs with hd
    · have := List.idxOf_lt_length_of_mem (mem_level.2 ⟨hy, hd⟩ : y ∈ Circuits.level Xs (t + 1))
      omega
    · have := place_lt Xs t y hy (by omega) h0
      omega

end Verif

namespace Verif.Props
open Spec Gaussian F64
open scoped ENNReal

/-- C106: if all gates of the layers of several circuits are evaluated rightly except with a probability of `ε`, then the
results decrypt to the values of the circuits, except with this probability. -/
theorem C106_results (keys : PMF (Option EvalKey)) (decrypt : LWE → Option Nat) (c : Nat → LWE) (b : Nat → Bool)
    (Xs : List Circuit) (h0 : ∀ X ∈ Xs, 0 < X.depth) (ε : ℝ≥0∞)
    (h : (renewedLaw keys (Circuits.plan Xs) (Circuits.depth Xs) 0 c).toOuterMeasure
      {r | ∃ log, r = some log ∧ AllRight decrypt b log}ᶜ ≤ ε) :
    (renewedLaw keys (Circuits.plan Xs) (Circuits.depth Xs) 0 c).toOuterMeasure
      {r | ∃ log, r = some log ∧
        (Circuits.results Xs c log).mapM decrypt = some (Xs.map fun X => (X.eval b).toNat)}ᶜ ≤ ε := by
  refine le_trans (prob_mono ?_) h
  rintro r hr hbad ⟨log, rfl, hlog⟩
  refine hbad ⟨log, rfl, ?_⟩
  have hl := renewedLaw_gates (ls := Circuits.layer Xs) (Circuits.depth Xs) 0 c log hr
  rw [← List.range_eq_range'] at hl
  have hnum := allRight_numbers (M := 0) (c := c) hl hlog (fun i hi => by omega)
  have hX : ∀ X ∈ Xs, decrypt (log.foldl (fun c l => prepend (l.map Prod.snd) c) c (Circuits.place Xs (Circuits.depth Xs) X)) =
      some (X.eval b).toNat := fun X hX => by
    have hp : X ∈ Circuits.parts Xs := List.mem_flatMap.2 ⟨X, hX, part_self X⟩
    rw [hnum _ (by rw [Nat.zero_add]; exact place_lt Xs _ X hp (depth_le_max hX) (h0 X hX)),
      place_spec Xs b _ X hp (depth_le_max hX)]
  unfold Circuits.results
  generalize log.foldl (fun c l => prepend (l.map Prod.snd) c) c = f at hX
  generalize Circuits.place Xs (Circuits.depth Xs) = g at hX
  clear hr hbad hlog hl hnum h h0
  induction Xs with
  | nil => rfl
  | cons X Xs ih =>
    simp only [List.mem_cons, forall_eq_or_imp] at hX
    rw [List.map_cons, List.mapM_cons, hX.1, ih hX.2]
    rfl

section
variable [DefaultBuild] [NeZero 132120577] (δ : PMF ℚ) (hδ : Deviates δ (13 / 2)) (dk : KeyDraws)
    (b : Nat → Bool) (masks : Nat → List Nat) (z : Nat → ℤ)
    (hm : ∀ i, 1024 ≤ (masks i).length ∧ ∀ x ∈ masks i, x < 1024)
    (s : Sampler) (hs : noise (rnd (16 / 5)) = some s) (hz : ∀ i, ∃ x, accept s x = true ∧ z i = roundAway x)
include hδ hm hs hz

/-- C106: at the default parameters several circuits of gates of one or two operands are evaluated together with as many
evaluation keys as their depth, and fail with probability at most `2 exp(-20)` for each of the different gates. -/
theorem C106_default :
    ∃ pack, KeyPack.new defaultCtx defaultParams dk = some pack ∧ ∃ c : Nat → LWE,
      (∀ i, (defaultParams.lwe 16).encrypt pack.lwe (masks i) (z i) (b i).toNat = some (c i)) ∧
      ∀ Xs : List Circuit, (∀ X ∈ Xs, X.Upto 2 ∧ 0 < X.depth) →
        (renewedLaw ((evalLaw 16 defaultCtx defaultParams 132120577 10 10
            (defaultGaussLaws δ (draws (uniformBelow 132120577) (2 ^ 10))
              (draws (uniformBelow 132120577) (2 ^ 10)))).map fun d => EvalKey.new 16 defaultCtx defaultParams pack d)
          (Circuits.plan Xs) (Circuits.depth Xs) 0 c).toOuterMeasure
          {r | ∃ log, r = some log ∧ (Circuits.results Xs c log).mapM ((defaultParams.lwe 16).decrypt .bool pack.lwe) =
            some (Xs.map fun X => (X.eval b).toNat)}ᶜ ≤
        ENNReal.ofReal (Circuits.gates Xs * (2 * Real.exp (-20))) := by
  obtain ⟨pack, ep, c, ec, h⟩ := default_layers δ dk b masks z (C104_default δ hδ dk b masks z hm s hs hz)
  exact ⟨pack, ep, c, ec, fun Xs hX => C106_results _ _ c b Xs (fun X h => (hX X h).2) _ (h Xs fun X h => (hX X h).1)⟩

/-- C106: at the default parameters every function from `n` bits to `m` bits can be evaluated with `2n + 1` evaluation keys. -/
theorem C106_every_map :
    ∃ pack, KeyPack.new defaultCtx defaultParams dk = some pack ∧ ∃ c : Nat → LWE,
      (∀ i, (defaultParams.lwe 16).encrypt pack.lwe (masks i) (z i) (b i).toNat = some (c i)) ∧
      ∀ (n m : Nat) (f : (Fin n → Bool) → Fin m → Bool), ∃ Xs : List Circuit, Circuits.depth Xs ≤ 2 * n + 1 ∧
        (renewedLaw ((evalLaw 16 defaultCtx defaultParams 132120577 10 10
            (defaultGaussLaws δ (draws (uniformBelow 132120577) (2 ^ 10))
              (draws (uniformBelow 132120577) (2 ^ 10)))).map fun d => EvalKey.new 16 defaultCtx defaultParams pack d)
          (Circuits.plan Xs) (Circuits.depth Xs) 0 c).toOuterMeasure
          {r | ∃ log, r = some log ∧ (Circuits.results Xs c log).mapM ((defaultParams.lwe 16).decrypt .bool pack.lwe) =
            some (List.ofFn fun j => (f (fun i => b i) j).toNat)}ᶜ ≤
        ENNReal.ofReal (10 * m * 2 ^ n * Real.exp (-20)) := by
  obtain ⟨pack, ep, c, ec, h⟩ := C106_default δ hδ dk b masks z hm s hs hz
  refine ⟨pack, ep, c, ec, fun n m f => ⟨List.ofFn fun j => Spec.decide n fun x => f x j, ?_, ?_⟩⟩
  · refine max_depth_le fun X hX => ?_
    obtain ⟨j, rfl⟩ := List.mem_ofFn.1 hX
    exact (decide_depth n _).1.le
  · have hX : ∀ X ∈ List.ofFn fun j => Spec.decide n fun x => f x j, (X.Upto 2 ∧ 0 < X.depth) ∧ X.size ≤ 5 * 2 ^ n := fun X hX => by
      obtain ⟨j, rfl⟩ := List.mem_ofFn.1 hX
      obtain ⟨h1, h2⟩ := decide_depth n fun x => f x j
      obtain ⟨-, -, h3, -⟩ := C103_function n fun x => f x j
      exact ⟨⟨h2, by omega⟩, by omega⟩
    have hv : ((List.ofFn fun j => Spec.decide n fun x => f x j).map fun X => (X.eval b).toNat) =
        List.ofFn fun j => (f (fun i => b i) j).toNat := by
      rw [List.map_ofFn]
      congr 1
      funext j
      exact congrArg Bool.toNat ((C103_function n fun x => f x j).2.2.2 b)
    rw [← hv]
    refine (h _ fun X hX' => (hX X hX').1).trans (ENNReal.ofReal_le_ofReal ?_)
    have hg := (gates_le_sizes (List.ofFn fun j => Spec.decide n fun x => f x j)).trans
      (List.sum_le_card_nsmul _ (5 * 2 ^ n) fun y hy => by
        obtain ⟨X, hX', rfl⟩ := List.mem_map.1 hy
        exact (hX X hX').2)
    rw [List.length_map, List.length_ofFn, smul_eq_mul] at hg
    have hg' : (Circuits.gates (List.ofFn fun j => Spec.decide n fun x => f x j) : ℝ) ≤ m * (5 * 2 ^ n) := by exact_mod_cast hg
    have := mul_le_mul_of_nonneg_right hg' (by positivity : 0 ≤ 2 * Real.exp (-20))
    linarith

/-- C106: addition. Numbers `x` and `y` of `n` bits are encrypted bit by bit, and added with `2n` evaluation keys at the
default parameters. The results are the bits of `x + y`, except with a probability of at most `10 n exp(-20)`. -/
theorem C106_sum :
    ∃ pack, KeyPack.new defaultCtx defaultParams dk = some pack ∧ ∃ c : Nat → LWE,
      (∀ i, (defaultParams.lwe 16).encrypt pack.lwe (masks i) (z i) (b i).toNat = some (c i)) ∧
      ∀ n x y : Nat, x < 2 ^ n → y < 2 ^ n → (∀ i < n, b i = x.testBit i ∧ b (n + i) = y.testBit i) →
        let Xs := Circuits.add (Circuits.inputs 0 n) (Circuits.inputs n n)
        Circuits.depth Xs ≤ 2 * n ∧
        (renewedLaw ((evalLaw 16 defaultCtx defaultParams 132120577 10 10
            (defaultGaussLaws δ (draws (uniformBelow 132120577) (2 ^ 10))
              (draws (uniformBelow 132120577) (2 ^ 10)))).map fun d => EvalKey.new 16 defaultCtx defaultParams pack d)
          (Circuits.plan Xs) (Circuits.depth Xs) 0 c).toOuterMeasure
          {r | ∃ log, r = some log ∧
            ((Circuits.results Xs c log).mapM ((defaultParams.lwe 16).decrypt .bool pack.lwe)).map number = some (x + y)}ᶜ ≤
        ENNReal.ofReal (10 * n * Real.exp (-20)) := by
  obtain ⟨pack, ep, c, ec, h⟩ := C106_default δ hδ dk b masks z hm s hs hz
  refine ⟨pack, ep, c, ec, fun n x y hx hy hb => ⟨(add_facts n).2.1, ?_⟩⟩
  have hv : wordOf b (Circuits.add (Circuits.inputs 0 n) (Circuits.inputs n n)) = x + y := by
    rw [wordOf_add, wordOf_inputs hx (fun i hi => by rw [Nat.zero_add]; exact (hb i hi).1), wordOf_inputs hy fun i hi => (hb i hi).2]
  refine (prob_mono ?_).trans ((h _ (add_facts n).2.2).trans (ENNReal.ofReal_le_ofReal ?_))
  · rintro r - hbad ⟨log, rfl, e⟩
    refine hbad ⟨log, rfl, ?_⟩
    rw [e, ← hv]
    rfl
  · have h1 : (Circuits.gates (Circuits.add (Circuits.inputs 0 n) (Circuits.inputs n n)) : ℝ) ≤ 10 * n / 2 := by
      refine le_trans (Nat.cast_le.2 (add_facts n).1) (le_of_eq ?_)
      push_cast
      ring
    have := mul_le_mul_of_nonneg_right h1 (by positivity : 0 ≤ 2 * Real.exp (-20))
    linarith

/-- C106: multiplication, with `6n` evaluation keys and a probability of failure of at most `12 n^2 exp(-20)`. -/
theorem C106_product :
    ∃ pack, KeyPack.new defaultCtx defaultParams dk = some pack ∧ ∃ c : Nat → LWE,
      (∀ i, (defaultParams.lwe 16).encrypt pack.lwe (masks i) (z i) (b i).toNat = some (c i)) ∧
      ∀ n x y : Nat, x < 2 ^ n → y < 2 ^ n → (∀ i < n, b i = x.testBit i ∧ b (n + i) = y.testBit i) →
        let Xs := Circuits.mul (Circuits.inputs 0 n) (Circuits.inputs n n)
        Circuits.depth Xs ≤ 6 * n ∧
        (renewedLaw ((evalLaw 16 defaultCtx defaultParams 132120577 10 10
            (defaultGaussLaws δ (draws (uniformBelow 132120577) (2 ^ 10))
              (draws (uniformBelow 132120577) (2 ^ 10)))).map fun d => EvalKey.new 16 defaultCtx defaultParams pack d)
          (Circuits.plan Xs) (Circuits.depth Xs) 0 c).toOuterMeasure
          {r | ∃ log, r = some log ∧
            ((Circuits.results Xs c log).mapM ((defaultParams.lwe 16).decrypt .bool pack.lwe)).map number = some (x * y)}ᶜ ≤
        ENNReal.ofReal (12 * n ^ 2 * Real.exp (-20)) := by
  obtain ⟨pack, ep, c, ec, h⟩ := C106_default δ hδ dk b masks z hm s hs hz
  refine ⟨pack, ep, c, ec, fun n x y hx hy hb => ⟨(mul_facts n).2.1, ?_⟩⟩
  have hv : wordOf b (Circuits.mul (Circuits.inputs 0 n) (Circuits.inputs n n)) = x * y := by
    rw [wordOf_mul, wordOf_inputs hx (fun i hi => by rw [Nat.zero_add]; exact (hb i hi).1), wordOf_inputs hy fun i hi => (hb i hi).2]
  refine (prob_mono ?_).trans ((h _ (mul_facts n).2.2).trans (ENNReal.ofReal_le_ofReal ?_))
  · rintro r - hbad ⟨log, rfl, e⟩
    refine hbad ⟨log, rfl, ?_⟩
    rw [e, ← hv]
    rfl
  · have h1 : (Circuits.gates (Circuits.mul (Circuits.inputs 0 n) (Circuits.inputs n n)) : ℝ) ≤ 12 * n ^ 2 / 2 := by
      refine le_trans (Nat.cast_le.2 (mul_facts n).1) (le_of_eq ?_)
      push_cast
      ring
    have := mul_le_mul_of_nonneg_right h1 (by positivity : 0 ≤ 2 * Real.exp (-20))
    linarith

/-- C106: comparison, with `2n` evaluation keys and a probability of failure of at most `10 n exp(-20)`. -/
theorem C106_less :
    ∃ pack, KeyPack.new defaultCtx defaultParams dk = some pack ∧ ∃ c : Nat → LWE,
      (∀ i, (defaultParams.lwe 16).encrypt pack.lwe (masks i) (z i) (b i).toNat = some (c i)) ∧
      ∀ n x y : Nat, 0 < n → x < 2 ^ n → y < 2 ^ n → (∀ i < n, b i = x.testBit i ∧ b (n + i) = y.testBit i) →
        let X := Circuits.less (Circuits.inputs 0 n) (Circuits.inputs n n)
        X.depth ≤ 2 * n ∧
        (renewedLaw ((evalLaw 16 defaultCtx defaultParams 132120577 10 10
            (defaultGaussLaws δ (draws (uniformBelow 132120577) (2 ^ 10))
              (draws (uniformBelow 132120577) (2 ^ 10)))).map fun d => EvalKey.new 16 defaultCtx defaultParams pack d)
          (Circuits.plan [X]) X.depth 0 c).toOuterMeasure
          {r | ∃ log, r = some log ∧ LastIs ((defaultParams.lwe 16).decrypt .bool pack.lwe) (Decidable.decide (x < y)) log}ᶜ ≤
        ENNReal.ofReal (10 * n * Real.exp (-20)) := by
  obtain ⟨pack, ep, c, ec, h⟩ := C105_default δ hδ dk b masks z hm s hs hz
  refine ⟨pack, ep, c, ec, fun n x y hn hx hy hb => ⟨(less_facts n hn).2.1, ?_⟩⟩
  have hv : (Circuits.less (Circuits.inputs 0 n) (Circuits.inputs n n)).eval b = Decidable.decide (x < y) := by
    rw [eval_less b (by rw [inputs_length, inputs_length]),
      wordOf_inputs hx (fun i hi => by rw [Nat.zero_add]; exact (hb i hi).1), wordOf_inputs hy fun i hi => (hb i hi).2]
  rw [← hv]
  refine (h _ (less_facts n hn).2.2.1 (less_facts n hn).2.2.2).trans (ENNReal.ofReal_le_ofReal ?_)
  have h1 : (Circuits.gates [Circuits.less (Circuits.inputs 0 n) (Circuits.inputs n n)] : ℝ) ≤ 10 * n / 2 := by
    refine le_trans (Nat.cast_le.2 (less_facts n hn).1) (le_of_eq ?_)
    push_cast
    ring
  have := mul_le_mul_of_nonneg_right h1 (by positivity : 0 ≤ 2 * Real.exp (-20))
  linarith

end

/-- The hypotheses are met: 200 * 100 in eight bits, for truncated normal deviates and all masks and noises of
the inputs zero. -/
example [DefaultBuild] [NeZero 132120577] (dk : KeyDraws) (s : Sampler) (hs : noise (rnd (16 / 5)) = some s) :
    ∃ pack, KeyPack.new defaultCtx defaultParams dk = some pack ∧ ∃ c : Nat → LWE,
        (renewedLaw ((evalLaw 16 defaultCtx defaultParams 132120577 10 10
            (defaultGaussLaws (normalDeviates (32 / 5) 40) (draws (uniformBelow 132120577) (2 ^ 10))
              (draws (uniformBelow 132120577) (2 ^ 10)))).map fun d => EvalKey.new 16 defaultCtx defaultParams pack d)
          (Circuits.plan (Circuits.mul (Circuits.inputs 0 8) (Circuits.inputs 8 8)))
          (Circuits.depth (Circuits.mul (Circuits.inputs 0 8) (Circuits.inputs 8 8))) 0 c).toOuterMeasure
          {r | ∃ log, r = some log ∧ ((Circuits.results (Circuits.mul (Circuits.inputs 0 8) (Circuits.inputs 8 8)) c log).mapM
            ((defaultParams.lwe 16).decrypt .bool pack.lwe)).map number = some 20000}ᶜ ≤
        ENNReal.ofReal (768 * Real.exp (-20)) := by
  obtain ⟨pack, ep, c, -, h⟩ := C106_product (normalDeviates (32 / 5) 40)
    (deviates_mono (C71_normal _ _) (by positivity) (by push_cast; norm_num)) dk
    (fun i => if i < 8 then (200 : Nat).testBit i else (100 : Nat).testBit (i - 8)) (fun _ => List.replicate 1024 0)
    (fun _ => 0) (fun _ => ⟨by rw [List.length_replicate], fun x hx => by rw [List.eq_of_mem_replicate hx]; decide⟩) s hs
    (fun _ => ⟨0, by
      have h0 : (noise (rnd (16 / 5))).all (fun s => accept s 0) = true := by decide +kernel
      rwa [hs] at h0, by decide +kernel⟩)
  refine ⟨pack, ep, c, ?_⟩
  have h1 := (h 8 200 100 (by norm_num) (by norm_num) (fun i hi => ⟨if_pos hi, by
    simp⟩)).2
  refine h1.trans (ENNReal.ofReal_le_ofReal (le_of_eq ?_))
  norm_num

/-- The sum of two numbers of two bits: seven different gates in three layers. -/
example : let Xs := Circuits.add (Circuits.inputs 0 2) (Circuits.inputs 2 2)
    (List.range (Circuits.depth Xs)).map (Circuits.layer Xs) =
      [[.xor (.input 0) (.input 2), .and (.input 1) (.input 3), .xor (.input 1) (.input 3), .and (.input 0) (.input 2)],
        [.xor (.input 2) (.input 3), .and (.input 2) (.input 3)], [.or (.input 3) (.input 1)]] := by
  have e : Circuits.add (Circuits.inputs 0 2) (Circuits.inputs 2 2) =
      [.xor (.input 0) (.input 2), .xor (.xor (.input 1) (.input 3)) (.and (.input 0) (.input 2)),
        .or (.and (.input 1) (.input 3)) (.and (.xor (.input 1) (.input 3)) (.and (.input 0) (.input 2)))] := by
    simp [Circuits.inputs, Circuits.add, Circuits.addCarry, List.range']
  rw [e]
  decide +kernel

/-- The bound says something: products of 64 bits fail with probability below 0.0002. -/
example : 12 * 64 ^ 2 * Real.exp (-20) < 0.0002 := by
  have h : Real.exp (-20) = (Real.exp 1)⁻¹ ^ 20 := by
    rw [← Real.exp_neg, ← Real.exp_nat_mul]; norm_num
  have h1 : (Real.exp 1)⁻¹ < (2.7182818283 : ℝ)⁻¹ := by
    have := Real.exp_one_gt_d9
    exact inv_strictAnti₀ (by norm_num) this
  have h2 := pow_lt_pow_left₀ h1 (inv_nonneg.2 (Real.exp_pos 1).le) (n := 20) (by norm_num)
  rw [h]
  refine lt_of_lt_of_le (mul_lt_mul_of_pos_left h2 (by norm_num)) (by norm_num)

end Verif.Props
