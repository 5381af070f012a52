import Verif.Props.Cache

/-! # C54: transform tables do not depend on randomness, history or schedule -/

namespace Verif.Props
open Fp Ntt Cache

theorem new_root {w : Nat} {M : Barrett} {root k : Nat} {ord : List Shoup} {t : NTTTable}
    (h : Ntt.new w M root k ord = some t) : t.root = root := by
  unfold Ntt.new at h
  obtain ⟨_, -, h⟩ := Option.bind_eq_some_iff.1 h
  obtain ⟨_, -, h⟩ := Option.bind_eq_some_iff.1 h
  obtain ⟨_, -, h⟩ := Option.bind_eq_some_iff.1 h
  split at h
  · exact absurd h (by simp)
  · obtain ⟨_, -, h⟩ := Option.bind_eq_some_iff.1 h
    obtain ⟨_, -, h⟩ := Option.bind_eq_some_iff.1 h
    split at h
    · obtain ⟨_, -, h⟩ := Option.bind_eq_some_iff.1 h
      obtain ⟨_, -, h⟩ := Option.bind_eq_some_iff.1 h
      obtain ⟨_, -, h⟩ := Option.bind_eq_some_iff.1 h
      obtain ⟨_, -, h⟩ := Option.bind_eq_some_iff.1 h
      simp only [Option.pure_def, Option.some.injEq] at h
      rw [← h]
    · exact absurd h (by simp)

/-- C54: two runs of the table generation with different random draws that both succeed return the same
table, in every field. -/
theorem C54_generate (w q : Nat) [Fact q.Prime] (hw : w % 2 = 0) (M : Barrett)
    (h : Fp.config w q = some M) (k : Nat) (d1 d2 : List Nat) (h1 : ∀ x ∈ d1, 2 ≤ x ∧ x < q)
    (h2 : ∀ x ∈ d2, 2 ≤ x ∧ x < q) (t1 t2 : NTTTable)
    (e1 : Ntt.generate w M k d1 = some (some t1)) (e2 : Ntt.generate w M k d2 = some (some t2)) :
    t1 = t2 := by
  have C : Config w q M := ⟨hw, h⟩
  have r1 := (generate_table C h1 e1).1
  have r2 := (generate_table C h2 e2).1
  have key : ∀ d t, (∀ x ∈ d, 2 ≤ x ∧ x < q) → Ntt.generate w M k d = some (some t) →
      ∃ n, shlC 64 1 k = some n ∧
        ∃ ord, ordinalPowers w M t.root n = some ord ∧ Ntt.new w M t.root k ord = some t := by
    intro d t hd e
    unfold Ntt.generate at e
    obtain ⟨n, hn, e⟩ := Option.bind_eq_some_iff.1 e
    obtain ⟨n2, -, e⟩ := Option.bind_eq_some_iff.1 e
    split at e
    · obtain ⟨o, -, e⟩ := Option.bind_eq_some_iff.1 e
      cases o with
      | none => exact absurd e (by simp)
      | some root =>
        obtain ⟨ord, ho, e⟩ := Option.bind_eq_some_iff.1 e
        obtain ⟨u, ht, e⟩ := Option.bind_eq_some_iff.1 e
        simp only [Option.pure_def, Option.some.injEq] at e
        subst e
        rw [new_root ht]
        exact ⟨n, hn, ord, ho, ht⟩
    · exact absurd e (by simp)
  obtain ⟨n, en, ord, eo, et⟩ := key d1 t1 h1 e1
  obtain ⟨n', en', ord', eo', et'⟩ := key d2 t2 h2 e2
  rw [r1.unique r2] at eo et
  rw [en] at en'
  obtain rfl := Option.some.inj en'
  rw [eo] at eo'
  obtain rfl := Option.some.inj eo'
  rw [et] at et'
  exact Option.some.inj et'

/-- What the random generator can produce in one call for size `k`. -/
def Generated (w q : Nat) (M : Barrett) (k : Nat) (t : NTTTable) : Prop :=
  ∃ draws, (∀ x ∈ draws, 2 ≤ x ∧ x < q) ∧ genTable w M k draws = .ok t

/-- C54: in any two runs of the program, after any calls in any order and with any random draws, the tables
returned for the same size are equal. Whether a table comes from the cache or was just generated, and who
generated it, is not observable. -/
theorem C54_get (w q : Nat) [Fact q.Prime] (hw : w % 2 = 0) (M : Barrett) (hc : Fp.config w q = some M)
    (s1 s2 : Cache.State NTTTable) (hL1 : Later (Generated w q M) State.init s1)
    (hL2 : Later (Generated w q M) State.init s2) (k : Nat)
    (steps1 steps2 : List (Nat × Gen NTTTable)) (hv1 : Visits s1 [k] steps1) (hv2 : Visits s2 [k] steps2)
    (hs1 : ∀ j t, (j, Gen.ok t) ∈ steps1 → Generated w q M j t)
    (hs2 : ∀ j t, (j, Gen.ok t) ∈ steps2 → Generated w q M j t) (t1 t2 : NTTTable)
    (h1 : (getTable s1 k steps1).2 = .ok t1) (h2 : (getTable s2 k steps2).2 = .ok t2) : t1 = t2 := by
  obtain ⟨⟨d1, b1, g1⟩, -⟩ := C28_get (Generated w q M) s1 hL1 k steps1 hv1 hs1 t1 h1
  obtain ⟨⟨d2, b2, g2⟩, -⟩ := C28_get (Generated w q M) s2 hL2 k steps2 hv2 hs2 t2 h2
  have gen : ∀ d t, genTable w M k d = .ok t → Ntt.generate w M k d = some (some t) := by
    intro d t hg
    unfold genTable at hg
    split at hg
    · exact absurd hg (by simp)
    · exact absurd hg (by simp)
    · next u hu => simp only [Gen.ok.injEq] at hg; rw [← hg]; exact hu
  exact C54_generate w q hw M hc k d1 d2 b1 b2 t1 t2 (gen d1 t1 g1) (gen d2 t2 g2)

-- different draws (3; 2, 4, 5) for the field of 17 elements; both succeed
example : (∃ t, Ntt.generate 8 barrett17 2 [3] = some (some t)) ∧
    (∃ t, Ntt.generate 8 barrett17 2 [2, 4, 5] = some (some t)) ∧
    Ntt.generate 8 barrett17 2 [3] = Ntt.generate 8 barrett17 2 [2, 4, 5] := by
  have key : ∀ x : Option (Option NTTTable), x.join.isSome = true → ∃ t, x = some (some t) := by
    rintro (_ | _ | t) h
    · simp at h
    · simp at h
    · exact ⟨t, rfl⟩
  have a := key (Ntt.generate 8 barrett17 2 [3]) (by decide +kernel)
  have b := key (Ntt.generate 8 barrett17 2 [2, 4, 5]) (by decide +kernel)
  refine ⟨a, b, ?_⟩
  obtain ⟨t, ht⟩ := a
  obtain ⟨u, hu⟩ := b
  have : Fact (Nat.Prime 17) := ⟨by norm_num⟩
  rw [ht, hu, C54_generate 8 17 rfl barrett17 (by decide +kernel) 2 [3] [2, 4, 5] (by decide) (by decide)
    t u ht hu]

-- two histories: a direct request, and an earlier initialisation
example : ∃ (s1 s2 : Cache.State NTTTable) (t : NTTTable),
    Later (Generated 8 17 barrett17) State.init s1 ∧ Later (Generated 8 17 barrett17) State.init s2 ∧
    s1.cell.isSome = false ∧ s2.cell.isSome = true ∧
    (getTable s1 2 [(2, genTable 8 barrett17 2 [3])]).2 = .ok t ∧ (getTable s2 2 []).2 = .ok t := by
  have key : ∀ x : Option (Option NTTTable), x.join.isSome = true → ∃ t, x = some (some t) := by
    rintro (_ | _ | t) h
    · simp at h
    · simp at h
    · exact ⟨t, rfl⟩
  obtain ⟨t, ht⟩ := key (Ntt.generate 8 barrett17 2 [3]) (by decide +kernel)
  have hg : genTable 8 barrett17 2 [3] = .ok t := by unfold genTable; rw [ht]
  refine ⟨State.init, step State.init (.init [2] [(2, genTable 8 barrett17 2 [3])]), t, .refl,
    .step _ .refl ?_ ?_, rfl, ?_, ?_, ?_⟩
  · exact ⟨by simp, fun k => by simp [keys, State.init]⟩
  · intro j u hu
    exact ⟨[3], by decide, by simp at hu; rw [hu.1, hu.2]⟩
  · rw [hg]; rfl
  · rw [hg]; rfl
  · rw [hg]; rfl

end Verif.Props
