import Verif.Props.Determinism

/-! # C55: the unchecked table accesses -/

namespace Verif.Props
open Fp Ntt Cache

/-- Every index the monomial transforms of degree `d` pass to `get_unchecked`, with and without the
exclusive or with `n` (algebra/src/transformation/ntt_table.rs 224-225, 232-233, 240-241, 261-262, 282-283), lies in
the table, in builds with and without overflow checks. -/
def AccessesInBounds (t : NTTTable) (d : Nat) : Prop :=
  ∀ i ∈ t.rev, ∀ j, (monoIndex t.logN i d = some j ∨ monoIndexRelease t.logN i d = some j) →
    j < t.ordinal.length ∧ j ^^^ t.n < t.ordinal.length

theorem xor_lt_two_pow {k a : Nat} (h : a < 2 ^ (k + 1)) : a ^^^ 2 ^ k < 2 ^ (k + 1) :=
  Nat.xor_lt_two_pow h (Nat.pow_lt_pow_right (by decide) (by omega))

theorem index_lt {k i d j : Nat} (hk : k < 63)
    (h : monoIndex k i d = some j ∨ monoIndexRelease k i d = some j) : j < 2 ^ (k + 1) := by
  have key : ∀ c : Nat, c &&& (2 ^ (k + 1) - 1) < 2 ^ (k + 1) := fun c => by
    rw [Nat.and_two_pow_sub_one_eq_mod]; exact Nat.mod_lt _ (Nat.two_pow_pos _)
  rcases h with h | h
  · unfold monoIndex at h
    rw [mbind (mask_eq hk)] at h
    obtain ⟨_, -, h⟩ := Option.bind_eq_some_iff.1 h
    obtain ⟨_, -, h⟩ := Option.bind_eq_some_iff.1 h
    obtain ⟨c, -, h⟩ := Option.bind_eq_some_iff.1 h
    simp only [Option.pure_def, Option.some.injEq] at h
    rw [← h]; exact key c
  · unfold monoIndexRelease at h
    rw [mbind (mask_eq hk)] at h
    simp only [Option.pure_def, Option.some.injEq] at h
    rw [← h]; exact key _

/-- C55: for every table the field types generate and for every degree, all unchecked accesses are in
bounds. -/
theorem C55_generated (w q : Nat) [Fact q.Prime] (hw : w % 2 = 0) (M : Barrett)
    (h : Fp.config w q = some M) (k : Nat) (draws : List Nat) (hd : ∀ x ∈ draws, 2 ≤ x ∧ x < q)
    (t : NTTTable) (ht : Ntt.generate w M k draws = some (some t)) (d : Nat) : AccessesInBounds t d := by
  have C : Config w q M := ⟨hw, h⟩
  obtain ⟨_, T⟩ := generate_table C hd ht
  have hval := C.value
  subst hval
  intro i hi j hj
  rw [T.logN] at hj
  have h1 := index_lt T.k_lt hj
  have hl : t.ordinal.length = 2 ^ (k + 1) := by rw [T.ord_len, pow_succ']
  rw [hl, T.n]
  exact ⟨h1, xor_lt_two_pow h1⟩

/-- C55: the same for every table `get_ntt_table` returns, after any history of calls. -/
theorem C55_cached (w q : Nat) [Fact q.Prime] (hw : w % 2 = 0) (M : Barrett) (hc : Fp.config w q = some M)
    (s : Cache.State NTTTable) (hL : Later (Generated w q M) State.init s) (k : Nat)
    (steps : List (Nat × Gen NTTTable)) (hv : Visits s [k] steps)
    (hs : ∀ j t, (j, Gen.ok t) ∈ steps → Generated w q M j t) (t : NTTTable)
    (h : (getTable s k steps).2 = .ok t) (d : Nat) : AccessesInBounds t d := by
  obtain ⟨⟨draws, hd, hg⟩, -⟩ := C28_get (Generated w q M) s hL k steps hv hs t h
  unfold genTable at hg
  split at hg
  · exact absurd hg (by simp)
  · exact absurd hg (by simp)
  · next u hu =>
    simp only [Gen.ok.injEq] at hg
    rw [← hg]
    exact C55_generated w q hw M hc k draws hd u hu d

/-- The root 1 in the field of 17 elements. -/
def rootOne17 : Shoup := ⟨1, 15⟩

/-- C55: the public constructor does not check the number of powers: with `n = 2` and only three powers it
returns a table, and the transform of `X^3` then reads index 3, outside the table. -/
theorem C55_public_constructor : ∃ t, Ntt.new 8 barrett17 1 1 [rootOne17, rootOne17, rootOne17] = some t ∧
    t.ordinal.length = 3 ∧ monoIndexRelease t.logN 0 3 = some 3 ∧ 0 ∈ t.rev ∧ ¬ AccessesInBounds t 3 := by
  have h : (Ntt.new 8 barrett17 1 1 [rootOne17, rootOne17, rootOne17]).isSome = true := by decide +kernel
  obtain ⟨t, ht⟩ := Option.isSome_iff_exists.1 h
  have hl : t.ordinal.length = 3 := by
    have : ((Ntt.new 8 barrett17 1 1 [rootOne17, rootOne17, rootOne17]).map (·.ordinal.length)) = some 3 := by
      decide +kernel
    rw [ht] at this; simpa using this
  have hk : t.logN = 1 := by
    have : ((Ntt.new 8 barrett17 1 1 [rootOne17, rootOne17, rootOne17]).map (·.logN)) = some 1 := by
      decide +kernel
    rw [ht] at this; simpa using this
  have hr : 0 ∈ t.rev := by
    have : ((Ntt.new 8 barrett17 1 1 [rootOne17, rootOne17, rootOne17]).map (·.rev)) = some [0, 1] := by
      decide +kernel
    rw [ht] at this
    have : t.rev = [0, 1] := by simpa using this
    rw [this]; simp
  have hi : monoIndexRelease t.logN 0 3 = some 3 := by rw [hk]; decide +kernel
  refine ⟨t, ht, hl, hi, hr, fun hb => ?_⟩
  have := (hb 0 hr 3 (Or.inr hi)).1
  omega

-- in a generated table the index of the last position is reached
example : ∃ t, Ntt.generate 8 barrett17 2 [3] = some (some t) ∧ 0 ∈ t.rev ∧
    monoIndexRelease t.logN 0 7 = some 7 ∧ t.ordinal.length = 8 ∧ AccessesInBounds t (2 ^ 64 - 1) := by
  have : Fact (Nat.Prime 17) := ⟨by norm_num⟩
  have hg := table17_eq 2 (by decide +kernel)
  refine ⟨_, hg, by decide +kernel, by decide +kernel, by decide +kernel,
    C55_generated 8 17 rfl barrett17 (by decide +kernel) 2 [3] (by decide) _ hg _⟩

end Verif.Props
