import Verif.Model.Counter
import Mathlib.Data.List.Perm.Subperm
import Mathlib.Data.List.Count
import Mathlib.Data.List.Induction

/-! # C56: the transform counters under every schedule -/

namespace Verif.Props
open Counter

/-! ## Specification -/

/-- The threads of the additions, in order. -/
def adders (es : List Event) : List Nat := es.filterMap fun
  | .add i => some i
  | _ => none

/-- The threads of the transforms started, in order. -/
def starters (es : List Event) : List Nat := es.filterMap fun
  | .load i _ => some i
  | _ => none

/-- The values the flag has had: initially `false`, then what was stored. -/
def written (es : List Event) : List Bool := false :: es.filterMap fun
  | .store _ b => some b
  | _ => none

/-- The threads of the transforms whose load of the flag returned `true`. -/
def enabledStarters (es : List Event) : List Nat := es.filterMap fun
  | .load i p => if (written es)[p]? = some true then some i else none
  | _ => none

/-- The threads that know of an enabling, because they did it or synchronised with one that knows. -/
def informed (es : List Event) : Nat → Prop :=
  es.foldl (fun K e => match e with
    | .store i true => fun j => j = i ∨ K j
    | .sync i j => fun a => K a ∨ (a = j ∧ K i)
    | _ => K) fun _ => False

/-! ## Lemmas -/

theorem run_append (s : State) (xs ys : List Event) :
    run s (xs ++ ys) = (run s xs).bind (fun t => run t ys) := by
  induction xs generalizing s with
  | nil => rfl
  | cons e es ih =>
    simp only [List.cons_append, run, Option.bind_eq_bind]
    cases step s e with
    | none => rfl
    | some t => simp only [Option.bind_some]; exact ih t

theorem run_snoc {s t : State} {es : List Event} {e : Event} (h : run s (es ++ [e]) = some t) :
    ∃ u, run s es = some u ∧ step u e = some t := by
  rw [run_append] at h
  obtain ⟨u, hu, h⟩ := Option.bind_eq_some_iff.1 h
  refine ⟨u, hu, ?_⟩
  simp only [run, Option.bind_eq_bind] at h
  cases hs : step u e with
  | none => rw [hs] at h; simp at h
  | some v => rw [hs] at h; simpa using h

/-- What one step does. -/
theorem step_cases {s t : State} {e : Event} (h : step s e = some t) :
    (∃ i p b, e = .load i p ∧ (s.threads i).pending = false ∧ (s.threads i).view ≤ p ∧ s.flags[p]? = some b ∧
      t = s.set i ⟨p, b⟩) ∨
    (∃ i, e = .add i ∧ (s.threads i).pending = true ∧
      t = { s.set i ⟨(s.threads i).view, false⟩ with count := (s.count + 1) % 2 ^ 32 }) ∨
    (∃ i b, e = .store i b ∧ (s.threads i).pending = false ∧
      t = { s.set i ⟨s.flags.length, false⟩ with flags := s.flags ++ [b] }) ∨
    (e = .clear ∧ t = { s with count := 0 }) ∨
    (∃ i j, e = .sync i j ∧
      t = s.set j ⟨max (s.threads j).view (s.threads i).view, (s.threads j).pending⟩) := by
  cases e with
  | load i p =>
    left
    simp only [step] at h
    split at h
    · simp at h
    · next hp =>
      split at h
      · simp at h
      · next hv =>
        split at h
        · simp at h
        · next b hb =>
          exact ⟨i, p, b, rfl, by simpa using hp, by omega, hb, by simpa using h.symm⟩
  | add i =>
    right; left
    simp only [step] at h
    split at h
    · next hp => exact ⟨i, rfl, hp, by simpa using h.symm⟩
    · simp at h
  | store i b =>
    right; right; left
    simp only [step] at h
    split at h
    · simp at h
    · next hp => exact ⟨i, b, rfl, by simpa using hp, by simpa using h.symm⟩
  | clear =>
    right; right; right; left
    simp only [step, Option.some.injEq] at h
    exact ⟨rfl, h.symm⟩
  | sync i j =>
    right; right; right; right
    simp only [step, Option.some.injEq] at h
    exact ⟨i, j, rfl, h.symm⟩

theorem flags_eq {es : List Event} {s : State} (h : run State.init es = some s) : s.flags = written es := by
  induction es using List.reverseRecOn generalizing s with
  | nil => simp only [run, Option.some.injEq] at h; rw [← h]; rfl
  | append_singleton es e ih =>
    obtain ⟨u, hu, hs⟩ := run_snoc h
    have hw := ih hu
    unfold written at *
    rw [List.filterMap_append]
    rcases step_cases hs with ⟨i, p, b, rfl, -, -, -, rfl⟩ | ⟨i, rfl, -, rfl⟩ | ⟨i, b, rfl, -, rfl⟩ |
      ⟨rfl, rfl⟩ | ⟨i, j, rfl, rfl⟩
    all_goals simp [State.set, hw]

theorem written_append (xs ys : List Event) : ∃ zs, written (xs ++ ys) = written xs ++ zs := by
  unfold written
  rw [List.filterMap_append]
  exact ⟨_, rfl⟩

/-- A value read stays the same when the execution goes on. -/
theorem enabled_prefix {xs ys : List Event} (h : ∀ i p, Event.load i p ∈ xs → p < (written xs).length) :
    enabledStarters (xs ++ ys) = enabledStarters xs ++ ys.filterMap fun
      | .load i p => if (written (xs ++ ys))[p]? = some true then some i else none
      | _ => none := by
  conv_lhs => unfold enabledStarters
  rw [List.filterMap_append]
  congr 1
  unfold enabledStarters
  apply List.filterMap_congr
  intro e he
  cases e with
  | load i p =>
    obtain ⟨zs, hz⟩ := written_append xs ys
    simp only [hz, List.getElem?_append_left (h i p he)]
  | _ => rfl

theorem loads_lt {es : List Event} {s : State} (h : run State.init es = some s) :
    ∀ i p, Event.load i p ∈ es → p < (written es).length := by
  induction es using List.reverseRecOn generalizing s with
  | nil => simp
  | append_singleton es e ih =>
    obtain ⟨u, hu, hs⟩ := run_snoc h
    obtain ⟨zs, hz⟩ := written_append es [e]
    intro i p hm
    rw [hz, List.length_append]
    rcases List.mem_append.1 hm with hm | hm
    · have := ih hu i p hm; omega
    · rw [List.mem_singleton] at hm
      subst hm
      rcases step_cases hs with ⟨i', p', b, he, -, -, hb, -⟩ | ⟨_, he, -⟩ | ⟨_, _, he, -⟩ | ⟨he, -⟩ | ⟨_, _, he, -⟩
      · simp only [Event.load.injEq] at he
        rw [he.2, ← flags_eq hu]
        have := (List.getElem?_eq_some_iff.1 hb).1
        omega
      all_goals exact absurd he (by simp)

/-! ## Theorems -/

/-- C56: in every execution each thread has added exactly once for each of its transforms that found counting
enabled, except possibly one that it is just executing. -/
theorem C56_per_thread {es : List Event} {s : State} (h : run State.init es = some s) (i : Nat) :
    (adders es).count i + (if (s.threads i).pending then 1 else 0) = (enabledStarters es).count i := by
  induction es using List.reverseRecOn generalizing s with
  | nil =>
    simp only [run, Option.some.injEq] at h
    rw [← h]; rfl
  | append_singleton es e ih =>
    obtain ⟨u, hu, hs⟩ := run_snoc h
    have hI := ih hu
    rw [enabled_prefix (loads_lt hu), List.count_append, ← hI]
    unfold adders
    rw [List.filterMap_append, List.count_append]
    have hfl := flags_eq hu
    rcases step_cases hs with ⟨j, p, b, rfl, hp, -, hb, rfl⟩ | ⟨j, rfl, hp, rfl⟩ | ⟨j, b, rfl, hp, rfl⟩ |
      ⟨rfl, rfl⟩ | ⟨j, k, rfl, rfl⟩
    · have hw : (written (es ++ [Event.load j p]))[p]? = some b := by
        obtain ⟨zs, hz⟩ := written_append es [Event.load j p]
        rw [hz, List.getElem?_append_left (by rw [← hfl]; exact (List.getElem?_eq_some_iff.1 hb).1), ← hfl, hb]
      by_cases hij : i = j
      · subst hij
        cases b <;> simp [State.set, hp, hw]
      · have hji : ¬ j = i := fun h => hij h.symm
        cases b <;> simp [State.set, hij, hji, hw]
    · by_cases hij : i = j
      · subst hij; simp [State.set, hp]
      · have hji : ¬ j = i := fun h => hij h.symm
        simp [State.set, hij, hji]
    · by_cases hij : i = j
      · subst hij; simp [State.set, hp]
      · simp [State.set, hij]
    · simp
    · by_cases hij : i = k
      · subst hij; simp [State.set]
      · simp [State.set, hij]

/-- C56: whatever the schedule, the counter holds the number of additions since the last clearing, modulo
`2^32`. -/
theorem C56_since_clear {pre post : List Event} {s : State} (hc : Event.clear ∉ post)
    (h : run State.init (pre ++ Event.clear :: post) = some s) : s.count = (adders post).length % 2 ^ 32 := by
  induction post using List.reverseRecOn generalizing s with
  | nil =>
    obtain ⟨u, -, hs⟩ := run_snoc h
    simp only [step, Option.some.injEq] at hs
    rw [← hs]; rfl
  | append_singleton es e ih =>
    rw [← List.cons_append, ← List.append_assoc] at h
    obtain ⟨u, hu, hs⟩ := run_snoc h
    have hI := ih (fun hm => hc (List.mem_append_left _ hm)) hu
    unfold adders at *
    rw [List.filterMap_append, List.length_append]
    rcases step_cases hs with ⟨j, p, b, rfl, hp, -, hb, rfl⟩ | ⟨j, rfl, hp, rfl⟩ | ⟨j, b, rfl, hp, rfl⟩ |
      ⟨rfl, rfl⟩ | ⟨j, k, rfl, rfl⟩
    · simpa [State.set] using hI
    · simp [hI]
    · simpa [State.set] using hI
    · simp at hc
    · simpa [State.set] using hI

/-- The counter before any clearing. -/
theorem C56_never_cleared {es : List Event} {s : State} (hc : Event.clear ∉ es)
    (h : run State.init es = some s) : s.count = (adders es).length % 2 ^ 32 := by
  have : run State.init ([] ++ Event.clear :: es) = some s := by
    simpa [run, step, State.init] using h
  exact C56_since_clear hc this

/-- C56: when all transforms have finished and nothing was cleared, the counter is the number of transforms
that found counting enabled, modulo `2^32`; before that it is at most that number. -/
theorem C56_total {es : List Event} {s : State} (hc : Event.clear ∉ es) (h : run State.init es = some s) :
    s.count ≤ (enabledStarters es).length ∧
    ((∀ i, (s.threads i).pending = false) → s.count = (enabledStarters es).length % 2 ^ 32) := by
  rw [C56_never_cleared hc h]
  constructor
  · have : (adders es).Subperm (enabledStarters es) := by
      rw [List.subperm_ext_iff]
      intro i _
      have := C56_per_thread h i
      omega
    exact Nat.le_trans (Nat.mod_le _ _) this.length_le
  · intro hp
    have : (adders es).Perm (enabledStarters es) := by
      rw [List.perm_iff_count]
      intro i
      have := C56_per_thread h i
      rw [hp i] at this
      simpa using this
    rw [this.length_eq]

theorem informed_view {es : List Event} {s : State} (h : run State.init es = some s) (i : Nat)
    (hi : informed es i) : 1 ≤ (s.threads i).view := by
  induction es using List.reverseRecOn generalizing s i with
  | nil => exact absurd hi (by simp [informed])
  | append_singleton es e ih =>
    obtain ⟨u, hu, hs⟩ := run_snoc h
    have hI := ih hu
    have hfl := flags_eq hu
    unfold informed at hi hI
    rw [List.foldl_append] at hi
    rcases step_cases hs with ⟨j, p, b, rfl, hp, hv, hb, rfl⟩ | ⟨j, rfl, hp, rfl⟩ | ⟨j, b, rfl, hp, rfl⟩ |
      ⟨rfl, rfl⟩ | ⟨j, k, rfl, rfl⟩
    · have := hI i hi
      by_cases hij : i = j
      · subst hij; simp only [State.set, if_true]; omega
      · simpa [State.set, hij] using this
    · have := hI i hi
      by_cases hij : i = j
      · subst hij; simpa [State.set] using this
      · simpa [State.set, hij] using this
    · by_cases hij : i = j
      · subst hij; simp [State.set, hfl, written]
      · have : 1 ≤ (u.threads i).view := by
          apply hI i
          cases b
          · exact hi
          · exact hi.resolve_left hij
        simpa [State.set, hij] using this
    · exact hI i hi
    · by_cases hij : i = k
      · subst hij
        simp only [State.set, if_true]
        rcases hi with hi | ⟨-, hi⟩
        · have := hI i hi; omega
        · have := hI j hi; omega
      · have : 1 ≤ (u.threads i).view := hI i (hi.resolve_right fun h => hij h.1)
        simpa [State.set, hij] using this

/-- C56: if counting is never disabled and every thread that transforms knows of the enabling when it starts, then
every transform is counted: with all transforms finished and nothing cleared the counter is their number
modulo `2^32`. -/
theorem C56_all_counted {es : List Event} {s : State} (h : run State.init es = some s)
    (hc : Event.clear ∉ es) (hd : ∀ i, Event.store i false ∉ es)
    (hk : ∀ m i p, es[m]? = some (Event.load i p) → informed (es.take m) i)
    (hp : ∀ i, (s.threads i).pending = false) : s.count = (starters es).length % 2 ^ 32 := by
  rw [(C56_total hc h).2 hp]
  congr 2
  unfold enabledStarters starters
  apply List.filterMap_congr
  intro e he
  cases e with
  | load i p =>
    obtain ⟨xs, ys, rfl⟩ := List.append_of_mem he
    have hi : informed xs i := by simpa using hk xs.length i p (by simp)
    have h' := h
    rw [run_append] at h'
    obtain ⟨u, hu, hr⟩ := Option.bind_eq_some_iff.1 h'
    have h1 := informed_view hu i hi
    simp only [run, Option.bind_eq_bind] at hr
    obtain ⟨v, hv, -⟩ := Option.bind_eq_some_iff.1 hr
    have hlt := loads_lt h i p he
    rcases step_cases hv with ⟨i', p', b, he', -, hv', hb, -⟩ | ⟨_, he', -⟩ | ⟨_, _, he', -⟩ | ⟨he', -⟩ |
      ⟨_, _, he', -⟩
    · simp only [Event.load.injEq] at he'
      obtain ⟨rfl, rfl⟩ := he'
      have hp1 : 1 ≤ p := by omega
      have hw : (written (xs ++ Event.load i p :: ys))[p]? = some true := by
        rw [List.getElem?_eq_getElem hlt]
        congr 1
        have hm : (written (xs ++ Event.load i p :: ys))[p] ∈ (written (xs ++ Event.load i p :: ys)).tail := by
          obtain ⟨q, rfl⟩ : ∃ q, p = q + 1 := ⟨p - 1, by omega⟩
          simp only [written, List.tail_cons, List.getElem_cons_succ]
          exact List.getElem_mem _
        by_contra hne
        rw [Bool.not_eq_true] at hne
        rw [hne] at hm
        simp only [written, List.tail_cons] at hm
        obtain ⟨e, he, hm⟩ := List.mem_filterMap.1 hm
        cases e with
        | store j b =>
          simp only [Option.some.injEq] at hm
          subst hm
          exact hd j he
        | _ => simp at hm
      simp only [hw, if_true]
    all_goals exact absurd he' (by simp)
  | _ => rfl

/-- C56: while counting has never been enabled nothing is counted. -/
theorem C56_disabled {es : List Event} {s : State} (h : run State.init es = some s)
    (hd : ∀ i, Event.store i true ∉ es) : adders es = [] := by
  have h0 : enabledStarters es = [] := by
    unfold enabledStarters
    rw [List.filterMap_eq_nil_iff]
    intro e he
    cases e with
    | load i p =>
      have : (written es)[p]? ≠ some true := by
        intro hw
        have hm := List.mem_of_getElem? hw
        unfold written at hm
        rcases List.mem_cons.1 hm with hm | hm
        · simp at hm
        · obtain ⟨e, he, hm⟩ := List.mem_filterMap.1 hm
          cases e with
          | store j b =>
            simp only [Option.some.injEq] at hm
            subst hm
            exact hd j he
          | _ => simp at hm
      simp [this]
    | _ => rfl
  apply List.eq_nil_iff_forall_not_mem.2
  intro i hi
  have := C56_per_thread h i
  have hpos := List.count_pos_iff.2 hi
  rw [h0] at this
  simp at this
  omega

/-- C56: disabling and clearing do not wait: a transform that has read the flag still adds after both, so the
counter is 1 although it was cleared and counting is off; and a thread that does not know of the enabling may leave
its transform uncounted. -/
theorem C56_late_addition :
    (run State.init [.store 0 true, .sync 0 1, .load 1 1, .store 0 false, .clear, .add 1]).map
      (fun s => (s.count, s.flags.getLast?, (s.threads 1).pending)) = some (1, some false, false) ∧
    (run State.init [.store 0 true, .load 1 0]).map
      (fun s => (s.count, s.flags.getLast?, (s.threads 1).pending)) = some (0, some true, false) := by
  decide +kernel

/-- The events of a sequence of transforms by thread 0, each with a table and the newest value of the flag. -/
def transforms (ts : List Table) : List Event := ts.flatMap fun t => transformEvents t 0 1 true

/-- C56: only native tables count. Of any sequence of transforms made after the enabling, exactly those with a native
table are counted; the transforms of a field that uses the external library, which in the default build is every
field of width 32 or 64, are not. -/
theorem C56_native_only (ts : List Table) :
    ∃ s, run State.init (.store 0 true :: transforms ts) = some s ∧
      s.count = ts.countP (fun t => match t with | .native _ => true | .concrete _ => false) % 2 ^ 32 := by
  suffices h : ∀ (s : State), s.flags = [false, true] → s.threads 0 = ⟨1, false⟩ → s.count < 2 ^ 32 →
      ∃ s', run s (transforms ts) = some s' ∧ s'.count =
        (s.count + ts.countP (fun t => match t with | .native _ => true | .concrete _ => false)) % 2 ^ 32 by
    obtain ⟨s', e, hc⟩ := h { State.init.set 0 ⟨1, false⟩ with flags := [false, true] } rfl rfl (by decide)
    exact ⟨s', e, by rw [hc]; congr 1; exact Nat.zero_add _⟩
  induction ts with
  | nil => exact fun s _ _ hc => ⟨s, rfl, (Nat.mod_eq_of_lt hc).symm⟩
  | cons t ts ih =>
    intro s hf ht hc
    cases t with
    | concrete t =>
      obtain ⟨s', e, h⟩ := ih s hf ht hc
      exact ⟨s', e, by rw [h]; simp⟩
    | native t =>
      let u : State := { (s.set 0 ⟨1, true⟩).set 0 ⟨1, false⟩ with count := (s.count + 1) % 2 ^ 32 }
      obtain ⟨s', e, h⟩ := ih u hf rfl (Nat.mod_lt _ (by decide))
      refine ⟨s', ?_, ?_⟩
      · show run s (.load 0 1 :: .add 0 :: transforms ts) = some s'
        have h1 : step s (.load 0 1) = some (s.set 0 ⟨1, true⟩) := by simp [step, hf, ht]
        have h2 : step (s.set 0 ⟨1, true⟩) (.add 0) = some u := by
          simp [step, State.set, u]
        simp only [run, h1, h2, Option.bind_eq_bind, Option.bind_some]
        exact e
      · rw [h]
        show ((s.count + 1) % 2 ^ 32 + _) % 2 ^ 32 = _
        rw [Nat.mod_add_mod]
        simp only [List.countP_cons_of_pos]
        congr 1
        omega

-- one of two transforms is counted
example (t : NTTTable) (c : ConcreteTable) :
    ∃ s, run State.init (.store 0 true :: transforms [.native t, .concrete c]) = some s ∧ s.count = 1 :=
  C56_native_only [.native t, .concrete c]

/-- Two threads started after the enabling, interleaved. -/
def twoThreads : List Event := [.store 0 true, .sync 0 1, .sync 0 2, .load 1 1, .load 2 1, .add 2, .load 2 1,
  .add 1, .add 2, .load 1 1, .add 1]

-- all four transforms are counted, and the hypotheses of the theorem hold
example : ∃ s, run State.init twoThreads = some s ∧ s.count = 4 ∧ starters twoThreads = [1, 2, 2, 1] ∧
    s.count = (starters twoThreads).length % 2 ^ 32 := by
  have hs : ((run State.init twoThreads).map State.count) = some 4 := by decide +kernel
  obtain ⟨s, h, hc⟩ := Option.map_eq_some_iff.1 hs
  refine ⟨s, h, hc, rfl, C56_all_counted h (by simp [twoThreads]) (by simp [twoThreads]) ?_ ?_⟩
  · intro m i p hm
    rcases m with _ | _ | _ | _ | _ | _ | _ | _ | _ | _ | _ | m
    all_goals simp [twoThreads] at hm
    all_goals simp [twoThreads, informed, ← hm.1]
  · intro i
    have h1 := C56_per_thread h i
    have h2 : (adders twoThreads).Perm (enabledStarters twoThreads) := by decide +kernel
    rw [h2.count_eq i] at h1
    by_contra hp
    rw [Bool.not_eq_false] at hp
    simp [hp] at h1

-- a thread that did not synchronise is not informed
example : informed [.store 0 true, .sync 0 1] 1 ∧ ¬ informed [.store 0 true, .sync 0 1] 2 := by
  simp [informed]

end Verif.Props
