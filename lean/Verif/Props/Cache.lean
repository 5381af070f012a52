import Verif.Model.Cache
import Verif.Props.NTT

/-! # C28, C29: the cache of transform tables -/

namespace Verif.Props
open Cache

section seq
variable {T : Type}

theorem find_insert (m : List (Nat × T)) (k j : Nat) (t : T) :
    find (Cache.insert m k t) j = if j = k then some t else find m j := by
  unfold find Cache.insert
  by_cases h : j = k
  · subst h; simp
  · rw [if_neg h, List.lookup_cons, beq_false_of_ne h]
    dsimp only
    induction m with
    | nil => rfl
    | cons e m ih =>
      by_cases he : e.1 = k
      · rw [List.filter_cons_of_neg (by simp [he]), ih, List.lookup_cons,
          beq_false_of_ne (by rw [he]; exact h)]
      · rw [List.filter_cons_of_pos (by simp [he]), List.lookup_cons, List.lookup_cons, ih]

theorem find_none_iff (m : List (Nat × T)) (k : Nat) : find m k = none ↔ k ∉ m.map (·.1) := by
  unfold find
  induction m with
  | nil => simp
  | cons e m ih =>
    rw [List.lookup_cons, List.map_cons, List.mem_cons]
    by_cases h : k = e.1
    · simp [h]
    · rw [beq_false_of_ne h]; simp [h, ih]

theorem fill_spec (P : Nat → T → Prop) : ∀ (steps : List (Nat × Gen T)) (m : List (Nat × T)),
    (steps.map (·.1)).Nodup → (∀ k ∈ steps.map (·.1), find m k = none) →
    (∀ k t, find m k = some t → find (fill steps m).1 k = some t) ∧
    (∀ k t, find (fill steps m).1 k = some t → find m k = some t ∨ (k, Gen.ok t) ∈ steps) ∧
    ((fill steps m).2 = .ok () → ∀ k ∈ steps.map (·.1), ∃ t, find (fill steps m).1 k = some t) ∧
    ((∀ e ∈ steps, ∃ t, e.2 = .ok t) → (fill steps m).2 = .ok ())
  | [], m, _, _ => by simp [fill]
  | (k, .panic) :: rest, m, _, _ => by simp [fill]; intro k t h; exact .inl h
  | (k, .err) :: rest, m, _, _ => by simp [fill]; intro k t h; exact .inl h
  | (k, .ok t) :: rest, m, hn, hm => by
    rw [List.map_cons, List.nodup_cons] at hn
    have hk : find m k = none := hm k (by simp)
    obtain ⟨h1, h2, h3, h4⟩ := fill_spec P rest (Cache.insert m k t) hn.2 (by
      intro j hj
      rw [find_insert, if_neg (fun (e : j = k) => hn.1 (e ▸ hj))]
      exact hm j (by simp [hj]))
    refine ⟨?_, ?_, ?_, ?_⟩
    · intro j u hj
      apply h1
      rw [find_insert, if_neg (fun e => by rw [e, hk] at hj; exact absurd hj (by simp))]
      exact hj
    · intro j u hj
      rcases h2 j u hj with h | h
      · rw [find_insert] at h
        split at h
        · next e => right; rw [e]; simp only [Option.some.injEq] at h; subst h; simp
        · exact .inl h
      · exact .inr (by simp [h])
    · intro hr j hj
      rw [List.map_cons, List.mem_cons] at hj
      rcases hj with rfl | hj
      · exact ⟨t, h1 _ _ (by rw [find_insert, if_pos rfl])⟩
      · exact h3 hr j hj
    · intro h
      exact h4 (fun e he => h e (by simp [he]))

theorem visits_none {s : State T} {logNs : List Nat} {steps : List (Nat × Gen T)}
    (h : Visits s logNs steps) : ∀ k ∈ steps.map (·.1), find (s.cell.getD []) k = none := by
  intro k hk
  rw [find_none_iff]
  exact ((h.2 k).1 hk).2

theorem peek_eq (s : State T) (k : Nat) : peek s k = find (s.cell.getD []) k := by
  unfold peek
  cases s.cell <;> rfl

theorem initTable_spec (P : Nat → T → Prop) {s : State T} {logNs : List Nat}
    {steps : List (Nat × Gen T)} (h : Visits s logNs steps) :
    (∀ k t, peek s k = some t → peek (initTable s steps).1 k = some t) ∧
    (∀ k t, peek (initTable s steps).1 k = some t → peek s k = some t ∨ (k, Gen.ok t) ∈ steps) ∧
    ((initTable s steps).2 = .ok () → ∀ k ∈ logNs, ∃ t, peek (initTable s steps).1 k = some t) ∧
    (s.poisoned = false → (∀ e ∈ steps, ∃ t, e.2 = .ok t) → (initTable s steps).2 = .ok ()) := by
  obtain ⟨h1, h2, h3, h4⟩ := fill_spec P steps (s.cell.getD []) h.1 (visits_none h)
  have hin : ∀ k ∈ logNs, k ∈ steps.map (·.1) ∨ ∃ t, find (s.cell.getD []) k = some t := by
    intro k hk
    by_cases hc : k ∈ steps.map (·.1)
    · exact .inl hc
    · right
      have : ¬ k ∉ keys s := fun hn => hc ((h.2 k).2 ⟨hk, hn⟩)
      have h5 : find (s.cell.getD []) k ≠ none := fun hn => this ((find_none_iff _ _).1 hn)
      exact Option.ne_none_iff_exists'.1 h5
  simp only [peek_eq]
  obtain ⟨cell, poisoned⟩ := s
  unfold initTable
  cases poisoned with
  | true => simp; intro k t h; exact .inl h
  | false =>
    simp only [Bool.false_eq_true, if_false] at *
    cases cell with
    | some m =>
      simp only [Option.getD_some] at *
      match hf : fill steps m with
      | (m', .panic) =>
        rw [hf] at h1 h2 h4
        refine ⟨h1, h2, by simp, fun _ ha => absurd (h4 ha) (by simp)⟩
      | (m', .err) =>
        rw [hf] at h1 h2 h4
        refine ⟨h1, h2, by simp, fun _ ha => absurd (h4 ha) (by simp)⟩
      | (m', .ok ()) =>
        rw [hf] at h1 h2 h3 h4
        refine ⟨h1, h2, fun _ k hk => ?_, fun _ _ => rfl⟩
        rcases hin k hk with hk | ⟨t, ht⟩
        · exact h3 rfl k hk
        · exact ⟨t, h1 _ _ ht⟩
    | none =>
      simp only [Option.getD_none] at *
      have hempty : ∀ k (t : T), ¬ find [] k = some t := by intro k t; simp [find]
      match hf : fill steps [] with
      | (m', .panic) =>
        rw [hf] at h4
        exact ⟨fun k t h => h, fun k t h => .inl h, by simp, fun _ ha => absurd (h4 ha) (by simp)⟩
      | (m', .err) =>
        rw [hf] at h4
        exact ⟨fun k t h => h, fun k t h => .inl h, by simp, fun _ ha => absurd (h4 ha) (by simp)⟩
      | (m', .ok ()) =>
        rw [hf] at h2 h3 h4
        refine ⟨fun k t h => absurd h (hempty k t), h2, fun _ k hk => ?_, fun _ _ => rfl⟩
        rcases hin k hk with hk | ⟨t, ht⟩
        · exact h3 rfl k hk
        · exact absurd ht (hempty k t)

theorem getTable_fst (s : State T) (k : Nat) (steps : List (Nat × Gen T)) :
    (getTable s k steps).1 = s ∨ (getTable s k steps).1 = (initTable s steps).1 := by
  unfold getTable
  split
  · exact .inl rfl
  · right
    split <;> rename_i h <;> rw [h]

/-- One call keeps every published table. -/
theorem step_stable {s : State T} {c : Call T} (h : c.Valid s) (k : Nat) (t : T)
    (hk : peek s k = some t) : peek (step s c) k = some t := by
  cases c with
  | init logNs steps => exact (initTable_spec (fun _ _ => True) h).1 k t hk
  | get j steps =>
    have := (initTable_spec (fun _ _ => True) h).1 k t hk
    show peek (getTable s j steps).1 k = some t
    rcases getTable_fst s j steps with e | e
    · rw [e]; exact hk
    · rw [e]; exact this

theorem getTable_ok {s : State T} {k : Nat} {steps : List (Nat × Gen T)} {t : T}
    (h : (getTable s k steps).2 = .ok t) : peek (getTable s k steps).1 k = some t := by
  unfold getTable at h ⊢
  split at h
  · next u hu =>
    simp only [Res.ok.injEq] at h
    subst h
    simp [hu]
  · match hi : initTable s steps with
    | (s', .panic) => rw [hi] at h; exact absurd h (by simp)
    | (s', .err) => rw [hi] at h; exact absurd h (by simp)
    | (s', .ok ()) =>
      rw [hi] at h
      dsimp only at h ⊢
      unfold readBack at h
      unfold peek
      cases hc : s'.cell with
      | none => rw [hc] at h; exact absurd h (by simp)
      | some m =>
        rw [hc] at h
        dsimp only at h ⊢
        cases hf : find m k with
        | none => rw [hf] at h; exact absurd h (by simp)
        | some u => rw [hf] at h; simpa using h

/-- C28: a table published for a size is never replaced or removed, whatever calls follow, including
failing ones; later `get` calls keep returning it and change nothing. -/
theorem C28_never_replaced (P : Nat → T → Prop) (s s' : State T) (hL : Later P s s') (k : Nat) (t : T)
    (h : peek s k = some t) :
    peek s' k = some t ∧ ∀ steps, getTable s' k steps = (s', .ok t) := by
  have : peek s' k = some t := by
    induction hL with
    | refl => exact h
    | step c _ hv _ ih => exact step_stable hv k t ih
  refine ⟨this, fun steps => ?_⟩
  unfold getTable
  rw [this]

theorem later_sound (P : Nat → T → Prop) {s : State T} (hL : Later P State.init s) :
    ∀ k t, peek s k = some t → P k t := by
  induction hL with
  | refl => intro k t h; exact absurd h (by simp [peek, State.init])
  | @step s' c _ hv hs ih =>
    intro k t h
    have key : ∀ logNs steps, Visits s' logNs steps → (∀ k t, (k, Gen.ok t) ∈ steps → P k t) →
        peek (initTable s' steps).1 k = some t → P k t := by
      intro logNs steps hvis hsound h
      rcases (initTable_spec P hvis).2.1 k t h with h1 | h1
      · exact ih k t h1
      · exact hsound k t h1
    cases c with
    | init logNs steps => exact key logNs steps hv hs h
    | get j steps =>
      rcases getTable_fst s' j steps with e | e
      · exact ih k t (e ▸ h)
      · exact key [j] steps hv hs (e ▸ h)

/-- C28: after any history from program start, a `get` for size `k` that succeeds returns a table
produced by table generation for that very size (`P k t` stands for any fact about what generation for
size `k` produces), and from then on every later `get` for `k` returns this same table. -/
theorem C28_get (P : Nat → T → Prop) (s : State T) (hL : Later P State.init s) (k : Nat)
    (steps : List (Nat × Gen T)) (hv : Visits s [k] steps)
    (hs : ∀ j t, (j, Gen.ok t) ∈ steps → P j t) (t : T) (h : (getTable s k steps).2 = .ok t) :
    P k t ∧ ∀ s' steps', Later P (getTable s k steps).1 s' → getTable s' k steps' = (s', .ok t) := by
  have h1 := getTable_ok h
  have h2 : Later P State.init (step s (.get k steps)) := Later.step _ hL hv hs
  exact ⟨later_sound P h2 k t h1, fun s' steps' hL' => (C28_never_replaced P _ s' hL' k t h1).2 steps'⟩

/-- C28: `init` that succeeds leaves a table for every requested size; one that fails keeps the tables
there were, and publishes nothing if none was published before. -/
theorem C28_init (s : State T) (logNs : List Nat) (steps : List (Nat × Gen T))
    (hv : Visits s logNs steps) :
    ((initTable s steps).2 = .ok () → ∀ k ∈ logNs, ∃ t, peek (initTable s steps).1 k = some t) ∧
    (∀ k t, peek s k = some t → peek (initTable s steps).1 k = some t) ∧
    ((initTable s steps).2 ≠ .ok () → s.cell = none → (initTable s steps).1.cell = none) := by
  obtain ⟨h1, _, h3, _⟩ := initTable_spec (fun _ _ => True) hv
  refine ⟨h3, h1, fun hne hc => ?_⟩
  unfold initTable at hne ⊢
  rw [hc] at hne ⊢
  split at hne
  · next hp => rw [if_pos hp]; exact hc
  · next hp =>
    rw [if_neg hp]
    dsimp only at hne ⊢
    match hf : fill steps [] with
    | (m', .panic) => rfl
    | (m', .err) => rfl
    | (m', .ok ()) => rw [hf] at hne; exact absurd rfl hne

/-- C28: while no generation has panicked, `get` succeeds whenever the table is there or its generation
succeeds: the `unwrap`s never fail. -/
theorem C28_get_succeeds (s : State T) (hp : s.poisoned = false) (k : Nat) (steps : List (Nat × Gen T))
    (hv : Visits s [k] steps) (hok : ∀ e ∈ steps, ∃ t, e.2 = .ok t) :
    ∃ t, (getTable s k steps).2 = .ok t := by
  obtain ⟨_, _, h3, h4⟩ := initTable_spec (fun _ _ => True) hv
  have h5 := h4 hp hok
  obtain ⟨t, ht⟩ := h3 h5 k (by simp)
  unfold getTable
  split
  · next u _ => exact ⟨u, rfl⟩
  · match hi : initTable s steps with
    | (s', .panic) => rw [hi] at h5; exact absurd h5 (by simp)
    | (s', .err) => rw [hi] at h5; exact absurd h5 (by simp)
    | (s', .ok ()) =>
      rw [hi] at ht
      dsimp only at ht ⊢
      refine ⟨t, ?_⟩
      unfold peek at ht
      unfold readBack
      cases hc : s'.cell with
      | none => rw [hc] at ht; exact absurd ht (by simp)
      | some m => rw [hc] at ht; dsimp only at ht ⊢; rw [ht]

theorem initTable_poisoned {s : State T} (h : s.poisoned = true) (steps : List (Nat × Gen T)) :
    initTable s steps = (s, .panic) := by
  unfold initTable; rw [if_pos h]

/-- C28: a panic during generation poisons the mutex for good: from then on the cache never changes,
every `init` panics and so does every `get` for a size without a table; existing tables stay
available. -/
theorem C28_poisoned (P : Nat → T → Prop) (s s' : State T) (h : s.poisoned = true)
    (hL : Later P s s') :
    s' = s ∧ ∀ steps, (initTable s' steps).2 = .panic ∧
      ∀ k, (getTable s' k steps).2 = match peek s k with | some t => .ok t | none => .panic := by
  have hs : s' = s := by
    induction hL with
    | refl => rfl
    | step c _ _ _ ih =>
      subst ih
      cases c with
      | init logNs steps => exact congrArg Prod.fst (initTable_poisoned h steps)
      | get k steps =>
        rcases getTable_fst _ k steps with e | e
        · exact e
        · exact e.trans (congrArg Prod.fst (initTable_poisoned h steps))
  subst hs
  refine ⟨rfl, fun steps => ⟨by rw [initTable_poisoned h], fun k => ?_⟩⟩
  unfold getTable
  cases hp : peek s' k with
  | some t => rfl
  | none => simp [initTable_poisoned h]

/-- Whether a call panics. algebra_derive/src/ntt.rs 149-193. -/
def CallPanics (s : State T) : Call T → Prop
  | .init _ steps => (initTable s steps).2 = .panic
  | .get k steps => (getTable s k steps).2 = .panic

theorem initTable_flag (s : State T) (steps : List (Nat × Gen T)) :
    (initTable s steps).1.poisoned = true ↔ (initTable s steps).2 = .panic := by
  unfold initTable
  split
  · next h => simp [h]
  · split <;> split <;> simp_all

theorem getTable_flag {s : State T} {k : Nat} {steps : List (Nat × Gen T)} (hv : Visits s [k] steps) :
    (getTable s k steps).2 = .panic ↔ peek s k = none ∧ (initTable s steps).2 = .panic := by
  obtain ⟨_, _, h3, _⟩ := initTable_spec (fun _ _ => True) hv
  unfold getTable
  cases hp : peek s k with
  | some t => simp
  | none =>
    match hi : initTable s steps with
    | (s', .panic) => simp
    | (s', .err) => simp
    | (s', .ok ()) =>
      rw [hi] at h3
      obtain ⟨t, ht⟩ := h3 rfl k (by simp)
      dsimp only at ht ⊢
      unfold peek at ht
      unfold readBack
      cases hc : s'.cell with
      | none => rw [hc] at ht; exact absurd ht (by simp)
      | some m => rw [hc] at ht; dsimp only at ht ⊢; rw [ht]; simp

theorem step_flag {s : State T} {c : Call T} (hv : c.Valid s) :
    (step s c).poisoned = true ↔ s.poisoned = true ∨ CallPanics s c := by
  cases c with
  | init logNs steps =>
    refine (initTable_flag s steps).trans ⟨.inr, ?_⟩
    rintro (h | h)
    · rw [initTable_poisoned h]
    · exact h
  | get k steps =>
    change (getTable s k steps).1.poisoned = true ↔ _ ∨ (getTable s k steps).2 = .panic
    rw [getTable_flag hv]
    cases hp : peek s k with
    | some t =>
      have : (getTable s k steps).1 = s := by
        unfold getTable
        rw [hp]
      simp [this]
    | none =>
      have : (getTable s k steps).1 = (initTable s steps).1 := by
        unfold getTable
        rw [hp]
        dsimp only
        split <;> rename_i h <;> rw [h]
      rw [this, initTable_flag]
      refine ⟨fun h => .inr ⟨rfl, h⟩, ?_⟩
      rintro (h | h)
      · rw [initTable_poisoned h]
      · exact h.2

theorem fill_panics : ∀ (steps : List (Nat × Gen T)) (m : List (Nat × T)),
    (fill steps m).2 = .panic ↔ ∃ l k r, steps = l ++ (k, .panic) :: r ∧ ∀ e ∈ l, ∃ t, e.2 = .ok t
  | [], m => by simp [fill]
  | (k, .panic) :: r, m => by
    simp only [fill, true_iff]
    exact ⟨[], k, r, rfl, by simp⟩
  | (k, .err) :: r, m => by
    simp only [fill, reduceCtorEq, false_iff]
    rintro ⟨l, k', r', h1, h2⟩
    cases l with
    | nil => simp at h1
    | cons e l =>
      obtain ⟨rfl, -⟩ := List.cons.inj h1
      obtain ⟨t, ht⟩ := h2 (k, .err) (by simp)
      simp at ht
  | (k, .ok t) :: r, m => by
    rw [fill, fill_panics r]
    constructor
    · rintro ⟨l, k', r', rfl, h⟩
      exact ⟨(k, .ok t) :: l, k', r', rfl, by simpa using h⟩
    · rintro ⟨l, k', r', h1, h2⟩
      cases l with
      | nil => simp at h1
      | cons e l =>
        obtain ⟨rfl, rfl⟩ := List.cons.inj h1
        exact ⟨l, k', r', rfl, fun e he => h2 e (by simp [he])⟩

/-- C28: which calls panic. In a program without an earlier panic `init` panics exactly if the generation of one of the tables
panics, with all generations before it successful; `get` panics exactly if the table is missing and the nested `init` panics. -/
theorem C28_panics (s : State T) (hp : s.poisoned = false) (steps : List (Nat × Gen T)) :
    ((initTable s steps).2 = .panic ↔ ∃ l k r, steps = l ++ (k, .panic) :: r ∧ ∀ e ∈ l, ∃ t, e.2 = .ok t) ∧
    ∀ k, Visits s [k] steps → ((getTable s k steps).2 = .panic ↔ peek s k = none ∧ (initTable s steps).2 = .panic) := by
  refine ⟨?_, fun k hv => getTable_flag hv⟩
  unfold initTable
  rw [if_neg (by simp [hp])]
  cases s.cell with
  | some m =>
    rw [← fill_panics steps m]
    dsimp only
    split <;> simp_all
  | none =>
    rw [← fill_panics steps []]
    dsimp only
    split <;> simp_all

/-- C28: after a call that panicked no table can be added: every later `init` panics, and so does every later `get` of a size that
has no table by then. -/
theorem C28_after_panic (P : Nat → T → Prop) (s s' : State T) (c : Call T) (hv : c.Valid s) (hc : CallPanics s c)
    (hL : Later P (step s c) s') :
    s' = step s c ∧ ∀ steps, (initTable s' steps).2 = .panic ∧
      ∀ k, (getTable s' k steps).2 = match peek s' k with | some t => .ok t | none => .panic := by
  obtain ⟨h1, h2⟩ := C28_poisoned P (step s c) s' ((step_flag hv).2 (.inr hc)) hL
  exact ⟨h1, by rw [← h1] at h2; exact h2⟩

/-- C28: only panics do this. After any history of calls from the start of the program in which no call panicked, `get`
returns a table whenever it is there or its generation succeeds. -/
theorem C28_without_panic (P : Nat → T → Prop) (s : State T) (hL : Later P State.init s)
    (hn : ¬ ∃ s1 c, Later P State.init s1 ∧ c.Valid s1 ∧ c.Sound P ∧ CallPanics s1 c ∧ Later P (step s1 c) s)
    (k : Nat) (steps : List (Nat × Gen T)) (hv : Visits s [k] steps) (hok : ∀ e ∈ steps, ∃ t, e.2 = .ok t) :
    ∃ t, (getTable s k steps).2 = .ok t := by
  refine C28_get_succeeds s ?_ k steps hv hok
  by_contra h
  rw [Bool.not_eq_false] at h
  clear hv
  refine hn ?_
  clear hn
  induction hL with
  | refl => simp [State.init] at h
  | @step s' c hL hv hs ih =>
    rcases (step_flag hv).1 h with h | h
    · obtain ⟨s1, d, h1, h2, h3, h4, h5⟩ := ih h
      exact ⟨s1, d, h1, h2, h3, h4, h5.step c hv hs⟩
    · exact ⟨s', c, hL, hv, hs, h, .refl⟩

-- the generation for size 9 panics after the table of size 1 was published; then size 2 is not available but size 1 is
example : ∃ (s : State Nat) (c : Call Nat), Later (fun _ _ => True) State.init s ∧ c.Valid s ∧ CallPanics s c ∧
    (getTable (step s c) 1 []).2 = .ok 10 ∧ (getTable (step s c) 2 [(2, .ok 20)]).2 = .panic := by
  refine ⟨_, .get 9 [(9, .panic)], Later.step (.init [1] [(1, Gen.ok 10)]) Later.refl ⟨by decide, ?_⟩ (fun _ _ _ => trivial), ⟨by decide, ?_⟩,
    rfl, rfl, rfl⟩
  · intro k
    simp [keys, State.init]
  · intro k
    simp [keys, step, initTable, State.init, fill, Cache.insert]
    omega

end seq

/-- C28 for the actual generation: what `get` returns is always a table generated for the requested
size, hence (C23) the one of the smallest primitive `2n`-th root of unity. -/
theorem C28_get_is_generated (w q : Nat) [Fact q.Prime] (hw : w % 2 = 0) (M : Barrett)
    (hc : Fp.config w q = some M)
    (P : Nat → NTTTable → Prop) (hP : P = fun k t => ∃ draws, (∀ x ∈ draws, 2 ≤ x ∧ x < q) ∧
      genTable w M k draws = .ok t)
    (s : State NTTTable) (hL : Later P State.init s) (k : Nat) (steps : List (Nat × Gen NTTTable))
    (hv : Visits s [k] steps) (hs : ∀ j t, (j, Gen.ok t) ∈ steps → P j t) (t : NTTTable)
    (h : (getTable s k steps).2 = .ok t) :
    IsLeast {y : Nat | y < q ∧ orderOf (y : ZMod q) = 2 ^ (k + 1)} t.root ∧ t.n = 2 ^ k := by
  obtain ⟨hPt, _⟩ := C28_get P s hL k steps hv hs t h
  subst hP
  obtain ⟨draws, hd, hg⟩ := hPt
  unfold genTable at hg
  split at hg
  · exact absurd hg (by simp)
  · exact absurd hg (by simp)
  · next u hu =>
    simp only [Gen.ok.injEq] at hg
    subst hg
    obtain ⟨h1, T⟩ := generate_table ⟨hw, hc⟩ hd hu
    exact ⟨h1, T.n⟩

-- a history: init of sizes 1 and 2, a failing get, then a get of 2 that hits
example : ∃ (s : State Nat), Later (fun _ _ => True) State.init s ∧
    getTable s 2 [] = (s, .ok 20) ∧ (getTable s 3 [(3, .err)]).2 = .err ∧
    (getTable s 3 [(3, .ok 30)]).2 = .ok 30 := by
  have h1 : Later (fun _ _ => True) State.init
      (step State.init (.init [1, 2, 1] [(2, Gen.ok 20), (1, Gen.ok 10)])) := by
    apply Later.step _ Later.refl
    · refine ⟨by decide, ?_⟩
      intro k
      simp [keys, State.init]
      omega
    · intro _ _ _; trivial
  exact ⟨_, h1, rfl, rfl, rfl⟩

-- for a byte-sized field, asking for a size whose double does not fit the word panics
example : (match genTable 8 barrett17 7 [3] with | .panic => true | _ => false) = true := by
  decide +kernel

/-! ## Threads -/

section race
open CacheRace

/-- Whether a thread is between taking and releasing the mutex. -/
def Holding : Pc → Prop
  | .filling .. | .inserting .. | .building .. => True
  | _ => False

theorem move_pc (s : CacheRace.State) (i j : Nat) (p : Pc) :
    (s.move i p).pc j = if j = i then p else s.pc j := rfl

theorem afterInit_not (g : Option Nat) : ¬ Holding (afterInit g) := by
  cases g <;> simp [afterInit, Holding]

theorem owner_keep {s s' : CacheRace.State} {i : Nat} {p : Pc}
    (inv : ∀ j, Holding (s.pc j) → s.owner = some j) (hpc : s'.pc = (s.move i p).pc)
    (h : (s'.owner = s.owner ∧ (Holding p → Holding (s.pc i))) ∨
      (s.owner = none ∧ s'.owner = some i) ∨ (Holding (s.pc i) ∧ ¬ Holding p)) :
    ∀ j, Holding (s'.pc j) → s'.owner = some j := by
  intro j hj
  rw [hpc, move_pc] at hj
  by_cases e : j = i
  · rw [if_pos e] at hj
    subst e
    rcases h with ⟨h1, h2⟩ | ⟨_, h2⟩ | ⟨_, h2⟩
    · rw [h1]; exact inv j (h2 hj)
    · exact h2
    · exact absurd hj h2
  · rw [if_neg e] at hj
    have h0 := inv j hj
    rcases h with ⟨h1, _⟩ | ⟨h1, _⟩ | ⟨h1, _⟩
    · rw [h1]; exact h0
    · rw [h1] at h0; exact absurd h0 (by simp)
    · rw [inv i h1] at h0
      exact absurd (Option.some.inj h0).symm e

theorem holding_owner {Ok : Nat → Prop} {s : CacheRace.State}
    (h : CacheRace.Reachable Ok CacheRace.State.init s) : ∀ i, Holding (s.pc i) → s.owner = some i := by
  induction h with
  | refl => intro i h; exact absurd h (by simp [CacheRace.State.init, Holding])
  | step _ st ih =>
    cases st with
    | callGet i k h => exact owner_keep ih rfl (.inl ⟨rfl, by simp [Holding]⟩)
    | callInit i k h => exact owner_keep ih rfl (.inl ⟨rfl, by simp [Holding]⟩)
    | peekNone i k h => exact owner_keep ih rfl (.inl ⟨rfl, by simp [Holding]⟩)
    | peekSome i k h => exact owner_keep ih rfl (.inl ⟨rfl, by simp [Holding]⟩)
    | readHit i k m h => exact owner_keep ih rfl (.inl ⟨rfl, by simp [Holding]⟩)
    | readMiss i k m h => exact owner_keep ih rfl (.inl ⟨rfl, by simp [Holding]⟩)
    | readBackDone i k h => exact owner_keep ih rfl (.inl ⟨rfl, by simp [Holding]⟩)
    | lockSome i sizes g m todo h ho => exact owner_keep ih rfl (.inr (.inl ⟨ho, rfl⟩))
    | lockNone i sizes g h ho => exact owner_keep ih rfl (.inr (.inl ⟨ho, rfl⟩))
    | insertBegin i k todo g h => exact owner_keep ih rfl (.inl ⟨rfl, by rw [h]; simp [Holding]⟩)
    | insertEnd i k todo g m h => exact owner_keep ih rfl (.inl ⟨rfl, by rw [h]; simp [Holding]⟩)
    | fillDone i g h =>
      exact owner_keep ih rfl (.inr (.inr ⟨by rw [h]; simp [Holding], afterInit_not g⟩))
    | fillFail i todo g h =>
      exact owner_keep ih rfl (.inr (.inr ⟨by rw [h]; simp [Holding], by simp [Holding]⟩))
    | publish i sizes g h =>
      exact owner_keep ih rfl (.inr (.inr ⟨by rw [h]; simp [Holding], afterInit_not g⟩))
    | buildFail i sizes g h =>
      exact owner_keep ih rfl (.inr (.inr ⟨by rw [h]; simp [Holding], by simp [Holding]⟩))

/-- C29, the part that holds: at most one thread modifies the map at any time, for any number of
threads and any schedule. -/
theorem C29_single_writer_partial (Ok : Nat → Prop) (s : CacheRace.State)
    (h : CacheRace.Reachable Ok CacheRace.State.init s) (i j : Nat) (hi : Writing s i)
    (hj : Writing s j) : i = j := by
  have inv := holding_owner h
  obtain ⟨_, _, _, hi⟩ := hi
  obtain ⟨_, _, _, hj⟩ := hj
  have h1 := inv i (by rw [hi]; simp [Holding])
  have h2 := inv j (by rw [hj]; simp [Holding])
  rw [h1] at h2
  exact Option.some.inj h2

/-- What a thread may be doing when all requested sizes are already there. -/
def Quiet (Ok : Nat → Prop) : Pc → Prop
  | .idle | .readingBack _ => True
  | .peek k | .reading k => Ok k
  | .wantLock sizes _ => ∀ k ∈ sizes, Ok k
  | .filling todo _ => todo = []
  | .inserting .. | .building .. => False

/-- C29, the other part that holds: once tables for some sizes are published and no call is running,
any number of threads asking only for those sizes never race, in any schedule. -/
theorem C29_preinitialised_partial (Ok : Nat → Prop) (s0 s : CacheRace.State) (m : List Nat)
    (hcell : s0.cell = some m) (hidle : ∀ i, s0.pc i = .idle) (hok : ∀ k, Ok k → k ∈ m)
    (h : CacheRace.Reachable Ok s0 s) : s.cell = some m ∧ ¬ Race s := by
  have inv : s.cell = some m ∧ ∀ i, Quiet Ok (s.pc i) := by
    induction h with
    | refl => exact ⟨hcell, fun i => by rw [hidle i]; trivial⟩
    | @step s s' _ st ih =>
      obtain ⟨hc, hq⟩ := ih
      have keep : ∀ (i : Nat) (p : Pc), Quiet Ok p → ∀ j, Quiet Ok ((s.move i p).pc j) := by
        intro i p hp j
        rw [move_pc]
        split
        · exact hp
        · exact hq j
      have hAfter : ∀ g, Quiet Ok (afterInit g) := by intro g; cases g <;> trivial
      cases st with
      | callGet i k h hk => exact ⟨hc, keep i _ hk⟩
      | callInit i sizes h hk => exact ⟨hc, keep i _ hk⟩
      | peekNone i k h hn => rw [hc] at hn; exact absurd hn (by simp)
      | peekSome i k h => have := hq i; rw [h] at this; exact ⟨hc, keep i _ this⟩
      | readHit i k m' h => exact ⟨hc, keep i _ trivial⟩
      | readMiss i k m' h hm hk =>
        have := hq i; rw [h] at this
        rw [hc] at hm
        simp only [Option.some.injEq] at hm
        subst hm
        exact absurd (hok k this) hk
      | lockSome i sizes g m' todo h ho hm ht =>
        have h1 := hq i; rw [h] at h1
        rw [hc] at hm
        simp only [Option.some.injEq] at hm
        subst hm
        refine ⟨hc, keep i _ ?_⟩
        show todo = []
        rw [List.eq_nil_iff_forall_not_mem]
        intro k hk
        have := (ht k).1 hk
        exact this.2 (hok k (h1 k this.1))
      | lockNone i sizes g h ho hn => rw [hc] at hn; exact absurd hn (by simp)
      | insertBegin i k todo g h => have := hq i; rw [h] at this; exact absurd this (by simp [Quiet])
      | insertEnd i k todo g m' h => have := hq i; rw [h] at this; exact absurd this (by simp [Quiet])
      | fillDone i g h => exact ⟨hc, keep i _ (hAfter g)⟩
      | fillFail i todo g h => exact ⟨hc, keep i _ trivial⟩
      | publish i sizes g h hn => rw [hc] at hn; exact absurd hn (by simp)
      | buildFail i sizes g h => exact ⟨hc, keep i _ trivial⟩
      | readBackDone i k h => exact ⟨hc, keep i _ trivial⟩
  refine ⟨inv.1, ?_⟩
  rintro ⟨i, j, _, ⟨k, todo, g, hi⟩, _⟩
  have := inv.2 i
  rw [hi] at this
  exact this

/-- C29: race freedom does not hold. Two threads: one inside an unlocked look-up of a published size
while the other inserts a new size under the lock. -/
theorem C29_race : ∃ s, CacheRace.Reachable (fun _ => True) CacheRace.State.init s ∧ Race s := by
  have r := CacheRace.Reachable.refl (Ok := fun _ => True) (s0 := CacheRace.State.init)
  have r := r.step (Step.callInit 0 [2] rfl (fun _ _ => trivial))
  have r := r.step (Step.lockNone 0 [2] none rfl rfl rfl)
  have r := r.step (Step.publish 0 [2] none rfl rfl)
  have r := r.step (Step.callGet 0 2 rfl trivial)
  have r := r.step (Step.peekSome 0 2 rfl (by simp [CacheRace.State.move]))
  have r := r.step (Step.callGet 1 3 rfl trivial)
  have r := r.step (Step.peekSome 1 3 rfl (by simp [CacheRace.State.move]))
  have r := r.step (Step.readMiss 1 3 [2] rfl rfl (by decide))
  have r := r.step (Step.lockSome 1 [3] (some 3) [2] [3] rfl rfl rfl (by intro k; simp; omega))
  have r := r.step (Step.insertBegin 1 3 [] (some 3) rfl)
  exact ⟨_, r, 1, 0, by decide, ⟨3, [], some 3, rfl⟩, .inl ⟨2, .inl rfl⟩⟩

/-- C29, full statement violated also by the second look-up: a thread that has just created the first table reads it back while
another thread, which asked for another size, modifies the map. -/
theorem C29_race_read_back : ∃ s, CacheRace.Reachable (fun _ => True) CacheRace.State.init s ∧ Race s ∧ s.pc 0 = .readingBack 2 ∧
    Writing s 1 := by
  have r := CacheRace.Reachable.refl (Ok := fun _ => True) (s0 := CacheRace.State.init)
  have r := r.step (Step.callGet 0 2 rfl trivial)
  have r := r.step (Step.peekNone 0 2 rfl rfl)
  have r := r.step (Step.lockNone 0 [2] (some 2) rfl rfl rfl)
  have r := r.step (Step.publish 0 [2] (some 2) rfl rfl)
  have r := r.step (Step.callInit 1 [3] rfl (fun _ _ => trivial))
  have r := r.step (Step.lockSome 1 [3] none [2] [3] rfl rfl rfl (by intro k; simp; omega))
  have r := r.step (Step.insertBegin 1 3 [] none rfl)
  exact ⟨_, r, ⟨1, 0, by decide, ⟨3, [], none, rfl⟩, .inl ⟨2, .inr rfl⟩⟩, rfl, ⟨3, [], none, rfl⟩⟩

/-- What counts as a race: two threads in the map with one of them modifying it, but not one thread alone. -/
example : (∀ p q : Pc, Race ⟨some [2], some 0, fun i => if i = 0 then p else if i = 1 then q else .idle⟩ →
      ∃ k todo g, p = .inserting k todo g ∨ q = .inserting k todo g) ∧
    Race ⟨some [2], some 0, fun i => if i = 0 then .inserting 3 [] none else if i = 1 then .readingBack 2 else .idle⟩ ∧
    Race ⟨some [2], some 0, fun i => if i = 0 then .inserting 3 [] none else if i = 1 then .inserting 4 [] none else .idle⟩ ∧
    ¬ Race ⟨some [2], some 0, fun i => if i = 0 then .inserting 3 [] none else .idle⟩ := by
  refine ⟨fun p q ⟨i, j, _, ⟨k, todo, g, h⟩, _⟩ => ⟨k, todo, g, ?_⟩, ⟨0, 1, by decide, ⟨3, [], none, rfl⟩, .inl ⟨2, .inr rfl⟩⟩,
    ⟨0, 1, by decide, ⟨3, [], none, rfl⟩, .inr ⟨4, [], none, rfl⟩⟩, ?_⟩
  · simp only at h
    split_ifs at h
    exacts [.inl h, .inr h]
  · rintro ⟨i, j, hij, ⟨k, todo, g, h⟩, h2⟩
    simp only [ReadingUnlocked, Writing] at h h2
    have hi : i = 0 := by
      by_contra h0
      rw [if_neg h0] at h
      cases h
    have hj : j ≠ 0 := fun h0 => hij (hi.trans h0.symm)
    rw [if_neg hj] at h2
    rcases h2 with ⟨_, h2 | h2⟩ | ⟨_, _, _, h2⟩ <;> cases h2

end race

end Verif.Props
