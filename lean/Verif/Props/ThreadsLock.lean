import Verif.Props.Threads

/-! # C81: threads that start without prepared tables -/

namespace Verif.Props
open Spec Threads

/-- How many halves of the task hold the guard of the mutex. -/
def holders {α : Type} : Threads.Task α → Nat
  | .run .filling _ => 1
  | .run (.inserting _) _ => 1
  | .run .building _ => 1
  | .run .leaving _ => 1
  | .run _ _ => 0
  | .join l r _ => holders l + holders r

/-- The position of a thread agrees with the memory. -/
def Placed (s : Mem) {α : Type} : Threads.Task α → Prop
  | .run .calm _ => True
  | .run .reading p => s.cell ≠ none ∧ ∃ k f, p = .ask k f
  | .run .wantLock p => ∃ k f, p = .ask k f
  | .run .filling p => s.cell ≠ none ∧ ∃ k f, p = .ask k f
  | .run (.inserting _) p => s.cell ≠ none ∧ ∃ k f, p = .ask k f
  | .run .building p => s.cell = none ∧ ∃ k f, p = .ask k f
  | .run .leaving p => ∃ k f, p = .ask k f ∧ Holds s k
  | .run .readingBack p => ∃ k f, p = .ask k f ∧ Holds s k
  | .join l r _ => Placed s l ∧ Placed s r

/-- What a step may do to the memory: nothing, or publish more tables while holding the guard. -/
def Grows (s s' : Mem) (n : Nat) : Prop :=
  s'.cell = s.cell ∨ 1 ≤ n ∧ s'.cell ≠ none ∧ ∀ k, Holds s k → Holds s' k

theorem holds_cell {s s' : Mem} {k : Nat} (h : s'.cell = s.cell) (hk : Holds s k) : Holds s' k := by
  obtain ⟨m, t, h1, h2⟩ := hk
  exact ⟨m, t, h.trans h1, h2⟩

theorem placed_other {s s' : Mem} {n : Nat} (hg : Grows s s' n) : ∀ {α : Type} (u : Threads.Task α),
    n + holders u ≤ 1 → Placed s u → Placed s' u
  | _, .run .calm _, _, _ => trivial
  | _, .run .reading p, _, hu => by
    rcases hg with h | ⟨_, h, _⟩
    · exact ⟨by rw [h]; exact hu.1, hu.2⟩
    · exact ⟨h, hu.2⟩
  | _, .run .wantLock p, _, hu => hu
  | _, .run .filling p, hn, hu => by
    rcases hg with h | ⟨h, _⟩
    · exact ⟨by rw [h]; exact hu.1, hu.2⟩
    · simp only [holders] at hn; omega
  | _, .run (.inserting _) p, hn, hu => by
    rcases hg with h | ⟨h, _⟩
    · exact ⟨by rw [h]; exact hu.1, hu.2⟩
    · simp only [holders] at hn; omega
  | _, .run .building p, hn, hu => by
    rcases hg with h | ⟨h, _⟩
    · exact ⟨by rw [h]; exact hu.1, hu.2⟩
    · simp only [holders] at hn; omega
  | _, .run .leaving p, _, hu => by
    obtain ⟨k, f, e, hk⟩ := hu
    rcases hg with h | ⟨_, _, h⟩
    · exact ⟨k, f, e, holds_cell h hk⟩
    · exact ⟨k, f, e, h k hk⟩
  | _, .run .readingBack p, _, hu => by
    obtain ⟨k, f, e, hk⟩ := hu
    rcases hg with h | ⟨_, _, h⟩
    · exact ⟨k, f, e, holds_cell h hk⟩
    · exact ⟨k, f, e, h k hk⟩
  | _, .join l r _, hn, hu => by
    simp only [holders] at hn
    exact ⟨placed_other hg l (by omega) hu.1, placed_other hg r (by omega) hu.2⟩

theorem grows_mono {s s' : Mem} {n m : Nat} (h : Grows s s' n) (hm : n ≤ m) : Grows s s' m := by
  rcases h with h | ⟨h1, h2⟩
  · exact .inl h
  · exact .inr ⟨h1.trans hm, h2⟩

theorem holds_inserted (s : Mem) (m : List (Nat × Table)) (k : Nat) (t : Table) :
    Holds { s with cell := some (Cache.insert m k t) } k :=
  ⟨_, t, rfl, by rw [find_insert]; simp⟩

theorem step_placed {gen : Nat → Cache.Gen Table → Prop} {α : Type} {s s' : Mem} {t t' : Threads.Task α}
    (h : Step gen s t s' t') : holders t ≤ s.locked.toNat → Placed s t →
    Placed s' t' ∧ holders t' + s.locked.toNat = holders t + s'.locked.toNat ∧ Grows s s' (holders t) := by
  induction h with
  | peekNone _ => exact fun _ _ => ⟨⟨_, _, rfl⟩, rfl, .inl rfl⟩
  | peekSome h => exact fun _ _ => ⟨⟨h, _, _, rfl⟩, rfl, .inl rfl⟩
  | readHit _ _ => exact fun _ _ => ⟨trivial, rfl, .inl rfl⟩
  | readMiss _ _ => exact fun _ _ => ⟨⟨_, _, rfl⟩, rfl, .inl rfl⟩
  | lockPoisoned _ _ => exact fun _ _ => ⟨trivial, rfl, .inl rfl⟩
  | lockHave hl _ hm hf => exact fun _ _ => ⟨⟨_, _, rfl, _, _, hm, hf⟩, by simp [holders, hl], .inl rfl⟩
  | lockMiss hl _ hm _ => exact fun _ _ => ⟨⟨by simp [hm], _, _, rfl⟩, by simp [holders, hl], .inl rfl⟩
  | lockNone hl _ hm => exact fun _ _ => ⟨⟨hm, _, _, rfl⟩, by simp [holders, hl], .inl rfl⟩
  | @fillErr α s k f _ =>
    intro h _
    refine ⟨trivial, ?_, .inl rfl⟩
    cases hl : s.locked <;> simp [holders, hl] at h ⊢
  | @fillPanic α s k f _ =>
    intro h _
    refine ⟨trivial, ?_, .inl rfl⟩
    cases hl : s.locked <;> simp [holders, hl] at h ⊢
  | fillOk _ => exact fun _ hp => ⟨hp, rfl, .inl rfl⟩
  | @insert α s k m t f hm =>
    refine fun _ _ => ⟨⟨_, _, rfl, holds_inserted _ _ _ _⟩, rfl, .inr ⟨Nat.le_refl 1, by simp, ?_⟩⟩
    rintro j ⟨m', u, h1, h2⟩
    rw [hm] at h1
    obtain rfl := Option.some.inj h1
    exact holds_insert (.inl ⟨u, h2⟩)
  | @buildErr α s k f _ =>
    intro h _
    refine ⟨trivial, ?_, .inl rfl⟩
    cases hl : s.locked <;> simp [holders, hl] at h ⊢
  | @buildPanic α s k f _ =>
    intro h _
    refine ⟨trivial, ?_, .inl rfl⟩
    cases hl : s.locked <;> simp [holders, hl] at h ⊢
  | publish _ hm =>
    refine fun _ _ => ⟨⟨_, _, rfl, holds_inserted _ _ _ _⟩, rfl, .inr ⟨Nat.le_refl 1, by simp, ?_⟩⟩
    rintro j ⟨m, t, h1, _⟩
    rw [hm] at h1
    simp at h1
  | publishTwice h => exact fun _ hp => absurd hp.1 h
  | @leave α s k f =>
    intro h hp
    refine ⟨?_, ?_, .inl rfl⟩
    · obtain ⟨k', f', e, hk⟩ := hp
      exact ⟨k', f', e, holds_cell rfl hk⟩
    · cases hl : s.locked <;> simp [holders, hl] at h ⊢
  | readBack _ _ => exact fun _ _ => ⟨trivial, rfl, .inl rfl⟩
  | readBackPanic _ => exact fun _ _ => ⟨trivial, rfl, .inl rfl⟩
  | fork => exact fun _ _ => ⟨⟨trivial, trivial⟩, rfl, .inl rfl⟩
  | @left α s s' l l' r f _ ih =>
    intro hb hp
    simp only [holders] at hb ⊢
    have := Bool.toNat_le s.locked
    obtain ⟨h1, h2, h3⟩ := ih (by omega) hp.1
    exact ⟨⟨h1, placed_other h3 r (by omega) hp.2⟩, by omega, grows_mono h3 (by omega)⟩
  | @right α s s' l r r' f _ ih =>
    intro hb hp
    simp only [holders] at hb ⊢
    have := Bool.toNat_le s.locked
    obtain ⟨h1, h2, h3⟩ := ih (by omega) hp.2
    exact ⟨⟨placed_other h3 l (by omega) hp.1, h1⟩, by omega, grows_mono h3 (by omega)⟩
  | joined => exact fun _ _ => ⟨trivial, rfl, .inl rfl⟩
  | joinPanic _ => exact fun _ _ => ⟨trivial, rfl, .inl rfl⟩

/-- The guard is held by at most one thread, and the threads are where the memory says. -/
def Guarded {α : Type} (s : State α) : Prop :=
  (∀ i, Placed s.mem (s.task i)) ∧ (∀ i, holders (s.task i) ≤ s.mem.locked.toNat) ∧
  (∀ i j, i ≠ j → holders (s.task i) + holders (s.task j) ≤ s.mem.locked.toNat) ∧
  (s.mem.locked = true → ∃ i, holders (s.task i) = 1)

theorem reaches_guarded {gen : Nat → Cache.Gen Table → Prop} {α : Type} {mem : Mem} (hm : mem.locked = false)
    {p : Nat → Prog α} {l : List Nat} {s : State α} (h : Reaches gen (launch mem p) l s) : Guarded s := by
  induction h with
  | refl =>
    refine ⟨fun i => trivial, fun i => ?_, fun i j _ => ?_, fun h => ?_⟩
    · simp [launch, holders]
    · simp [launch, holders]
    · simp [launch, hm] at h
  | @step l s mem' t i _ hs ih =>
    obtain ⟨g1, g2, g3, g4⟩ := ih
    obtain ⟨h1, h2, h3⟩ := step_placed hs (g2 i) (g1 i)
    have b := Bool.toNat_le s.mem.locked
    have b' := Bool.toNat_le mem'.locked
    have eq : ∀ j, Threads.set s.task i t j = if j = i then t else s.task j := fun j => rfl
    have own := g2 i
    have other : ∀ j, j ≠ i → holders (s.task j) ≤ mem'.locked.toNat - holders t := by
      intro j hj
      have := g3 i j (Ne.symm hj)
      have := g3 j i hj
      omega
    have hle : holders t ≤ mem'.locked.toNat := by omega
    refine ⟨fun j => ?_, fun j => ?_, fun j k hjk => ?_, fun hl => ?_⟩
    · simp only [eq]
      split
      · exact h1
      · next hj =>
        have := g3 i j (Ne.symm hj)
        exact placed_other h3 _ (by omega) (g1 j)
    · simp only [eq]
      split
      · exact hle
      · next hj =>
        have := other j hj
        omega
    · simp only [eq]
      by_cases hj : j = i
      · have hk : k ≠ i := by omega
        have := other k hk
        simp only [hj, hk, if_true, if_false]
        omega
      · by_cases hk : k = i
        · have := other j hj
          simp only [hj, hk, if_true, if_false]
          omega
        · simp only [hj, hk, if_false]
          have h5 := g3 j k hjk
          have h6 := g3 i j (Ne.symm hj)
          have h7 := g3 i k (Ne.symm hk)
          have h8 := other j hj
          have h9 := other k hk
          omega
    · simp only [] at hl
      rw [hl] at h2 hle
      simp only [Bool.toNat_true] at h2 hle
      by_cases hl0 : s.mem.locked = true
      · obtain ⟨j, hj⟩ := g4 hl0
        rw [hl0] at h2
        simp only [Bool.toNat_true] at h2
        by_cases hji : j = i
        · subst hji
          exact ⟨j, by simp only [eq, if_true]; omega⟩
        · exact ⟨j, by simp only [eq, hji, if_false]; exact hj⟩
      · have hl0 : s.mem.locked = false := by simpa using hl0
        rw [hl0] at h2 own
        simp only [Bool.toNat_false] at h2 own
        exact ⟨i, by simp only [eq, if_true]; omega⟩

theorem writers_le : ∀ {α : Type} (t : Threads.Task α), t.writers ≤ holders t
  | _, .run pc _ => by cases pc <;> simp [Threads.Task.writers, holders]
  | _, .join l r _ => by
    have := writers_le l
    have := writers_le r
    simp only [Threads.Task.writers, holders]
    omega

/-- A thread that holds the guard, or any thread while the mutex is free, can make a step. -/
theorem placed_progress {gen : Nat → Cache.Gen Table → Prop} (hg : ∀ k, ∃ o, gen k o) {s : Mem} : ∀ {α : Type}
    (t : Threads.Task α), Placed s t → s.locked = false ∨ 1 ≤ holders t →
    (∃ r, Ended t r) ∨ ∃ s' t', Step gen s t s' t'
  | _, .run .calm (.stop r), _, _ => .inl ⟨r, rfl⟩
  | _, .run .calm (.ask k f), _, _ => by
    by_cases h : s.cell = none
    · exact .inr ⟨_, _, .peekNone h⟩
    · exact .inr ⟨_, _, .peekSome h⟩
  | _, .run .calm (.fork p q f), _, _ => .inr ⟨_, _, .fork⟩
  | _, .run .reading p, h, _ => by
    obtain ⟨h, k, f, rfl⟩ := h
    obtain ⟨m, hm⟩ := Option.ne_none_iff_exists'.1 h
    cases hf : Cache.find m k with
    | none => exact .inr ⟨_, _, .readMiss hm hf⟩
    | some t => exact .inr ⟨_, _, .readHit hm hf⟩
  | _, .run .wantLock p, h, hl => by
    obtain ⟨k, f, rfl⟩ := h
    have hl : s.locked = false := by simpa [holders] using hl
    cases hp : s.poisoned with
    | true => exact .inr ⟨_, _, .lockPoisoned hl hp⟩
    | false =>
      cases hm : s.cell with
      | none => exact .inr ⟨_, _, .lockNone hl hp hm⟩
      | some m =>
        cases hf : Cache.find m k with
        | none => exact .inr ⟨_, _, .lockMiss hl hp hm hf⟩
        | some t => exact .inr ⟨_, _, .lockHave hl hp hm hf⟩
  | _, .run .filling p, h, _ => by
    obtain ⟨_, k, f, rfl⟩ := h
    obtain ⟨o, ho⟩ := hg k
    cases o with
    | panic => exact .inr ⟨_, _, .fillPanic ho⟩
    | err => exact .inr ⟨_, _, .fillErr ho⟩
    | ok t => exact .inr ⟨_, _, .fillOk ho⟩
  | _, .run (.inserting t) p, h, _ => by
    obtain ⟨h, k, f, rfl⟩ := h
    obtain ⟨m, hm⟩ := Option.ne_none_iff_exists'.1 h
    exact .inr ⟨_, _, .insert hm⟩
  | _, .run .building p, h, _ => by
    obtain ⟨hm, k, f, rfl⟩ := h
    obtain ⟨o, ho⟩ := hg k
    cases o with
    | panic => exact .inr ⟨_, _, .buildPanic ho⟩
    | err => exact .inr ⟨_, _, .buildErr ho⟩
    | ok t => exact .inr ⟨_, _, .publish ho hm⟩
  | _, .run .leaving p, h, _ => by
    obtain ⟨k, f, rfl, _⟩ := h
    exact .inr ⟨_, _, .leave⟩
  | _, .run .readingBack p, h, _ => by
    obtain ⟨k, f, rfl, m, t, h1, h2⟩ := h
    exact .inr ⟨_, _, .readBack h1 h2⟩
  | _, .join l r f, h, hl => by
    have none_of : ∀ {t : Threads.Task LWE} {a : Option LWE}, Ended t a → holders t = 0 := by
      rintro _ _ rfl
      rfl
    rcases Nat.eq_zero_or_pos (holders r) with h0 | h0
    · rcases placed_progress hg l h.1 (hl.imp id fun h => by simp only [holders] at h; omega) with ⟨a, ha⟩ | ⟨s', t', h'⟩
      · have hl : s.locked = false := by
          rcases hl with hl | hl
          · exact hl
          · simp only [holders, none_of ha] at hl
            omega
        rcases placed_progress hg r h.2 (.inl hl) with ⟨b, hb⟩ | ⟨s', t', h'⟩
        · rw [ha, hb]
          cases a with
          | none => exact .inr ⟨_, _, .joinPanic (.inl rfl)⟩
          | some a =>
            cases b with
            | none => exact .inr ⟨_, _, .joinPanic (.inr rfl)⟩
            | some b => exact .inr ⟨_, _, .joined⟩
        · exact .inr ⟨_, _, .right h'⟩
      · exact .inr ⟨_, _, .left h'⟩
    · rcases placed_progress hg r h.2 (.inr h0) with ⟨b, hb⟩ | ⟨s', t', h'⟩
      · rw [none_of hb] at h0
        omega
      · exact .inr ⟨_, _, .right h'⟩

/-- C81: the mutex serialises the insertions and never blocks the program. In every schedule of any computations from
any memory with a free mutex, at most one thread modifies the map of the tables, and as long as some thread has not
ended some thread can make a step. -/
theorem C81_no_deadlock {gen : Nat → Cache.Gen Table → Prop} (hg : ∀ k, ∃ o, gen k o) {α : Type} {mem : Mem}
    (hm : mem.locked = false) (p : Nat → Prog α) (l : List Nat) (s : State α)
    (h : Reaches gen (launch mem p) l s) :
    (∀ i, (s.task i).writers ≤ 1) ∧ (∀ i j, i ≠ j → (s.task i).writers + (s.task j).writers ≤ 1) ∧
    ((∀ i, ∃ r, Ended (s.task i) r) ∨ ∃ i mem' t', Step gen s.mem (s.task i) mem' t') := by
  obtain ⟨g1, g2, g3, g4⟩ := reaches_guarded hm h
  have b := Bool.toNat_le s.mem.locked
  refine ⟨fun i => ?_, fun i j hij => ?_, ?_⟩
  · have := writers_le (s.task i)
    have := g2 i
    omega
  · have := writers_le (s.task i)
    have := writers_le (s.task j)
    have := g3 i j hij
    omega
  · cases hl : s.mem.locked with
    | true =>
      obtain ⟨i, hi⟩ := g4 hl
      rcases placed_progress hg (s.task i) (g1 i) (.inr (by omega)) with ⟨r, hr⟩ | ⟨s', t', h'⟩
      · rw [hr] at hi
        simp [holders] at hi
      · exact .inr ⟨i, s', t', h'⟩
    | false =>
      by_cases hall : ∀ i, ∃ r, Ended (s.task i) r
      · exact .inl hall
      · obtain ⟨i, hi⟩ := not_forall.1 hall
        rcases placed_progress hg (s.task i) (g1 i) (.inl hl) with h' | ⟨s', t', h'⟩
        · exact absurd h' hi
        · exact .inr ⟨i, s', t', h'⟩

/-! ## Every schedule ends -/

/-- The steps that a thread has made in the present request. -/
def used : Pc → Nat
  | .calm => 0
  | .reading => 1
  | .wantLock => 2
  | .filling => 3
  | .building => 3
  | .inserting _ => 4
  | .leaving => 5
  | .readingBack => 6

/-- A bound of the steps that the task can still make. -/
def stepsLeft (tbl : Nat → Option Table) {α : Type} : Threads.Task α → Nat
  | .run pc p => 4 * cost tbl p - used pc
  | .join l r f => stepsLeft tbl l + stepsLeft tbl r + 4 + match taskValue tbl l, taskValue tbl r with
    | some a, some b => 4 * cost tbl (f a b)
    | _, _ => 0

theorem step_decreases {tbl : Nat → Option Table} {gen : Nat → Cache.Gen Table → Prop} (hg : OneTable tbl gen)
    {α : Type} {s s' : Mem} {t t' : Threads.Task α} (h : Step gen s t s' t') :
    Agrees tbl s → TaskOk tbl t → stepsLeft tbl t' + 1 ≤ stepsLeft tbl t := by
  induction h with
  | readHit hm ht => intro ha _; simp only [stepsLeft, cost, used, ha _ _ _ hm ht]; omega
  | readBack hm ht => intro ha _; simp only [stepsLeft, cost, used, ha _ _ _ hm ht]; omega
  | @fork α s p q f =>
    intro _ _
    simp only [stepsLeft, cost, used, taskValue]
    cases p.run tbl <;> cases q.run tbl <;> simp only [] <;> omega
  | @left α s s' l l' r f hs ih =>
    intro ha ho
    have h1 := ih ha ho.1
    simp only [stepsLeft]
    rcases (step_sound hg hs ha ho.1).2.2 with h3 | h3
    · rw [h3]; omega
    · rw [h3]; simp only []; omega
  | @right α s s' l r r' f hs ih =>
    intro ha ho
    have h1 := ih ha ho.2
    simp only [stepsLeft]
    rcases (step_sound hg hs ha ho.2).2.2 with h3 | h3
    · rw [h3]; omega
    · rw [h3]
      cases taskValue tbl l <;> simp only [] <;> omega
  | @joined α s a b f =>
    intro _ _
    show 4 * cost tbl (f a b) - 0 + 1 ≤ (4 * 0 - 0) + (4 * 0 - 0) + 4 + 4 * cost tbl (f a b)
    omega
  | joinPanic _ => intro _ _; simp only [stepsLeft, cost, used]; omega
  | _ => intro _ _; simp only [stepsLeft, cost, used]; omega

/-- C81: no schedule goes on for ever. Whatever is in the cache and whatever the other threads do, a thread makes at
most four times the steps that it makes with prepared tables. -/
theorem C81_ends {tbl : Nat → Option Table} {gen : Nat → Cache.Gen Table → Prop} (hg : OneTable tbl gen) {α : Type}
    {mem : Mem} (hm : Agrees tbl mem) (p : Nat → Prog α) (l : List Nat) (s : State α)
    (h : Reaches gen (launch mem p) l s) (i : Nat) : l.count i ≤ 4 * cost tbl (p i) := by
  have key : ∀ i, l.count i + stepsLeft tbl (s.task i) ≤ 4 * cost tbl (p i) := by
    induction h with
    | refl => intro i; simp [launch, stepsLeft, used]
    | @step l s mem' t i hr hs ih =>
      intro j
      obtain ⟨ha, ho⟩ := reaches_sound hg hm hr
      have h1 := step_decreases hg hs ha (ho i).1
      have h2 := ih j
      simp only [Threads.set]
      by_cases hij : j = i
      · subst hij
        rw [List.count_cons_self, if_pos rfl]
        omega
      · rw [List.count_cons_of_ne (Ne.symm hij), if_neg hij]
        exact h2
  have := key i
  omega

/-! ## No failed generation -/

theorem step_keeps {tbl : Nat → Option Table} {gen : Nat → Cache.Gen Table → Prop}
    (hn : ∀ k, ¬ gen k .err ∧ ¬ gen k .panic) {α : Type} {s s' : Mem} {t t' : Threads.Task α}
    (h : Step gen s t s' t') : Agrees tbl s → Placed s t → s.poisoned = false →
    taskValue tbl t' = taskValue tbl t ∧ s'.poisoned = false := by
  induction h with
  | readHit hm ht => exact fun ha _ hq => ⟨by simp [taskValue, Prog.run, ha _ _ _ hm ht], hq⟩
  | readBack hm ht => exact fun ha _ hq => ⟨by simp [taskValue, Prog.run, ha _ _ _ hm ht], hq⟩
  | lockPoisoned _ h => exact fun _ _ hq => by rw [hq] at h; simp at h
  | fillErr h => exact absurd h (hn _).1
  | fillPanic h => exact absurd h (hn _).2
  | buildErr h => exact absurd h (hn _).1
  | buildPanic h => exact absurd h (hn _).2
  | publishTwice h => exact fun _ hp _ => absurd hp.1 h
  | readBackPanic h =>
    rintro _ ⟨k, f, e, m, t, h1, h2⟩ _
    simp only [Prog.ask.injEq] at e
    rw [← e.1, h m h1] at h2
    simp at h2
  | left _ ih =>
    intro ha hp hq
    obtain ⟨h1, h2⟩ := ih ha hp.1 hq
    exact ⟨by simp only [taskValue, h1], h2⟩
  | right _ ih =>
    intro ha hp hq
    obtain ⟨h1, h2⟩ := ih ha hp.2 hq
    exact ⟨by simp only [taskValue, h1], h2⟩
  | joined => exact fun _ _ hq => ⟨by simp [taskValue, Prog.run], hq⟩
  | joinPanic h =>
    refine fun _ _ hq => ⟨?_, hq⟩
    rcases h with rfl | rfl <;> simp [taskValue, Prog.run]
  | _ => exact fun _ _ hq => ⟨rfl, hq⟩

/-- C81: if no generation of a table fails then, without any preparation and in every schedule of any computations, a
thread that has ended has exactly the result, or the panic, of running alone: the lazy initialisation itself never
makes a thread panic. -/
theorem C81_unprepared {tbl : Nat → Option Table} {gen : Nat → Cache.Gen Table → Prop} (hg : OneTable tbl gen)
    (hn : ∀ k, ¬ gen k .err ∧ ¬ gen k .panic) {α : Type} (p : Nat → Prog α) (l : List Nat) (s : State α)
    (h : Reaches gen (launch Mem.init p) l s) (i : Nat) (r : Option α) (he : Ended (s.task i) r) :
    r = (p i).run tbl := by
  have hm : Agrees tbl Mem.init := by
    intro m k t h
    simp [Mem.init] at h
  have key : s.mem.poisoned = false ∧ ∀ i, taskValue tbl (s.task i) = (p i).run tbl := by
    clear he
    induction h with
    | refl => exact ⟨rfl, fun i => rfl⟩
    | @step l s mem' t i hr hs ih =>
      obtain ⟨ha, _⟩ := reaches_sound hg hm hr
      obtain ⟨h1, h2⟩ := step_keeps (tbl := tbl) hn hs ha ((reaches_guarded rfl hr).1 i) ih.1
      refine ⟨h2, fun j => ?_⟩
      simp only [Threads.set]
      split
      · subst_vars; rw [h1]; exact ih.2 _
      · exact ih.2 j
  have := key.2 i
  rw [he] at this
  exact this

-- a generation that never fails: the table that the random generation gives for the sizes up to `2^20`, else any table
example : ∃ gen : Nat → Cache.Gen Table → Prop, ∃ tbl, OneTable tbl gen ∧ (∀ k, ¬ gen k .err ∧ ¬ gen k .panic) ∧
    (∀ k, ∃ o, gen k o) ∧ ∀ k ≤ 20, ∀ t, gen k (.ok t) → Outcome 32 132120577 defaultBarrett none k (.ok t) := by
  have h : ∀ k, ∃ t, k ≤ 20 → nativeCtx.tbl k = some t := by
    intro k
    by_cases hk : k ≤ 20
    · obtain ⟨_, _, _, _, t, _, _, _, ht⟩ := native_table hk
      exact ⟨t, fun _ => ht⟩
    · obtain ⟨_, _, _, _, t, _, _, _, ht⟩ := native_table (k := 1) (by decide)
      exact ⟨t, fun h => absurd h hk⟩
  choose f hf using h
  refine ⟨fun k o => o = .ok (f k), fun k => some (f k), ?_, fun k => ⟨by simp, by simp⟩, fun k => ⟨_, rfl⟩, ?_⟩
  · intro k t h
    rw [Cache.Gen.ok.inj h]
  · intro k hk t h
    rw [Cache.Gen.ok.inj h]
    exact native_outcome k _ (hf k hk)

end Verif.Props
