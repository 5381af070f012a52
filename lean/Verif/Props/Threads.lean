import Verif.SpecThreads
import Verif.Lemmas.Threads
import Verif.Props.Cache
import Verif.Props.KeysExist
import Verif.Props.Scratch
import Verif.Props.Determinism

/-! # C81: gates may be called from any number of threads -/

namespace Verif.Props
open Spec Threads

/-! ## Any schedule, any memory -/

/-- What the task will return if all its requests are answered by `tbl`. -/
def taskValue (tbl : Nat → Option Table) {α : Type} : Threads.Task α → Option α
  | .run _ p => p.run tbl
  | .join l r f => (taskValue tbl l).bind fun a => (taskValue tbl r).bind fun b => (f a b).run tbl

/-- The tables about to be inserted are those of `tbl`. -/
def TaskOk (tbl : Nat → Option Table) {α : Type} : Threads.Task α → Prop
  | .run (.inserting t) (.ask k _) => tbl k = some t
  | .run _ _ => True
  | .join l r _ => TaskOk tbl l ∧ TaskOk tbl r

theorem agrees_insert {tbl : Nat → Option Table} {s : Mem} {m : List (Nat × Table)} {k : Nat} {t : Table}
    (h : ∀ j u, Cache.find m j = some u → tbl j = some u) (ht : tbl k = some t) :
    Agrees tbl { s with cell := some (Cache.insert m k t) } := by
  intro m' j u hm hu
  simp only [Option.some.injEq] at hm
  subst hm
  rw [find_insert] at hu
  split at hu
  · subst_vars; rw [ht, ← hu]
  · exact h j u hu

theorem step_sound {tbl : Nat → Option Table} {gen : Nat → Cache.Gen Table → Prop} (hg : OneTable tbl gen)
    {α : Type} {s s' : Mem} {t t' : Threads.Task α} (h : Step gen s t s' t') :
    Agrees tbl s → TaskOk tbl t → Agrees tbl s' ∧ TaskOk tbl t' ∧
      (taskValue tbl t' = taskValue tbl t ∨ taskValue tbl t' = none) := by
  induction h with
  | peekNone _ => exact fun ha _ => ⟨ha, trivial, .inl rfl⟩
  | peekSome _ => exact fun ha _ => ⟨ha, trivial, .inl rfl⟩
  | readHit hm ht => exact fun ha _ => ⟨ha, trivial, .inl (by simp [taskValue, Prog.run, ha _ _ _ hm ht])⟩
  | readMiss _ _ => exact fun ha _ => ⟨ha, trivial, .inl rfl⟩
  | lockPoisoned _ _ => exact fun ha _ => ⟨ha, trivial, .inr rfl⟩
  | lockHave _ _ _ _ => exact fun ha _ => ⟨ha, trivial, .inl rfl⟩
  | lockMiss _ _ _ _ => exact fun ha _ => ⟨ha, trivial, .inl rfl⟩
  | lockNone _ _ _ => exact fun ha _ => ⟨ha, trivial, .inl rfl⟩
  | fillErr _ => exact fun ha _ => ⟨ha, trivial, .inr rfl⟩
  | fillPanic _ => exact fun ha _ => ⟨ha, trivial, .inr rfl⟩
  | fillOk h => exact fun ha _ => ⟨ha, hg _ _ h, .inl rfl⟩
  | insert hm => exact fun ha ho => ⟨agrees_insert (fun j u hu => ha _ j u hm hu) ho, trivial, .inl rfl⟩
  | buildErr _ => exact fun ha _ => ⟨ha, trivial, .inr rfl⟩
  | buildPanic _ => exact fun ha _ => ⟨ha, trivial, .inr rfl⟩
  | publish h _ =>
    exact fun ha _ => ⟨agrees_insert (fun j u hu => by simp [Cache.find] at hu) (hg _ _ h), trivial, .inl rfl⟩
  | publishTwice _ => exact fun ha _ => ⟨ha, trivial, .inr rfl⟩
  | leave => exact fun ha _ => ⟨ha, trivial, .inl rfl⟩
  | readBack hm ht => exact fun ha _ => ⟨ha, trivial, .inl (by simp [taskValue, Prog.run, ha _ _ _ hm ht])⟩
  | readBackPanic _ => exact fun ha _ => ⟨ha, trivial, .inr rfl⟩
  | fork => exact fun ha _ => ⟨ha, ⟨by cases ‹Prog LWE› <;> trivial, by trivial⟩, .inl rfl⟩
  | left _ ih =>
    intro ha ho
    obtain ⟨h1, h2, h3⟩ := ih ha ho.1
    refine ⟨h1, ⟨h2, ho.2⟩, ?_⟩
    rcases h3 with h3 | h3 <;> simp [taskValue, h3]
  | right _ ih =>
    intro ha ho
    obtain ⟨h1, h2, h3⟩ := ih ha ho.2
    refine ⟨h1, ⟨ho.1, h2⟩, ?_⟩
    rcases h3 with h3 | h3 <;> simp [taskValue, h3]
  | joined => exact fun ha _ => ⟨ha, trivial, .inl (by simp [taskValue, Prog.run])⟩
  | joinPanic _ => exact fun ha _ => ⟨ha, trivial, .inr rfl⟩

theorem reaches_sound {tbl : Nat → Option Table} {gen : Nat → Cache.Gen Table → Prop} (hg : OneTable tbl gen)
    {α : Type} {mem : Mem} (hm : Agrees tbl mem) {p : Nat → Prog α} {l : List Nat} {s : State α}
    (h : Reaches gen (launch mem p) l s) : Agrees tbl s.mem ∧ ∀ i, TaskOk tbl (s.task i) ∧
      (taskValue tbl (s.task i) = (p i).run tbl ∨ taskValue tbl (s.task i) = none) := by
  induction h with
  | refl => exact ⟨hm, fun i => ⟨trivial, .inl rfl⟩⟩
  | @step l s mem' t i _ hs ih =>
    obtain ⟨h1, h2, h3⟩ := step_sound hg hs ih.1 (ih.2 i).1
    refine ⟨h1, fun j => ?_⟩
    simp only [Threads.set]
    split
    · subst_vars
      refine ⟨h2, ?_⟩
      rcases h3 with h3 | h3
      · rw [h3]; exact (ih.2 _).2
      · exact .inr h3
    · exact ih.2 j

/-- C81: whatever the other threads do and whatever is in the cache, in every schedule: a thread that ends without
a panic has the result it computes alone. -/
theorem C81_results {tbl : Nat → Option Table} {gen : Nat → Cache.Gen Table → Prop} (hg : OneTable tbl gen)
    {α : Type} {mem : Mem} (hm : Agrees tbl mem) (p : Nat → Prog α) (l : List Nat) (s : State α)
    (h : Reaches gen (launch mem p) l s) (i : Nat) (a : α) (he : Ended (s.task i) (some a)) :
    (p i).run tbl = some a := by
  rcases ((reaches_sound hg hm h).2 i).2 with h | h <;> rw [he] at h
  · exact h.symm
  · simp [taskValue, Prog.run] at h

/-! ## What is in the memory after a computation -/

/-- The task still asks for size `k`. -/
def Pending (tbl : Nat → Option Table) (k : Nat) {α : Type} : Threads.Task α → Prop
  | .run _ p => Requests tbl k p
  | .join l r f => Pending tbl k l ∨ Pending tbl k r ∨
      ∃ a b, taskValue tbl l = some a ∧ taskValue tbl r = some b ∧ Requests tbl k (f a b)

theorem holds_insert {s : Mem} {m : List (Nat × Table)} {j k : Nat} {t : Table}
    (h : (∃ u, Cache.find m j = some u) ∨ j = k) : Holds { s with cell := some (Cache.insert m k t) } j := by
  refine ⟨_, if j = k then t else (Cache.find m j).getD t, rfl, ?_⟩
  rw [find_insert]
  rcases h with ⟨u, h⟩ | h
  · split <;> simp_all
  · simp [h]

theorem step_holds {gen : Nat → Cache.Gen Table → Prop} {α : Type} {s s' : Mem} {t t' : Threads.Task α}
    (h : Step gen s t s' t') : ∀ k, Holds s k → Holds s' k := by
  induction h with
  | insert hm =>
    rintro k ⟨m, u, h1, h2⟩
    rw [hm] at h1
    obtain rfl := Option.some.inj h1
    exact holds_insert (.inl ⟨u, h2⟩)
  | publish _ hn =>
    rintro k ⟨m, u, h1, h2⟩
    rw [hn] at h1
    simp at h1
  | left _ ih => exact ih
  | right _ ih => exact ih
  | _ => exact fun _ h => h

theorem step_pending {tbl : Nat → Option Table} {gen : Nat → Cache.Gen Table → Prop} (hg : OneTable tbl gen)
    {k : Nat} {α : Type} {s s' : Mem} {t t' : Threads.Task α} (h : Step gen s t s' t') :
    Agrees tbl s → TaskOk tbl t → Pending tbl k t → Pending tbl k t' ∨ Holds s' k ∨ taskValue tbl t' = none := by
  induction h with
  | readHit hm ht =>
    intro ha _ hp
    rcases hp with rfl | ⟨u, hu, hp⟩
    · exact .inr (.inl ⟨_, _, hm, ht⟩)
    · rw [ha _ _ _ hm ht] at hu
      obtain rfl := Option.some.inj hu
      exact .inl hp
  | readBack hm ht =>
    intro ha _ hp
    rcases hp with rfl | ⟨u, hu, hp⟩
    · exact .inr (.inl ⟨_, _, hm, ht⟩)
    · rw [ha _ _ _ hm ht] at hu
      obtain rfl := Option.some.inj hu
      exact .inl hp
  | lockPoisoned _ _ => exact fun _ _ _ => .inr (.inr rfl)
  | fillErr _ => exact fun _ _ _ => .inr (.inr rfl)
  | fillPanic _ => exact fun _ _ _ => .inr (.inr rfl)
  | buildErr _ => exact fun _ _ _ => .inr (.inr rfl)
  | buildPanic _ => exact fun _ _ _ => .inr (.inr rfl)
  | publishTwice _ => exact fun _ _ _ => .inr (.inr rfl)
  | readBackPanic _ => exact fun _ _ _ => .inr (.inr rfl)
  | joinPanic _ => exact fun _ _ _ => .inr (.inr rfl)
  | fork => exact fun _ _ hp => .inl hp
  | left hs ih =>
    intro ha ho hp
    have h3 := (step_sound hg hs ha ho.1).2.2
    rcases hp with hp | hp | ⟨a, b, h1, h2, hp⟩
    · rcases ih ha ho.1 hp with h | h | h
      · exact .inl (.inl h)
      · exact .inr (.inl h)
      · exact .inr (.inr (by simp [taskValue, h]))
    · exact .inl (.inr (.inl hp))
    · rcases h3 with h3 | h3
      · exact .inl (.inr (.inr ⟨a, b, by rw [h3, h1], h2, hp⟩))
      · exact .inr (.inr (by simp [taskValue, h3]))
  | right hs ih =>
    intro ha ho hp
    have h3 := (step_sound hg hs ha ho.2).2.2
    rcases hp with hp | hp | ⟨a, b, h1, h2, hp⟩
    · exact .inl (.inl hp)
    · rcases ih ha ho.2 hp with h | h | h
      · exact .inl (.inr (.inl h))
      · exact .inr (.inl h)
      · exact .inr (.inr (by simp [taskValue, h]))
    · rcases h3 with h3 | h3
      · exact .inl (.inr (.inr ⟨a, b, h1, by rw [h3, h2], hp⟩))
      · exact .inr (.inr (by simp [taskValue, h3]))
  | joined =>
    intro _ _ hp
    rcases hp with hp | hp | ⟨a, b, h1, h2, hp⟩
    · exact hp.elim
    · exact hp.elim
    · simp only [taskValue, Prog.run, Option.some.injEq] at h1 h2
      subst h1 h2
      exact .inl hp
  | _ => exact fun _ _ hp => .inl hp

/-- C81: tables stay. When a thread has ended without a panic, the table of every size it asked for is in the cache,
and it is the right one. -/
theorem C81_tables_stay {tbl : Nat → Option Table} {gen : Nat → Cache.Gen Table → Prop} (hg : OneTable tbl gen)
    {α : Type} {mem : Mem} (hm : Agrees tbl mem) (p : Nat → Prog α) (l : List Nat) (s : State α)
    (h : Reaches gen (launch mem p) l s) :
    Agrees tbl s.mem ∧ (∀ k, Holds mem k → Holds s.mem k) ∧
    ∀ i a, Ended (s.task i) (some a) → ∀ k, Requests tbl k (p i) → Holds s.mem k := by
  refine ⟨(reaches_sound hg hm h).1, ?_, ?_⟩
  · induction h with
    | refl => exact fun _ h => h
    | step i _ hs ih => exact fun k hk => step_holds hs k (ih k hk)
  · intro i a he k hk
    have key : Pending tbl k (s.task i) ∨ Holds s.mem k ∨ taskValue tbl (s.task i) = none := by
      clear he
      induction h with
      | refl => exact .inl hk
      | @step l s mem' t j hr hs ih =>
        obtain ⟨h1, h2⟩ := reaches_sound hg hm hr
        simp only [Threads.set]
        by_cases hij : i = j
        · subst hij
          simp only [if_true]
          rcases ih with ih | ih | ih
          · exact step_pending hg hs h1 (h2 i).1 ih
          · exact .inr (.inl (step_holds hs k ih))
          · rcases (step_sound hg hs h1 (h2 i).1).2.2 with h | h
            · exact .inr (.inr (h.trans ih))
            · exact .inr (.inr h)
        · simp only [hij, if_false]
          rcases ih with ih | ih | ih
          · exact .inl ih
          · exact .inr (.inl (step_holds hs k ih))
          · exact .inr (.inr ih)
    rw [he] at key
    rcases key with h | h | h
    · exact h.elim
    · exact h
    · simp [taskValue, Prog.run] at h

/-! ## The tables are there -/

/-- The task only looks up tables. -/
def LooksOnly {α : Type} : Threads.Task α → Prop
  | .run .calm _ => True
  | .run .reading p => ∃ k f, p = .ask k f
  | .run _ _ => False
  | .join l r _ => LooksOnly l ∧ LooksOnly r

/-- The steps the task will still make. -/
def taskCost (tbl : Nat → Option Table) {α : Type} : Threads.Task α → Nat
  | .run .reading p => cost tbl p - 1
  | .run _ p => cost tbl p
  | .join l r f => taskCost tbl l + taskCost tbl r + 1 + match taskValue tbl l, taskValue tbl r with
    | some a, some b => cost tbl (f a b)
    | _, _ => 0

theorem step_quiet {tbl : Nat → Option Table} {gen : Nat → Cache.Gen Table → Prop} {α : Type} {s s' : Mem}
    {t t' : Threads.Task α} (h : Step gen s t s' t') :
    Agrees tbl s → LooksOnly t → (∀ k, Pending tbl k t → Holds s k) →
    s' = s ∧ LooksOnly t' ∧ (∀ k, Pending tbl k t' → Pending tbl k t) ∧ taskValue tbl t' = taskValue tbl t ∧
      taskCost tbl t = taskCost tbl t' + 1 := by
  induction h with
  | peekNone hn =>
    intro _ _ hp
    obtain ⟨m, t, h, _⟩ := hp _ (.inl rfl)
    rw [hn] at h
    simp at h
  | peekSome _ =>
    refine fun _ _ _ => ⟨rfl, ⟨_, _, rfl⟩, fun _ h => h, rfl, ?_⟩
    simp only [taskCost, cost]
    omega
  | readHit hm ht =>
    intro ha _ _
    have e := ha _ _ _ hm ht
    refine ⟨rfl, trivial, fun k h => .inr ⟨_, e, h⟩, by simp [taskValue, Prog.run, e], ?_⟩
    simp only [taskCost, cost, e]
    omega
  | readMiss hm ht =>
    intro _ _ hp
    obtain ⟨m, t, h, h'⟩ := hp _ (.inl rfl)
    rw [hm] at h
    obtain rfl := Option.some.inj h
    rw [ht] at h'
    simp at h'
  | @fork α s p q f =>
    refine fun _ _ _ => ⟨rfl, ⟨trivial, trivial⟩, fun _ h => h, rfl, ?_⟩
    simp only [taskCost, cost, taskValue]
    cases p.run tbl <;> cases q.run tbl <;> simp only [] <;> omega
  | left _ ih =>
    intro ha hq hp
    obtain ⟨h1, h2, h3, h4, h5⟩ := ih ha hq.1 fun k h => hp k (.inl h)
    refine ⟨h1, ⟨h2, hq.2⟩, ?_, by simp only [taskValue, h4], by simp only [taskCost, h4, h5]; omega⟩
    rintro k (h | h | ⟨a, b, e1, e2, h⟩)
    · exact .inl (h3 k h)
    · exact .inr (.inl h)
    · exact .inr (.inr ⟨a, b, by rw [← h4, e1], e2, h⟩)
  | right _ ih =>
    intro ha hq hp
    obtain ⟨h1, h2, h3, h4, h5⟩ := ih ha hq.2 fun k h => hp k (.inr (.inl h))
    refine ⟨h1, ⟨hq.1, h2⟩, ?_, by simp only [taskValue, h4], by simp only [taskCost, h4, h5]; omega⟩
    rintro k (h | h | ⟨a, b, e1, e2, h⟩)
    · exact .inl h
    · exact .inr (.inl (h3 k h))
    · exact .inr (.inr ⟨a, b, e1, by rw [← h4, e2], h⟩)
  | joined =>
    refine fun _ _ _ => ⟨rfl, trivial, fun k h => .inr (.inr ⟨_, _, rfl, rfl, h⟩), by simp [taskValue, Prog.run], ?_⟩
    simp only [taskCost, cost, taskValue, Prog.run]
    omega
  | joinPanic h =>
    refine fun _ _ _ => ⟨rfl, trivial, fun k h => h.elim, ?_, ?_⟩
    · rcases h with rfl | rfl <;> simp [taskValue, Prog.run]
    · rcases h with rfl | rfl <;> simp [taskCost, cost, taskValue, Prog.run]
  | _ => exact fun _ hq _ => hq.elim

theorem quiet_progress {tbl : Nat → Option Table} {gen : Nat → Cache.Gen Table → Prop} {s : Mem} : ∀ {α : Type}
    (t : Threads.Task α), LooksOnly t → (∀ k, Pending tbl k t → Holds s k) →
    (∃ r, Ended t r) ∨ ∃ t', Step gen s t s t'
  | _, .run .calm (.stop r), _, _ => .inl ⟨r, rfl⟩
  | _, .run .calm (.ask k f), _, hp => by
    obtain ⟨m, t, h, _⟩ := hp _ (.inl rfl)
    exact .inr ⟨_, .peekSome (by rw [h]; simp)⟩
  | _, .run .calm (.fork p q f), _, _ => .inr ⟨_, .fork⟩
  | _, .run .reading p, hq, hp => by
    obtain ⟨k, f, rfl⟩ := hq
    obtain ⟨m, t, h, h'⟩ := hp _ (.inl rfl)
    exact .inr ⟨_, .readHit h h'⟩
  | _, .join l r f, hq, hp => by
    rcases quiet_progress l hq.1 (fun k h => hp k (.inl h)) with ⟨a, rfl⟩ | ⟨t', h⟩
    · rcases quiet_progress r hq.2 (fun k h => hp k (.inr (.inl h))) with ⟨b, rfl⟩ | ⟨t', h⟩
      · cases a with
        | none => exact .inr ⟨_, .joinPanic (.inl rfl)⟩
        | some a =>
          cases b with
          | none => exact .inr ⟨_, .joinPanic (.inr rfl)⟩
          | some b => exact .inr ⟨_, .joined⟩
      · exact .inr ⟨_, .right h⟩
    · exact .inr ⟨_, .left h⟩

theorem quiet_writers : ∀ {α : Type} (t : Threads.Task α), LooksOnly t → t.writers = 0
  | _, .run .calm _, _ => rfl
  | _, .run .reading _, _ => rfl
  | _, .join l r _, h => by
    simp only [Threads.Task.writers, quiet_writers l h.1, quiet_writers r h.2]

theorem quiet_reaches {tbl : Nat → Option Table} {gen : Nat → Cache.Gen Table → Prop} {α : Type} {mem : Mem}
    (hm : Agrees tbl mem) {p : Nat → Prog α} (hp : ∀ i k, Requests tbl k (p i) → Holds mem k) {l : List Nat}
    {s : State α} (h : Reaches gen (launch mem p) l s) :
    s.mem = mem ∧ ∀ i, LooksOnly (s.task i) ∧ (∀ k, Pending tbl k (s.task i) → Holds mem k) ∧
      taskValue tbl (s.task i) = (p i).run tbl ∧ l.count i + taskCost tbl (s.task i) = cost tbl (p i) := by
  induction h with
  | refl => exact ⟨rfl, fun i => ⟨trivial, hp i, rfl, by simp [launch, taskCost]⟩⟩
  | @step l s mem' t i _ hs ih =>
    obtain ⟨h1, h2⟩ := ih
    obtain ⟨q, pe, v, c⟩ := h2 i
    rw [h1] at hs
    obtain ⟨e, q', pe', v', c'⟩ := step_quiet (tbl := tbl) hs hm q pe
    refine ⟨e, fun j => ?_⟩
    simp only [Threads.set]
    by_cases hij : j = i
    · subst hij
      simp only [if_true]
      refine ⟨q', fun k h => pe k (pe' k h), v'.trans v, ?_⟩
      rw [List.count_cons_self]
      omega
    · simp only [hij, if_false]
      obtain ⟨q, pe, v, c⟩ := h2 j
      refine ⟨q, pe, v, ?_⟩
      rw [List.count_cons_of_ne (Ne.symm hij)]
      exact c

theorem ended_cost {tbl : Nat → Option Table} {gen : Nat → Cache.Gen Table → Prop} {α : Type} {mem : Mem}
    (hm : Agrees tbl mem) {t : Threads.Task α} (hq : LooksOnly t) (hp : ∀ k, Pending tbl k t → Holds mem k) :
    (∃ r, Ended t r) ↔ taskCost tbl t = 0 := by
  constructor
  · rintro ⟨r, rfl⟩; rfl
  · intro h0
    rcases quiet_progress (gen := gen) t hq hp with h | ⟨t', h⟩
    · exact h
    · have := (step_quiet (tbl := tbl) h hm hq hp).2.2.2.2
      omega

/-- C81: when the cache holds the tables of all sizes that the threads ask for, then in every schedule of any number
of threads: the shared memory never changes and there is no data race; a thread that has ended has exactly the result,
or the panic, of running alone; a thread that has not ended can make a step, whatever the others are doing; it ends
after a number of steps of its own that does not depend on the others. -/
theorem C81_prepared {tbl : Nat → Option Table} {gen : Nat → Cache.Gen Table → Prop} {α : Type} {mem : Mem}
    (hm : Agrees tbl mem) (p : Nat → Prog α) (hp : ∀ i k, Requests tbl k (p i) → Holds mem k) (l : List Nat)
    (s : State α) (h : Reaches gen (launch mem p) l s) :
    s.mem = mem ∧ ¬ Race s ∧ ∀ i,
      (∀ r, Ended (s.task i) r → r = (p i).run tbl) ∧
      ((¬ ∃ r, Ended (s.task i) r) → ∃ t, Step gen s.mem (s.task i) s.mem t) ∧
      l.count i ≤ cost tbl (p i) ∧ ((∃ r, Ended (s.task i) r) ↔ l.count i = cost tbl (p i)) := by
  obtain ⟨h1, h2⟩ := quiet_reaches hm hp h
  refine ⟨h1, ?_, fun i => ?_⟩
  · rintro (⟨i, h, _⟩ | ⟨i, j, _, h, _⟩) <;> rw [quiet_writers _ (h2 i).1] at h <;> omega
  · obtain ⟨q, pe, v, c⟩ := h2 i
    have hc := ended_cost (gen := gen) hm q pe
    refine ⟨?_, ?_, by omega, hc.trans ⟨fun h => by omega, fun h => by omega⟩⟩
    · intro r hr
      rw [hr] at v
      exact v
    · intro hn
      rw [h1]
      rcases quiet_progress (gen := gen) _ q pe with h | h
      · exact (hn h).elim
      · exact h

/-! ## Which tables the gates and the key generation ask for -/

theorem requests_bind {tbl : Nat → Option Table} {k : Nat} {α β : Type} : ∀ (p : Prog α) (g : α → Prog β),
    Requests tbl k (p >>= g) ↔ Requests tbl k p ∨ ∃ a, p.run tbl = some a ∧ Requests tbl k (g a)
  | .stop none, g => by
    show Requests tbl k (Prog.stop none) ↔ _
    simp [Requests, Prog.run]
  | .stop (some a), g => by
    show Requests tbl k (g a) ↔ _
    simp [Requests, Prog.run]
  | .ask j f, g => by
    show Requests tbl k (Prog.ask j fun t => f t >>= g) ↔ _
    simp only [Requests, Prog.run, requests_bind (f _) g]
    cases tbl j with
    | none => simp
    | some t => simp [or_assoc]
  | .fork p q f, g => by
    show Requests tbl k (Prog.fork p q fun a b => f a b >>= g) ↔ _
    simp only [Requests, Prog.run, requests_bind (f _ _) g]
    cases p.run tbl with
    | none => simp
    | some a =>
      cases q.run tbl with
      | none => simp
      | some b => simp [or_assoc]

/-- The computation asks for sizes in `S` only. -/
def AsksIn (tbl : Nat → Option Table) (S : Nat → Prop) {α : Type} (p : Prog α) : Prop :=
  ∀ k, Requests tbl k p → S k

section Sizes
variable {tbl : Nat → Option Table} {S : Nat → Prop}

theorem asks_bind {α β : Type} {p : Prog α} {g : α → Prog β} (h : AsksIn tbl S p)
    (hg : ∀ a, p.run tbl = some a → AsksIn tbl S (g a)) : AsksIn tbl S (p >>= g) := by
  intro k hk
  rcases (requests_bind p g).1 hk with hk | ⟨a, e, hk⟩
  · exact h k hk
  · exact hg a e k hk

theorem asks_stop {α : Type} (o : Option α) : AsksIn tbl S (.stop o) := fun _ h => h.elim

theorem asks_pure {α : Type} (a : α) : AsksIn tbl S (pure a : Prog α) := fun _ h => h.elim

theorem asks_lift {α β : Type} {o : Option α} {g : α → Prog β} (hg : ∀ a, o = some a → AsksIn tbl S (g a)) :
    AsksIn tbl S ((liftM o : Prog α) >>= g) := asks_bind (asks_stop o) hg

theorem asks_tableFor {n : Nat} (hn : S (trailingZeros 64 n)) : AsksIn tbl S (Prog.tableFor n) := by
  intro k hk
  unfold Prog.tableFor at hk
  split at hk
  · rcases hk with rfl | ⟨t, _, h⟩
    · exact hn
    · exact h.elim
  · exact hk.elim

theorem asks_toNtt {R : Ctx} {a : List Nat} (hn : S (trailingZeros 64 a.length)) : AsksIn tbl S (Prog.toNtt R a) :=
  asks_bind (asks_tableFor hn) fun _ _ => asks_stop _

theorem asks_ofNtt {R : Ctx} {a : List Nat} (hn : S (trailingZeros 64 a.length)) : AsksIn tbl S (Prog.ofNtt R a) :=
  asks_bind (asks_tableFor hn) fun _ _ => asks_stop _

theorem asks_toCoeff {R : Ctx} {n : Nat} {x : NTTRLWE} (hx : SizedNTT n x) (hn : S (trailingZeros 64 n)) :
    AsksIn tbl S (Prog.toCoeff R x) :=
  asks_bind (asks_ofNtt (by rwa [hx.1])) fun _ _ => asks_bind (asks_ofNtt (by rwa [hx.2])) fun _ _ => asks_pure _

theorem asks_gadgetLoop {R : Ctx} {B : Basis} {n : Nat} (hn : S (trailingZeros 64 n)) :
    ∀ (gs : List NTTRLWE) (p : List Nat) (x : NTTRLWE), p.length = n → AsksIn tbl S (Prog.gadgetLoop R B gs p x)
  | [], _, _, _ => asks_pure _
  | g :: gs, p, x, hp => by
    refine asks_lift fun ⟨d, p'⟩ e => ?_
    have h1 := decomposeLsb_length e
    refine asks_bind (asks_toNtt (by rwa [h1.1, hp])) fun _ _ => asks_lift fun _ _ => ?_
    exact asks_gadgetLoop hn gs _ _ (h1.2.trans hp)

end Sizes

section Sizes
variable {R : Ctx} (hR : SliceTables R) {S : Nat → Prop} {n : Nat} (hn : S (trailingZeros 64 n))
include hR hn

theorem asks_mulAssign {x : RLWE} {g : NTTRGSW} {m : NTTRLWE} (hx : SizedRLWE n x) (hm : SizedNTT n m) :
    AsksIn R.tbl S (Prog.mulAssignNttRgsw R x g m) ∧
    ∀ r m', RLWE.mulAssignNttRgsw R x g m = some (r, m') → SizedRLWE n r ∧ SizedNTT n m' := by
  have h0 : SizedNTT n m.setZero := by rw [setZero_sized hm]; exact zero_sized n
  have sized : ∀ {B : Basis} {gs p y o}, SizedNTT n y →
      NTTRLWE.gadgetLoop R B (NTTRLWE.addMulFast R) gs p y = some o → SizedNTT n o :=
    fun hy h => gadgetLoop_sized (fun _ _ _ _ => addMulFast_sized) hy h
  constructor
  · refine asks_bind (asks_gadgetLoop hn _ _ _ hx.1) fun y e => asks_bind (asks_gadgetLoop hn _ _ _ hx.2) fun z e' => ?_
    rw [Prog.gadgetLoop_run] at e e'
    exact asks_bind (asks_toCoeff (sized (sized h0 e) e') hn) fun _ _ => asks_pure _
  · intro r m' h
    obtain ⟨y, e, h⟩ := bind_some_iff.1 h
    obtain ⟨z, e', h⟩ := bind_some_iff.1 h
    obtain ⟨r', e'', h⟩ := bind_some_iff.1 h
    simp only [Option.pure_def, Option.some.injEq, Prod.mk.injEq] at h
    obtain ⟨rfl, rfl⟩ := h
    have hz := sized (sized h0 e) e'
    exact ⟨toCoeff_sized hR hz e'', hz⟩

/-- All parts of the state of a rotation have length `n`. -/
def SizedState (n : Nat) (st : BlindRotation.State) : Prop :=
  SizedRLWE n st.acc ∧ SizedRLWE n st.ext ∧ SizedNTT n st.median

theorem asks_update {m : Nat} {st : BlindRotation.State} (hs : SizedState n st) (key : NTTRGSW) (a : Nat) :
    AsksIn R.tbl S (Prog.update R m st key a) ∧
    ∀ st', BlindRotation.update R m st key a = some st' → SizedState n st' := by
  constructor
  · refine asks_lift fun ext e => ?_
    refine asks_bind (asks_mulAssign hR hn (monomial_sized hs.2.1 e) hs.2.2).1 fun _ _ => ?_
    exact asks_lift fun _ _ => asks_pure _
  · intro st' h
    obtain ⟨ext, e, h⟩ := bind_some_iff.1 h
    obtain ⟨⟨ext', med⟩, e', h⟩ := bind_some_iff.1 h
    obtain ⟨acc, e'', h⟩ := bind_some_iff.1 h
    simp only [Option.pure_def, Option.some.injEq] at h
    subst h
    have := (asks_mulAssign hR hn (monomial_sized hs.2.1 e) hs.2.2).2 _ _ e'
    exact ⟨rlweAdd_sized hs.1 e'', this.1, this.2⟩

theorem asks_rotationLoop {K : Type} {step : BlindRotation.State → K → Nat → Prog BlindRotation.State}
    (hs : ∀ st k a, SizedState n st → AsksIn R.tbl S (step st k a) ∧
      ∀ st', (step st k a).run R.tbl = some st' → SizedState n st') :
    ∀ (ks : List K) (as : List Nat) (st : BlindRotation.State), SizedState n st →
      AsksIn R.tbl S (Prog.rotationLoop step ks as st) ∧
      ∀ st', (Prog.rotationLoop step ks as st).run R.tbl = some st' → SizedState n st'
  | [], _, st, h => by
    simp only [Prog.rotationLoop]
    exact ⟨asks_pure _, fun st' e => by rw [Prog.run_pure] at e; exact Option.some.inj e ▸ h⟩
  | _ :: _, [], st, h => by
    simp only [Prog.rotationLoop]
    exact ⟨asks_pure _, fun st' e => by rw [Prog.run_pure] at e; exact Option.some.inj e ▸ h⟩
  | k :: ks, a :: as, st, h => by
    simp only [Prog.rotationLoop]
    obtain ⟨h1, h2⟩ := hs st k a h
    refine ⟨asks_bind h1 fun st' e => (asks_rotationLoop hs ks as st' (h2 st' e)).1, fun st'' e => ?_⟩
    rw [Prog.run_bind] at e
    obtain ⟨st', e1, e2⟩ := Option.bind_eq_some_iff.1 e
    exact (asks_rotationLoop hs ks as st' (h2 st' e1)).2 st'' e2

theorem asks_rotate {lut : List Nat} (hl : lut.length = n) (c : LWE) (key : RotationKey) :
    AsksIn R.tbl S (Prog.rotate R lut c key) ∧ ∀ r, key.rotate R lut c = some r → SizedRLWE n r := by
  have hinit : ∀ {l : List Nat}, l.length = n → SizedState n (BlindRotation.init l) := by
    rintro l rfl
    exact ⟨by simp [BlindRotation.init, SizedRLWE, Poly.zero], by simp [BlindRotation.init, SizedRLWE, Poly.zero],
      zero_sized _⟩
  have hb : ∀ m st k a, SizedState n st → AsksIn R.tbl S (Prog.binaryStep R m st k a) ∧
      ∀ st', (Prog.binaryStep R m st k a).run R.tbl = some st' → SizedState n st' := by
    intro m st k a h
    unfold Prog.binaryStep
    split
    · exact ⟨asks_pure _, fun st' e => by rw [Prog.run_pure] at e; exact Option.some.inj e ▸ h⟩
    · rw [Prog.update_run]
      exact asks_update hR hn h k a
  have ht : ∀ t m st k a, SizedState n st → AsksIn R.tbl S (Prog.ternaryStep R t m st k a) ∧
      ∀ st', (Prog.ternaryStep R t m st k a).run R.tbl = some st' → SizedState n st' := by
    intro t m st k a h
    unfold Prog.ternaryStep
    split
    · exact ⟨asks_pure _, fun st' e => by rw [Prog.run_pure] at e; exact Option.some.inj e ▸ h⟩
    · refine ⟨asks_lift fun _ _ => asks_lift fun _ _ => asks_lift fun ek _ => (asks_update hR hn h ek a).1, ?_⟩
      intro st' e
      simp only [Prog.run_bind, Prog.run_lift, Prog.update_run] at e
      obtain ⟨_, _, e⟩ := Option.bind_eq_some_iff.1 e
      obtain ⟨_, _, e⟩ := Option.bind_eq_some_iff.1 e
      obtain ⟨ek, _, e⟩ := Option.bind_eq_some_iff.1 e
      exact (asks_update hR hn h ek a).2 st' e
  rw [← Prog.rotate_run]
  cases key with
  | binary key =>
    constructor
    · refine asks_lift fun l e => ?_
      have hl' := (rotateLut_length e).trans hl
      exact asks_bind (asks_rotationLoop hR hn (hb _) key c.a _ (hinit hl')).1 fun _ _ => asks_pure _
    · intro r e
      simp only [Prog.rotate, Prog.run_bind, Prog.run_lift, Prog.run_pure] at e
      obtain ⟨l, el, e⟩ := Option.bind_eq_some_iff.1 e
      obtain ⟨st, es, e⟩ := Option.bind_eq_some_iff.1 e
      have hl' := (rotateLut_length el).trans hl
      obtain rfl := Option.some.inj e
      exact ((asks_rotationLoop hR hn (hb _) key c.a _ (hinit hl')).2 _ es).1
  | ternary key =>
    constructor
    · refine asks_bind (asks_tableFor (by rwa [hl])) fun t _ => asks_lift fun l e => ?_
      have hl' := (rotateLut_length e).trans hl
      exact asks_bind (asks_rotationLoop hR hn (ht t _) key c.a _ (hinit hl')).1 fun _ _ => asks_pure _
    · intro r e
      simp only [Prog.rotate, Prog.run_bind, Prog.run_lift, Prog.run_pure] at e
      obtain ⟨t, _, e⟩ := Option.bind_eq_some_iff.1 e
      obtain ⟨l, el, e⟩ := Option.bind_eq_some_iff.1 e
      obtain ⟨st, es, e⟩ := Option.bind_eq_some_iff.1 e
      have hl' := (rotateLut_length el).trans hl
      obtain rfl := Option.some.inj e
      exact ((asks_rotationLoop hR hn (ht t _) key c.a _ (hinit hl')).2 _ es).1

omit hR in
theorem asks_switchLoop : ∀ (key : List NTTGadgetRLWE) (ps : List (List Nat)) (x : NTTRLWE),
    (∀ p ∈ ps, p.length = n) → AsksIn R.tbl S (Prog.switchLoop R key ps x)
  | [], _, _, _ => by simp only [Prog.switchLoop]; exact asks_pure _
  | _ :: _, [], _, _ => by simp only [Prog.switchLoop]; exact asks_pure _
  | g :: gs, p :: ps, x, hp => by
    simp only [Prog.switchLoop]
    refine asks_lift fun p' e => ?_
    have hl : p'.length = n := (mapM_keeps_length e).trans (hp p (by simp))
    exact asks_bind (asks_gadgetLoop hn _ _ _ hl) fun _ _ => asks_switchLoop gs ps _ fun p h => hp p (by simp [h])

end Sizes

theorem asks_keySwitch {R : Ctx} {S : Nat → Prop} {dim : Nat} (hn : S (trailingZeros 64 (RlweSwitch.nextPow2 dim)))
    (key : List NTTGadgetRLWE) (x : RLWE) : AsksIn R.tbl S (Prog.keySwitchRlwe R dim key x) := by
  refine asks_lift fun b _ => asks_lift fun ps e => ?_
  have hp : ∀ p ∈ ps, p.length = RlweSwitch.nextPow2 dim := by
    unfold RlweSwitch.rlweChunks at e
    split at e
    · obtain ⟨a, _, e⟩ := bind_some_iff.1 e
      exact mapM_chunks (fun _ _ => negHeadReverse_length) (fun p hp => chunks_length hp) e
    · obtain rfl := Option.some.inj e
      exact fun p hp => chunks_length hp
  refine asks_bind (asks_switchLoop hn key ps _ hp) fun y e => ?_
  rw [Prog.switchLoop_run] at e
  have hy : SizedNTT (RlweSwitch.nextPow2 dim) y := switch_loop_sized (by simp [SizedNTT, Poly.zero]) e
  exact asks_bind (asks_toCoeff hy hn) fun _ _ => asks_stop _

theorem split_length {n step mid v0 v1 : Nat} {o : List Nat} (h : Lut.split n step mid v0 v1 = some o) :
    o.length = n := by
  unfold Lut.split at h
  split at h
  · simp at h
  · obtain rfl := Option.some.inj h
    rename_i hm
    simp only [Lut.fill, List.length_append, List.length_mapIdx, List.length_take, List.length_drop, Poly.zero,
      List.length_replicate]
    omega

/-- A look-up table of the evaluator. -/
def TableOfLength (lut : Ctx → Nat → Nat → Option (List Nat)) : Prop :=
  ∀ R n step l, lut R n step = some l → l.length = n

theorem luts_length : TableOfLength Lut.nand ∧ TableOfLength Lut.andMajority ∧ TableOfLength Lut.or ∧
    TableOfLength Lut.nor ∧ TableOfLength Lut.xor ∧ TableOfLength Lut.xnor := by
  refine ⟨?_, ?_, ?_, ?_, ?_, ?_⟩ <;>
  · intro R n step l h
    obtain ⟨_, _, h⟩ := bind_some_iff.1 h
    obtain ⟨_, _, h⟩ := bind_some_iff.1 h
    exact split_length h

section Gates
variable {K : EvalKey} (hR : SliceTables K.R) (hsw : ∀ dim key, K.sw = .rlwe dim key → dim = K.P.n)
include hR hsw

theorem asks_bootstrap {lut : List Nat} (hl : lut.length = K.P.ringDimension) (c : LWE) :
    AsksIn K.R.tbl (GateSize K.P) (Prog.bootstrap K c lut) := by
  refine asks_lift fun c' _ => asks_bind ?_ fun acc e => ?_
  · exact asks_bind (asks_rotate hR (.inl rfl) hl c' K.rot).1 fun _ _ => asks_stop _
  · unfold Prog.finish
    cases hs : K.P.steps with
    | brMsKs =>
      refine asks_lift fun x _ => ?_
      cases K.sw with
      | lwe B dim key => exact asks_lift fun _ _ => asks_stop _
      | rlwe _ _ => exact asks_stop _
      | none => exact asks_stop _
    | brKsMs =>
      cases h : K.sw with
      | lwe B dim key => exact asks_stop _
      | rlwe dim key =>
        obtain rfl := hsw _ _ h
        exact asks_bind (asks_keySwitch (.inr ⟨hs, rfl⟩) key acc) fun _ _ => asks_stop _
      | none => exact asks_stop _
    | brMs => exact asks_lift fun x _ => asks_stop _

theorem asks_sumGate {lut : Ctx → Nat → Nat → Option (List Nat)} (hl : TableOfLength lut) (c0 c1 : LWE) :
    AsksIn K.R.tbl (GateSize K.P) (Prog.sumGate K lut c0 c1) :=
  asks_lift fun _ _ => asks_lift fun _ _ => asks_lift fun _ _ => asks_lift fun _ e =>
    asks_bootstrap hR hsw (hl _ _ _ _ e) _

theorem asks_diffGate {lut : Ctx → Nat → Nat → Option (List Nat)} (hl : TableOfLength lut) (c0 c1 : LWE) :
    AsksIn K.R.tbl (GateSize K.P) (Prog.diffGate K lut c0 c1) :=
  asks_lift fun _ _ => asks_lift fun _ _ => asks_lift fun _ _ => asks_lift fun _ _ => asks_lift fun _ e =>
    asks_bootstrap hR hsw (hl _ _ _ _ e) _

theorem asks_majority (c0 c1 c2 : LWE) : AsksIn K.R.tbl (GateSize K.P) (Prog.majority K c0 c1 c2) :=
  asks_lift fun _ _ => asks_lift fun _ _ => asks_lift fun _ _ => asks_lift fun _ _ => asks_lift fun _ e =>
    asks_bootstrap hR hsw (luts_length.2.1 _ _ _ _ e) _

theorem asks_mux (c0 c1 c2 : LWE) : AsksIn K.R.tbl (GateSize K.P) (Prog.mux K c0 c1 c2) := by
  refine asks_lift fun n0 _ => ?_
  rintro k (h | h | ⟨a, b, _, _, h⟩)
  · exact asks_sumGate hR hsw luts_length.2.1 c0 c1 k h
  · exact asks_sumGate hR hsw luts_length.2.1 n0 c2 k h
  · refine (asks_lift fun _ _ => asks_lift fun _ _ => asks_lift fun _ _ => asks_lift fun _ e => ?_ :
      AsksIn K.R.tbl (GateSize K.P) (Prog.muxEnd K a b)) k h
    exact asks_bootstrap hR hsw (luts_length.2.2.1 _ _ _ _ e) _

end Gates

theorem asks_exec {A : App} (hR : SliceTables A.evaluator.R)
    (hsw : ∀ dim key, A.evaluator.sw = .rlwe dim key → dim = A.evaluator.P.n) (cs : List LWE) (x : Call) :
    AsksIn A.evaluator.R.tbl (GateSize A.evaluator.P) (Prog.exec A cs x) := by
  obtain ⟨h1, h2, h3, h4, h5, h6⟩ := luts_length
  cases x with
  | nand i j => exact asks_lift fun _ _ => asks_lift fun _ _ => asks_bind (asks_sumGate hR hsw h1 _ _) fun _ _ => asks_pure _
  | and i j => exact asks_lift fun _ _ => asks_lift fun _ _ => asks_bind (asks_sumGate hR hsw h2 _ _) fun _ _ => asks_pure _
  | or i j => exact asks_lift fun _ _ => asks_lift fun _ _ => asks_bind (asks_sumGate hR hsw h3 _ _) fun _ _ => asks_pure _
  | nor i j => exact asks_lift fun _ _ => asks_lift fun _ _ => asks_bind (asks_sumGate hR hsw h4 _ _) fun _ _ => asks_pure _
  | xor i j => exact asks_lift fun _ _ => asks_lift fun _ _ => asks_bind (asks_diffGate hR hsw h5 _ _) fun _ _ => asks_pure _
  | xnor i j => exact asks_lift fun _ _ => asks_lift fun _ _ => asks_bind (asks_diffGate hR hsw h6 _ _) fun _ _ => asks_pure _
  | majority i j k =>
    exact asks_lift fun _ _ => asks_lift fun _ _ => asks_lift fun _ _ =>
      asks_bind (asks_majority hR hsw _ _ _) fun _ _ => asks_pure _
  | mux i j k =>
    exact asks_lift fun _ _ => asks_lift fun _ _ => asks_lift fun _ _ =>
      asks_bind (asks_mux hR hsw _ _ _) fun _ _ => asks_pure _
  | _ => exact asks_stop _

theorem asks_calls {A : App} (hR : SliceTables A.evaluator.R)
    (hsw : ∀ dim key, A.evaluator.sw = .rlwe dim key → dim = A.evaluator.P.n) : ∀ (xs : List Call) (cs : List LWE),
    AsksIn A.evaluator.R.tbl (GateSize A.evaluator.P) (Prog.calls A xs cs)
  | [], _ => asks_pure _
  | x :: xs, cs => asks_bind (asks_exec hR hsw cs x) fun ⟨cs', r⟩ _ =>
      asks_bind (asks_calls hR hsw xs cs') fun _ _ => asks_pure _

theorem requests_toNtt {R : Ctx} {a o : List Nat} (h : Poly.toNtt R.w R.M R.tbl a = some o) :
    Requests R.tbl (trailingZeros 64 a.length) (Prog.toNtt R a) := by
  refine (requests_bind _ _).2 (.inl ?_)
  obtain ⟨t, e, _⟩ := bind_some_iff.1 h
  unfold Poly.tableFor at e
  unfold Prog.tableFor
  split at e
  · rename_i hp
    rw [if_pos hp]
    exact .inl rfl
  · simp at e

theorem lweKey_length {P : Params} {words : Nat → Nat} {lwe : List Nat} (h : KeyPack.lweKey P words = some lwe) :
    lwe.length = P.n := by
  unfold KeyPack.lweKey at h
  cases ht : P.lweKeyType with
  | binary =>
    rw [ht] at h
    obtain rfl := Option.some.inj h
    exact (fillVec_spec _ _ _ (by decide) _ _).1
  | ternary =>
    rw [ht] at h
    obtain ⟨m, _, h⟩ := bind_some_iff.1 h
    obtain rfl := Option.some.inj h
    exact (fillVec_spec _ _ _ (by decide) _ _).1

theorem ringKey_length {R : Ctx} {P : Params} {lwe ring : List Nat} {d : KeyDraws} (hl : lwe.length = P.n)
    (hd : P.ringKeyType = .gaussian → P.ringDimension ≤ d.gauss.length)
    (h : KeyPack.ringKey R P lwe d = some ring) : ring.length = P.ringDimension := by
  have h1 : (Sample.binaryVec d.ring P.ringDimension).length = P.ringDimension :=
    (fillVec_spec _ _ _ (by decide) _ _).1
  have h2 : ∀ l, Sample.ternaryVec R.M d.ring P.ringDimension = some l → l.length = P.ringDimension := by
    intro l h
    obtain ⟨m, _, h⟩ := bind_some_iff.1 h
    obtain rfl := Option.some.inj h
    exact (fillVec_spec _ _ _ (by decide) _ _).1
  unfold KeyPack.ringKey at h
  cases hs : P.steps with
  | brMsKs =>
    cases ht : P.ringKeyType <;> simp only [hs, ht] at h
    · exact Option.some.inj h ▸ h1
    · exact h2 _ h
    · simp at h
  | brKsMs =>
    cases ht : P.ringKeyType <;> simp only [hs, ht] at h
    · exact Option.some.inj h ▸ h1
    · exact h2 _ h
    · obtain rfl := Option.some.inj h
      rw [List.length_take]
      exact Nat.min_eq_left (hd ht)
  | brMs =>
    simp only [hs] at h
    split at h
    · rename_i hc
      obtain ⟨m, _, h⟩ := bind_some_iff.1 h
      obtain rfl := Option.some.inj h
      rw [List.length_map, hl, hc.2]
    · simp at h

/-- C81: a successful start of an application asks for every table that its gates will need. -/
theorem C81_start_requests {R : Ctx} {w : Nat} {P : Params} {dk : KeyDraws} {d : EvalDraws} {A : App}
    (hd : P.ringKeyType = .gaussian → P.ringDimension ≤ dk.gauss.length) (h : App.start w R P dk d = some A) :
    A.evaluator.R = R ∧ A.evaluator.P = P ∧ (∀ dim key, A.evaluator.sw = .rlwe dim key → dim = P.n) ∧
    ∀ k, GateSize P k → Requests R.tbl k (Prog.start w R P dk d) := by
  have hrun := Prog.start_run R w P dk d
  rw [h, Prog.start, Prog.run_bind] at hrun
  obtain ⟨pack, ep, hrun⟩ := Option.bind_eq_some_iff.1 hrun
  rw [Prog.run_bind] at hrun
  obtain ⟨K, eK, hrun⟩ := Option.bind_eq_some_iff.1 hrun
  obtain rfl := Option.some.inj hrun
  have ep0 := ep
  simp only [Prog.keyPack, Prog.run_bind, Prog.run_lift, Prog.run_pure, Prog.toNtt_run] at ep
  obtain ⟨lwe, e1, ep⟩ := Option.bind_eq_some_iff.1 ep
  obtain ⟨ring, e2, ep⟩ := Option.bind_eq_some_iff.1 ep
  obtain ⟨rn, e3, ep⟩ := Option.bind_eq_some_iff.1 ep
  have hl := lweKey_length e1
  have hr := ringKey_length hl hd e2
  have epk : pack = ⟨lwe, ring, rn⟩ := (Option.some.inj ep).symm
  have eK0 := eK
  simp only [Prog.evalKey, Prog.run_bind, Prog.run_pure] at eK
  obtain ⟨rot, er, eK⟩ := Option.bind_eq_some_iff.1 eK
  obtain ⟨sw, es, eK⟩ := Option.bind_eq_some_iff.1 eK
  obtain rfl := Option.some.inj eK
  refine ⟨rfl, rfl, ?_, ?_⟩
  · intro dim key hk
    simp only at hk
    subst hk
    unfold Prog.switchKey at es
    cases hs : P.steps <;> simp only [hs, Prog.run_bind, Prog.run_lift, Prog.run_pure] at es
    · obtain ⟨_, _, es⟩ := Option.bind_eq_some_iff.1 es
      obtain ⟨_, _, es⟩ := Option.bind_eq_some_iff.1 es
      simp at es
    · obtain ⟨_, _, es⟩ := Option.bind_eq_some_iff.1 es
      simp only [Option.some.injEq, SwitchKey.rlwe.injEq] at es
      exact es.1.symm
    · simp at es
  · rintro k (rfl | ⟨hs, rfl⟩)
    · refine (requests_bind _ _).2 (.inl ?_)
      refine (requests_bind _ _).2 (.inr ⟨lwe, e1, ?_⟩)
      refine (requests_bind _ _).2 (.inr ⟨ring, e2, ?_⟩)
      refine (requests_bind _ _).2 (.inl ?_)
      rw [← hr]
      exact requests_toNtt e3
    · refine (requests_bind _ _).2 (.inr ⟨pack, ep0, ?_⟩)
      refine (requests_bind _ _).2 (.inl ?_)
      refine (requests_bind _ _).2 (.inr ⟨rot, er, ?_⟩)
      refine (requests_bind _ _).2 (.inl ?_)
      simp only [Prog.switchKey, hs] at es ⊢
      refine (requests_bind _ _).2 (.inl ?_)
      rw [Prog.run_bind] at es
      obtain ⟨key, ek, _⟩ := Option.bind_eq_some_iff.1 es
      have hlen : pack.lwe.length = P.n := by rw [epk]; exact hl
      simp only [Prog.rlweSwitchKey] at ek ⊢
      split at ek
      · rename_i hle
        rw [if_pos hle]
        simp only [Prog.run_bind, Prog.run_lift, Prog.toNtt_run] at ek
        obtain ⟨B, f1, ek⟩ := Option.bind_eq_some_iff.1 ek
        obtain ⟨m, f2, ek⟩ := Option.bind_eq_some_iff.1 ek
        obtain ⟨sn, f3, ek⟩ := Option.bind_eq_some_iff.1 ek
        refine (requests_bind _ _).2 (.inr ⟨B, f1, ?_⟩)
        refine (requests_bind _ _).2 (.inr ⟨m, f2, ?_⟩)
        refine (requests_bind _ _).2 (.inl ?_)
        have := requests_toNtt f3
        have hle' := le_nextPow2 pack.lwe.length
        rw [List.length_append, List.length_map, List.length_replicate, Nat.add_sub_cancel' hle', hlen] at this
        rw [hlen]
        exact this
      · simp [Prog.run] at ek

/-! ## The start of an application -/

/-- The computation forks nowhere. -/
def ForkFree {α : Type} : Prog α → Prop
  | .stop _ => True
  | .ask _ f => ∀ t, ForkFree (f t)
  | .fork _ _ _ => False

theorem forkFree_bind {α β : Type} : ∀ {p : Prog α} {g : α → Prog β}, ForkFree p → (∀ a, ForkFree (g a)) →
    ForkFree (p >>= g)
  | .stop none, _, _, _ => trivial
  | .stop (some a), _, _, hg => hg a
  | .ask _ _, _, hp, hg => fun t => forkFree_bind (hp t) hg

theorem forkFree_lift {α β : Type} {o : Option α} {g : α → Prog β} (hg : ∀ a, ForkFree (g a)) :
    ForkFree ((liftM o : Prog α) >>= g) := forkFree_bind (p := .stop o) trivial hg

theorem forkFree_toNtt (R : Ctx) (a : List Nat) : ForkFree (Prog.toNtt R a) := by
  refine forkFree_bind ?_ fun _ => trivial
  unfold Prog.tableFor
  split
  · exact fun _ => trivial
  · trivial

theorem forkFree_zeroSample (R : Ctx) (s a e : List Nat) : ForkFree (Prog.zeroSample R s a e) := by
  unfold Prog.zeroSample
  split
  · exact forkFree_bind (forkFree_toNtt _ _) fun _ => forkFree_lift fun _ => trivial
  · trivial

theorem forkFree_valueSample (R : Ctx) (s : List Nat) (v : Nat) (a e : List Nat) :
    ForkFree (Prog.valueSample R s v a e) := by
  unfold Prog.valueSample
  split
  · exact forkFree_lift fun _ => forkFree_bind (forkFree_toNtt _ _) fun _ => forkFree_lift fun _ => trivial
  · trivial

theorem forkFree_negSecretElement (R : Ctx) (s : List Nat) (v : Nat) (a e : List Nat) :
    ForkFree (Prog.negSecretElement R s v a e) :=
  forkFree_bind (forkFree_zeroSample _ _ _ _) fun _ => forkFree_lift fun _ => trivial

theorem forkFree_generateLoop (R : Ctx) {f : Nat → List Nat → List Nat → Prog NTTRLWE}
    (hf : ∀ v a e, ForkFree (f v a e)) (basis : Nat) : ∀ (k power : Nat) (ds : List Draw),
    ForkFree (Prog.generateLoop R f basis k power ds)
  | 0, _, [] => by simp only [Prog.generateLoop]; trivial
  | _ + 1, _, [] => by simp only [Prog.generateLoop]; trivial
  | 0, _, (a, e) :: _ => by
    simp only [Prog.generateLoop]
    exact forkFree_bind (hf _ _ _) fun _ => trivial
  | k + 1, _, (a, e) :: ds => by
    simp only [Prog.generateLoop]
    exact forkFree_bind (hf _ _ _) fun _ => forkFree_lift fun _ =>
      forkFree_bind (forkFree_generateLoop R hf basis k _ ds) fun _ => trivial

theorem forkFree_rgswOne (R : Ctx) (s : List Nat) (B : Basis) (d : BlindRotation.RgswDraw) :
    ForkFree (Prog.rgswOne R s B d) :=
  forkFree_bind (forkFree_lift fun _ =>
    forkFree_bind (forkFree_generateLoop R (forkFree_negSecretElement R s) _ _ _ _) fun _ => trivial) fun _ =>
  forkFree_bind (forkFree_lift fun _ =>
    forkFree_bind (forkFree_generateLoop R (forkFree_valueSample R s) _ _ _ _) fun _ => trivial) fun _ => trivial

theorem forkFree_zeroLoop (R : Ctx) (s : List Nat) : ∀ ds : List Draw, ForkFree (Prog.zeroLoop R s ds)
  | [] => trivial
  | (_, _) :: ds => forkFree_bind (forkFree_zeroSample _ _ _ _) fun _ =>
      forkFree_bind (forkFree_zeroLoop R s ds) fun _ => trivial

theorem forkFree_rgswZero (R : Ctx) (s : List Nat) (B : Basis) (d : BlindRotation.RgswDraw) :
    ForkFree (Prog.rgswZero R s B d) := by
  have h : ∀ ds, ForkFree (Prog.gadgetZero R s B ds) := by
    intro ds
    unfold Prog.gadgetZero
    split
    · exact forkFree_bind (forkFree_zeroLoop R s _) fun _ => trivial
    · trivial
  exact forkFree_bind (h _) fun _ => forkFree_bind (h _) fun _ => trivial

theorem forkFree_binaryGenerate (R : Ctx) (sn : List Nat) (B : Basis) : ∀ (ss : List Nat)
    (ds : List BlindRotation.RgswDraw), ForkFree (Prog.binaryGenerate R sn B ss ds)
  | [], _ => by simp only [Prog.binaryGenerate]; trivial
  | _ :: _, [] => trivial
  | s :: ss, d :: ds => by
    refine forkFree_bind ?_ fun _ => forkFree_bind (forkFree_binaryGenerate R sn B ss ds) fun _ => trivial
    unfold Prog.binaryKey
    split
    · exact forkFree_rgswZero _ _ _ _
    · exact forkFree_rgswOne _ _ _ _

theorem forkFree_ternaryGenerate (R : Ctx) (sn : List Nat) (B : Basis) : ∀ (ss : List Nat)
    (ds : List (BlindRotation.RgswDraw × BlindRotation.RgswDraw)), ForkFree (Prog.ternaryGenerate R sn B ss ds)
  | [], _ => by simp only [Prog.ternaryGenerate]; trivial
  | _ :: _, [] => trivial
  | s :: ss, d :: ds => by
    refine forkFree_bind ?_ fun _ => forkFree_bind (forkFree_ternaryGenerate R sn B ss ds) fun _ => trivial
    have h0 := fun d => forkFree_rgswZero R sn B d
    have h1 := fun d => forkFree_rgswOne R sn B d
    unfold Prog.ternaryKey
    split
    · exact forkFree_bind (h1 _) fun _ => forkFree_bind (h0 _) fun _ => trivial
    split
    · exact forkFree_bind (h0 _) fun _ => forkFree_bind (h0 _) fun _ => trivial
    · exact forkFree_bind (h0 _) fun _ => forkFree_bind (h1 _) fun _ => trivial

theorem forkFree_samples (R : Ctx) (sn : List Nat) (basis : Nat) : ∀ (cnt : Nat) (z : List Nat) (ds : List Draw),
    ForkFree (Prog.samples R sn basis cnt z ds)
  | 0, _, _ => by simp only [Prog.samples]; trivial
  | 1, _, [] => trivial
  | _ + 2, _, [] => trivial
  | 1, _, (_, _) :: _ => by
    simp only [Prog.samples]
    exact forkFree_bind (forkFree_zeroSample _ _ _ _) fun _ => forkFree_lift fun _ => trivial
  | cnt + 2, _, (_, _) :: ds => by
    simp only [Prog.samples]
    exact forkFree_bind (forkFree_zeroSample _ _ _ _) fun _ => forkFree_lift fun _ => forkFree_lift fun _ =>
      forkFree_bind (forkFree_samples R sn basis (cnt + 1) _ ds) fun _ => trivial

theorem forkFree_element (R : Ctx) (B : Basis) (sn : List Nat) (basis : Nat) (z : List Nat) (ds : List Draw) :
    ForkFree (Prog.element R B sn basis z ds) := by
  refine forkFree_bind (forkFree_samples _ _ _ _ _ _) fun data => ?_
  split <;> trivial

theorem forkFree_elements (R : Ctx) (B : Basis) (sn : List Nat) (basis : Nat) (d : Nat → List Draw) :
    ∀ (c : Nat) (zs : List (List Nat)), ForkFree (Prog.elements R B sn basis d c zs)
  | _, [] => trivial
  | c, z :: zs => forkFree_bind (forkFree_toNtt _ _) fun _ => forkFree_bind (forkFree_element _ _ _ _ _ _) fun _ =>
      forkFree_bind (forkFree_elements R B sn basis d (c + 1) zs) fun _ => trivial

theorem forkFree_start (R : Ctx) (w : Nat) (P : Params) (dk : KeyDraws) (d : EvalDraws) :
    ForkFree (Prog.start w R P dk d) := by
  refine forkFree_bind ?_ fun pack => forkFree_bind ?_ fun _ => trivial
  · exact forkFree_lift fun _ => forkFree_lift fun _ => forkFree_bind (forkFree_toNtt _ _) fun _ => trivial
  · refine forkFree_bind ?_ fun _ => forkFree_bind ?_ fun _ => trivial
    · unfold Prog.rotationKey
      cases P.lweKeyType
      · exact forkFree_bind (forkFree_binaryGenerate _ _ _ _ _) fun _ => trivial
      · exact forkFree_bind (forkFree_ternaryGenerate _ _ _ _ _) fun _ => trivial
    · unfold Prog.switchKey
      cases P.steps
      · exact forkFree_lift fun _ => forkFree_lift fun _ => trivial
      · refine forkFree_bind ?_ fun _ => trivial
        unfold Prog.rlweSwitchKey
        dsimp only
        split
        · refine forkFree_lift fun _ => forkFree_lift fun _ => forkFree_bind (forkFree_toNtt _ _) fun _ =>
            forkFree_lift fun _ => ?_
          unfold Prog.keyParts
          split
          · exact forkFree_bind (forkFree_element _ _ _ _ _ _) fun _ => trivial
          · exact forkFree_elements _ _ _ _ _ _ _
        · trivial
      · trivial

/-- The position of a thread that is alone: the mutex is held exactly inside `init_ntt_table`, and the cell is set
exactly when the position says so. -/
def FitsAlone (mem : Mem) {α : Type} : Threads.Task α → Prop
  | .run .calm p => mem.locked = false ∧ ForkFree p
  | .run .reading p => mem.locked = false ∧ mem.cell ≠ none ∧ ForkFree p ∧ ∃ k f, p = .ask k f
  | .run .wantLock p => mem.locked = false ∧ ForkFree p ∧ ∃ k f, p = .ask k f
  | .run .filling p => mem.locked = true ∧ mem.cell ≠ none ∧ ForkFree p ∧ ∃ k f, p = .ask k f
  | .run (.inserting _) p => mem.locked = true ∧ mem.cell ≠ none ∧ ForkFree p ∧ ∃ k f, p = .ask k f
  | .run .building p => mem.locked = true ∧ mem.cell = none ∧ ForkFree p ∧ ∃ k f, p = .ask k f
  | .run .leaving p => mem.locked = true ∧ ForkFree p ∧ ∃ k f, p = .ask k f
  | .run .readingBack p => mem.locked = false ∧ ForkFree p ∧ ∃ k f, p = .ask k f
  | .join _ _ _ => False

theorem step_fits {gen : Nat → Cache.Gen Table → Prop} {α : Type} {s s' : Mem} {t t' : Threads.Task α}
    (h : Step gen s t s' t') : FitsAlone s t → FitsAlone s' t' := by
  cases h with
  | peekNone h => exact fun hf => ⟨hf.1, hf.2, _, _, rfl⟩
  | peekSome h => exact fun hf => ⟨hf.1, h, hf.2, _, _, rfl⟩
  | readHit _ _ => exact fun hf => ⟨hf.1, hf.2.2.1 _⟩
  | readMiss _ _ => exact fun hf => ⟨hf.1, hf.2.2.1, _, _, rfl⟩
  | lockPoisoned _ _ => exact fun hf => ⟨hf.1, trivial⟩
  | lockHave _ _ _ _ => exact fun hf => ⟨rfl, hf.2.1, _, _, rfl⟩
  | lockMiss _ _ h _ => exact fun hf => ⟨rfl, by simp [h], hf.2.1, _, _, rfl⟩
  | lockNone _ _ h => exact fun hf => ⟨rfl, h, hf.2.1, _, _, rfl⟩
  | fillErr _ => exact fun hf => ⟨rfl, trivial⟩
  | fillPanic _ => exact fun hf => ⟨rfl, trivial⟩
  | fillOk _ => exact fun hf => hf
  | insert _ => exact fun hf => ⟨hf.1, hf.2.2.1, _, _, rfl⟩
  | buildErr _ => exact fun hf => ⟨rfl, trivial⟩
  | buildPanic _ => exact fun hf => ⟨rfl, trivial⟩
  | publish _ _ => exact fun hf => ⟨hf.1, hf.2.2.1, _, _, rfl⟩
  | publishTwice _ => exact fun hf => ⟨rfl, trivial⟩
  | leave => exact fun hf => ⟨rfl, hf.2.1, _, _, rfl⟩
  | readBack _ _ => exact fun hf => ⟨hf.1, hf.2.1 _⟩
  | readBackPanic _ => exact fun hf => ⟨hf.1, trivial⟩
  | fork => exact fun hf => hf.2
  | left _ => exact fun hf => hf
  | right _ => exact fun hf => hf
  | joined => exact fun hf => hf.elim
  | joinPanic _ => exact fun hf => hf.elim

theorem fits_progress {gen : Nat → Cache.Gen Table → Prop} (hg : ∀ k, ∃ o, gen k o) {α : Type} {s : Mem} :
    ∀ (t : Threads.Task α), FitsAlone s t → (∃ r, Ended t r) ∨ ∃ s' t', Step gen s t s' t'
  | .run .calm (.stop r), _ => .inl ⟨r, rfl⟩
  | .run .calm (.ask k f), _ => by
    by_cases h : s.cell = none
    · exact .inr ⟨_, _, .peekNone h⟩
    · exact .inr ⟨_, _, .peekSome h⟩
  | .run .calm (.fork p q f), h => h.2.elim
  | .run .reading p, h => by
    obtain ⟨_, h, _, k, f, rfl⟩ := h
    obtain ⟨m, hm⟩ := Option.ne_none_iff_exists'.1 h
    cases hf : Cache.find m k with
    | none => exact .inr ⟨_, _, .readMiss hm hf⟩
    | some t => exact .inr ⟨_, _, .readHit hm hf⟩
  | .run .wantLock p, h => by
    obtain ⟨hl, _, k, f, rfl⟩ := h
    cases hp : s.poisoned with
    | true => exact .inr ⟨_, _, .lockPoisoned hl hp⟩
    | false =>
      cases hm : s.cell with
      | none => exact .inr ⟨_, _, .lockNone hl hp hm⟩
      | some m =>
        cases hf : Cache.find m k with
        | none => exact .inr ⟨_, _, .lockMiss hl hp hm hf⟩
        | some t => exact .inr ⟨_, _, .lockHave hl hp hm hf⟩
  | .run .filling p, h => by
    obtain ⟨_, _, _, k, f, rfl⟩ := h
    obtain ⟨o, ho⟩ := hg k
    cases o with
    | panic => exact .inr ⟨_, _, .fillPanic ho⟩
    | err => exact .inr ⟨_, _, .fillErr ho⟩
    | ok t => exact .inr ⟨_, _, .fillOk ho⟩
  | .run (.inserting t) p, h => by
    obtain ⟨_, h, _, k, f, rfl⟩ := h
    obtain ⟨m, hm⟩ := Option.ne_none_iff_exists'.1 h
    exact .inr ⟨_, _, .insert hm⟩
  | .run .building p, h => by
    obtain ⟨_, hm, _, k, f, rfl⟩ := h
    obtain ⟨o, ho⟩ := hg k
    cases o with
    | panic => exact .inr ⟨_, _, .buildPanic ho⟩
    | err => exact .inr ⟨_, _, .buildErr ho⟩
    | ok t => exact .inr ⟨_, _, .publish ho hm⟩
  | .run .leaving p, h => by
    obtain ⟨_, _, k, f, rfl⟩ := h
    exact .inr ⟨_, _, .leave⟩
  | .run .readingBack p, h => by
    obtain ⟨_, _, k, f, rfl⟩ := h
    by_cases h : ∃ m t, s.cell = some m ∧ Cache.find m k = some t
    · obtain ⟨m, t, h1, h2⟩ := h
      exact .inr ⟨_, _, .readBack h1 h2⟩
    · refine .inr ⟨_, _, .readBackPanic fun m hm => ?_⟩
      cases hf : Cache.find m k with
      | none => rfl
      | some t => exact (h ⟨m, t, hm, hf⟩).elim

theorem fits_accesses {mem : Mem} {α : Type} (t : Threads.Task α) (h : FitsAlone mem t) : t.writers + t.readers ≤ 1 := by
  cases t with
  | run pc p => cases pc <;> simp [Threads.Task.writers, Threads.Task.readers]
  | join l r f => exact h.elim

theorem alone_fits {gen : Nat → Cache.Gen Table → Prop} {α : Type} {p : Prog α} (hp : ForkFree p) {mem : Mem}
    (hm : mem.locked = false) {l : List Nat} {s : State α} (h : Reaches gen (launch mem (alone p)) l s) :
    FitsAlone s.mem (s.task 0) ∧ ∀ i, i ≠ 0 → s.task i = .run .calm (.stop none) := by
  induction h with
  | refl => exact ⟨⟨hm, by simpa [alone] using hp⟩, fun i hi => by simp [launch, alone, hi]⟩
  | @step l s mem' t i _ hs ih =>
    by_cases hi : i = 0
    · subst hi
      exact ⟨by simpa [Threads.set] using step_fits hs ih.1, fun j hj => by simpa [Threads.set, hj] using ih.2 j hj⟩
    · rw [ih.2 i hi] at hs
      cases hs

theorem no_race_alone {gen : Nat → Cache.Gen Table → Prop} {α : Type} {p : Prog α} (hp : ForkFree p) {mem : Mem}
    (hm : mem.locked = false) {l : List Nat} {s : State α} (h : Reaches gen (launch mem (alone p)) l s) :
    ¬ Race s := by
  obtain ⟨h1, h2⟩ := alone_fits hp hm h
  have h3 := fits_accesses _ h1
  have h4 : ∀ i, i ≠ 0 → (s.task i).writers = 0 ∧ (s.task i).readers = 0 := by
    intro i hi
    rw [h2 i hi]
    exact ⟨rfl, rfl⟩
  rintro (⟨i, h5, h6⟩ | ⟨i, j, hij, h5, h6⟩)
  · by_cases hi : i = 0
    · subst hi; omega
    · have := h4 i hi; omega
  · by_cases hi : i = 0
    · have := h4 j (by omega); omega
    · have := h4 i hi; omega

theorem reaches_trans {gen : Nat → Cache.Gen Table → Prop} {α : Type} {s0 s1 s2 : State α} {l1 l2 : List Nat}
    (h1 : Reaches gen s0 l1 s1) (h2 : Reaches gen s1 l2 s2) : Reaches gen s0 (l2 ++ l1) s2 := by
  induction h2 with
  | refl => exact h1
  | step i _ hs ih => exact .step i ih hs

/-- The thread runs through, if the generation succeeds. -/
theorem alone_runs {tbl : Nat → Option Table} {gen : Nat → Cache.Gen Table → Prop}
    (hg : ∀ k t, tbl k = some t → gen k (.ok t)) {α : Type} {a : α} : ∀ (p : Prog α), ForkFree p →
    p.run tbl = some a → ∀ s : State α, s.task 0 = .run .calm p → Agrees tbl s.mem → s.mem.locked = false →
    s.mem.poisoned = false → ∃ l s', Reaches gen s l s' ∧ Ended (s'.task 0) (some a)
  | .stop r, _, hr, s, hs, _, _, _ => ⟨[], s, .refl, by rw [Ended, hs, show r = some a from hr]⟩
  | .ask k f, hf, hr, ⟨mem, task⟩, hs, ha, hl, hq => by
    simp only at hs ha hl hq
    obtain ⟨t, ht, hr⟩ := Option.bind_eq_some_iff.1 hr
    have go : ∀ {l : List Nat} {s1 : State α}, Reaches gen ⟨mem, task⟩ l s1 → s1.task 0 = .run .calm (f t) →
        Agrees tbl s1.mem → s1.mem.locked = false → s1.mem.poisoned = false →
        ∃ l s', Reaches gen ⟨mem, task⟩ l s' ∧ Ended (s'.task 0) (some a) := by
      intro l s1 h1 h2 h3 h4 h5
      obtain ⟨l', s', h6, h7⟩ := alone_runs hg (f t) (hf t) hr s1 h2 h3 h4 h5
      exact ⟨_, s', reaches_trans h1 h6, h7⟩
    have s0 : ∀ (f : Nat → Threads.Task α) (x : Threads.Task α), Threads.set f 0 x 0 = x := fun _ _ => rfl
    cases hm : mem.cell with
    | none =>
      have r1 : Reaches gen ⟨mem, task⟩ _ ⟨mem, _⟩ := .step 0 .refl (by show Step gen mem (task 0) mem _; rw [hs]; exact .peekNone hm)
      have r2 := Reaches.step 0 r1 (by dsimp only; rw [s0]; exact .lockNone hl hq hm)
      have r3 := Reaches.step 0 r2 (by dsimp only; rw [s0]; exact .publish (hg k t ht) hm)
      have r4 := Reaches.step 0 r3 (by dsimp only; rw [s0]; exact .leave)
      have hfi : Cache.find (Cache.insert [] k t) k = some t := by rw [find_insert]; simp
      have r5 := Reaches.step 0 r4 (by dsimp only; rw [s0]; exact .readBack rfl hfi)
      exact go r5 rfl (agrees_insert (s := ⟨mem.cell, false, mem.poisoned⟩) (fun j u hu => by simp [Cache.find] at hu) ht) rfl hq
    | some m =>
      have r1 : Reaches gen ⟨mem, task⟩ _ ⟨mem, _⟩ := .step 0 .refl (by show Step gen mem (task 0) mem _; rw [hs]; exact .peekSome (by simp [hm]))
      cases hfi : Cache.find m k with
      | some u =>
        have e : tbl k = some u := ha _ _ _ hm hfi
        rw [ht] at e
        obtain rfl := Option.some.inj e
        have r2 := Reaches.step 0 r1 (by dsimp only; rw [s0]; exact .readHit hm hfi)
        exact go r2 rfl ha hl hq
      | none =>
        have r2 := Reaches.step 0 r1 (by dsimp only; rw [s0]; exact .readMiss hm hfi)
        have r3 := Reaches.step 0 r2 (by dsimp only; rw [s0]; exact .lockMiss hl hq hm hfi)
        have r4 := Reaches.step 0 r3 (by dsimp only; rw [s0]; exact .fillOk (hg k t ht))
        have r5 := Reaches.step 0 r4 (by dsimp only; rw [s0]; exact .insert hm)
        have r6 := Reaches.step 0 r5 (by dsimp only; rw [s0]; exact .leave)
        have hfi : Cache.find (Cache.insert m k t) k = some t := by rw [find_insert]; simp
        have r7 := Reaches.step 0 r6 (by dsimp only; rw [s0]; exact .readBack rfl hfi)
        exact go r7 rfl (agrees_insert (s := ⟨mem.cell, false, mem.poisoned⟩) (fun j u hu => ha _ j u hm hu) ht) rfl hq

/-- C81: a program that starts an application in its only thread has no data race, never waits for itself and can end
with every application that the sequential code gives. -/
theorem C81_start {R : Ctx} {gen : Nat → Cache.Gen Table → Prop} (w : Nat) (P : Params) (dk : KeyDraws)
    (d : EvalDraws) :
    (∀ l s, Reaches gen (launch Mem.init (alone (Prog.start w R P dk d))) l s →
      ¬ Race s ∧ ((∀ k, ∃ o, gen k o) → (∃ r, Ended (s.task 0) r) ∨ ∃ mem t, Step gen s.mem (s.task 0) mem t)) ∧
    ((∀ k t, R.tbl k = some t → gen k (.ok t)) → ∀ A, App.start w R P dk d = some A →
      ∃ l s, Reaches gen (launch Mem.init (alone (Prog.start w R P dk d))) l s ∧ Ended (s.task 0) (some A)) := by
  have hf := forkFree_start R w P dk d
  refine ⟨fun l s h => ⟨no_race_alone hf rfl h, fun hg => fits_progress hg _ (alone_fits hf rfl h).1⟩, ?_⟩
  intro hg A hA
  refine alone_runs hg _ hf (by rw [Prog.start_run, hA]) _ rfl ?_ rfl rfl
  intro m k t h
  simp [launch, Mem.init] at h

/-- C81: gates may be called from any number of threads. A program starts an application in its only thread, which
generates the keys and thereby the tables. From then on any number of threads call the encryptor, the evaluator and the
decryptor in any order, each with its own history. In every schedule the shared memory does not change and there is no
data race; a thread that has ended has the ciphertexts and replies, or the panic, of its history alone; a thread that
has not ended can always make a step and ends after a number of steps of its own that does not depend on the other
threads. -/
theorem C81_gates {R : Ctx} (hR : SliceTables R) {gen : Nat → Cache.Gen Table → Prop} (hg : OneTable R.tbl gen)
    {w : Nat} {P : Params} {dk : KeyDraws} {d : EvalDraws}
    (hd : P.ringKeyType = .gaussian → P.ringDimension ≤ dk.gauss.length) (l0 : List Nat) (s0 : State App)
    (hs0 : Reaches gen (launch Mem.init (alone (Prog.start w R P dk d))) l0 s0) (A : App)
    (hA : Ended (s0.task 0) (some A)) :
    App.start w R P dk d = some A ∧
    ∀ (history : Nat → List Call × List LWE) (l : List Nat) (s : State (List LWE × List Reply)),
      Reaches gen (launch s0.mem fun i => Prog.calls A (history i).1 (history i).2) l s →
      s.mem = s0.mem ∧ ¬ Race s ∧ ∀ i,
        (∀ r, Ended (s.task i) r → r = A.run (history i).1 (history i).2) ∧
        ((¬ ∃ r, Ended (s.task i) r) → ∃ t, Step gen s.mem (s.task i) s.mem t) ∧
        l.count i ≤ cost R.tbl (Prog.calls A (history i).1 (history i).2) ∧
        ((∃ r, Ended (s.task i) r) ↔ l.count i = cost R.tbl (Prog.calls A (history i).1 (history i).2)) := by
  have hm : Agrees R.tbl Mem.init := by
    intro m k t h
    simp [Mem.init] at h
  have hrun := C81_results hg hm _ l0 s0 hs0 0 A hA
  rw [alone, if_pos rfl, Prog.start_run] at hrun
  refine ⟨hrun, fun history l s hs => ?_⟩
  obtain ⟨eR, eP, hsw, hreq⟩ := C81_start_requests hd hrun
  obtain ⟨ha, _, hh⟩ := C81_tables_stay hg hm _ l0 s0 hs0
  have hp : ∀ i k, Requests R.tbl k (Prog.calls A (history i).1 (history i).2) → Holds s0.mem k := by
    intro i k hk
    refine hh 0 A hA k (hreq k ?_)
    rw [← eP]
    have := asks_calls (A := A) (by rw [eR]; exact hR) (by rw [eP]; exact hsw) (history i).1 (history i).2
    rw [eR] at this
    exact this k hk
  obtain ⟨h1, h2, h3⟩ := C81_prepared ha _ hp l s hs
  refine ⟨h1, h2, fun i => ?_⟩
  obtain ⟨g1, g2, g3, g4⟩ := h3 i
  refine ⟨?_, g2, g3, g4⟩
  intro r hr
  rw [g1 r hr, ← eR, Prog.calls_run]

/-! ## The generation of the tables -/

theorem outcome_ok {w q : Nat} {M : Barrett} {lib : Option PlanLibrary} {k : Nat} {t : Table}
    (h : Outcome w q M lib k (.ok t)) :
    ∃ draws : List Nat, (∀ x ∈ draws, 2 ≤ x ∧ x < q) ∧ Table.generate w M lib k draws = some (some t) := by
  obtain ⟨draws, hd, e⟩ := h
  refine ⟨draws, hd, ?_⟩
  split at e
  · simp at e
  · simp at e
  · next u hu => rw [hu, Cache.Gen.ok.inj e]

theorem generate_native {w : Nat} {M : Barrett} {k : Nat} {draws : List Nat} {t : Table}
    (h : Table.generate w M none k draws = some (some t)) :
    ∃ t', t = .native t' ∧ Ntt.generate w M k draws = some (some t') := by
  unfold Table.generate at h
  simp only [Option.map_eq_some_iff] at h
  obtain ⟨o, e, h⟩ := h
  cases o with
  | none => simp at h
  | some t' =>
    simp at h
    exact ⟨t', h.symm, e⟩

/-- C81: the requirements of `C81_start` and `C81_gates` are met by the generation of the tables of a prime field, with
or without the external library: there is one table for every size, the generation can give it and no other one, and it
always has an outcome. The tables of this code base transform slices in place. -/
theorem C81_generation (w q : Nat) [Fact q.Prime] (hw : w % 2 = 0) (M : Barrett) (h : Fp.config w q = some M)
    (lib : Option PlanLibrary) :
    ∃ tbl : Nat → Option Table, OneTable tbl (Outcome w q M lib) ∧
      (∀ k t, tbl k = some t → Outcome w q M lib k (.ok t)) ∧ (∀ k, ∃ o, Outcome w q M lib k o) ∧
      (lib = none → SliceTables ⟨w, M, tbl⟩) := by
  classical
  have native : ∀ k t u d1 d2, (∀ x ∈ d1, 2 ≤ x ∧ x < q) → (∀ x ∈ d2, 2 ≤ x ∧ x < q) →
      Table.generate w M none k d1 = some (some t) → Table.generate w M none k d2 = some (some u) → t = u := by
    intro k t u d1 d2 b1 b2 e1 e2
    obtain ⟨t, rfl, f1⟩ := generate_native e1
    obtain ⟨u, rfl, f2⟩ := generate_native e2
    rw [C54_generate w q hw M h k d1 d2 b1 b2 t u f1 f2]
  have key : ∀ k t u, Outcome w q M lib k (.ok t) → Outcome w q M lib k (.ok u) → t = u := by
    intro k t u h1 h2
    obtain ⟨d1, b1, e1⟩ := outcome_ok h1
    obtain ⟨d2, b2, e2⟩ := outcome_ok h2
    cases lib with
    | none => exact native k t u d1 d2 b1 b2 e1 e2
    | some lib =>
      by_cases c : w = 32 ∨ w = 64
      · simp only [Table.generate, if_pos c] at e1 e2
        rw [e1] at e2
        exact Option.some.inj (Option.some.inj e2)
      · simp only [Table.generate, if_neg c] at e1 e2
        exact native k t u d1 d2 b1 b2 e1 e2
  have back : ∀ k t, (if h : ∃ t, Outcome w q M lib k (.ok t) then some h.choose else none) = some t →
      Outcome w q M lib k (.ok t) := by
    intro k t e
    split at e
    · next h => rw [← Option.some.inj e]; exact h.choose_spec
    · simp at e
  refine ⟨fun k => if h : ∃ t, Outcome w q M lib k (.ok t) then some h.choose else none, ?_, back, ?_, ?_⟩
  · intro k t ht
    have h : ∃ t, Outcome w q M lib k (.ok t) := ⟨t, ht⟩
    simp only [dif_pos h, key k _ _ h.choose_spec ht]
  · exact fun k => ⟨_, [], by simp, rfl⟩
  · rintro rfl
    refine C80_native_tables _ fun j t e => ?_
    obtain ⟨_, _, e⟩ := outcome_ok (back j t e)
    obtain ⟨t', rfl, _⟩ := generate_native e
    exact ⟨t', rfl⟩

/-- The tables of the default field are those that the random generation gives. -/
theorem native_one_table : OneTable nativeCtx.tbl (Outcome 32 132120577 defaultBarrett none) := by
  intro k t h
  obtain ⟨d, b, e⟩ := outcome_ok h
  obtain ⟨t, rfl, e'⟩ := generate_native e
  have ho := (generate_table (q := 132120577) ⟨by decide, default_config⟩ b e').1.1.2
  have hk : k ≤ 20 := by
    by_contra hk
    have h1 : 2 ^ 22 ∣ 132120577 - 1 := by
      refine (Nat.pow_dvd_pow 2 (show 22 ≤ k + 1 by omega)).trans (ho ▸ ?_)
      refine orderOf_dvd_of_pow_eq_one (ZMod.pow_card_sub_one_eq_one fun h0 => ?_)
      rw [h0, orderOf_zero] at ho
      exact absurd ho (by positivity)
    revert h1
    norm_num
  obtain ⟨_, _, lib, draws, u, hl, hd, hu, ht⟩ := native_table hk
  have h5 : nativeCtx.tbl k = some u := ht
  rw [h5]
  have h6 : Table.generate 32 defaultBarrett none k [5] = some (some u) := by
    have h7 : (Table.generate 32 defaultBarrett none k [5]).join = some u := h5
    cases h8 : Table.generate 32 defaultBarrett none k [5] with
    | none => rw [h8] at h7; simp at h7
    | some o => rw [h8] at h7; rw [show o = some u from h7]
  obtain ⟨u, rfl, f⟩ := generate_native h6
  rw [C54_generate 32 132120577 (by decide) defaultBarrett default_config k [5] d (by decide) b u t f e']

theorem native_outcome (k : Nat) (t : Table) (h : nativeCtx.tbl k = some t) :
    Outcome 32 132120577 defaultBarrett none k (.ok t) := by
  refine ⟨[5], by decide, ?_⟩
  have h7 : (Table.generate 32 defaultBarrett none k [5]).join = some t := h
  cases h8 : Table.generate 32 defaultBarrett none k [5] with
  | none => rw [h8] at h7; simp at h7
  | some o => rw [h8] at h7; rw [show o = some t from h7]

theorem native_slices : SliceTables nativeCtx := by
  refine C80_native_tables _ fun j t e => ?_
  obtain ⟨_, _, e⟩ := outcome_ok (native_outcome j t e)
  obtain ⟨t', rfl, _⟩ := generate_native e
  exact ⟨t', rfl⟩

-- the small instance of the application over the default field, with randomly generated tables: it can be started, and
-- then all calls of all threads are free of races
example : ∃ (A : App) (l0 : List Nat) (s0 : State App),
    Reaches (Outcome 32 132120577 defaultBarrett none)
      (launch Mem.init (alone (Prog.start 16 nativeCtx smallParams ⟨fun _ => 14, fun _ => 0x2d2d2d2d, []⟩ smallEvalDraws)))
      l0 s0 ∧ Ended (s0.task 0) (some A) ∧
    ∀ (history : Nat → List Call × List LWE) l s,
      Reaches (Outcome 32 132120577 defaultBarrett none)
        (launch s0.mem fun i => Prog.calls A (history i).1 (history i).2) l s → ¬ Race s := by
  obtain ⟨A, hA⟩ := C73_keys small_gateParams (by decide) (fun k' _ h => native_table (by omega))
    (by simp [KeysFit, smallParams, nativeCtx]) 7 (by decide +kernel) ⟨fun _ => 14, fun _ => 0x2d2d2d2d, []⟩
    (fun h => by cases h) 1 1 _ smallEvalDraws_ok
  obtain ⟨l0, s0, h1, h2⟩ := (C81_start 16 smallParams ⟨fun _ => 14, fun _ => 0x2d2d2d2d, []⟩ smallEvalDraws).2
    native_outcome A hA
  exact ⟨A, l0, s0, h1, h2, fun history l s hs => ((C81_gates native_slices native_one_table (fun h => by cases h)
    l0 s0 h1 A h2).2 history l s hs).2.1⟩

/-! ## Without preparation -/

/-- C81: without a prepared table the threads can race: from a new memory, two threads that transform polynomials of
different lengths reach a state where one modifies the map of the tables while the other one reads it. -/
theorem C81_unprepared_race : ∃ l s, Reaches (Outcome 32 132120577 defaultBarrett none)
    (launch Mem.init fun i => if i = 0 then Prog.toNtt nativeCtx [1, 2] else
      if i = 1 then Prog.toNtt nativeCtx [1, 2, 3, 4] else .stop none) l s ∧ Race s := by
  obtain ⟨_, _, _, _, t, _, _, _, ht⟩ := native_table (k := 1) (by decide)
  obtain ⟨_, _, _, _, u, _, _, _, hu⟩ := native_table (k := 2) (by decide)
  have ht := native_outcome 1 t ht
  have hu := native_outcome 2 u hu
  obtain ⟨f, hf⟩ : ∃ f, Prog.toNtt nativeCtx [1, 2] = .ask 1 f := ⟨_, rfl⟩
  obtain ⟨g, hg⟩ : ∃ g, Prog.toNtt nativeCtx [1, 2, 3, 4] = .ask 2 g := ⟨_, rfl⟩
  rw [hf, hg]
  have r := Reaches.refl (gen := Outcome 32 132120577 defaultBarrett none)
    (s0 := launch Mem.init fun i => if i = 0 then .ask 1 f else if i = 1 then .ask 2 g else .stop none)
  have r := r.step 0 (.peekNone rfl)
  have r := r.step 0 (.lockNone rfl rfl rfl)
  have r := r.step 0 (.publish ht rfl)
  have r := r.step 0 .leave
  have r := r.step 1 (.peekSome (by simp))
  have r := r.step 1 (.readMiss rfl rfl)
  have r := r.step 1 (.lockMiss rfl rfl rfl rfl)
  have r := r.step 1 (.fillOk hu)
  exact ⟨_, _, r, .inr ⟨1, 0, by decide, Nat.le_refl 1, Nat.le_refl 1⟩⟩

/-- What counts as a race: the two halves of one thread in the map with one of them modifying it, or two threads, but not
one writer alone and not several readers. -/
example (t : Table) (p : Prog LWE) (f : LWE → LWE → Prog LWE) :
    Race ⟨Mem.init, fun i => if i = 0 then .join (.run (.inserting t) p) (.run .reading p) f else .run .calm p⟩ ∧
    Race ⟨Mem.init, fun i => if i = 0 then .run (.inserting t) p else .run .readingBack p⟩ ∧
    ¬ Race ⟨Mem.init, fun i => if i = 0 then .run (.inserting t) p else .run .calm p⟩ ∧
    ¬ Race ⟨Mem.init, fun _ => .join (.run .reading p) (.run .readingBack p) f⟩ := by
  refine ⟨.inl ⟨0, Nat.le_refl 1, Nat.le_refl 2⟩, .inr ⟨0, 1, by decide, Nat.le_refl 1, Nat.le_refl 1⟩, ?_, ?_⟩
  · rintro (⟨i, h1, h2⟩ | ⟨i, j, hij, h1, h2⟩)
    · simp only at h1 h2
      split_ifs at h1 h2 <;> simp [Task.writers, Task.readers] at h1 h2
    · simp only at h1 h2
      split_ifs at h1 h2 <;> simp [Task.writers, Task.readers] at h1 h2
      omega
  · rintro (⟨i, h1, h2⟩ | ⟨i, j, hij, h1, h2⟩) <;> simp [Task.writers] at h1

end Verif.Props
