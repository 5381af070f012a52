import Verif.Props.ThreadsLock

/-! # C81: threads when the generation of a table panics -/

namespace Verif.Props
open Spec Threads

theorem step_poison {gen : Nat → Cache.Gen Table → Prop} {α : Type} {s s' : Mem} {t t' : Threads.Task α}
    (h : Step gen s t s' t') : s.poisoned = true → s'.poisoned = true := by
  induction h with
  | fillPanic _ => exact fun _ => rfl
  | buildPanic _ => exact fun _ => rfl
  | left _ ih => exact ih
  | right _ ih => exact ih
  | _ => exact fun h => h

theorem step_poison_gen {gen : Nat → Cache.Gen Table → Prop} (hn : ∀ k, ¬ gen k .panic) {α : Type} {s s' : Mem}
    {t t' : Threads.Task α} (h : Step gen s t s' t') : s'.poisoned = s.poisoned := by
  induction h with
  | fillPanic h => exact absurd h (hn _)
  | buildPanic h => exact absurd h (hn _)
  | left _ ih => exact ih
  | right _ ih => exact ih
  | _ => rfl

theorem step_keeps_or {tbl : Nat → Option Table} {gen : Nat → Cache.Gen Table → Prop}
    (hn : ∀ k, ¬ gen k .err) {α : Type} {s s' : Mem} {t t' : Threads.Task α}
    (h : Step gen s t s' t') : Agrees tbl s → Placed s t → s.poisoned = false →
    taskValue tbl t' = taskValue tbl t ∨ s'.poisoned = true := by
  induction h with
  | readHit hm ht => exact fun ha _ _ => .inl (by simp [taskValue, Prog.run, ha _ _ _ hm ht])
  | readBack hm ht => exact fun ha _ _ => .inl (by simp [taskValue, Prog.run, ha _ _ _ hm ht])
  | lockPoisoned _ h => exact fun _ _ _ => .inr h
  | fillErr h => exact absurd h (hn _)
  | fillPanic h => exact fun _ _ _ => .inr rfl
  | buildErr h => exact absurd h (hn _)
  | buildPanic h => exact fun _ _ _ => .inr rfl
  | publishTwice h => exact fun _ hp _ => absurd hp.1 h
  | readBackPanic h =>
    rintro _ ⟨k, f, e, m, t, h1, h2⟩ _
    simp only [Prog.ask.injEq] at e
    rw [← e.1, h m h1] at h2
    simp at h2
  | left _ ih => exact fun ha hp hq => (ih ha hp.1 hq).imp_left fun h1 => by simp only [taskValue, h1]
  | right _ ih => exact fun ha hp hq => (ih ha hp.2 hq).imp_left fun h1 => by simp only [taskValue, h1]
  | joined => exact fun _ _ _ => .inl (by simp [taskValue, Prog.run])
  | joinPanic h =>
    refine fun _ _ _ => .inl ?_
    rcases h with rfl | rfl <;> simp [taskValue, Prog.run]
  | _ => exact fun _ _ _ => .inl rfl

/-- C81: a panic in the generation of a table is never lost. Without preparation and in every schedule of any
computations in which generations may panic but return no error, a thread that ends otherwise than when it runs alone
leaves the mutex poisoned. -/
theorem C81_panic_poisons {tbl : Nat → Option Table} {gen : Nat → Cache.Gen Table → Prop} (hg : OneTable tbl gen)
    (hn : ∀ k, ¬ gen k .err) {α : Type} (p : Nat → Prog α) (l : List Nat) (s : State α)
    (h : Reaches gen (launch Mem.init p) l s) (i : Nat) (r : Option α) (he : Ended (s.task i) r) :
    r = (p i).run tbl ∨ s.mem.poisoned = true := by
  have hm : Agrees tbl Mem.init := by
    intro m k t h
    simp [Mem.init] at h
  have key : s.mem.poisoned = true ∨ ∀ i, taskValue tbl (s.task i) = (p i).run tbl := by
    clear he
    induction h with
    | refl => exact .inr fun i => rfl
    | @step l s mem' t i hr hs ih =>
      obtain ⟨ha, _⟩ := reaches_sound hg hm hr
      rcases hq : s.mem.poisoned with _ | _
      · rcases ih with ih | ih
        · rw [hq] at ih; simp at ih
        · rcases step_keeps_or (tbl := tbl) hn hs ha ((reaches_guarded rfl hr).1 i) hq with h1 | h1
          · refine .inr fun j => ?_
            simp only [Threads.set]
            split
            · subst_vars; rw [h1]; exact ih _
            · exact ih j
          · exact .inl h1
      · exact .inl (step_poison hs hq)
  rcases key with h1 | h1
  · exact .inr h1
  · have := h1 i
    rw [he] at this
    exact .inl this

/-- C81: a poisoned mutex stays poisoned, whatever the threads do, and without a panic of a generation it is never
poisoned. -/
theorem C81_poison_stays {gen : Nat → Cache.Gen Table → Prop} {α : Type} {s0 s : State α} {l : List Nat}
    (h : Reaches gen s0 l s) :
    (s0.mem.poisoned = true → s.mem.poisoned = true) ∧
      ((∀ k, ¬ gen k .panic) → s.mem.poisoned = s0.mem.poisoned) := by
  induction h with
  | refl => exact ⟨fun h => h, fun _ => rfl⟩
  | step i _ hs ih => exact ⟨fun h => step_poison hs (ih.1 h), fun h => (step_poison_gen h hs).trans (ih.2 h)⟩

/-- The threads of a program whose mutex is poisoned: outside the lock, and only those wait for it that miss a table. -/
def Shut (s : Mem) {α : Type} : Threads.Task α → Prop
  | .run .calm _ => True
  | .run .reading _ => True
  | .run .wantLock p => ∃ k f, p = .ask k f ∧ ∀ m, s.cell = some m → Cache.find m k = none
  | .run _ _ => False
  | .join l r _ => Shut s l ∧ Shut s r

theorem step_shut {gen : Nat → Cache.Gen Table → Prop} {α : Type} {s s' : Mem} {t t' : Threads.Task α}
    (h : Step gen s t s' t') : s.poisoned = true → Shut s t → s' = s ∧ Shut s t' ∧
    taskValue (fun k => s.cell.bind fun m => Cache.find m k) t' =
      taskValue (fun k => s.cell.bind fun m => Cache.find m k) t := by
  induction h with
  | peekNone h =>
    exact fun _ _ => ⟨rfl, ⟨_, _, rfl, fun m hm => by rw [h] at hm; simp at hm⟩, rfl⟩
  | peekSome h => exact fun _ _ => ⟨rfl, trivial, rfl⟩
  | readHit hm ht => exact fun _ _ => ⟨rfl, trivial, by simp [taskValue, Prog.run, hm, ht]⟩
  | readMiss hm ht =>
    refine fun _ _ => ⟨rfl, ⟨_, _, rfl, fun m h => ?_⟩, rfl⟩
    rw [hm] at h
    exact Option.some.inj h ▸ ht
  | @lockPoisoned α s k f _ _ =>
    rintro _ ⟨k', f', e, h⟩
    simp only [Prog.ask.injEq] at e
    refine ⟨rfl, trivial, ?_⟩
    cases hc : s.cell with
    | none => simp [taskValue, Prog.run]
    | some m =>
      have := h m hc
      rw [← e.1] at this
      simp [taskValue, Prog.run, this]
  | lockHave _ h => exact fun hq _ => by rw [h] at hq; simp at hq
  | lockMiss _ h => exact fun hq _ => by rw [h] at hq; simp at hq
  | lockNone _ h => exact fun hq _ => by rw [h] at hq; simp at hq
  | fork => exact fun _ _ => ⟨rfl, ⟨trivial, trivial⟩, rfl⟩
  | left _ ih =>
    intro hq hs
    obtain ⟨h1, h2, h3⟩ := ih hq hs.1
    exact ⟨h1, ⟨h2, hs.2⟩, by simp only [taskValue, h3]⟩
  | right _ ih =>
    intro hq hs
    obtain ⟨h1, h2, h3⟩ := ih hq hs.2
    exact ⟨h1, ⟨hs.1, h2⟩, by simp only [taskValue, h3]⟩
  | joined => exact fun _ _ => ⟨rfl, trivial, by simp [taskValue, Prog.run]⟩
  | joinPanic h =>
    refine fun _ _ => ⟨rfl, trivial, ?_⟩
    rcases h with rfl | rfl <;> simp [taskValue, Prog.run]
  | _ => exact fun _ hs => hs.elim

theorem shut_no_writers (s : Mem) : ∀ {α : Type} (t : Threads.Task α), Shut s t → t.writers = 0
  | _, .run .calm _, _ => rfl
  | _, .run .reading _, _ => rfl
  | _, .run .wantLock _, _ => rfl
  | _, .join l r _, h => by
    simp only [Threads.Task.writers, shut_no_writers s l h.1, shut_no_writers s r h.2]

/-- C81: threads that start after a generation has panicked. In every schedule of any computations the memory never
changes again, there is no data race, and a thread that has ended has the result of running alone with the tables that
were published before the panic: it panics exactly when it needs another one. -/
theorem C81_after_panic {gen : Nat → Cache.Gen Table → Prop} {α : Type} (mem : Mem) (hq : mem.poisoned = true)
    (p : Nat → Prog α) (l : List Nat) (s : State α) (h : Reaches gen (launch mem p) l s) :
    s.mem = mem ∧ ¬ Threads.Race s ∧
      ∀ i r, Ended (s.task i) r → r = (p i).run fun k => mem.cell.bind fun m => Cache.find m k := by
  have key : s.mem = mem ∧ ∀ i, Shut mem (s.task i) ∧
      taskValue (fun k => mem.cell.bind fun m => Cache.find m k) (s.task i) =
        (p i).run fun k => mem.cell.bind fun m => Cache.find m k := by
    induction h with
    | refl => exact ⟨rfl, fun i => ⟨trivial, rfl⟩⟩
    | @step l s mem' t i hr hs ih =>
      obtain ⟨e, ih⟩ := ih
      rw [e] at hs
      obtain ⟨h1, h2, h3⟩ := step_shut hs hq (ih i).1
      refine ⟨h1, fun j => ?_⟩
      simp only [Threads.set]
      split
      · subst_vars; exact ⟨h2, h3.trans (ih _).2⟩
      · exact ih j
  refine ⟨key.1, ?_, fun i r he => ?_⟩
  · rintro (⟨i, h1, _⟩ | ⟨i, _, _, h1, _⟩) <;> rw [shut_no_writers mem _ (key.2 i).1] at h1 <;> omega
  · have := (key.2 i).2
    rw [he] at this
    exact this

-- two threads ask for a table whose generation panics: the first one poisons the mutex, the second one panics because
-- of that, although both would end with a result if the generation succeeded
example (t : Table) : ∃ s : State Unit, Reaches (fun _ o => o = .panic)
      (launch Mem.init fun _ => .ask 1 fun _ => .stop (some ())) [1, 1, 0, 0, 0] s ∧
    Ended (s.task 0) none ∧ Ended (s.task 1) none ∧ s.mem.poisoned = true ∧
    OneTable (fun _ => some t) (fun _ o => o = .panic) ∧
    Prog.run (fun _ => some t) (.ask 1 fun _ => .stop (some ())) = some () :=
  ⟨_, .step 1 (.step 1 (.step 0 (.step 0 (.step 0 .refl (.peekNone rfl)) (.lockNone rfl rfl rfl)) (.buildPanic rfl))
    (.peekNone rfl)) (.lockPoisoned rfl rfl), rfl, rfl, rfl, by simp [OneTable], rfl⟩

-- threads that start after the panic: the table that is there is used, another one is not generated although the
-- generation would now succeed
example (t : Table) : ∃ s : State Unit, Reaches (fun _ o => o = .ok t)
      (launch ⟨some [(1, t)], false, true⟩ fun i => .ask (i + 1) fun _ => .stop (some ())) [1, 1, 1, 0, 0] s ∧
    Ended (s.task 0) (some ()) ∧ Ended (s.task 1) none :=
  ⟨_, .step 1 (.step 1 (.step 1 (.step 0 (.step 0 .refl (.peekSome (by simp [launch])))
    (.readHit (m := [(1, t)]) (t := t) rfl (by simp [Cache.find]))) (.peekSome (by simp [launch])))
    (.readMiss (m := [(1, t)]) rfl (by simp [Cache.find]))) (.lockPoisoned rfl rfl), rfl, rfl⟩

end Verif.Props
