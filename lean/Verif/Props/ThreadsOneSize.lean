import Verif.Props.ThreadsLock
import Verif.Props.JointDefaults

/-! # C108: threads without prepared tables -/

namespace Verif.Props
open Spec Threads

theorem step_pending_back {tbl : Nat → Option Table} {gen : Nat → Cache.Gen Table → Prop} (hg : OneTable tbl gen)
    {α : Type} {s s' : Mem} {t t' : Threads.Task α} (h : Step gen s t s' t') :
    Agrees tbl s → TaskOk tbl t → ∀ k, Pending tbl k t' → Pending tbl k t := by
  induction h with
  | readHit hm ht => exact fun ha _ k h => .inr ⟨_, ha _ _ _ hm ht, h⟩
  | readBack hm ht => exact fun ha _ k h => .inr ⟨_, ha _ _ _ hm ht, h⟩
  | left hs ih =>
    rintro ha ho k (h | h | ⟨a, b, e1, e2, h⟩)
    · exact .inl (ih ha ho.1 k h)
    · exact .inr (.inl h)
    · rcases (step_sound hg hs ha ho.1).2.2 with h4 | h4 <;> rw [h4] at e1
      · exact .inr (.inr ⟨a, b, e1, e2, h⟩)
      · simp at e1
  | right hs ih =>
    rintro ha ho k (h | h | ⟨a, b, e1, e2, h⟩)
    · exact .inl h
    · exact .inr (.inl (ih ha ho.2 k h))
    · rcases (step_sound hg hs ha ho.2).2.2 with h4 | h4 <;> rw [h4] at e2
      · exact .inr (.inr ⟨a, b, e1, e2, h⟩)
      · simp at e2
  | joined => exact fun _ _ k h => .inr (.inr ⟨_, _, rfl, rfl, h⟩)
  | lockPoisoned _ _ => exact fun _ _ k h => h.elim
  | fillErr _ => exact fun _ _ k h => h.elim
  | fillPanic _ => exact fun _ _ k h => h.elim
  | buildErr _ => exact fun _ _ k h => h.elim
  | buildPanic _ => exact fun _ _ k h => h.elim
  | publishTwice _ => exact fun _ _ k h => h.elim
  | readBackPanic _ => exact fun _ _ k h => h.elim
  | joinPanic _ => exact fun _ _ k h => h.elim
  | _ => exact fun _ _ k h => h

/-- The task never adds a table to a published map. -/
def NoInsert {α : Type} : Threads.Task α → Prop
  | .run .filling _ => False
  | .run (.inserting _) _ => False
  | .run _ _ => True
  | .join l r _ => NoInsert l ∧ NoInsert r

theorem noInsert_writers : ∀ {α : Type} (t : Threads.Task α), NoInsert t → t.writers = 0
  | _, .run .calm _, _ => rfl
  | _, .run .reading _, _ => rfl
  | _, .run .wantLock _, _ => rfl
  | _, .run .building _, _ => rfl
  | _, .run .leaving _, _ => rfl
  | _, .run .readingBack _, _ => rfl
  | _, .join l r _, h => by
    simp only [Threads.Task.writers, noInsert_writers l h.1, noInsert_writers r h.2]

theorem step_one_size {tbl : Nat → Option Table} {gen : Nat → Cache.Gen Table → Prop} (n : Nat)
    {α : Type} {s s' : Mem} {t t' : Threads.Task α} (h : Step gen s t s' t') :
    (s.cell ≠ none → Holds s n) → NoInsert t → (∀ k, Pending tbl k t → k = n) →
    (s'.cell ≠ none → Holds s' n) ∧ NoInsert t' := by
  induction h with
  | lockMiss _ _ hm ht =>
    intro hc _ hp
    obtain ⟨m, t, h1, h2⟩ := hc (by rw [hm]; simp)
    rw [hm] at h1
    obtain rfl := Option.some.inj h1
    rw [← hp _ (.inl rfl), ht] at h2
    simp at h2
  | publish _ _ =>
    intro hc _ hp
    exact ⟨fun _ => holds_insert (.inr (hp _ (.inl rfl)).symm), trivial⟩
  | left hs ih =>
    intro hc hq hp
    obtain ⟨h1, h2⟩ := ih hc hq.1 fun k h => hp k (.inl h)
    exact ⟨h1, h2, hq.2⟩
  | right hs ih =>
    intro hc hq hp
    obtain ⟨h1, h2⟩ := ih hc hq.2 fun k h => hp k (.inr (.inl h))
    exact ⟨h1, hq.1, h2⟩
  | fork => exact fun hc _ _ => ⟨hc, trivial, trivial⟩
  | fillErr _ => exact fun _ hq _ => hq.elim
  | fillPanic _ => exact fun _ hq _ => hq.elim
  | fillOk _ => exact fun _ hq _ => hq.elim
  | insert _ => exact fun _ hq _ => hq.elim
  | _ => exact fun hc _ _ => ⟨hc, trivial⟩

/-- C108: threads that all use one size only need no preparation. Whatever the outcomes of the generations, in every
schedule there is no data race and a thread that ends without a panic has the result of running alone. -/
theorem C108_one_size {tbl : Nat → Option Table} {gen : Nat → Cache.Gen Table → Prop} (hg : OneTable tbl gen) (n : Nat)
    {α : Type} (p : Nat → Prog α) (hp : ∀ i k, Requests tbl k (p i) → k = n) (l : List Nat) (s : State α)
    (h : Reaches gen (launch Mem.init p) l s) :
    ¬ Threads.Race s ∧ ∀ i r, Ended (s.task i) (some r) → (p i).run tbl = some r := by
  have hm : Agrees tbl Mem.init := by
    intro m k t h
    simp [Mem.init] at h
  constructor
  · have key : (s.mem.cell ≠ none → Holds s.mem n) ∧
        ∀ i, NoInsert (s.task i) ∧ ∀ k, Pending tbl k (s.task i) → k = n := by
      induction h with
      | refl => exact ⟨fun h => absurd rfl h, fun i => ⟨trivial, hp i⟩⟩
      | @step l s mem' t i hr hs ih =>
        obtain ⟨ha, ho⟩ := reaches_sound hg hm hr
        obtain ⟨hc, ih⟩ := ih
        obtain ⟨h1, h2⟩ := step_one_size (tbl := tbl) n hs hc (ih i).1 (ih i).2
        have h3 := step_pending_back hg hs ha (ho i).1
        refine ⟨h1, fun j => ?_⟩
        simp only [Threads.set]
        split
        · subst_vars; exact ⟨h2, fun k hk => (ih _).2 k (h3 k hk)⟩
        · exact ih j
    rintro (⟨i, h1, _⟩ | ⟨i, _, _, h1, _⟩) <;> rw [noInsert_writers _ (key.2 i).1] at h1 <;> omega
  · intro i r he
    have := ((reaches_sound hg hm h).2 i).2
    rw [he] at this
    rcases this with h1 | h1
    · exact h1.symm
    · simp [taskValue, Prog.run] at h1

/-! ## Two sizes -/

/-- The shared memory with a published map, ready for the next request. -/
def Open (s : Mem) : Prop := s.cell ≠ none ∧ s.locked = false ∧ s.poisoned = false

theorem reaches_insert {tbl : Nat → Option Table} {gen : Nat → Cache.Gen Table → Prop}
    (hgen : ∀ k t, tbl k = some t → gen k (.ok t)) {α : Type} {s0 : State α} {b j : Nat} {mem : Mem} (ho : Open mem)
    (ha : Agrees tbl mem) (hj : ¬ Holds mem j) : ∀ (p : Prog α) (l : List Nat) (T : Nat → Threads.Task α),
    ForkFree p → (∀ k, Requests tbl k p → tbl k ≠ none) → Requests tbl j p → T b = .run .calm p →
    Reaches gen s0 l ⟨mem, T⟩ → ∃ l' s, Reaches gen s0 l' s ∧ 1 ≤ (s.task b).writers ∧ ∀ i, i ≠ b → s.task i = T i
  | .stop _, _, _, _, _, hr, _, _ => hr.elim
  | .fork _ _ _, _, _, hf, _, _, _, _ => hf.elim
  | .ask k f, l, T, hf, ht, hr, hT, h => by
    obtain ⟨m, hm⟩ := Option.ne_none_iff_exists'.1 ho.1
    have h1 := h.step (i := b) (t := .run .reading (.ask k f)) (mem := mem) (by
      show Step gen mem (T b) _ _
      rw [hT]
      exact .peekSome ho.1)
    cases hk : Cache.find m k with
    | some t =>
      have et := ha m k t hm hk
      have h2 := h1.step (i := b) (t := .run .calm (f t)) (mem := mem) (by
        simp only [Threads.set, if_true]
        exact .readHit hm hk)
      have hr' : Requests tbl j (f t) := by
        rcases hr with rfl | ⟨u, eu, hr⟩
        · exact absurd ⟨m, t, hm, hk⟩ hj
        · rw [et] at eu
          exact Option.some.inj eu ▸ hr
      obtain ⟨l', s, h3, h4, h5⟩ := reaches_insert (b := b) hgen ho ha hj (f t) _ _ (hf t)
        (fun k' hk' => ht k' (.inr ⟨t, et, hk'⟩)) hr' (by simp [Threads.set]) h2
      exact ⟨l', s, h3, h4, fun i hi => by rw [h5 i hi]; simp [Threads.set, hi]⟩
    | none =>
      obtain ⟨t, et⟩ := Option.ne_none_iff_exists'.1 (ht k (.inl rfl))
      have h2 := h1.step (i := b) (t := .run .wantLock (.ask k f)) (mem := mem) (by
        simp only [Threads.set, if_true]
        exact .readMiss hm hk)
      have h3 := h2.step (i := b) (t := .run .filling (.ask k f)) (mem := { mem with locked := true }) (by
        simp only [Threads.set, if_true]
        exact .lockMiss ho.2.1 ho.2.2 hm hk)
      have h4 := h3.step (i := b) (t := .run (.inserting t) (.ask k f)) (mem := { mem with locked := true }) (by
        simp only [Threads.set, if_true]
        exact .fillOk (hgen k t et))
      exact ⟨_, _, h4, by simp [Threads.set, Threads.Task.writers], fun i hi => by simp [Threads.set, hi]⟩

theorem requests_run {tbl : Nat → Option Table} {k : Nat} : ∀ {α : Type} (p : Prog α), p.run tbl ≠ none →
    Requests tbl k p → tbl k ≠ none
  | _, .stop _, _, h => h.elim
  | _, .ask j f, hr, h => by
    cases ht : tbl j with
    | none => simp [Prog.run, ht] at hr
    | some t =>
      rcases h with rfl | ⟨u, eu, h⟩
      · rw [ht]; simp
      · rw [ht] at eu
        obtain rfl := Option.some.inj eu
        exact requests_run (f t) (by simpa [Prog.run, ht] using hr) h
  | _, .fork p q f, hr, h => by
    cases hp : p.run tbl with
    | none => simp [Prog.run, hp] at hr
    | some a =>
      cases hq : q.run tbl with
      | none => simp [Prog.run, hp, hq] at hr
      | some b =>
        rcases h with h | h | ⟨a', b', e1, e2, h⟩
        · exact requests_run p (by rw [hp]; simp) h
        · exact requests_run q (by rw [hq]; simp) h
        · rw [hp] at e1
          rw [hq] at e2
          obtain rfl := Option.some.inj e1
          obtain rfl := Option.some.inj e2
          exact requests_run (f a b) (by simpa [Prog.run, hp, hq] using hr) h

/-- Two threads of a new program that run `p` and `q`. -/
def both {α : Type} (p q : Prog α) : Nat → Prog α := fun i => if i = 0 then p else if i = 1 then q else .stop none

theorem race_after {tbl : Nat → Option Table} {gen : Nat → Cache.Gen Table → Prop}
    (hgen : ∀ k t, tbl k = some t → gen k (.ok t)) {α : Type} (P : Nat → Prog α) (a b : Nat) (hab : a ≠ b) {n j : Nat}
    {f : Table → Prog α} (ha : P a = .ask n f) (hn : tbl n ≠ none) (hf : ForkFree (P b)) (hrun : (P b).run tbl ≠ none)
    (hj : Requests tbl j (P b)) (hne : j ≠ n) : ∃ l s, Reaches gen (launch Mem.init P) l s ∧ Threads.Race s := by
  obtain ⟨t, et⟩ := Option.ne_none_iff_exists'.1 hn
  have h0 := Reaches.refl (gen := gen) (s0 := launch Mem.init P)
  have h1 := h0.step (i := a) (mem := Mem.init) (t := .run .wantLock (.ask n f)) (by
    show Step gen Mem.init (.run .calm (P a)) _ _
    rw [ha]
    exact .peekNone rfl)
  have h2 := h1.step (i := a) (mem := { Mem.init with locked := true }) (t := .run .building (.ask n f)) (by
    simp only [Threads.set, if_true]
    exact .lockNone rfl rfl rfl)
  have h3 := h2.step (i := a) (mem := ⟨some (Cache.insert [] n t), true, false⟩) (t := .run .leaving (.ask n f)) (by
    simp only [Threads.set, if_true]
    exact .publish (hgen n t et) rfl)
  have h4 := h3.step (i := a) (mem := ⟨some (Cache.insert [] n t), false, false⟩) (t := .run .readingBack (.ask n f)) (by
    simp only [Threads.set, if_true]
    exact .leave)
  obtain ⟨l, s, r, hw, hs⟩ := reaches_insert hgen (j := j) (b := b) ⟨by simp, rfl, rfl⟩ (by
      intro m k' u hm hu
      obtain rfl := Option.some.inj hm
      rw [find_insert] at hu
      split at hu
      · rename_i e
        rw [e, ← Option.some.inj hu]
        exact et
      · simp [Cache.find] at hu) (by
      rintro ⟨m, u, hm, hu⟩
      obtain rfl := Option.some.inj hm
      rw [find_insert, if_neg hne] at hu
      simp [Cache.find] at hu) (P b) _ _ hf (fun k hk => requests_run (P b) hrun hk) hj
      (by simp [Threads.set, launch, hab.symm]) h4
  refine ⟨l, s, r, .inr ⟨b, a, hab.symm, hw, ?_⟩⟩
  rw [hs a hab]
  simp [Threads.set, Threads.Task.readers]

/-- C108: exactly when two threads race without preparation. Let the generations be able to succeed. Two threads of a
new program run computations that have no forks, succeed alone and use the tables. They can reach a data race if and
only if they use two sizes, one of them or both together. -/
theorem C108_race_iff {tbl : Nat → Option Table} {gen : Nat → Cache.Gen Table → Prop} (hg : OneTable tbl gen)
    (hgen : ∀ k t, tbl k = some t → gen k (.ok t)) {α : Type} (p q : Prog α) (hfp : ForkFree p) (hfq : ForkFree q)
    (hrp : p.run tbl ≠ none) (hrq : q.run tbl ≠ none) (hup : ∃ k, Requests tbl k p) (huq : ∃ k, Requests tbl k q) :
    (∃ l s, Reaches gen (launch Mem.init (both p q)) l s ∧ Threads.Race s) ↔
      ∃ j k, j ≠ k ∧ (Requests tbl j p ∨ Requests tbl j q) ∧ (Requests tbl k p ∨ Requests tbl k q) := by
  constructor
  · rintro ⟨l, s, h, hrace⟩
    by_contra hno
    obtain ⟨n, hn⟩ := hup
    refine (C108_one_size hg n _ (fun i k hk => by_contra fun hne => hno ⟨k, n, hne, ?_, .inl hn⟩) l s h).1 hrace
    unfold both at hk
    split at hk
    · exact .inl hk
    split at hk
    · exact .inr hk
    · exact hk.elim
  · rintro ⟨j, k, hne, hj, hk⟩
    have ask : ∀ (p : Prog α), ForkFree p → (∃ k, Requests tbl k p) → ∃ n f, p = .ask n f := by
      rintro (r | ⟨n, f⟩ | _) hf ⟨k, hk⟩
      · exact hk.elim
      · exact ⟨n, f, rfl⟩
      · exact hf.elim
    obtain ⟨n, f, rfl⟩ := ask p hfp hup
    obtain ⟨m, g, rfl⟩ := ask q hfq huq
    have hn : tbl n ≠ none := requests_run _ hrp (.inl rfl)
    have hm : tbl m ≠ none := requests_run _ hrq (.inl rfl)
    have qa : ∀ i, Requests tbl i (.ask m g) → i ≠ n →
        ∃ l s, Reaches gen (launch Mem.init (both (.ask n f) (.ask m g))) l s ∧ Threads.Race s :=
      fun i hi h => race_after hgen _ 0 1 (by decide) rfl hn hfq hrq hi h
    have pa : ∀ i, Requests tbl i (.ask n f) → i ≠ m →
        ∃ l s, Reaches gen (launch Mem.init (both (.ask n f) (.ask m g))) l s ∧ Threads.Race s :=
      fun i hi h => race_after hgen _ 1 0 (by decide) rfl hm hfp hrp hi h
    by_cases hmn : m = n
    · subst hmn
      by_cases hjm : j = m
      · have hkm : k ≠ m := fun e => hne (hjm.trans e.symm)
        exact hk.elim (fun h => pa k h hkm) fun h => qa k h hkm
      · exact hj.elim (fun h => pa j h hjm) fun h => qa j h hjm
    · exact qa m (.inl rfl) hmn

/-- C108: the same for threads that start later, when a map of tables has been published: they can race if and only if
one of them uses a size whose table is missing. -/
theorem C108_published_iff {tbl : Nat → Option Table} {gen : Nat → Cache.Gen Table → Prop}
    (hgen : ∀ k t, tbl k = some t → gen k (.ok t)) {α : Type} {mem : Mem} (ha : Agrees tbl mem) (hc : mem.cell ≠ none)
    (hl : mem.locked = false) (hq : mem.poisoned = false) (p q : Prog α) (hfp : ForkFree p) (hfq : ForkFree q)
    (hrp : p.run tbl ≠ none) (hrq : q.run tbl ≠ none) (hup : ∃ k, Requests tbl k p) (huq : ∃ k, Requests tbl k q) :
    (∃ l s, Reaches gen (launch mem (both p q)) l s ∧ Threads.Race s) ↔
      ∃ k, (Requests tbl k p ∨ Requests tbl k q) ∧ ¬ Holds mem k := by
  constructor
  · rintro ⟨l, s, h, hrace⟩
    by_contra hno
    refine (C81_prepared ha _ (fun i k hk => by_contra fun hne => hno ⟨k, ?_, hne⟩) l s h).2.1 hrace
    unfold both at hk
    split at hk
    · exact .inl hk
    split at hk
    · exact .inr hk
    · exact hk.elim
  · rintro ⟨j, hj, hmiss⟩
    have ask : ∀ (p : Prog α), ForkFree p → (∃ k, Requests tbl k p) → ∃ n f, p = .ask n f := by
      rintro (r | ⟨n, f⟩ | _) hf ⟨k, hk⟩
      · exact hk.elim
      · exact ⟨n, f, rfl⟩
      · exact hf.elim
    have key : ∀ (P : Nat → Prog α) (a b : Nat), a ≠ b → (∃ n f, P a = .ask n f) → ForkFree (P b) →
        (P b).run tbl ≠ none → Requests tbl j (P b) → ∃ l s, Reaches gen (launch mem P) l s ∧ Threads.Race s := by
      rintro P a b hab ⟨n, f, hP⟩ hf hr hj
      have h1 := (Reaches.refl (gen := gen) (s0 := launch mem P)).step (i := a) (mem := mem)
        (t := .run .reading (.ask n f)) (by
          show Step gen mem (.run .calm (P a)) _ _
          rw [hP]
          exact .peekSome hc)
      obtain ⟨l, s, r, hw, hs⟩ := reaches_insert hgen (j := j) (b := b) ⟨hc, hl, hq⟩ ha hmiss (P b) _ _ hf
        (fun k hk => requests_run (P b) hr hk) hj (by simp [Threads.set, launch, hab.symm]) h1
      refine ⟨l, s, r, .inr ⟨b, a, hab.symm, hw, ?_⟩⟩
      rw [hs a hab]
      simp [Threads.set, Threads.Task.readers]
    rcases hj with hj | hj
    · exact key _ 1 0 (by decide) (ask q hfq huq) hfp hrp hj
    · exact key _ 0 1 (by decide) (ask p hfp hup) hfq hrq hj

/-! ## Key generation in several threads -/

section Sizes
variable {R : Ctx} {S : Nat → Prop}

theorem asks_zeroSample {s a e : List Nat} (hn : S (trailingZeros 64 s.length)) :
    AsksIn R.tbl S (Prog.zeroSample R s a e) := by
  unfold Prog.zeroSample
  split
  · rename_i h
    exact asks_bind (asks_toNtt (by rwa [h.2])) fun _ _ => asks_lift fun _ _ => asks_pure _
  · exact asks_stop _

theorem asks_valueSample {s a e : List Nat} {v : Nat} (hn : S (trailingZeros 64 s.length)) :
    AsksIn R.tbl S (Prog.valueSample R s v a e) := by
  unfold Prog.valueSample
  split
  · rename_i h
    refine asks_lift fun e' he => ?_
    have hl : e'.length = e.length := by
      unfold NTTRLWE.addHead at he
      split at he
      · simp at he
      · obtain ⟨x, _, he⟩ := bind_some_iff.1 he
        obtain rfl := Option.some.inj he
        simp
    exact asks_bind (asks_toNtt (by rwa [hl, h.2])) fun _ _ => asks_lift fun _ _ => asks_pure _
  · exact asks_stop _

theorem asks_negSecretElement {s a e : List Nat} {v : Nat} (hn : S (trailingZeros 64 s.length)) :
    AsksIn R.tbl S (Prog.negSecretElement R s v a e) :=
  asks_bind (asks_zeroSample hn) fun _ _ => asks_lift fun _ _ => asks_pure _

theorem asks_generateLoop {f : Nat → List Nat → List Nat → Prog NTTRLWE} (hf : ∀ v a e, AsksIn R.tbl S (f v a e))
    (basis : Nat) : ∀ (k power : Nat) (ds : List Draw), AsksIn R.tbl S (Prog.generateLoop R f basis k power ds)
  | 0, _, [] => by simp only [Prog.generateLoop]; exact asks_stop _
  | _ + 1, _, [] => by simp only [Prog.generateLoop]; exact asks_stop _
  | 0, _, (a, e) :: _ => by
    simp only [Prog.generateLoop]
    exact asks_bind (hf _ _ _) fun _ _ => asks_pure _
  | k + 1, _, (a, e) :: ds => by
    simp only [Prog.generateLoop]
    exact asks_bind (hf _ _ _) fun _ _ => asks_lift fun _ _ =>
      asks_bind (asks_generateLoop hf basis k _ ds) fun _ _ => asks_pure _

theorem asks_rgswOne {s : List Nat} {B : Basis} {d : BlindRotation.RgswDraw} (hn : S (trailingZeros 64 s.length)) :
    AsksIn R.tbl S (Prog.rgswOne R s B d) :=
  asks_bind (asks_lift fun _ _ =>
    asks_bind (asks_generateLoop (fun _ _ _ => asks_negSecretElement hn) _ _ _ _) fun _ _ => asks_pure _) fun _ _ =>
  asks_bind (asks_lift fun _ _ =>
    asks_bind (asks_generateLoop (fun _ _ _ => asks_valueSample hn) _ _ _ _) fun _ _ => asks_pure _) fun _ _ => asks_pure _

theorem asks_zeroLoop {s : List Nat} (hn : S (trailingZeros 64 s.length)) :
    ∀ ds : List Draw, AsksIn R.tbl S (Prog.zeroLoop R s ds)
  | [] => asks_pure _
  | (_, _) :: ds => asks_bind (asks_zeroSample hn) fun _ _ => asks_bind (asks_zeroLoop hn ds) fun _ _ => asks_pure _

theorem asks_rgswZero {s : List Nat} {B : Basis} {d : BlindRotation.RgswDraw} (hn : S (trailingZeros 64 s.length)) :
    AsksIn R.tbl S (Prog.rgswZero R s B d) := by
  have h : ∀ ds, AsksIn R.tbl S (Prog.gadgetZero R s B ds) := by
    intro ds
    unfold Prog.gadgetZero
    split
    · exact asks_bind (asks_zeroLoop hn _) fun _ _ => asks_pure _
    · exact asks_stop _
  exact asks_bind (h _) fun _ _ => asks_bind (h _) fun _ _ => asks_pure _

theorem asks_binaryGenerate {sn : List Nat} {B : Basis} (hn : S (trailingZeros 64 sn.length)) : ∀ (ss : List Nat)
    (ds : List BlindRotation.RgswDraw), AsksIn R.tbl S (Prog.binaryGenerate R sn B ss ds)
  | [], _ => by simp only [Prog.binaryGenerate]; exact asks_pure _
  | _ :: _, [] => asks_stop _
  | s :: ss, d :: ds => by
    refine asks_bind ?_ fun _ _ => asks_bind (asks_binaryGenerate hn ss ds) fun _ _ => asks_pure _
    unfold Prog.binaryKey
    split
    · exact asks_rgswZero hn
    · exact asks_rgswOne hn

theorem asks_ternaryGenerate {sn : List Nat} {B : Basis} (hn : S (trailingZeros 64 sn.length)) : ∀ (ss : List Nat)
    (ds : List (BlindRotation.RgswDraw × BlindRotation.RgswDraw)), AsksIn R.tbl S (Prog.ternaryGenerate R sn B ss ds)
  | [], _ => by simp only [Prog.ternaryGenerate]; exact asks_pure _
  | _ :: _, [] => asks_stop _
  | s :: ss, d :: ds => by
    refine asks_bind ?_ fun _ _ => asks_bind (asks_ternaryGenerate hn ss ds) fun _ _ => asks_pure _
    have h0 := fun d => asks_rgswZero (R := R) (S := S) (B := B) (d := d) hn
    have h1 := fun d => asks_rgswOne (R := R) (S := S) (B := B) (d := d) hn
    unfold Prog.ternaryKey
    split
    · exact asks_bind (h1 _) fun _ _ => asks_bind (h0 _) fun _ _ => asks_pure _
    split
    · exact asks_bind (h0 _) fun _ _ => asks_bind (h0 _) fun _ _ => asks_pure _
    · exact asks_bind (h0 _) fun _ _ => asks_bind (h1 _) fun _ _ => asks_pure _

theorem asks_samples {sn : List Nat} (hn : S (trailingZeros 64 sn.length)) (basis : Nat) :
    ∀ (cnt : Nat) (z : List Nat) (ds : List Draw), AsksIn R.tbl S (Prog.samples R sn basis cnt z ds)
  | 0, _, _ => by simp only [Prog.samples]; exact asks_pure _
  | 1, _, [] => asks_stop _
  | _ + 2, _, [] => asks_stop _
  | 1, _, (_, _) :: _ => by
    simp only [Prog.samples]
    exact asks_bind (asks_zeroSample hn) fun _ _ => asks_lift fun _ _ => asks_pure _
  | cnt + 2, _, (_, _) :: ds => by
    simp only [Prog.samples]
    exact asks_bind (asks_zeroSample hn) fun _ _ => asks_lift fun _ _ => asks_lift fun _ _ =>
      asks_bind (asks_samples hn basis (cnt + 1) _ ds) fun _ _ => asks_pure _

theorem asks_element {B : Basis} {sn : List Nat} (hn : S (trailingZeros 64 sn.length)) (basis : Nat) (z : List Nat)
    (ds : List Draw) : AsksIn R.tbl S (Prog.element R B sn basis z ds) := by
  refine asks_bind (asks_samples hn _ _ _ _) fun data _ => ?_
  split
  · exact asks_pure _
  · exact asks_stop _

theorem asks_elements {B : Basis} {sn : List Nat} {n : Nat} (hn : S (trailingZeros 64 n))
    (hsn : S (trailingZeros 64 sn.length)) (basis : Nat) (d : Nat → List Draw) : ∀ (c : Nat) (zs : List (List Nat)),
    (∀ z ∈ zs, z.length = n) → AsksIn R.tbl S (Prog.elements R B sn basis d c zs)
  | _, [], _ => asks_pure _
  | c, z :: zs, h => asks_bind (asks_toNtt (by rwa [h z (by simp)])) fun _ _ =>
      asks_bind (asks_element hsn _ _ _) fun _ _ =>
      asks_bind (asks_elements hn hsn basis d (c + 1) zs fun z hz => h z (by simp [hz])) fun _ _ => asks_pure _

end Sizes

theorem toNtt_run_length {R : Ctx} (hR : SliceTables R) {a o : List Nat} (h : (Prog.toNtt R a).run R.tbl = some o) :
    o.length = a.length := by
  rw [Prog.toNtt_run] at h
  obtain ⟨t, e, h⟩ := bind_some_iff.1 h
  unfold Poly.tableFor at e
  split at e
  · exact (hR _ _ e).1 _ _ h
  · simp at e

/-- C108: the start of an application asks for the tables of its gates only. -/
theorem C108_start_sizes {R : Ctx} (hR : SliceTables R) {w : Nat} {P : Params} {dk : KeyDraws} {d : EvalDraws}
    (hd : P.ringKeyType = .gaussian → P.ringDimension ≤ dk.gauss.length) :
    ∀ k, Requests R.tbl k (Prog.start w R P dk d) → GateSize P k := by
  show AsksIn R.tbl (GateSize P) (Prog.start w R P dk d)
  have hring : ∀ {lwe ring}, KeyPack.lweKey P dk.lwe = some lwe → KeyPack.ringKey R P lwe dk = some ring →
      ring.length = P.ringDimension := fun h1 h2 => ringKey_length (lweKey_length h1) hd h2
  refine asks_bind ?_ fun pack hpack => asks_bind ?_ fun _ _ => asks_pure _
  · refine asks_lift fun lwe h1 => asks_lift fun ring h2 => asks_bind (asks_toNtt ?_) fun _ _ => asks_pure _
    rw [hring h1 h2]
    exact .inl rfl
  · simp only [Prog.keyPack, Prog.run_bind, Prog.run_lift, Prog.run_pure] at hpack
    obtain ⟨lwe, h1, hpack⟩ := Option.bind_eq_some_iff.1 hpack
    obtain ⟨ring, h2, hpack⟩ := Option.bind_eq_some_iff.1 hpack
    obtain ⟨rn, h3, hpack⟩ := Option.bind_eq_some_iff.1 hpack
    obtain rfl := Option.some.inj hpack
    have hrn : GateSize P (trailingZeros 64 rn.length) := by
      rw [toNtt_run_length hR h3, hring h1 h2]
      exact .inl rfl
    refine asks_bind ?_ fun _ _ => asks_bind ?_ fun _ _ => asks_pure _
    · unfold Prog.rotationKey
      cases P.lweKeyType
      · exact asks_bind (asks_binaryGenerate hrn _ _) fun _ _ => asks_pure _
      · exact asks_bind (asks_ternaryGenerate hrn _ _) fun _ _ => asks_pure _
    · unfold Prog.switchKey
      cases hs : P.steps
      · exact asks_lift fun _ _ => asks_lift fun _ _ => asks_pure _
      · refine asks_bind ?_ fun _ _ => asks_pure _
        unfold Prog.rlweSwitchKey
        dsimp only
        have hn : GateSize P (trailingZeros 64 (RlweSwitch.nextPow2 lwe.length)) := by
          rw [lweKey_length h1]
          exact .inr ⟨hs, rfl⟩
        split
        · refine asks_lift fun _ _ => asks_lift fun negOne _ => ?_
          have hsk : (lwe.map (LweSwitch.convert negOne) ++
              List.replicate (RlweSwitch.nextPow2 lwe.length - lwe.length) Fp.zero).length =
              RlweSwitch.nextPow2 lwe.length := by
            have := le_nextPow2 lwe.length
            simp only [List.length_append, List.length_map, List.length_replicate]
            omega
          refine asks_bind (asks_toNtt (by rwa [hsk])) fun sn e => asks_lift fun _ _ => ?_
          have hsn : GateSize P (trailingZeros 64 sn.length) := by rwa [toNtt_run_length hR e, hsk]
          unfold Prog.keyParts
          split
          · exact asks_bind (asks_element hsn _ _ _) fun _ _ => asks_pure _
          · exact asks_elements hn hsn _ _ _ _ fun z hz => chunks_length hz
        · exact asks_stop _
      · exact asks_pure _

/-- C108: applications in any number of threads at once. In a new program each thread starts its own application,
with its own keys, and makes its calls. If the parameters use one size of transforms only, then in every schedule and
whatever the outcomes of the generations there is no data race, and a thread that ends without a panic has the
ciphertexts and replies of its history alone. -/
theorem C108_sessions {R : Ctx} (hR : SliceTables R) {gen : Nat → Cache.Gen Table → Prop} (hg : OneTable R.tbl gen)
    {w : Nat} {P : Params} (dk : Nat → KeyDraws) (d : Nat → EvalDraws)
    (hd : ∀ i, P.ringKeyType = .gaussian → P.ringDimension ≤ (dk i).gauss.length)
    (hs : P.steps ≠ .brKsMs ∨ RlweSwitch.nextPow2 P.n = P.ringDimension)
    (history : Nat → List Call × List LWE) (l : List Nat) (s : State (List LWE × List Reply))
    (h : Reaches gen (launch Mem.init fun i =>
      Prog.start w R P (dk i) (d i) >>= fun A => Prog.calls A (history i).1 (history i).2) l s) :
    ¬ Threads.Race s ∧ ∀ i r, Ended (s.task i) (some r) →
      ∃ A, App.start w R P (dk i) (d i) = some A ∧ A.run (history i).1 (history i).2 = some r := by
  have hone : ∀ k, GateSize P k → k = trailingZeros 64 P.ringDimension := by
    rintro k (h | ⟨h, h'⟩)
    · exact h
    · rcases hs with hs | hs
      · exact absurd h hs
      · rw [h', hs]
  have hp : ∀ i k, Requests R.tbl k (Prog.start w R P (dk i) (d i) >>= fun A =>
      Prog.calls A (history i).1 (history i).2) → k = trailingZeros 64 P.ringDimension := by
    intro i k hk
    refine hone k ?_
    rcases (requests_bind _ _).1 hk with hk | ⟨A, hA, hk⟩
    · exact C108_start_sizes hR (hd i) k hk
    · rw [Prog.start_run] at hA
      obtain ⟨eR, eP, hsw, _⟩ := C81_start_requests (hd i) hA
      have := asks_calls (A := A) (by rw [eR]; exact hR) (by rw [eP]; exact hsw) (history i).1 (history i).2
      rw [eR, eP] at this
      exact this k hk
  obtain ⟨h1, h2⟩ := C108_one_size hg _ _ hp l s h
  refine ⟨h1, fun i r he => ?_⟩
  have hr := h2 i r he
  rw [Prog.run_bind, Prog.start_run] at hr
  obtain ⟨A, hA, hr⟩ := Option.bind_eq_some_iff.1 hr
  refine ⟨A, hA, ?_⟩
  rw [← (C81_start_requests (hd i) hA).1, Prog.calls_run] at hr
  exact hr

/-- C108: with two sizes of transforms this can go wrong: two threads of a new program that start an application each
can reach a data race. -/
theorem C108_sessions_race_iff {R : Ctx} (hR : SliceTables R) {gen : Nat → Cache.Gen Table → Prop} (hg : OneTable R.tbl gen)
    (hgen : ∀ k t, R.tbl k = some t → gen k (.ok t)) {w : Nat} {P : Params} {dk dk' : KeyDraws} {d d' : EvalDraws}
    (hd : P.ringKeyType = .gaussian → P.ringDimension ≤ dk.gauss.length)
    (hd' : P.ringKeyType = .gaussian → P.ringDimension ≤ dk'.gauss.length) {A A' : App}
    (hA : App.start w R P dk d = some A) (hA' : App.start w R P dk' d' = some A') :
    (∃ l s, Reaches gen (launch Mem.init (both (Prog.start w R P dk d) (Prog.start w R P dk' d'))) l s ∧
      Threads.Race s) ↔
      P.steps = .brKsMs ∧ trailingZeros 64 (RlweSwitch.nextPow2 P.n) ≠ trailingZeros 64 P.ringDimension := by
  have hr := (C81_start_requests hd hA).2.2.2
  have hr' := (C81_start_requests hd' hA').2.2.2
  rw [C108_race_iff hg hgen _ _ (forkFree_start _ _ _ _ _) (forkFree_start _ _ _ _ _)
    (by rw [Prog.start_run, hA]; simp) (by rw [Prog.start_run, hA']; simp) ⟨_, hr _ (.inl rfl)⟩ ⟨_, hr' _ (.inl rfl)⟩]
  constructor
  · rintro ⟨j, k, hne, hj, hk⟩
    have gs : ∀ i, Requests R.tbl i (Prog.start w R P dk d) ∨ Requests R.tbl i (Prog.start w R P dk' d') →
        GateSize P i := fun i hi => hi.elim (C108_start_sizes hR hd i) (C108_start_sizes hR hd' i)
    rcases gs j hj with h1 | ⟨hs, h1⟩ <;> rcases gs k hk with h2 | ⟨hs', h2⟩
    · exact absurd (h1.trans h2.symm) hne
    · exact ⟨hs', fun e => hne (by rw [h1, h2, e])⟩
    · exact ⟨hs, fun e => hne (by rw [h1, h2, e])⟩
    · exact absurd (h1.trans h2.symm) hne
  · rintro ⟨hs, hne⟩
    exact ⟨_, _, hne, .inl (hr _ (.inr ⟨hs, rfl⟩)), .inl (hr _ (.inl rfl))⟩

/-- C108: with either of the two parameter sets of the library, any number of threads may each start an application and
use it at the same time, with randomly generated tables and no preparation. -/
theorem C108_sessions_default (P : Params) (hP : P = defaultParams ∨ P = customParams) (dk : Nat → KeyDraws)
    (d : Nat → EvalDraws) (history : Nat → List Call × List LWE) (l : List Nat) (s : State (List LWE × List Reply))
    (h : Reaches (Outcome 32 132120577 defaultBarrett none) (launch Mem.init fun i =>
      Prog.start 16 nativeCtx P (dk i) (d i) >>= fun A => Prog.calls A (history i).1 (history i).2) l s) :
    ¬ Threads.Race s ∧ ∀ i r, Ended (s.task i) (some r) →
      ∃ A, App.start 16 nativeCtx P (dk i) (d i) = some A ∧ A.run (history i).1 (history i).2 = some r := by
  refine C108_sessions native_slices native_one_table dk d (fun i hi => ?_) ?_ history l s h
  · rcases hP with rfl | rfl <;> cases hi
  · rcases hP with rfl | rfl
    · exact .inr (by decide +kernel)
    · exact .inl (by decide)

-- the small instance uses transforms of the sizes 2 and 32: two threads that start it can race
example : ∃ l s, Reaches (Outcome 32 132120577 defaultBarrett none)
    (launch Mem.init (both (Prog.start 16 nativeCtx smallParams ⟨fun _ => 14, fun _ => 0x2d2d2d2d, []⟩ smallEvalDraws)
      (Prog.start 16 nativeCtx smallParams ⟨fun _ => 14, fun _ => 0x2d2d2d2d, []⟩ smallEvalDraws))) l s ∧
    Threads.Race s := by
  obtain ⟨A, hA⟩ := C73_keys small_gateParams (by decide) (fun k' _ h => native_table (by omega))
    (by simp [KeysFit, smallParams, nativeCtx]) 7 (by decide +kernel) ⟨fun _ => 14, fun _ => 0x2d2d2d2d, []⟩
    (fun h => by cases h) 1 1 _ smallEvalDraws_ok
  exact (C108_sessions_race_iff native_slices native_one_table native_outcome (fun h => by cases h)
    (fun h => by cases h) hA hA).2 ⟨rfl, by decide +kernel⟩

-- two threads that transform polynomials of one length never race, of different lengths they can
example : (¬ ∃ l s, Reaches (Outcome 32 132120577 defaultBarrett none)
      (launch Mem.init (both (Prog.toNtt nativeCtx [1, 2]) (Prog.toNtt nativeCtx [3, 4]))) l s ∧ Threads.Race s) ∧
    Requests nativeCtx.tbl 1 (Prog.toNtt nativeCtx [1, 2]) ∧ Requests nativeCtx.tbl 1 (Prog.toNtt nativeCtx [3, 4]) := by
  refine ⟨?_, .inl rfl, .inl rfl⟩
  rintro ⟨l, s, h, hr⟩
  refine (C108_one_size native_one_table 1 _ (fun i k hk => ?_) l s h).1 hr
  unfold both at hk
  have one : ∀ a : List Nat, a.length = 2 → Requests nativeCtx.tbl k (Prog.toNtt nativeCtx a) → k = 1 := by
    intro a ha hk
    refine asks_toNtt (S := fun k => k = 1) ?_ k hk
    rw [ha]
    decide +kernel
  split at hk
  · exact one _ rfl hk
  split at hk
  · exact one _ rfl hk
  · exact hk.elim

-- the table of size 2 has been published; a thread that uses it races with one that transforms a polynomial of length 4
example : ∃ t l s, nativeCtx.tbl 1 = some t ∧ Reaches (Outcome 32 132120577 defaultBarrett none)
    (launch ⟨some [(1, t)], false, false⟩ (both (Prog.toNtt nativeCtx [1, 2]) (Prog.toNtt nativeCtx [1, 2, 3, 4]))) l s ∧
    Threads.Race s := by
  obtain ⟨_, _, _, _, t, _, _, _, ht⟩ := native_table (k := 1) (by decide)
  have ha : Agrees nativeCtx.tbl ⟨some [(1, t)], false, false⟩ := by
    intro m k u hm hu
    obtain rfl := Option.some.inj hm
    by_cases hk : k = 1
    · subst hk
      simp [Cache.find] at hu
      exact hu ▸ ht
    · simp [Cache.find, List.lookup, beq_eq_false_iff_ne.2 hk] at hu
  have hr : ∀ a ∈ [[1, 2], [1, 2, 3, 4]], (Prog.toNtt nativeCtx a).run nativeCtx.tbl ≠ none := by
    decide +kernel
  obtain ⟨l, s, h⟩ := (C108_published_iff native_outcome ha (by simp) rfl rfl _ _ (forkFree_toNtt _ [1, 2])
    (forkFree_toNtt _ [1, 2, 3, 4]) (hr _ (by simp)) (hr _ (by simp)) ⟨1, .inl rfl⟩ ⟨2, .inl rfl⟩).2
    ⟨2, .inr (.inl rfl), by
      rintro ⟨m, u, hm, hu⟩
      obtain rfl := Option.some.inj hm
      simp [Cache.find, List.lookup] at hu⟩
  exact ⟨t, l, s, ht, h⟩

end Verif.Props
