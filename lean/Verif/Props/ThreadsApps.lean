import Verif.Props.Threads

/-! # C81: several applications in one program -/

namespace Verif.Props
open Spec Threads

/-- What the start of an application takes: the word size, the parameters and the draws. -/
structure Setup where
  w : Nat
  P : Params
  dk : KeyDraws
  d : EvalDraws

/-- One thread starts applications one after the other. -/
def startAll (R : Ctx) : List Setup → Prog (List App)
  | [] => return []
  | x :: xs => do
    let A ← Prog.start x.w R x.P x.dk x.d
    let As ← startAll R xs
    return A :: As

theorem startAll_run {R : Ctx} : ∀ {xs : List Setup} {As : List App}, (startAll R xs).run R.tbl = some As →
    ∀ A ∈ As, ∃ x ∈ xs, App.start x.w R x.P x.dk x.d = some A ∧
      ∀ k, Requests R.tbl k (Prog.start x.w R x.P x.dk x.d) → Requests R.tbl k (startAll R xs)
  | [], As, h, A, hA => by
    simp only [startAll, Prog.run_pure, Option.some.injEq] at h
    subst h
    simp at hA
  | x :: xs, As, h, A, hA => by
    simp only [startAll, Prog.run_bind, Prog.run_pure] at h
    obtain ⟨B, h1, h⟩ := Option.bind_eq_some_iff.1 h
    obtain ⟨Bs, h2, h⟩ := Option.bind_eq_some_iff.1 h
    obtain rfl := Option.some.inj h
    rcases List.mem_cons.1 hA with rfl | hA
    · exact ⟨x, by simp, by rw [← Prog.start_run]; exact h1, fun k hk => (requests_bind _ _).2 (.inl hk)⟩
    · obtain ⟨y, hy, e, hr⟩ := startAll_run h2 A hA
      exact ⟨y, by simp [hy], e, fun k hk => (requests_bind _ _).2 (.inr ⟨B, h1, (requests_bind _ _).2 (.inl (hr k hk))⟩)⟩

/-- C81: several applications, with any parameters. They are started one after the other in one thread; then any number
of threads make their calls, each with one of the applications. In every schedule the memory does not change, there is
no data race, and each thread that has ended has the ciphertexts and replies, or the panic, of its history alone. -/
theorem C81_applications {R : Ctx} (hR : SliceTables R) {gen : Nat → Cache.Gen Table → Prop} (hg : OneTable R.tbl gen)
    (xs : List Setup) (hd : ∀ x ∈ xs, x.P.ringKeyType = .gaussian → x.P.ringDimension ≤ x.dk.gauss.length)
    (l0 : List Nat) (s0 : State (List App)) (hs0 : Reaches gen (launch Mem.init (alone (startAll R xs))) l0 s0)
    (As : List App) (hA : Ended (s0.task 0) (some As)) (app : Nat → App) (happ : ∀ i, app i ∈ As)
    (history : Nat → List Call × List LWE) (l : List Nat) (s : State (List LWE × List Reply))
    (h : Reaches gen (launch s0.mem fun i => Prog.calls (app i) (history i).1 (history i).2) l s) :
    s.mem = s0.mem ∧ ¬ Threads.Race s ∧ ∀ i,
      (∀ r, Ended (s.task i) r → r = (app i).run (history i).1 (history i).2) ∧
      ((¬ ∃ r, Ended (s.task i) r) → ∃ t, Step gen s.mem (s.task i) s.mem t) ∧
      ((∃ r, Ended (s.task i) r) ↔ l.count i = cost R.tbl (Prog.calls (app i) (history i).1 (history i).2)) := by
  have hm : Agrees R.tbl Mem.init := by
    intro m k t h
    simp [Mem.init] at h
  have hrun := C81_results hg hm _ l0 s0 hs0 0 As hA
  rw [alone, if_pos rfl] at hrun
  obtain ⟨ha, _, hh⟩ := C81_tables_stay hg hm _ l0 s0 hs0
  have hp : ∀ i k, Requests R.tbl k (Prog.calls (app i) (history i).1 (history i).2) → Holds s0.mem k := by
    intro i k hk
    obtain ⟨x, hx, e, hr⟩ := startAll_run hrun (app i) (happ i)
    obtain ⟨eR, eP, hsw, hreq⟩ := C81_start_requests (hd x hx) e
    refine hh 0 As hA k (hr k (hreq k ?_))
    rw [← eP]
    have := asks_calls (A := app i) (by rw [eR]; exact hR) (by rw [eP]; exact hsw) (history i).1 (history i).2
    rw [eR] at this
    exact this k hk
  obtain ⟨h1, h2, h3⟩ := C81_prepared ha _ hp l s h
  refine ⟨h1, h2, fun i => ?_⟩
  obtain ⟨g1, g2, _, g4⟩ := h3 i
  refine ⟨?_, g2, g4⟩
  intro r hr
  obtain ⟨x, hx, e, _⟩ := startAll_run hrun (app i) (happ i)
  rw [g1 r hr, ← (C81_start_requests (hd x hx) e).1, Prog.calls_run]

-- two applications over the default field, with transforms of the sizes 2 and 32, can be started in one thread
example : ∃ (As : List App) (l0 : List Nat) (s0 : State (List App)), As.length = 2 ∧
    Reaches (Outcome 32 132120577 defaultBarrett none) (launch Mem.init (alone (startAll nativeCtx
      (List.replicate 2 ⟨16, smallParams, ⟨fun _ => 14, fun _ => 0x2d2d2d2d, []⟩, smallEvalDraws⟩)))) l0 s0 ∧
    Ended (s0.task 0) (some As) := by
  obtain ⟨A, hA⟩ := C73_keys small_gateParams (by decide) (fun k' _ h => native_table (by omega))
    (by simp [KeysFit, smallParams, nativeCtx]) 7 (by decide +kernel) ⟨fun _ => 14, fun _ => 0x2d2d2d2d, []⟩
    (fun h => by cases h) 1 1 _ smallEvalDraws_ok
  have ff : ∀ xs : List Setup, ForkFree (startAll nativeCtx xs) := by
    intro xs
    induction xs with
    | nil => trivial
    | cons x xs ih => exact forkFree_bind (forkFree_start _ _ _ _ _) fun _ => forkFree_bind ih fun _ => trivial
  obtain ⟨l, s, h1, h2⟩ := alone_runs native_outcome (a := [A, A]) (startAll nativeCtx
      (List.replicate 2 ⟨16, smallParams, ⟨fun _ => 14, fun _ => 0x2d2d2d2d, []⟩, smallEvalDraws⟩)) (ff _)
    (by simp only [List.replicate, startAll, Prog.run_bind, Prog.run_pure, Prog.start_run, hA, Option.bind_some])
    (launch Mem.init (alone _)) rfl (by intro m k t h; simp [launch, Mem.init] at h) rfl rfl
  exact ⟨[A, A], l, s, rfl, h1, h2⟩

end Verif.Props
