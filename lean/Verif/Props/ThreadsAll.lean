import Verif.Props.ThreadsOneSize

/-! # C108: which programs with any number of threads can race -/

namespace Verif.Props
open Spec Threads

/-- Only thread `a` uses tables. -/
theorem no_race_one_user {gen : Nat → Cache.Gen Table → Prop} {α : Type} {mem : Mem} (hm : mem.locked = false)
    (p : Nat → Prog α) (a : Nat) (hf : ForkFree (p a)) (hs : ∀ i, i ≠ a → ∃ r, p i = .stop r) (l : List Nat)
    (s : State α) (h : Reaches gen (launch mem p) l s) : ¬ Threads.Race s := by
  have key : FitsAlone s.mem (s.task a) ∧ ∀ i, i ≠ a → ∃ r, s.task i = .run .calm (.stop r) := by
    induction h with
    | refl =>
      refine ⟨⟨hm, hf⟩, fun i hi => ?_⟩
      obtain ⟨r, e⟩ := hs i hi
      exact ⟨r, by simp [launch, e]⟩
    | @step l s mem' t i _ st ih =>
      by_cases hi : i = a
      · subst hi
        exact ⟨by simpa [Threads.set] using step_fits st ih.1, fun j hj => by simpa [Threads.set, hj] using ih.2 j hj⟩
      · obtain ⟨r, e⟩ := ih.2 i hi
        rw [e] at st
        cases st
  have h3 := fits_accesses _ key.1
  have h4 : ∀ i, i ≠ a → (s.task i).writers = 0 ∧ (s.task i).readers = 0 := by
    intro i hi
    obtain ⟨r, e⟩ := key.2 i hi
    rw [e]
    exact ⟨rfl, rfl⟩
  rintro (⟨i, h5, h6⟩ | ⟨i, j, hij, h5, h6⟩)
  · by_cases hi : i = a
    · subst hi; omega
    · have := h4 i hi; omega
  · by_cases hi : i = a
    · have := h4 j (fun e => hij (hi.trans e.symm)); omega
    · have := h4 i hi; omega

/-- C108: exactly which programs can race. Let the generations be able to succeed. Any number of threads of a new
program run computations that have no forks and succeed alone. Some schedule leads to a data race if and only if at
least two threads use tables and the threads together use at least two sizes. -/
theorem C108_threads_iff {tbl : Nat → Option Table} {gen : Nat → Cache.Gen Table → Prop} (hg : OneTable tbl gen)
    (hgen : ∀ k t, tbl k = some t → gen k (.ok t)) {α : Type} (p : Nat → Prog α) (hf : ∀ i, ForkFree (p i))
    (hr : ∀ i k, Requests tbl k (p i) → (p i).run tbl ≠ none) :
    (∃ l s, Reaches gen (launch Mem.init p) l s ∧ Threads.Race s) ↔
      (∃ a b, a ≠ b ∧ (∃ k, Requests tbl k (p a)) ∧ ∃ k, Requests tbl k (p b)) ∧
      ∃ j k, j ≠ k ∧ (∃ i, Requests tbl j (p i)) ∧ ∃ i, Requests tbl k (p i) := by
  have ask : ∀ i, (∃ k, Requests tbl k (p i)) → ∃ n f, p i = .ask n f := by
    rintro i ⟨k, hk⟩
    have hfi := hf i
    revert hk hfi
    cases p i with
    | stop r => exact fun hk _ => hk.elim
    | ask n f => exact fun _ _ => ⟨n, f, rfl⟩
    | fork _ _ _ => exact fun _ h => h.elim
  have stop : ∀ i, (¬ ∃ k, Requests tbl k (p i)) → ∃ r, p i = .stop r := by
    intro i hno
    have hfi := hf i
    revert hno hfi
    cases p i with
    | stop r => exact fun _ _ => ⟨r, rfl⟩
    | ask n f => exact fun h _ => absurd ⟨n, .inl rfl⟩ h
    | fork _ _ _ => exact fun _ h => h.elim
  constructor
  · rintro ⟨l, s, h, hrace⟩
    constructor
    · by_contra hno
      by_cases hu : ∃ a, ∃ k, Requests tbl k (p a)
      · obtain ⟨a, ha⟩ := hu
        exact no_race_one_user rfl p a (hf a) (fun i hi => stop i fun hk => hno ⟨i, a, hi, hk, ha⟩) l s h hrace
      · exact no_race_one_user rfl p 0 (hf 0) (fun i _ => stop i fun hk => hu ⟨i, hk⟩) l s h hrace
    · by_contra hno
      have one : ∃ n, ∀ i k, Requests tbl k (p i) → k = n := by
        by_cases hu : ∃ n i, Requests tbl n (p i)
        · obtain ⟨n, hn⟩ := hu
          exact ⟨n, fun i k hk => by_contra fun hne => hno ⟨k, n, hne, ⟨i, hk⟩, hn⟩⟩
        · exact ⟨0, fun i k hk => absurd ⟨k, i, hk⟩ hu⟩
      obtain ⟨n, hn⟩ := one
      exact (C108_one_size hg n p hn l s h).1 hrace
  · rintro ⟨⟨a, b, hab, ha, hb⟩, j, k, hjk, ⟨u, hu⟩, v, hv⟩
    obtain ⟨n, f, ea⟩ := ask a ha
    obtain ⟨m, g, eb⟩ := ask b hb
    have ra : Requests tbl n (p a) := by rw [ea]; exact .inl rfl
    have rb : Requests tbl m (p b) := by rw [eb]; exact .inl rfl
    have go : ∀ {c d n f i}, c ≠ d → p c = .ask n f → Requests tbl i (p d) → i ≠ n →
        ∃ l s, Reaches gen (launch Mem.init p) l s ∧ Threads.Race s := by
      intro c d n f i hcd ec hi hne
      have rc : Requests tbl n (p c) := by rw [ec]; exact .inl rfl
      exact race_after hgen p c d hcd ec (requests_run _ (hr c n rc) rc) (hf d) (hr d i hi) hi hne
    by_cases hmn : m = n
    · subst hmn
      have third : ∀ i w, Requests tbl i (p w) → i ≠ m →
          ∃ l s, Reaches gen (launch Mem.init p) l s ∧ Threads.Race s := by
        intro i w hw hi
        by_cases hwa : w = a
        · subst hwa
          exact go hab.symm eb hw hi
        · exact go (Ne.symm hwa) ea hw hi
      by_cases hjm : j = m
      · exact third k v hv fun e => hjk (hjm.trans e.symm)
      · exact third j u hu hjm
    · exact go hab ea rb hmn

-- a hundred threads; thread `i` transforms a polynomial of length 2, only the last one of length 4
example : ∃ l s, Reaches (Outcome 32 132120577 defaultBarrett none) (launch Mem.init fun i =>
    if i < 99 then Prog.toNtt nativeCtx [1, 2] else if i = 99 then Prog.toNtt nativeCtx [1, 2, 3, 4] else .stop none) l s ∧
    Threads.Race s := by
  have hr : ∀ a ∈ [[1, 2], [1, 2, 3, 4]], (Prog.toNtt nativeCtx a).run nativeCtx.tbl ≠ none := by decide +kernel
  refine (C108_threads_iff native_one_table native_outcome _ (fun i => ?_) fun i k hk => ?_).2
    ⟨⟨0, 99, by decide, ⟨1, .inl rfl⟩, 2, .inl rfl⟩, 1, 2, by decide, ⟨0, .inl rfl⟩, 99, .inl rfl⟩
  · split
    · exact forkFree_toNtt _ _
    split
    · exact forkFree_toNtt _ _
    · trivial
  · revert hk
    split
    · exact fun _ => hr _ (by simp)
    split
    · exact fun _ => hr _ (by simp)
    · exact fun hk => hk.elim

end Verif.Props
