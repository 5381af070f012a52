import Verif.Model.NTT

/-!
# The cache of transform tables

`algebra_derive/src/ntt.rs` 51-53 and 149-193. The `static mut` cell holds an optional map from
`log_n` to a shared table; the mutex guards `init_ntt_table` only. First the calls run one after
another (`Cache`), then the steps of several threads interleaved (`CacheRace`).
-/

namespace Verif.Cache

/-- The global state: the `OnceCell` with its `HashMap` (as a list of entries) and whether the mutex
is poisoned. The type `T` of tables is arbitrary. algebra_derive/src/ntt.rs 51-53. -/
structure State (T : Type) where
  cell : Option (List (Nat × T))
  poisoned : Bool

/-- algebra_derive/src/ntt.rs 51-53: the state at program start. -/
def State.init {T : Type} : State T := ⟨none, false⟩

/-- What one call of `generate_ntt_table(log_n)` does: panic, `Err`, or a table. The root search is
random, so two calls with the same size can differ. algebra_derive/src/ntt.rs 171 and 182. -/
inductive Gen (T : Type) where
  | panic
  | err
  | ok (t : T)

/-- The result of a call. algebra_derive/src/ntt.rs 149-193. -/
inductive Res (α : Type) where
  | panic
  | err
  | ok (a : α)

/-- `HashMap::get`. algebra_derive/src/ntt.rs 151 and 158. -/
def find {T : Type} (m : List (Nat × T)) (k : Nat) : Option T := m.lookup k

/-- `HashMap::insert`. algebra_derive/src/ntt.rs 172 and 183. -/
def insert {T : Type} (m : List (Nat × T)) (k : Nat) (t : T) : List (Nat × T) :=
  (k, t) :: m.filter (fun e => e.1 ≠ k)

/-- algebra_derive/src/ntt.rs 170-173 and 181-184: the loop generating and inserting, in the order the hash set yields the
sizes. The map is returned also when the loop ends early. -/
def fill {T : Type} : List (Nat × Gen T) → List (Nat × T) → List (Nat × T) × Res Unit
  | [], m => (m, .ok ())
  | (_, .panic) :: _, m => (m, .panic)
  | (_, .err) :: _, m => (m, .err)
  | (k, .ok t) :: rest, m => fill rest (insert m k t)

/-- algebra_derive/src/ntt.rs 162-193: `init_ntt_table`. `steps` are the sizes to generate, in iteration order, with the
outcome of each generation. A panic while the guard is held poisons the mutex. -/
def initTable {T : Type} (s : State T) (steps : List (Nat × Gen T)) : State T × Res Unit :=
  if s.poisoned then (s, .panic)
  else
    match s.cell with
    | some m =>
      match fill steps m with
      | (m', .panic) => (⟨some m', true⟩, .panic)
      | (m', r) => (⟨some m', false⟩, r)
    | none =>
      match fill steps [] with
      | (_, .panic) => (⟨none, true⟩, .panic)
      | (_, .err) => (⟨none, false⟩, .err)
      | (m', .ok ()) => (⟨some m', false⟩, .ok ())

/-- The keys of the published map. algebra_derive/src/ntt.rs 167. -/
def keys {T : Type} (s : State T) : List Nat := ((s.cell.getD []).map (·.1))

/-- algebra_derive/src/ntt.rs 166-168 and 178: the sizes the loop of `init_ntt_table(log_ns)` visits: a duplicate-free
list, in any order, of the requested sizes that have no table yet. -/
def Visits {T : Type} (s : State T) (logNs : List Nat) (steps : List (Nat × Gen T)) : Prop :=
  (steps.map (·.1)).Nodup ∧ ∀ k, k ∈ steps.map (·.1) ↔ k ∈ logNs ∧ k ∉ keys s

/-- algebra_derive/src/ntt.rs 156-159: the second look-up of `get_ntt_table`, with its two `unwrap`s. -/
def readBack {T : Type} (s : State T) (k : Nat) : Res T :=
  match s.cell with
  | none => .panic
  | some m =>
    match find m k with
    | none => .panic
    | some t => .ok t

/-- algebra_derive/src/ntt.rs 150-154: the first, unlocked look-up. -/
def peek {T : Type} (s : State T) (k : Nat) : Option T :=
  match s.cell with
  | none => none
  | some m => find m k

/-- algebra_derive/src/ntt.rs 149-160: `get_ntt_table(k)`; `steps` are those of the nested `init_ntt_table(&[k])`. -/
def getTable {T : Type} (s : State T) (k : Nat) (steps : List (Nat × Gen T)) : State T × Res T :=
  match peek s k with
  | some t => (s, .ok t)
  | none =>
    match initTable s steps with
    | (s', .panic) => (s', .panic)
    | (s', .err) => (s', .err)
    | (s', .ok ()) => (s', readBack s' k)

/-- A call made by the program. algebra_derive/src/ntt.rs 149 and 162. -/
inductive Call (T : Type) where
  | init (logNs : List Nat) (steps : List (Nat × Gen T))
  | get (k : Nat) (steps : List (Nat × Gen T))

/-- The state after a call. algebra_derive/src/ntt.rs 149-193. -/
def step {T : Type} (s : State T) : Call T → State T
  | .init _ steps => (initTable s steps).1
  | .get k steps => (getTable s k steps).1

/-- The loop of the call visits what the code says. algebra_derive/src/ntt.rs 166-170 and 178-181. -/
def Call.Valid {T : Type} (s : State T) : Call T → Prop
  | .init logNs steps => Visits s logNs steps
  | .get k steps => Visits s [k] steps

/-- Every table the call generates satisfies `P`. algebra_derive/src/ntt.rs 171 and 182. -/
def Call.Sound {T : Type} (P : Nat → T → Prop) : Call T → Prop
  | .init _ steps => ∀ k t, (k, Gen.ok t) ∈ steps → P k t
  | .get _ steps => ∀ k t, (k, Gen.ok t) ∈ steps → P k t

/-- The states a program can reach from `s` by any history of calls one after another. algebra_derive/src/ntt.rs 149-193. -/
inductive Later {T : Type} (P : Nat → T → Prop) (s : State T) : State T → Prop
  | refl : Later P s s
  | step {s' : State T} (c : Call T) : Later P s s' → c.Valid s' → c.Sound P → Later P s (step s' c)

/-- algebra_derive/src/ntt.rs 370-396 as an outcome: `Ntt.generate` with the draws of the random generator. -/
def genTable (w : Nat) (M : Barrett) (k : Nat) (draws : List Nat) : Gen NTTTable :=
  match Ntt.generate w M k draws with
  | none => .panic
  | some none => .err
  | some (some t) => .ok t

end Verif.Cache

namespace Verif.CacheRace

/-- Where a thread is. `sizes` with `get = some k` is the nested `init_ntt_table(&[k])` of
`get_ntt_table(k)`. algebra_derive/src/ntt.rs 149-193. -/
inductive Pc where
  /-- outside the two functions -/
  | idle
  /-- algebra_derive/src/ntt.rs 150: about to look at the cell without the lock -/
  | peek (k : Nat)
  /-- algebra_derive/src/ntt.rs 151: inside `tables.get(&log_n)`, without the lock -/
  | reading (k : Nat)
  /-- algebra_derive/src/ntt.rs 163: waiting for the mutex -/
  | wantLock (sizes : List Nat) (get : Option Nat)
  /-- algebra_derive/src/ntt.rs 166-173, guard held: sizes still to do -/
  | filling (todo : List Nat) (get : Option Nat)
  /-- algebra_derive/src/ntt.rs 171, guard held: inside `tables.insert(..)` -/
  | inserting (k : Nat) (todo : List Nat) (get : Option Nat)
  /-- algebra_derive/src/ntt.rs 177-183, guard held: filling the private map, before it is published -/
  | building (sizes : List Nat) (get : Option Nat)
  /-- algebra_derive/src/ntt.rs 156-159: inside the second `get`, without the lock -/
  | readingBack (k : Nat)

/-- The shared state: the keys of the published map (`none`: cell not set), the owner of the mutex and
the position of each thread. algebra_derive/src/ntt.rs 51-53. -/
structure State where
  cell : Option (List Nat)
  owner : Option Nat
  pc : Nat → Pc

/-- Program start: nothing published, nothing locked, all threads outside. algebra_derive/src/ntt.rs 51-53. -/
def State.init : State := ⟨none, none, fun _ => .idle⟩

/-- Move thread `i` to `p`. Control flow of algebra_derive/src/ntt.rs 149-193. -/
def State.move (s : State) (i : Nat) (p : Pc) : State := { s with pc := fun j => if j = i then p else s.pc j }

/-- Where `init_ntt_table` returns to on success. algebra_derive/src/ntt.rs 156-158. -/
def afterInit : Option Nat → Pc
  | none => .idle
  | some k => .readingBack k

/-- One step of thread `i`; `Ok sizes` restricts the sizes a program asks for (used to state what
holds when only some sizes are requested). Generation may fail at any point. algebra_derive/src/ntt.rs 149-193. -/
inductive Step (Ok : Nat → Prop) : State → State → Prop
  | callGet {s} (i k) : s.pc i = .idle → Ok k → Step Ok s (s.move i (.peek k))
  | callInit {s} (i sizes) : s.pc i = .idle → (∀ k ∈ sizes, Ok k) →
      Step Ok s (s.move i (.wantLock sizes none))
  | peekNone {s} (i k) : s.pc i = .peek k → s.cell = none →
      Step Ok s (s.move i (.wantLock [k] (some k)))
  | peekSome {s} (i k) : s.pc i = .peek k → s.cell ≠ none → Step Ok s (s.move i (.reading k))
  | readHit {s} (i k m) : s.pc i = .reading k → s.cell = some m → k ∈ m → Step Ok s (s.move i .idle)
  | readMiss {s} (i k m) : s.pc i = .reading k → s.cell = some m → k ∉ m →
      Step Ok s (s.move i (.wantLock [k] (some k)))
  | lockSome {s} (i sizes g m todo) : s.pc i = .wantLock sizes g → s.owner = none →
      s.cell = some m → (∀ k, k ∈ todo ↔ k ∈ sizes ∧ k ∉ m) →
      Step Ok s { (s.move i (.filling todo g)) with owner := some i }
  | lockNone {s} (i sizes g) : s.pc i = .wantLock sizes g → s.owner = none → s.cell = none →
      Step Ok s { (s.move i (.building sizes g)) with owner := some i }
  | insertBegin {s} (i k todo g) : s.pc i = .filling (k :: todo) g →
      Step Ok s (s.move i (.inserting k todo g))
  | insertEnd {s} (i k todo g m) : s.pc i = .inserting k todo g → s.cell = some m →
      Step Ok s { (s.move i (.filling todo g)) with cell := some (k :: m) }
  | fillDone {s} (i g) : s.pc i = .filling [] g →
      Step Ok s { (s.move i (afterInit g)) with owner := none }
  | fillFail {s} (i todo g) : s.pc i = .filling todo g →
      Step Ok s { (s.move i .idle) with owner := none }
  | publish {s} (i sizes g) : s.pc i = .building sizes g → s.cell = none →
      Step Ok s { (s.move i (afterInit g)) with cell := some sizes, owner := none }
  | buildFail {s} (i sizes g) : s.pc i = .building sizes g →
      Step Ok s { (s.move i .idle) with owner := none }
  | readBackDone {s} (i k) : s.pc i = .readingBack k → Step Ok s (s.move i .idle)

/-- States reachable from `s0` by any schedule of any number of threads. algebra_derive/src/ntt.rs 149-193. -/
inductive Reachable (Ok : Nat → Prop) (s0 : State) : State → Prop
  | refl : Reachable Ok s0 s0
  | step {s s' : State} : Reachable Ok s0 s → Step Ok s s' → Reachable Ok s0 s'

/-- Thread `i` is modifying the published map. algebra_derive/src/ntt.rs 172. -/
def Writing (s : State) (i : Nat) : Prop := ∃ k todo g, s.pc i = .inserting k todo g

/-- Thread `i` is reading the published map without the lock. algebra_derive/src/ntt.rs 151 and 158. -/
def ReadingUnlocked (s : State) (i : Nat) : Prop := ∃ k, s.pc i = .reading k ∨ s.pc i = .readingBack k

/-- A data race: one thread modifies the map while another reads or modifies it. algebra_derive/src/ntt.rs 151, 158 and 172. -/
def Race (s : State) : Prop :=
  ∃ i j, i ≠ j ∧ Writing s i ∧ (ReadingUnlocked s j ∨ Writing s j)

end Verif.CacheRace
