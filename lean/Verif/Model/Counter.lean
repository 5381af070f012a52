import Verif.Model.Transform

/-!
# The transform counters, `algebra/src/transformation/ntt_table.rs` 152-196, 302-308 and 334-340

`NTT_COUNT` and `INTT_COUNT` behave alike; this is one of them. All accesses are relaxed, so an execution is
described per location: the events are listed in the modification order of the counter, and the flag
keeps all values it ever had. A relaxed load of the flag returns any of them that is not older than one the
thread has already seen.
-/

namespace Verif.Counter

/-- One thread: the newest write of the flag it has seen, and whether it has read `true` in
`transform_slice` and not added yet. algebra/src/transformation/ntt_table.rs 303-308. -/
structure Thread where
  view : Nat
  pending : Bool

/-- The counter, all values the flag ever had, and the threads: algebra/src/transformation/ntt_table.rs 157-159. -/
structure State where
  count : Nat
  flags : List Bool
  threads : Nat → Thread

/-- algebra/src/transformation/ntt_table.rs 157-159: the initial values. -/
def State.init : State := ⟨0, [false], fun _ => ⟨0, false⟩⟩

/-- algebra/src/transformation/ntt_table.rs 163-189 and 303-308. -/
inductive Event where
  /-- 303-305: thread `i` starts a transform and its load of the flag returns the value of write `p`. -/
  | load (i p : Nat)
  /-- 306: thread `i` adds. -/
  | add (i : Nat)
  /-- 163-165 and 169-171: `enable_count_ntt_and_intt`, `disable_count_ntt_and_intt`. -/
  | store (i : Nat) (b : Bool)
  /-- 187-189: `clear_ntt_count`. -/
  | clear
  /-- Thread `j` synchronises with thread `i`, for example `i` starts or joins `j`. -/
  | sync (i j : Nat)

/-- Thread `i` continues as `t`: the control flow of algebra/src/transformation/ntt_table.rs 303-308. -/
def State.set (s : State) (i : Nat) (t : Thread) : State :=
  { s with threads := fun j => if j = i then t else s.threads j }

/-- The effect of an event; `none` if it is not possible.
algebra/src/transformation/ntt_table.rs 157-189 and 303-308. -/
def step (s : State) : Event → Option State
  | .load i p =>
    if (s.threads i).pending then none
    else if p < (s.threads i).view then none
    else match s.flags[p]? with
      | none => none
      | some b => some (s.set i ⟨p, b⟩)
  | .add i =>
    if (s.threads i).pending then
      some { s.set i ⟨(s.threads i).view, false⟩ with count := (s.count + 1) % 2 ^ 32 }
    else none
  | .store i b =>
    if (s.threads i).pending then none
    else some { s.set i ⟨s.flags.length, false⟩ with flags := s.flags ++ [b] }
  | .clear => some { s with count := 0 }
  | .sync i j => some (s.set j ⟨max (s.threads j).view (s.threads i).view, (s.threads j).pending⟩)

/-- An execution. algebra/src/transformation/ntt_table.rs 157-189 and 303-308. -/
def run (s : State) : List Event → Option State
  | [] => some s
  | e :: es => do
    let s' ← step s e
    run s' es

/-- The events of one transform by thread `i` whose load, if any, returns the value `b` of write `p`: a native table
loads and adds (algebra/src/transformation/ntt_table.rs 302-308 and 334-340), a plan of the external library is called
directly (algebra/src/transformation/concrete.rs 44-55 and 125-136). -/
def transformEvents (t : Table) (i p : Nat) (b : Bool) : List Event :=
  match t with
  | .native _ => .load i p :: if b then [.add i] else []
  | .concrete _ => []

end Verif.Counter
