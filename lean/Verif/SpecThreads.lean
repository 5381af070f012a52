import Verif.Model.Threads

/-! # Specification of calls from several threads -/

namespace Verif.Spec
open Threads

/-- The computation asks for the table of size `2^k` at some point, if every request `j` is answered by `tbl j`. -/
def Requests (tbl : Nat → Option Table) (k : Nat) {α : Type} : Prog α → Prop
  | .stop _ => False
  | .ask j f => j = k ∨ ∃ t, tbl j = some t ∧ Requests tbl k (f t)
  | .fork p q f => Requests tbl k p ∨ Requests tbl k q ∨
      ∃ a b, p.run tbl = some a ∧ q.run tbl = some b ∧ Requests tbl k (f a b)

/-- The number of steps of a computation whose tables are all there: two for a request, one to fork and one to join. -/
def cost (tbl : Nat → Option Table) {α : Type} : Prog α → Nat
  | .stop _ => 0
  | .ask j f => 2 + match tbl j with
    | none => 0
    | some t => cost tbl (f t)
  | .fork p q f => cost tbl p + cost tbl q + 2 + match p.run tbl, q.run tbl with
    | some a, some b => cost tbl (f a b)
    | _, _ => 0

/-- The thread has ended with result `r`; `none` is a panic. -/
def Ended {α : Type} (t : Threads.Task α) (r : Option α) : Prop := t = .run .calm (.stop r)

/-- The memory holds the table of size `2^k`. -/
def Holds (mem : Mem) (k : Nat) : Prop := ∃ m t, mem.cell = some m ∧ Cache.find m k = some t

/-- All published tables are those of `tbl`. -/
def Agrees (tbl : Nat → Option Table) (mem : Mem) : Prop :=
  ∀ m k t, mem.cell = some m → Cache.find m k = some t → tbl k = some t

/-- A field has one table for every size: whenever the generation succeeds the result is the same. -/
def OneTable (tbl : Nat → Option Table) (gen : Nat → Cache.Gen Table → Prop) : Prop :=
  ∀ k t, gen k (.ok t) → tbl k = some t

/-- The only thread of a program; the others have nothing to do. -/
def alone {α : Type} (p : Prog α) : Nat → Prog α := fun i => if i = 0 then p else .stop none

/-- The sizes (as exponents) that the gates of an evaluator work with: the ring dimension and, if the key switching
is done on the ring ciphertext, the LWE dimension rounded up to a power of two. -/
def GateSize (P : Params) (k : Nat) : Prop :=
  k = trailingZeros 64 P.ringDimension ∨ P.steps = .brKsMs ∧ k = trailingZeros 64 (RlweSwitch.nextPow2 P.n)

/-- The possible outcomes of the generation of a table with elements between 2 and `q - 1` drawn at random. -/
def Outcome (w q : Nat) (M : Barrett) (lib : Option PlanLibrary) (k : Nat) (o : Cache.Gen Table) : Prop :=
  ∃ draws : List Nat, (∀ x ∈ draws, 2 ≤ x ∧ x < q) ∧
    o = match Table.generate w M lib k draws with
      | none => .panic
      | some none => .err
      | some (some t) => .ok t

end Verif.Spec
