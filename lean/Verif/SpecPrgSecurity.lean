import Verif.SpecSampler
import Verif.Props.Prg
import Mathlib.Data.Fintype.Perm
import Mathlib.Data.Fintype.Pi
import Mathlib.Tactic.FinCases

/-!
# Specifications for the security of the generator

A program that uses the generator is a client: it asks, and what it asks next depends on the answers. It cannot
tell the generator from independent uniform words, unless AES-128 can be told from a random permutation.
-/

namespace Verif.Spec
open Verif.Prg (Request Answer)
open Verif.Spec.Aes (State)

/-- There are finitely many blocks. -/
noncomputable instance : Fintype (BitVec 8) := Fintype.ofEquiv (Fin (2 ^ 8)) ⟨BitVec.ofFin, BitVec.toFin, fun _ => rfl, fun _ => rfl⟩

/-- There are finitely many seeds. -/
noncomputable instance {α : Type} [Fintype α] : Fintype (V4 α) :=
  Fintype.ofEquiv (Fin 4 → α) ⟨fun f => ⟨f 0, f 1, f 2, f 3⟩, fun v i => v.get i, fun f => by
    funext i; fin_cases i <;> rfl, fun _ => rfl⟩

instance : Nonempty (V4 (V4 (BitVec 8))) := ⟨Block.zero⟩

/-- The probability of the event `A`. -/
noncomputable def chance {α : Type} (p : PMF α) (A : Set α) : ℝ := (p.toOuterMeasure A).toReal

/-- A program that asks a generator. -/
inductive Client (α : Type)
  | done (a : α)
  | ask (r : Request) (next : Answer → Client α)

namespace Client
variable {α : Type}

/-- The program uses at most `n` words, whatever the answers are. -/
def Within : Nat → Client α → Prop
  | _, done _ => True
  | n, ask r next => Prg.cost r ≤ n ∧ ∀ a, (next a).Within (n - Prg.cost r)

/-- The program with the generator `g`; the pair is the result and the generator that remains. -/
def run (I : AesImpl) (g : Verif.Prg) : Client α → Option (α × Verif.Prg)
  | done a => some (a, g)
  | ask r next => do
    let x ← Verif.Prg.serve I g r
    (next x.1).run I x.2

/-- The answer that is cut out of the words `word p`, `word (p + 1)`, …, as for the generator. -/
def answer (word : Nat → Nat) (p : Nat) : Request → Answer
  | .u32 => .word (word p)
  | .u64 => .word (word p + 2 ^ 32 * word (p + 1))
  | .bytes n => .bytes ((List.range n).map fun k => BitVec.ofNat 8 (word (p + k / 4) / 256 ^ (k % 4)))
  | .bool => .bools [(word p).testBit 31]
  | .bools n => .bools ((List.range n).map fun k => (word (p + k)).testBit 31)
  | .byte => .bytes [BitVec.ofNat 8 (word p)]
  | .block => .blocks [block p]
  | .blocks n => .blocks ((List.range n).map fun k => block (p + 4 * k))
where
  /-- The sixteen bytes of four words. -/
  block (p : Nat) : Block :=
    let b := fun k => BitVec.ofNat 8 (word (p + k / 4) / 256 ^ (k % 4))
    ⟨⟨b 0, b 1, b 2, b 3⟩, ⟨b 4, b 5, b 6, b 7⟩, ⟨b 8, b 9, b 10, b 11⟩, ⟨b 12, b 13, b 14, b 15⟩⟩

/-- The program with answers that are cut out of the words from position `p` on. -/
def ideal (word : Nat → Nat) : Nat → Client α → α
  | _, done a => a
  | p, ask r next => (next (answer word p r)).ideal word (p + Prg.cost r)

/-- The program that asks for `n` words, one after the other, and then computes `f` of all of them, after those in
`acc`. -/
def words (f : List Nat → α) : Nat → List Nat → Client α
  | 0, acc => done (f acc)
  | n + 1, acc => ask .u32 fun
    | .word x => words f n (acc ++ [x])
    | _ => done (f acc)

end Client

/-- The four little endian words of a block of 16 bytes, whose columns they are. -/
def blockWords (s : State) : List Nat :=
  [0, 1, 2, 3].map fun c : Fin 4 => (s 0 c).toNat + 256 * (s 1 c).toNat + 256 ^ 2 * (s 2 c).toNat + 256 ^ 3 * (s 3 c).toNat

/-- How well the test `D` tells AES-128 with a uniform key from a uniform permutation of the blocks, from the ciphertexts
of the counters `0`, …, `m - 1`. -/
noncomputable def aesAdvantage (m : Nat) (D : Set (List State)) : ℝ :=
  |chance ((PMF.uniformOfFintype State).map fun key => (List.range m).map fun j => Aes.cipher key (Prg.counterBlock j)) D -
    chance ((PMF.uniformOfFintype (Equiv.Perm State)).map fun π => (List.range m).map fun j => π (Prg.counterBlock j)) D|

end Verif.Spec
