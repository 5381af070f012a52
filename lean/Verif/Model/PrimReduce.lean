import Verif.Model.Word

/-!
# Modular operations with a native-word modulus

algebra/src/reduce/macros.rs, `impl_reduce_ops_for_primitive`.
-/

namespace Verif

/-- algebra/src/reduce/macros.rs 7-14 (and the assign form 19-26): `add_reduce`. -/
def addReduce (w m a b : Nat) : Option Nat := do
  let r ← addC w a b
  if m ≤ r then subC r m else return r

/-- algebra/src/reduce/macros.rs 33-39: `sub_reduce`. -/
def subReduce (w m a b : Nat) : Option Nat :=
  if b ≤ a then subC a b else do
    let t ← subC m b
    addC w t a

/-- algebra/src/reduce/macros.rs 44-50: `sub_reduce_assign`. -/
def subReduceAssign (w m a b : Nat) : Option Nat :=
  if b ≤ a then subC a b else do
    let t ← subC m b
    addC w a t

/-- algebra/src/reduce/macros.rs 57-63 (and assign 68-72): `neg_reduce`. -/
def negReduce (m a : Nat) : Option Nat := if a = 0 then some 0 else subC m a

end Verif
