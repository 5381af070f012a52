import Verif.SpecFailure
import Verif.SpecCircuit

/-! # Specification of deep circuits with a new evaluation key for each layer -/

namespace Verif
open Spec

/-- A single gate on numbered ciphertexts: a negation, a gate of two operands if `ary` is at least 2, or a majority if it is
at least 3. -/
def Circuit.Single (ary : Nat) : Circuit → Prop
  | .not (.input _) => True
  | .nand (.input _) (.input _) => 2 ≤ ary
  | .and (.input _) (.input _) => 2 ≤ ary
  | .or (.input _) (.input _) => 2 ≤ ary
  | .nor (.input _) (.input _) => 2 ≤ ary
  | .xor (.input _) (.input _) => 2 ≤ ary
  | .xnor (.input _) (.input _) => 2 ≤ ary
  | .majority (.input _) (.input _) (.input _) => 3 ≤ ary
  | _ => False

/-- The numbering after a layer: its results come first, then everything there was before. -/
def Spec.prepend {α : Type} (new : List α) (old : Nat → α) (i : Nat) : α := (new[i]?).getD (old (i - new.length))

/-- `D` layers of gates, evaluated one after the other, each with an evaluation key of its own. `plan` chooses the gates of
layer `t`, and may look at all ciphertexts there are by then. The result is the list of the gates of all layers with their
results. -/
noncomputable def Spec.renewedLaw (keys : PMF (Option EvalKey)) (plan : Nat → (Nat → LWE) → List Circuit) :
    Nat → Nat → (Nat → LWE) → PMF (Option (List (List (Circuit × LWE))))
  | 0, _, _ => PMF.pure (some [])
  | D + 1, t, c => keys.bind fun K =>
    match K.bind fun K => (plan t c).mapM fun X => (X.run K c).map fun out => (X, out) with
    | none => PMF.pure none
    | some layer => (renewedLaw keys plan D (t + 1) (prepend (layer.map Prod.snd) c)).map (Option.map (layer :: ·))

/-- Every result decrypts to the value of its gate on bits. -/
def Spec.AllRight (decrypt : LWE → Option Nat) : (Nat → Bool) → List (List (Circuit × LWE)) → Prop
  | _, [] => True
  | b, layer :: rest => (∀ x ∈ layer, decrypt x.2 = some (x.1.eval b).toNat) ∧
    AllRight decrypt (prepend (layer.map fun x => x.1.eval b) b) rest

end Verif
