import Verif.Model.NTT

/-!
# The two transform back ends

With the feature `concrete-ntt`, which is on by default (algebra/Cargo.toml 25-27,
algebra_derive/Cargo.toml 16-18), a derived field of width 32 or 64 uses a plan of the external crate
`concrete-ntt` through `algebra/src/transformation/concrete.rs`. Fields of width 8 and 16, and every
field of a build without the feature, use `NTTTable` (`Verif.Model.NTT`). The external crate is not
modelled: a plan is a record of the functions that are called, and the theorems assume the contract
in `Verif.SpecTransform` about it.
-/

namespace Verif

/-- `concrete_ntt::prime32::Plan` and `prime64::Plan` (external) with the functions called in
algebra/src/transformation/concrete.rs 29-30, 46-47, 53-54, 65, 71 and 77 (and 110-158 for 64 bits). `none`
is a panic. The monomial functions overwrite a slice; only its length is an argument. -/
structure Plan where
  root : Nat
  fwd : List Nat → Option (List Nat)
  inv : List Nat → Option (List Nat)
  normalize : List Nat → Option (List Nat)
  fwdMonomial : (coeff degree len : Nat) → Option (List Nat)
  fwdCoeffOneMonomial : (degree len : Nat) → Option (List Nat)
  fwdCoeffNegOneMonomial : (degree len : Nat) → Option (List Nat)

/-- `Plan::try_new(n, modulus)`, called in algebra/src/transformation/concrete.rs 28-29 and 109-110: `none` when the
library finds no plan. -/
abbrev PlanLibrary := (n modulus : Nat) → Option Plan

/-- algebra/src/transformation/concrete.rs 12-19 and 93-100: `ConcreteTable`. -/
structure ConcreteTable where
  root : Nat
  plan : Plan

namespace Concrete

/-- algebra/src/transformation/concrete.rs 27-32 and 108-113: `ConcreteTable::new`. Outer `none` is a panic,
inner `none` the error `NTTTableError`. -/
def new (w : Nat) (M : Barrett) (lib : PlanLibrary) (logN : Nat) : Option (Option ConcreteTable) := do
  let n ← shlC 64 1 logN
  match lib n M.value with
  | none => return none
  | some plan => do
    let root ← Fp.new w M plan.root
    return some ⟨root, plan⟩

/-- algebra/src/transformation/concrete.rs 44-48 and 125-129: `transform_slice`. -/
def transform (t : ConcreteTable) (vals : List Nat) : Option (List Nat) := t.plan.fwd vals

/-- algebra/src/transformation/concrete.rs 50-55 and 131-136: `inverse_transform_slice`. -/
def inverse (t : ConcreteTable) (vals : List Nat) : Option (List Nat) := do
  let v ← t.plan.inv vals
  t.plan.normalize v

/-- algebra/src/transformation/concrete.rs 62-66 and 143-147: `transform_monomial`. -/
def monomial (t : ConcreteTable) (coeff degree len : Nat) : Option (List Nat) :=
  t.plan.fwdMonomial coeff degree len

/-- algebra/src/transformation/concrete.rs 68-72 and 149-153: `transform_coeff_one_monomial`. -/
def oneMonomial (t : ConcreteTable) (degree len : Nat) : Option (List Nat) :=
  t.plan.fwdCoeffOneMonomial degree len

/-- algebra/src/transformation/concrete.rs 74-78 and 155-159: `transform_coeff_neg_one_monomial`. -/
def negOneMonomial (t : ConcreteTable) (degree len : Nat) : Option (List Nat) :=
  t.plan.fwdCoeffNegOneMonomial degree len

/-- algebra_derive/src/ntt.rs 202-209: `from_root` of a field using the library, where `Root` is the field
itself (algebra_derive/src/ntt.rs 33-39). -/
def fromRoot (root : Nat) : Nat := root

/-- algebra_derive/src/ntt.rs 233-240: `to_root` of a field using the library. -/
def toRoot (a : Nat) : Nat := a

/-- algebra_derive/src/ntt.rs 264-271 and 297-304: `mul_root` and `mul_root_assign` of a field using the
library. -/
def mulRoot (w : Nat) (M : Barrett) (a root : Nat) : Option Nat := Fp.mul w M a root

end Concrete

/-- `<F as NTTField>::Table`: algebra_derive/src/ntt.rs 20-29. -/
inductive Table where
  | native (t : NTTTable)
  | concrete (t : ConcreteTable)

namespace Table

/-- algebra_derive/src/ntt.rs 326-397: `generate_ntt_table`. `feature` holds the external library when the
code is built with `concrete-ntt`. Outer `none` is a panic, inner `none` an error. -/
def generate (w : Nat) (M : Barrett) (feature : Option PlanLibrary) (logN : Nat) (draws : List Nat) :
    Option (Option Table) :=
  match feature with
  | some lib =>
    if w = 32 ∨ w = 64 then (Concrete.new w M lib logN).map (Option.map concrete)
    else (Ntt.generate w M logN draws).map (Option.map native)
  | none => (Ntt.generate w M logN draws).map (Option.map native)

/-- `AbstractNTT::root`: algebra/src/transformation/ntt_table.rs 292-295,
algebra/src/transformation/concrete.rs 39-42 and 120-123. -/
def root : Table → Nat
  | native t => t.root
  | concrete t => t.root

/-- `AbstractNTT::transform_slice`: algebra/src/transformation/mod.rs 74-82 for the two tables. -/
def transform (w : Nat) (M : Barrett) (t : Table) (vals : List Nat) : Option (List Nat) :=
  match t with
  | native t => Ntt.transform w M t vals
  | concrete t => Concrete.transform t vals

/-- `AbstractNTT::inverse_transform_slice`: algebra/src/transformation/mod.rs 84-92 for the two tables. -/
def inverse (w : Nat) (M : Barrett) (t : Table) (vals : List Nat) : Option (List Nat) :=
  match t with
  | native t => Ntt.inverse w M t vals
  | concrete t => Concrete.inverse t vals

/-- `MonomialNTT::transform_monomial`: algebra/src/transformation/mod.rs 96-98 for the two tables. -/
def monomial (w : Nat) (M : Barrett) (t : Table) (coeff degree len : Nat) : Option (List Nat) :=
  match t with
  | native t => Ntt.monomial w M t coeff degree len
  | concrete t => Concrete.monomial t coeff degree len

/-- `MonomialNTT::transform_coeff_one_monomial`: algebra/src/transformation/mod.rs 100-104 for the two tables. -/
def oneMonomial (t : Table) (degree len : Nat) : Option (List Nat) :=
  match t with
  | native t => Ntt.oneMonomial t degree len
  | concrete t => Concrete.oneMonomial t degree len

/-- `MonomialNTT::transform_coeff_neg_one_monomial`: algebra/src/transformation/mod.rs 106-110 for the two
tables. -/
def negOneMonomial (M : Barrett) (t : Table) (degree len : Nat) : Option (List Nat) :=
  match t with
  | native t => Ntt.negOneMonomial M t degree len
  | concrete t => Concrete.negOneMonomial t degree len

end Table
end Verif
