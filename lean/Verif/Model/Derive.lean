import Verif.Model.Field

/-!
# The derive macros: which declarations they accept

The parts of the syntax tree that the macros look at. A compile-time error (of the macro, or of a constant that
cannot be evaluated) is `none`.
-/

namespace Verif.Derive

/-- The type of a field of the declaration: a path, printed as a string, or another type.
algebra_derive/src/attr.rs 76-77. -/
inductive Ty
  | path (name : String)
  | other
  deriving DecidableEq, Repr

/-- A field of the declaration. algebra_derive/src/ast.rs 14-18. -/
structure FieldDef where
  named : Bool
  ty : Ty
  deriving DecidableEq, Repr

/-- An attribute: `#[modulus = <integer literal>]`, with the decimal digits of the literal, or anything else
(another name, another form, another literal). algebra_derive/src/attr.rs 56-65. -/
inductive Attr
  | modulus (digits : List Nat)
  | other
  deriving DecidableEq, Repr

/-- What is declared. algebra_derive/src/ast.rs 22-23 and 47. -/
inductive Data
  | struct (fields : List FieldDef)
  | other
  deriving DecidableEq, Repr

/-- The declaration a macro is applied to. algebra_derive/src/ast.rs 6-12. -/
structure Item where
  attrs : List Attr
  data : Data
  deriving DecidableEq, Repr

/-- algebra_derive/src/attr.rs 10-15: `ModulusValue`, as the width and the value. -/
structure ModulusValue where
  w : Nat
  value : Nat
  deriving DecidableEq, Repr

/-- Standard library `str::parse` on decimal digits into a word of width `w`: the loop with checked operations.
Called by algebra_derive/src/attr.rs 79, 91, 103, 115. -/
def parseLoop (w : Nat) : Nat → List Nat → Option Nat
  | acc, [] => some acc
  | acc, d :: ds => do
    let acc ← mulC w acc 10
    let acc ← addC w acc d
    parseLoop w acc ds

/-- Standard library `str::parse`: the empty string is an error. Called by algebra_derive/src/attr.rs 79, 91, 103, 115. -/
def parse (w : Nat) : List Nat → Option Nat
  | [] => none
  | ds => parseLoop w 0 ds

/-- algebra_derive/src/attr.rs 71-138: `parse_modulus_value`. -/
def parseModulusValue (digits : List Nat) (field : FieldDef) : Option ModulusValue :=
  match field.ty with
  | .path "u8" => do return ⟨8, ← parse 8 digits⟩
  | .path "u16" => do return ⟨16, ← parse 16 digits⟩
  | .path "u32" => do return ⟨32, ← parse 32 digits⟩
  | .path "u64" => do return ⟨64, ← parse 64 digits⟩
  | .path _ => none
  | .other => none

/-- algebra_derive/src/attr.rs 53-69: `get`; the first integer `modulus` decides. -/
def get : List Attr → FieldDef → Option ModulusValue
  | [], _ => none
  | .modulus digits :: _, field => parseModulusValue digits field
  | .other :: rest, field => get rest field

/-- algebra_derive/src/ast.rs 53-64: `Field::from_syn`. -/
def fieldFromSyn (f : FieldDef) : Option FieldDef := if f.named then none else some f

/-- algebra_derive/src/ast.rs 21-49: `Input::from_syn`. -/
def fromSyn (item : Item) : Option (ModulusValue × FieldDef) :=
  match item.data with
  | .struct fields =>
    match fields with
    | [] => none
    | _ :: _ :: _ => none
    | [field] => do
      let field ← fieldFromSyn field
      let attrs ← get item.attrs field
      return (attrs, field)
  | .other => none

/-- algebra_derive/src/attr.rs 33-50: `check_leading_zeros`. -/
def checkLeadingZeros (m : ModulusValue) : Option Unit :=
  if leadingZeros m.w m.value < 2 then none else some ()

/-- The constants of a derived field: algebra_derive/src/field.rs 102 (`MODULUS_VALUE`), algebra_derive/src/ops.rs 17-18
(`MODULUS`), algebra_derive/src/basic.rs 11-13 (`max`), 17-19, 143-145 and 160 (`-1`). -/
structure Constants where
  w : Nat
  modulusValue : Nat
  modulus : Barrett
  max : Nat
  negOne : Nat
  deriving DecidableEq, Repr

/-- algebra_derive/src/field.rs 12-15 and 17-92: `#[derive(Field)]`, and the evaluation of the generated
constants. The serialisers (algebra_derive/src/basic.rs 165-206) match on the same four types. -/
def deriveField (item : Item) : Option Constants := do
  let (m, _) ← fromSyn item
  checkLeadingZeros m
  let M ← Barrett.new m.w m.value
  let last ← subC m.value 1
  return ⟨m.w, m.value, M, last, last⟩

/-- algebra_derive/src/prime.rs 8-11, algebra_derive/src/decomposable_field.rs 8-11, algebra_derive/src/fhe_field.rs 8-11 and
algebra_derive/src/ntt.rs 8-11: the other macros only read the declaration. -/
def deriveOther (item : Item) : Option Unit := do
  let _ ← fromSyn item
  return ()

end Verif.Derive
