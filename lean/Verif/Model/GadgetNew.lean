import Verif.Model.RGSW

/-!
# Constructors of gadget ciphertexts

`checks` says whether the build has debug assertions.
-/

namespace Verif

/-- lattice/src/gadget/rlwe.rs 32-38 (`From`), 42-46 (`new`) and 49-56 (`from_ref`): the number of elements is compared with
the basis by a debug assertion. -/
def GadgetRLWE.new (checks : Bool) (data : List RLWE) (B : Basis) : Option GadgetRLWE :=
  if checks && data.length != B.decomposeLen then none else some ⟨data, B⟩

/-- lattice/src/gadget/rlwe.rs 259-263 (`new`) and 266-273 (`from_ref`). -/
def NTTGadgetRLWE.new (checks : Bool) (data : List NTTRLWE) (B : Basis) : Option NTTGadgetRLWE :=
  if checks && data.length != B.decomposeLen then none else some ⟨data, B⟩

/-- lattice/src/gadget/rlwe.rs 250-255: `From<(Vec<NTTRLWE>, Basis)>`, without any assertion. -/
def NTTGadgetRLWE.ofPair (data : List NTTRLWE) (B : Basis) : Option NTTGadgetRLWE := some ⟨data, B⟩

end Verif
