import Verif.SpecSecrecyKeys

/-!
# Specifications of the secrecy of several keys for the same secrets
-/

namespace Verif.Spec

/-- bool/src/bfhe/evaluate.rs 48-70, called several times with one secret key: a part of the evaluation key is generated once for
each of the draws `ds`, with the same secret `s`. The result is `none` if one of the calls panics. -/
def generateAll {D K : Type} (gen : List Nat → D → Option K) (s : List Nat) (ds : List D) : Option (List K) :=
  ds.mapM (gen s)

/-- What an observer does with groups of samples: each group is made a key for the secret `items` by `mask`. -/
def replayAll {I Y K A : Type} (mask : I → Y → K) (items : List I) (x : A × List (List Y)) :
    A × Option (List (List K)) :=
  (x.1, some (x.2.map (List.zipWith mask items)))

end Verif.Spec
