import Verif.SpecSampler
import Verif.SpecLWE
import Verif.Model.LWE
import Mathlib.Algebra.BigOperators.Fin

/-!
# Specifications of secrecy

The learning-with-errors problem, games against it and games against encryption. Observers are arbitrary sets of
what they accept; their coins are part of the auxiliary value drawn with the key.
-/

namespace Verif.Spec

/-- A sample of the learning-with-errors problem: a vector and a number modulo `q`. -/
abbrev Sample (q n : Nat) : Type := (Fin n → ZMod q) × ZMod q

/-- Learning with errors: a uniform vector `a`, and `<a, s> + e` with an error of the law `χ`. -/
noncomputable def lweSample (q n : Nat) [NeZero q] (s : Fin n → ZMod q) (χ : PMF ℤ) : PMF (Sample q n) :=
  (PMF.uniformOfFintype (Fin n → ZMod q)).bind fun a => χ.map fun e : ℤ => (a, ∑ i, a i * s i + (e : ZMod q))

/-- How well the observer `D` tells the laws `p` and `r` apart. -/
noncomputable def advantage {β : Type} (p r : PMF β) (D : Set β) : ℝ :=
  |(p.toOuterMeasure D).toReal - (r.toOuterMeasure D).toReal|

/-- The secret words as a vector modulo `q`. -/
def keyVector (q n : Nat) (sk : List Nat) : Fin n → ZMod q := fun i => (sk.getD i 0 : Nat)

/-- A secret key and an auxiliary value, for instance an evaluation key, are drawn; the observer gets the auxiliary value
and `k` samples of learning with errors. -/
noncomputable def lweGame (q n : Nat) [NeZero q] {A : Type} (keys : PMF (List Nat × A)) (χ : PMF ℤ) (k : Nat) :
    PMF (A × List (Sample q n)) :=
  keys.bind fun x => (draws (lweSample q n (keyVector q n x.1) χ) k).map fun l => (x.2, l)

/-- The same with `k` uniform samples instead. -/
noncomputable def uniformGame (q n : Nat) [NeZero q] {A : Type} (keys : PMF (List Nat × A)) (k : Nat) :
    PMF (A × List (Sample q n)) :=
  keys.bind fun x => (draws (PMF.uniformOfFintype (Sample q n)) k).map fun l => (x.2, l)

/-- `k` queries of an oracle, one after the other; the query `pick` may depend on the earlier answers. -/
noncomputable def queries {C : Type} (oracle : Nat → PMF C) (pick : List C → Nat) : Nat → List C → PMF (List C)
  | 0, seen => PMF.pure seen
  | k + 1, seen => (oracle (pick seen)).bind fun c => queries oracle pick k (seen ++ [c])

/-- The outcome of an encryption of `m` with a uniform mask and an error of the law `χ`. -/
noncomputable def encryptLaw (P : LWEParams) (n : Nat) [NeZero P.q] (χ : PMF ℤ) (sk : List Nat) (m : Nat) :
    PMF (Option LWE) :=
  (draws (uniformBelow P.q) n).bind fun a => χ.map fun z => P.encrypt sk a z m

/-- A key and an auxiliary value are drawn; the observer gets the auxiliary value and the encryptions of `k` messages of
its choice. -/
noncomputable def encryptGame (P : LWEParams) (n : Nat) [NeZero P.q] {A : Type} (keys : PMF (List Nat × A))
    (χ : PMF ℤ) (pick : A → List (Option LWE) → Nat) (k : Nat) : PMF (A × List (Option LWE)) :=
  keys.bind fun x => (queries (encryptLaw P n χ x.1) (pick x.2) k []).map fun l => (x.2, l)

/-- The sample as a ciphertext, with the encoded message added. No secret is used. -/
def maskMessage (q n t : Nat) (m : Nat) (x : Sample q n) : LWE :=
  ⟨List.ofFn fun i => (x.1 i).val, (x.2 + (m * (q / t) : Nat)).val⟩

/-- What an observer of ciphertexts does with samples: it adds the messages it picks to the samples, one after the
other. -/
def replay (q n t : Nat) {A : Type} (pick : A → List (Option LWE) → Nat) (x : A × List (Sample q n)) :
    A × List (Option LWE) :=
  (x.1, x.2.foldl (fun seen y => seen ++ [some (maskMessage q n t (pick x.1 seen) y)]) [])

end Verif.Spec
