import Verif.SpecSecrecy
import Verif.SpecRing
import Verif.SpecBlind
import Verif.Model.BlindRotation
import Verif.Model.KeySwitch

/-!
# Specifications of the secrecy of evaluation keys

The ring learning-with-errors problem, and games against the generated keys.
-/

namespace Verif.Spec

/-- A ring element is a vector of coefficients. -/
def Rq.equivFun (S : Type) (n : Nat) : Rq S n ≃ (Fin n → S) := ⟨Rq.co, Rq.mk, fun _ => rfl, fun _ => rfl⟩

noncomputable instance {q n : Nat} [NeZero q] : Fintype (Rq (ZMod q) n) :=
  Fintype.ofEquiv _ (Rq.equivFun (ZMod q) n).symm

instance {q n : Nat} : Nonempty (Rq (ZMod q) n) := ⟨⟨fun _ => 0⟩⟩

/-- A sample of the ring problem: two ring elements. -/
abbrev RingSample (q n : Nat) : Type := Rq (ZMod q) n × Rq (ZMod q) n

/-- Ring learning with errors: a uniform `a`, and `a s + e`, where the coefficients of `e` are residues of the law `χ`. -/
noncomputable def rlweSample (q n : Nat) [NeZero q] (s : Rq (ZMod q) n) (χ : PMF Nat) : PMF (RingSample q n) :=
  (PMF.uniformOfFintype (Rq (ZMod q) n)).bind fun a => (draws χ n).map fun e => (a, a * s + Rq.ofWords q n e)

/-- A uniform sample. -/
noncomputable def uniformRing (q n : Nat) [NeZero q] : PMF (RingSample q n) := PMF.uniformOfFintype (RingSample q n)

/-- A key and an auxiliary value are drawn; the observer gets the auxiliary value and `cnt` independent values of a law
that depends on the key. -/
noncomputable def keyGame {A Y : Type} (keys : PMF (List Nat × A)) (law : List Nat → PMF Y) (cnt : Nat) :
    PMF (A × List Y) :=
  keys.bind fun x => (draws (law x.1) cnt).map fun l => (x.2, l)

/-- A key and an auxiliary value are drawn, and something is generated with draws of the law `law`; the observer gets the
auxiliary value and the outcome. -/
noncomputable def outcomeGame {A D K : Type} (keys : PMF (List Nat × A)) (law : PMF D)
    (generate : List Nat → D → Option K) : PMF (A × Option K) :=
  keys.bind fun x => law.map fun d => (x.2, generate x.1 d)

/-- fhe_core/src/blind_rotation/binary.rs 72-104: generation of a bootstrapping key for binary digits `ss` with the
transform of the ring key `s`. -/
def binaryGen (R : Ctx) (B : Basis) (ss : List Nat) (s : List Nat) (d : List BlindRotation.RgswDraw) :
    Option (List NTTRGSW) := do
  let sn ← Poly.toNtt R.w R.M R.tbl s
  BlindRotation.binaryGenerate R sn B ss d

/-- fhe_core/src/blind_rotation/ternary.rs 97-161: generation of a bootstrapping key for ternary digits `ss` with the
transform of the ring key `s`. -/
def ternaryGen (R : Ctx) (B : Basis) (ss : List Nat) (s : List Nat)
    (d : List (BlindRotation.RgswDraw × BlindRotation.RgswDraw)) : Option (List (NTTRGSW × NTTRGSW)) := do
  let sn ← Poly.toNtt R.w R.M R.tbl s
  BlindRotation.ternaryGenerate R sn B ss d

/-- `2 len` samples, for one RGSW ciphertext. -/
noncomputable def rgswSamples {q n : Nat} (p : PMF (RingSample q n)) (len : Nat) :
    PMF (List (RingSample q n) × List (RingSample q n)) :=
  pair (draws p len) (draws p len)

/-- The transform of a ring element, as words. -/
def nttWords (R : Ctx) {q n : Nat} (p : Rq (ZMod q) n) : List Nat :=
  (Poly.toNtt R.w R.M R.tbl (List.ofFn fun i => (p.co i).val)).getD []

/-- The transform of a sample. -/
def nttSample (R : Ctx) {q n : Nat} (x : RingSample q n) : NTTRLWE := ⟨nttWords R x.1, nttWords R x.2⟩

/-- `2 len` samples as an RGSW ciphertext, with the multiple `m` of the powers of `2^bits` added. No secret is used. -/
def maskDigit (R : Ctx) {q n : Nat} (B : Basis) (bits : Nat) (m : Bool)
    (x : List (RingSample q n) × List (RingSample q n)) : NTTRGSW :=
  let v (j : Nat) : Rq (ZMod q) n := Rq.const (if m then (2 ^ (bits * j) : Nat) else 0)
  ⟨⟨x.1.mapIdx fun j y => nttSample R (y.1 + v j, y.2), B⟩, ⟨x.2.mapIdx fun j y => nttSample R (y.1, y.2 + v j), B⟩⟩

/-- Two groups of samples as the key element of a ternary digit. -/
def maskTernary (R : Ctx) {q n : Nat} (B : Basis) (bits : Nat) (s : Nat)
    (x : (List (RingSample q n) × List (RingSample q n)) × (List (RingSample q n) × List (RingSample q n))) :
    NTTRGSW × NTTRGSW :=
  (maskDigit R B bits (s == 1) x.1, maskDigit R B bits (s != 0 && s != 1) x.2)

/-- What an observer does with samples: the key element of each of the secret `items` is made of one of them by
`mask`. -/
def replayItems {I Y K A : Type} (mask : I → Y → K) (items : List I) (x : A × List Y) : A × Option (List K) :=
  (x.1, some (List.zipWith mask items x.2))

/-- `len` samples as the element of a switching key for the ring element `m`, whose multiples by the powers of `2^bits` are
added. No other secret is used. -/
def maskChunk (R : Ctx) {q n : Nat} (B : Basis) (bits : Nat) (m : Rq (ZMod q) n) (x : List (RingSample q n)) :
    NTTGadgetRLWE :=
  ⟨x.mapIdx fun j y => nttSample R (y.1, y.2 + m * Rq.const ((2 ^ (bits * j) : Nat) : ZMod q)), B⟩

/-- The ring elements of the chunks of length `n` of the key `ring`. -/
def chunkItems (q n cnt : Nat) (ring : List Nat) : List (Rq (ZMod q) n) :=
  (List.range cnt).map fun c => Rq.ofWords q n (ring.drop (c * n))

/-- The key `sk` with digits 0, 1 and -1 as a ring element. -/
def digitRing (q n : Nat) (sk : List Nat) : Rq (ZMod q) n := ⟨fun i => (ternaryDigit (sk.getD i 0) : ZMod q)⟩

/-- Samples as one level of an LWE switching key: the `v`-th multiple of the `i`-th number is added to sample `v` of row
`i`. -/
def maskLevel {q n : Nat} (zs : List (ZMod q)) (x : List (List (Sample q n))) : List (List LWE) :=
  x.mapIdx fun i row => row.mapIdx fun v y =>
    ⟨List.ofFn fun l => (y.1 l).val, (y.2 + ((v + 1 : Nat) : ZMod q) * zs.getD i 0).val⟩

/-- The numbers of the levels: the digits of the key `ring` times the powers of `2^bits`. -/
def levelItems (q bits len : Nat) (ring : List Nat) : List (List (ZMod q)) :=
  (List.range len).map fun j => ring.map fun z => (ternaryDigit z : ZMod q) * ((2 ^ (bits * j) : Nat) : ZMod q)

end Verif.Spec
