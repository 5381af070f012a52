import Verif.SpecBootstrap

/-!
# Specifications for bootstrapping with a table of the caller

`Q` is the ring modulus, `q = 2^m` the modulus of the LWE ciphertexts, `N` the ring dimension. The entries of a table lie
on a circle of circumference `2N` (`tableAt`).
-/

namespace Verif.Spec
open Props

/-- `2Q` times the distance between the phase of a bootstrapped ciphertext and the scaled table entry: the noises of the
rotation and of the key switching and the rounding of the switch from `Q` to `q`. -/
def valueError (steps : Steps) (Q m : Nat) (L : Level) : ℤ :=
  match steps with
  | .brMsKs => 2 * 2 ^ m * L.rot + Q * L.out + 2 * Q * L.sw
  | .brKsMs => 2 * 2 ^ m * (L.rot + L.sw) + Q * L.out
  | .brMs => 2 * 2 ^ m * L.rot + Q * L.out

/-- `c` encrypts `u` modulo `T` with noise `e`: its phase is `u q/T + e`. -/
def EncryptsValue (q T : Nat) (sk : List Nat) (c : LWE) (u : Nat) (e : ℤ) : Prop :=
  lwePhase q sk c.a c.b = ((u * (q / T) : Nat) : ZMod q) + (e : ZMod q)

/-- The table of a function from `0 .. T/2-1` to `0 .. T-1`. The entry at `j` belongs to the multiple `u` of `2N/T` that is
nearest to `j`; it is `⌊f(u) Q/T⌋ - ⌊Q/8⌋`, because bootstrapping adds `⌊Q/8⌋`. Past the last half step the entries are
those of `u = 0`, negated: that half of the circle is read with the opposite sign. -/
def functionTable (Q N T : Nat) (f : Nat → Nat) : List Nat :=
  (List.range N).map fun j =>
    let u := (j * T + N) / (2 * N)
    if u < T / 2 then (f u * Q / T + (Q - Q / 8)) % Q else (Q / 8 + (Q - f 0 * Q / T)) % Q

/-- `r` is a ciphertext of `v` modulo `2^i` under `sk` with the noise of a bootstrapping. If the bound of the noise is below
half a step, it decrypts to `v` with plaintext modulus `2^i`. -/
def LookedUp (K : EvalKey) (Q m i : Nat) (sk : List Nat) (L : Level) (r : Option LWE) (v : Nat) : Prop :=
  ∃ (out : LWE) (e : ℤ), r = some out ∧ LWEReduced (2 ^ m) sk.length out ∧
    EncryptsValue (2 ^ m) (2 ^ i) sk out v e ∧ |2 * Q * e| ≤ valueError K.P.steps Q m L + 2 * 2 ^ m ∧
    (2 ^ i * (valueError K.P.steps Q m L + 2 * 2 ^ m) < Q * 2 ^ m →
      ∀ P : LWEParams, P.w = K.w → P.q = 2 ^ m → P.t = 2 ^ i → ∀ bits, v < 2 ^ bits →
        P.decrypt (.uint bits) sk out = some v)

/-- A program of table lookups: `table f x` looks `f` up at `x`, `table2 f s x y` at `x + s y`. -/
inductive Lookups
  | input (i : Nat)
  | table (f : Nat → Nat) (x : Lookups)
  | table2 (f : Nat → Nat) (s : Nat) (x y : Lookups)

namespace Lookups

/-- The value of a program on numbers, with results modulo `T`. There is none if an argument of a function is not below
`T/2`. -/
def value (T : Nat) (u : Nat → Nat) : Lookups → Option Nat
  | input i => some (u i)
  | table f x => do
    let a ← x.value T u
    if a < T / 2 then some (f a % T) else none
  | table2 f s x y => do
    let a ← x.value T u
    let b ← y.value T u
    if a + s * b < T / 2 then some (f (a + s * b) % T) else none

/-- The calls that a program makes on ciphertexts: linear combinations and bootstrappings with the tables. -/
def run (K : EvalKey) (Q N T : Nat) (c : Nat → LWE) : Lookups → Option LWE
  | input i => some (c i)
  | table f x => do
    let a ← x.run K Q N T c
    K.bootstrap a (functionTable Q N T fun u => f u % T)
  | table2 f s x y => do
    let a ← x.run K Q N T c
    let b ← y.run K Q N T c
    let O ← (K.P.lwe K.w).ops
    let t ← LWE.addMulScalar O a b s
    K.bootstrap t (functionTable Q N T fun u => f u % T)

/-- The factors are below `T`, and no combination has a weight above `W`. -/
def Light (T W : Nat) : Lookups → Prop
  | input _ => True
  | table _ x => x.Light T W
  | table2 _ s x y => s < T ∧ 1 + s ≤ W ∧ x.Light T W ∧ y.Light T W

end Lookups

end Verif.Spec
