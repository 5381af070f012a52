import Verif.SpecGates
import Verif.SpecKeySwitch
import Verif.Model.Gates
import Verif.Props.Poly
import Verif.Props.LWE

/-!
# Specifications for bootstrapping

`N = 2^k` is the ring dimension, `Q` the ring modulus, `q = 2^m` the modulus of the LWE ciphertexts.
The keys are given as integers: `S` is the LWE key, `Z` the ring key.
-/

namespace Verif
open Spec Props

/-- The words `s` are the residues of the integers `S` modulo `q`. -/
def Spec.KeyWords (q : Nat) (s : List Nat) (S : List ℤ) : Prop :=
  s.map (fun v : Nat => (v : ZMod q)) = S.map fun z : ℤ => (z : ZMod q)

/-- The sum of the absolute values of a key. -/
def Spec.norm1 (S : List ℤ) : ℤ := (S.map fun z => |z|).sum

/-- `c` is an encryption of the bit `b` with noise `e`: its phase is `b q/4 + e`. -/
def Spec.EncryptsBit (q : Nat) (sk : List Nat) (c : LWE) (b : Bool) (e : ℤ) : Prop :=
  lwePhase q sk c.a c.b = ((b.toNat * (q / 4) : Nat) : ZMod q) + (e : ZMod q)

/-- The parameters of the scheme: plaintext modulus 4, `8 ≤ q = 2^m`, `4 ≤ N = 2^k ≤ 2^31`, a field
with a transform of length `N`, and moduli small enough for the conversions and for the floating point
arithmetic of the modulus switches. -/
structure GateParams (w : Nat) (R : Ctx) (P : Params) (Q k m : Nat) : Prop where
  field : TableField R.w Q R.M R.tbl k
  lwe : LWEParamsOk (P.lwe w) 2 m
  ring : P.ringDimension = 2 ^ k
  two_le : 2 ≤ k
  le : k ≤ 31
  twice : 2 * 2 ^ k < 2 ^ w
  switchIn : 2 * ((2 ^ m - 1) * (2 * 2 ^ k)) < 2 ^ 53
  switchOut : 2 * ((Q - 1) * 2 ^ m) < 2 ^ 53

/-- The blind rotation key encrypts the digits `S` under the ring key `s` with errors of at most `E`. -/
def RotationKey.Valid (R : Ctx) (Q n bits : Nat) (s : Rq (ZMod Q) n) (E : Nat) (S : List ℤ) :
    RotationKey → Prop
  | .binary key => BinaryKey R Q n bits s E S key
  | .ternary key => TernaryKey R Q n bits s E S key

/-- The switching key belongs to the order of the steps and to the keys: for `BrMsKs` it switches from
the digits `Z` to the words `sk` modulo `q`, for `BrKsMs` from the ring key `z` to the digits `S` modulo
`Q`; for `BrMs` there is none, and the ring key has the digits of the LWE key. Errors are at most `E`. -/
def SwitchKey.Valid (K : EvalKey) (Q m bits : Nat) (sk z : List Nat) (S Z : List ℤ) (E : Nat) : Prop :=
  match K.P.steps with
  | .brMsKs => ∃ (B : Basis) (key : List (List (List LWE))) (err : Nat → Nat → Nat → ZMod (2 ^ m)),
      K.sw = .lwe B sk.length key ∧ Basis.newWord K.w bits (2 ^ m) = some B ∧
      LweSwitchKey (2 ^ m) bits B.decomposeLen sk Z err key ∧
      ∀ j i v, ∃ x : ℤ, |x| ≤ E ∧ (x : ZMod (2 ^ m)) = err j i v
  | .brKsMs => ∃ (B : Basis) (key : List NTTGadgetRLWE) (k' : Nat) (s : List Nat)
      (e : Nat → Nat → Rq (ZMod Q) (2 ^ k')),
      K.sw = .rlwe sk.length key ∧ Basis.new K.R.w Q bits = some B ∧ 0 < k' ∧
      TableField K.R.w Q K.R.M K.R.tbl k' ∧ 2 ^ (k' - 1) < sk.length ∧ sk.length ≤ 2 ^ k' ∧
      Reduced Q sk.length s ∧ KeyWords Q s S ∧
      RlweSwitchKey K.R Q (2 ^ k') bits (Rq.ofWords Q (2 ^ k') s) z e key ∧
      ∀ c j, (e c j).Bounded E
  | .brMs => KeyWords Q z S

/-- `K` is an evaluation key for the LWE key `S`, stored as the words `sk`, and the ring key `Z`, stored as
the words `z`. -/
structure EvalKey.Valid (K : EvalKey) (Q k m : Nat) (sk z : List Nat) (S Z : List ℤ) (E E' : Nat) :
    Prop where
  keyS : KeyWords (2 ^ m) sk S
  keyZ : KeyWords Q z Z
  red : Reduced Q (2 ^ k) z
  rot : ∃ bits, Basis.new K.R.w Q bits = some K.P.basis ∧
    K.rot.Valid K.R Q (2 ^ k) bits (Rq.ofWords Q (2 ^ k) z) E S
  sw : SwitchKey.Valid K Q m K.P.keySwitchBits sk z S Z E'

/-- The constant coefficient of the phase of an RLWE ciphertext. -/
def Spec.ringPhase0 (Q n : Nat) (z : List Nat) (x : RLWE) (hn : 0 < n) : ZMod Q :=
  (rlwePhase (Rq.ofWords Q n z) (Rq.ofWords Q n x.a) (Rq.ofWords Q n x.b)).co ⟨0, hn⟩

/-- Bounds of the noises that occur in a bootstrapping: of the rotation (`rot`), of the key switching (`sw`),
and twice the rounding errors of the switches to `2N` (`inp`) and to `q` (`out`). -/
structure Spec.Level where
  rot : Nat
  sw : Nat
  inp : ℤ
  out : ℤ

/-- The switch of the ciphertext `x` modulo `q` to `y` modulo `q'` multiplies the phase under `T` with `q' / q`, up to
`r / 2`. -/
def Spec.RoundedBy (q q' : Nat) (T : List ℤ) (r : ℤ) (x y : LWE) : Prop :=
  ∃ φ : ℤ, φ ≡ intPhase T y.a y.b [ZMOD q'] ∧ |2 * (q * φ - q' * intPhase T x.a x.b)| ≤ q * r

/-- The noise that occurs in one run of the bootstrapping of `c` with the table `lut`: blind rotation adds at most
`L.rot` to the table entry at the phase of its input, key switching at most `L.sw` to the phase, and the two modulus
switches change the scaled phase by at most `L.inp / 2` and `L.out / 2`. -/
structure EvalKey.RunNoise (K : EvalKey) (Q k m : Nat) (sk z : List Nat) (S Z : List ℤ) (L : Level)
    (c : LWE) (lut : List Nat) : Prop where
  switch : ∀ c' : LWE, K.switchIn c = some c' → RoundedBy (2 ^ m) (2 * 2 ^ k) S L.inp c c'
  rotate : ∀ (c' : LWE) (r : RLWE), K.switchIn c = some c' → K.rot.rotate K.R lut c' = some r →
    ∃ e : ℤ, |e| ≤ L.rot ∧ ringPhase0 Q (2 ^ k) z r (Nat.two_pow_pos k) =
      tableAt Q (2 ^ k) lut (intPhase S c'.a c'.b) + (e : ZMod Q)
  lwe : ∀ (c' : LWE) (acc : RLWE) (x y : LWE) (B : Basis) (dim : Nat) (key : List (List (List LWE)))
    (O : ModOps), K.P.steps = .brMsKs → K.switchIn c = some c' → K.accumulate c' lut = some acc →
    K.extractSwitch acc = some x → K.sw = .lwe B dim key → (K.P.lwe K.w).ops = some O →
    LweSwitch.keySwitch K.w B O dim key x = some y →
    ∃ e : ℤ, |e| ≤ L.sw ∧ lwePhase (2 ^ m) sk y.a y.b =
      (intPhase Z x.a x.b : ZMod (2 ^ m)) + (e : ZMod (2 ^ m))
  rlwe : ∀ (c' : LWE) (acc : RLWE) (y : LWE) (dim : Nat) (key : List NTTGadgetRLWE),
    K.P.steps = .brKsMs → K.switchIn c = some c' → K.accumulate c' lut = some acc → K.sw = .rlwe dim key →
    RlweSwitch.keySwitchRlwe K.R dim key acc = some y →
    ∃ e : ℤ, |e| ≤ L.sw ∧ (intPhase S y.a y.b : ZMod Q) =
      ringPhase0 Q (2 ^ k) z acc (Nat.two_pow_pos k) + (e : ZMod Q)
  roundExtracted : ∀ (c' : LWE) (acc : RLWE) (x y : LWE), K.P.steps ≠ .brKsMs → K.switchIn c = some c' →
    K.accumulate c' lut = some acc → RLWE.extractLocally K.R acc = some x →
    ModSwitch.lwe K.w Q (2 ^ m) x = some y →
    RoundedBy Q (2 ^ m) (if K.P.steps = .brMs then S else Z) L.out x y
  roundSwitched : ∀ (c' : LWE) (acc : RLWE) (x y : LWE) (dim : Nat) (key : List NTTGadgetRLWE),
    K.P.steps = .brKsMs → K.switchIn c = some c' → K.accumulate c' lut = some acc → K.sw = .rlwe dim key →
    RlweSwitch.keySwitchRlwe K.R dim key acc = some x → ModSwitch.lwe K.w Q (2 ^ m) x = some y →
    RoundedBy Q (2 ^ m) S L.out x y

/-- The noise of the run of a gate that bootstraps the sum of its inputs. -/
def EvalKey.SumNoise (K : EvalKey) (Q k m : Nat) (sk z : List Nat) (S Z : List ℤ) (L : Level)
    (lut : Ctx → Nat → Nat → Option (List Nat)) (c0 c1 : LWE) : Prop :=
  ∀ (O : ModOps) (c : LWE) (step : Nat) (l : List Nat), (K.P.lwe K.w).ops = some O →
    LWE.addRef O c0 c1 = some c → K.P.lutStep = some step → lut K.R K.P.ringDimension step = some l →
    K.RunNoise Q k m sk z S Z L c l

/-- The noise of the run of a gate that bootstraps twice the difference of its inputs. -/
def EvalKey.DiffNoise (K : EvalKey) (Q k m : Nat) (sk z : List Nat) (S Z : List ℤ) (L : Level)
    (lut : Ctx → Nat → Nat → Option (List Nat)) (c0 c1 : LWE) : Prop :=
  ∀ (O : ModOps) (c c' : LWE) (step : Nat) (l : List Nat), (K.P.lwe K.w).ops = some O →
    LWE.subRef O c0 c1 = some c → LWE.scalarMul O c 2 = some c' → K.P.lutStep = some step →
    lut K.R K.P.ringDimension step = some l → K.RunNoise Q k m sk z S Z L c' l

/-- The noise of the run of `majority`, which bootstraps the sum of three inputs. -/
def EvalKey.MajNoise (K : EvalKey) (Q k m : Nat) (sk z : List Nat) (S Z : List ℤ) (L : Level)
    (c0 c1 c2 : LWE) : Prop :=
  ∀ (O : ModOps) (c c' : LWE) (step : Nat) (l : List Nat), (K.P.lwe K.w).ops = some O →
    LWE.addRef O c0 c1 = some c → LWE.addInplace O c c2 = some c' → K.P.lutStep = some step →
    Lut.andMajority K.R K.P.ringDimension step = some l → K.RunNoise Q k m sk z S Z L c' l

/-- The noises of the three bootstrappings of `mux`. -/
structure EvalKey.MuxNoise (K : EvalKey) (Q k m : Nat) (sk z : List Nat) (S Z : List ℤ) (L : Level)
    (c0 c1 c2 : LWE) : Prop where
  left : K.SumNoise Q k m sk z S Z L Lut.andMajority c0 c1
  right : ∀ n0, K.not c0 = some n0 → K.SumNoise Q k m sk z S Z L Lut.andMajority n0 c2
  last : ∀ n0 t0 t1, K.not c0 = some n0 → K.and c0 c1 = some t0 → K.and n0 c2 = some t1 →
    K.SumNoise Q k m sk z S Z L Lut.or t0 t1

/-- Twice the worst-case error of the switch from `q` to `2N`, which is exact if `q` divides `2N`. -/
def Spec.inError (k m : Nat) (S : List ℤ) : ℤ := if 2 ^ m ≤ 2 * 2 ^ k then 0 else 1 + norm1 S

/-- `4Q` times the noise of a bootstrapped ciphertext: the noises of the rotation and of the key
switching, the offset between `2⌊Q/8⌋` and `Q/4`, and the rounding of the switch from `Q` to `q`. -/
def Spec.outError (steps : Steps) (Q m : Nat) (L : Level) : ℤ :=
  match steps with
  | .brMsKs => 2 ^ m * (4 * L.rot + 7) + 2 * Q * L.out + 4 * Q * L.sw
  | .brKsMs => 2 ^ m * (4 * (L.rot + L.sw) + 7) + 2 * Q * L.out
  | .brMs => 2 ^ m * (4 * L.rot + 7) + 2 * Q * L.out

/-- Twice the worst-case error of the switch from `Q` to `q`. -/
def Spec.roundBound (steps : Steps) (S Z : List ℤ) : ℤ :=
  match steps with
  | .brMsKs => 1 + norm1 Z
  | .brKsMs => 1 + norm1 S
  | .brMs => 1 + norm1 S

/-- The worst-case error of the rotation with a key of length `n` whose errors are at most `E`. -/
def Spec.rotationBound (K : EvalKey) (k n E : Nat) : Nat :=
  match K.rot with
  | .binary _ =>
    n * (2 * (K.P.basis.decomposeLen * (2 ^ k * ((2 ^ K.P.basis.bits - 1) * E))))
  | .ternary _ =>
    n * (2 * (K.P.basis.decomposeLen * (2 ^ k * ((2 ^ K.P.basis.bits - 1) * (2 * E)))))

/-- The worst-case error of the key switching with a key whose errors are at most `E`. -/
def Spec.switchBound (K : EvalKey) (Q k m E : Nat) : Nat :=
  match K.P.steps with
  | .brMsKs => ((Basis.newWord K.w K.P.keySwitchBits (2 ^ m)).elim 0 (·.decomposeLen)) * (2 ^ k * E)
  | .brKsMs => ((Basis.new K.R.w Q K.P.keySwitchBits).elim 0 (·.decomposeLen)) *
      (2 ^ k * ((2 ^ K.P.keySwitchBits - 1) * E))
  | .brMs => 0

/-- The worst-case level of a key with errors of at most `E` and `E'`. -/
def Spec.worstLevel (K : EvalKey) (Q k m : Nat) (S Z : List ℤ) (E E' : Nat) : Level :=
  ⟨rotationBound K k S.length E, switchBound K Q k m E', inError k m S, roundBound K.P.steps S Z⟩

/-- `r` is a ciphertext of the bit `x` under `sk` with the noise of a bootstrapping. If the bound of the
noise is below `q/8`, it decrypts to `x`. -/
def EvalKey.Refreshed (K : EvalKey) (Q m : Nat) (sk : List Nat) (L : Level) (r : Option LWE) (x : Bool) :
    Prop :=
  ∃ (out : LWE) (e : ℤ), r = some out ∧ LWEReduced (2 ^ m) sk.length out ∧
    EncryptsBit (2 ^ m) sk out x e ∧ |4 * Q * e| ≤ outError K.P.steps Q m L ∧
    (2 * outError K.P.steps Q m L < Q * 2 ^ m →
      (K.P.lwe K.w).decrypt .bool sk out = some x.toNat)

end Verif
