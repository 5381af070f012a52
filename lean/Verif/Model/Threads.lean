import Verif.Model.Session
import Verif.Model.Cache

/-!
# Gates called from several threads

All threads of a program share one object that changes: the cache of transform tables
(`algebra_derive/src/ntt.rs` 51-53). Everything else a gate reads is immutable or its own. A `Prog` is
a computation that stops at every request for a table. The functions below are those of
`Verif.Model.RLWE`, `RGSW`, `BlindRotation`, `KeySwitch`, `Gates` and `SecretKey`, written so that the
requests are visible; C81 proves that they compute the same.

Simplification: here a table is requested before every transform, the code requests it once per
product. This only adds interleavings.
-/

namespace Verif

/-- A computation of a thread. `stop none` is a panic, `ask k f` is `get_ntt_table(k).unwrap()` and then `f`
(algebra_derive/src/ntt.rs 149-160), `fork p q f` is `rayon::join` of `p` and `q` and then `f`
(bool/src/bfhe/evaluate.rs 327). -/
inductive Prog : Type → Type 1 where
  | stop {α : Type} (r : Option α) : Prog α
  | ask {α : Type} (k : Nat) (f : Table → Prog α) : Prog α
  | fork {α : Type} (p q : Prog LWE) (f : LWE → LWE → Prog α) : Prog α

namespace Prog

/-- Run one computation after the other. A panic ends both. Control flow of bool/src/bfhe/evaluate.rs 71-122. -/
def bind {α β : Type} : Prog α → (α → Prog β) → Prog β
  | .stop none, _ => .stop none
  | .stop (some a), g => g a
  | .ask k f, g => .ask k fun t => (f t).bind g
  | .fork p q f, g => .fork p q fun a b => (f a b).bind g

instance : Monad Prog where
  pure a := .stop (some a)
  bind := bind

/-- Code without a request for a table. -/
instance : MonadLift Option Prog := ⟨.stop⟩

/-- The result if every request `k` is answered by `tbl k`: the sequential code. algebra_derive/src/ntt.rs 149-160. -/
def run (tbl : Nat → Option Table) {α : Type} : Prog α → Option α
  | .stop r => r
  | .ask k f => (tbl k).bind fun t => (f t).run tbl
  | .fork p q f => (p.run tbl).bind fun a => (q.run tbl).bind fun b => (f a b).run tbl

/-! ## The functions with visible requests -/

/-- `Poly.tableFor`: algebra/src/polynomial/native_polynomial.rs 525-529. -/
def tableFor (len : Nat) : Prog Table :=
  if isPow2 len then .ask (trailingZeros 64 len) fun t => .stop (some t) else .stop none

/-- `Poly.toNtt`: algebra/src/polynomial/ntt_polynomial.rs 38-47. -/
def toNtt (R : Ctx) (a : List Nat) : Prog (List Nat) := do
  let t ← tableFor a.length
  Table.transform R.w R.M t a

/-- `Poly.ofNtt`: algebra/src/polynomial/native_polynomial.rs 44-53. -/
def ofNtt (R : Ctx) (a : List Nat) : Prog (List Nat) := do
  let t ← tableFor a.length
  Table.inverse R.w R.M t a

/-- `NTTRLWE.toCoeff`: lattice/src/rlwe.rs 674-686 and 75-83. -/
def toCoeff (R : Ctx) (x : NTTRLWE) : Prog RLWE := do
  let a ← ofNtt R x.a
  let b ← ofNtt R x.b
  return ⟨a, b⟩

/-- `NTTRLWE.gadgetLoop` with `addMulFast`: lattice/src/rlwe.rs 953-957 and 1026-1030, lattice/src/gadget/rlwe.rs
411-416. -/
def gadgetLoop (R : Ctx) (B : Basis) : List NTTRLWE → List Nat → NTTRLWE → Prog NTTRLWE
  | [], _, x => return x
  | g :: gs, p, x => do
    let (d, p) ← Poly.decomposeLsb R.w B p
    let d ← toNtt R d
    let x ← NTTRLWE.addMulFast R x g d
    gadgetLoop R B gs p x

/-- `RLWE.mulAssignNttRgsw`: lattice/src/rlwe.rs 518-541. -/
def mulAssignNttRgsw (R : Ctx) (x : RLWE) (g : NTTRGSW) (median : NTTRLWE) : Prog (RLWE × NTTRLWE) := do
  let m ← gadgetLoop R g.cNegSM.basis g.cNegSM.data x.a median.setZero
  let m ← gadgetLoop R g.cM.basis g.cM.data x.b m
  let r ← toCoeff R m
  return (r, m)

/-- `BlindRotation.update`: fhe_core/src/blind_rotation/binary.rs 50-64,
fhe_core/src/blind_rotation/ternary.rs 78-90. -/
def update (R : Ctx) (n : Nat) (st : BlindRotation.State) (key : NTTRGSW) (a : Nat) :
    Prog BlindRotation.State := do
  let ext ← RLWE.mulMonomialSubOne R st.acc n a st.ext
  let (ext, median) ← mulAssignNttRgsw R ext key st.median
  let acc ← RLWE.add R st.acc ext
  return ⟨acc, ext, median⟩

/-- `BlindRotation.binaryStep`: fhe_core/src/blind_rotation/binary.rs 48-68. -/
def binaryStep (R : Ctx) (n : Nat) (st : BlindRotation.State) (key : NTTRGSW) (a : Nat) :
    Prog BlindRotation.State :=
  if a = 0 then return st else update R n st key a

/-- `BlindRotation.ternaryStep`: fhe_core/src/blind_rotation/ternary.rs 61-94. -/
def ternaryStep (R : Ctx) (t : Table) (n : Nat) (st : BlindRotation.State) (key : NTTRGSW × NTTRGSW)
    (a : Nat) : Prog BlindRotation.State :=
  if a = 0 then return st
  else do
    let negA ← subC (2 * n) a
    let m ← Table.negOneMonomial R.M t negA n
    let ek ← NTTRGSW.addMulNtt R key.1 key.2 m
    update R n st ek a

/-- `BlindRotation.loop`: fhe_core/src/blind_rotation/binary.rs 45-68, fhe_core/src/blind_rotation/ternary.rs
58-94. -/
def rotationLoop {K : Type} (step : BlindRotation.State → K → Nat → Prog BlindRotation.State) :
    List K → List Nat → BlindRotation.State → Prog BlindRotation.State
  | k :: ks, a :: as, st => do
    let st ← step st k a
    rotationLoop step ks as st
  | _, _, st => return st

/-- `RotationKey.rotate`: fhe_core/src/blind_rotation/mod.rs 44-56, fhe_core/src/blind_rotation/binary.rs 19-69,
fhe_core/src/blind_rotation/ternary.rs 24-95. -/
def rotate (R : Ctx) (lut : List Nat) (c : LWE) : RotationKey → Prog RLWE
  | .binary key => do
    let lut ← BlindRotation.rotateLut R lut c.b
    let st ← rotationLoop (binaryStep R lut.length) key c.a (BlindRotation.init lut)
    return st.acc
  | .ternary key => do
    let t ← tableFor lut.length
    let lut ← BlindRotation.rotateLut R lut c.b
    let st ← rotationLoop (ternaryStep R t lut.length) key c.a (BlindRotation.init lut)
    return st.acc

/-- `RlweSwitch.loop`: fhe_core/src/key_switch/rlwe.rs 181-189 with lattice/src/rlwe.rs 1012-1031. -/
def switchLoop (R : Ctx) : List NTTGadgetRLWE → List (List Nat) → NTTRLWE → Prog NTTRLWE
  | g :: gs, p :: ps, x => do
    let p ← Poly.neg R.M p
    let x ← gadgetLoop R g.basis g.data p x
    switchLoop R gs ps x
  | _, _, x => return x

/-- `RlweSwitch.inner`: fhe_core/src/key_switch/rlwe.rs 172-192. -/
def switchInner (R : Ctx) (dim : Nat) (key : List NTTGadgetRLWE) (b : Nat) (ps : List (List Nat)) : Prog LWE := do
  let n := RlweSwitch.nextPow2 dim
  let x ← switchLoop R key ps ⟨Poly.zero n, List.replicate n b⟩
  let x ← toCoeff R x
  RLWE.extractPartial R x dim

/-- `RlweSwitch.keySwitchRlwe`: fhe_core/src/key_switch/rlwe.rs 121-143. -/
def keySwitchRlwe (R : Ctx) (dim : Nat) (key : List NTTGadgetRLWE) (x : RLWE) : Prog LWE := do
  let b ← x.b[0]?
  let ps ← RlweSwitch.rlweChunks R (RlweSwitch.nextPow2 dim) x.a
  switchInner R dim key b ps

/-- `EvalKey.accumulate`: bool/src/bfhe/evaluate.rs 82-86. -/
def accumulate (K : EvalKey) (c : LWE) (lut : List Nat) : Prog RLWE := do
  let acc ← rotate K.R lut c K.rot
  EvalKey.addEighth K.R acc

/-- `EvalKey.finish`: bool/src/bfhe/evaluate.rs 88-119. -/
def finish (K : EvalKey) (c : LWE) (acc : RLWE) : Prog LWE :=
  match K.P.steps with
  | .brMsKs => do
    let x ← K.extractSwitch acc
    match K.sw with
    | .lwe B dim key => do
      let O ← (K.P.lwe K.w).ops
      LweSwitch.keySwitch K.w B O dim key x
    | _ => .stop none
  | .brKsMs =>
    match K.sw with
    | .rlwe dim key => do
      let x ← keySwitchRlwe K.R dim key acc
      ModSwitch.lweInplace K.w K.R.M.value K.P.q x c
    | _ => .stop none
  | .brMs => do
    let x ← RLWE.extractLocally K.R acc
    ModSwitch.lweInplace K.w K.R.M.value K.P.q x c

/-- `EvalKey.bootstrap`: bool/src/bfhe/evaluate.rs 71-122. -/
def bootstrap (K : EvalKey) (c : LWE) (lut : List Nat) : Prog LWE := do
  let c ← K.switchIn c
  let acc ← accumulate K c lut
  finish K c acc

/-- `EvalKey.sumGate`: bool/src/bfhe/evaluate.rs 181-185, 199-204, 218-222, 236-240. -/
def sumGate (K : EvalKey) (lut : Ctx → Nat → Nat → Option (List Nat)) (c0 c1 : LWE) : Prog LWE := do
  let O ← (K.P.lwe K.w).ops
  let c ← LWE.addRef O c0 c1
  let step ← K.P.lutStep
  let l ← lut K.R K.P.ringDimension step
  bootstrap K c l

/-- `EvalKey.diffGate`: bool/src/bfhe/evaluate.rs 254-259, 273-278. -/
def diffGate (K : EvalKey) (lut : Ctx → Nat → Nat → Option (List Nat)) (c0 c1 : LWE) : Prog LWE := do
  let O ← (K.P.lwe K.w).ops
  let c ← LWE.subRef O c0 c1
  let c ← LWE.scalarMul O c 2
  let step ← K.P.lutStep
  let l ← lut K.R K.P.ringDimension step
  bootstrap K c l

/-- `EvalKey.majority`: bool/src/bfhe/evaluate.rs 290-305. -/
def majority (K : EvalKey) (c0 c1 c2 : LWE) : Prog LWE := do
  let O ← (K.P.lwe K.w).ops
  let c ← LWE.addRef O c0 c1
  let c ← LWE.addInplace O c c2
  let step ← K.P.lutStep
  let l ← Lut.andMajority K.R K.P.ringDimension step
  bootstrap K c l

/-- The last part of `mux`: bool/src/bfhe/evaluate.rs 330-334. -/
def muxEnd (K : EvalKey) (t0 t1 : LWE) : Prog LWE := do
  let O ← (K.P.lwe K.w).ops
  let c ← LWE.addInplace O t0 t1
  let step ← K.P.lutStep
  let l ← Lut.or K.R K.P.ringDimension step
  bootstrap K c l

/-- `EvalKey.mux`: bool/src/bfhe/evaluate.rs 316-335. The two bootstrappings run in parallel. -/
def mux (K : EvalKey) (c0 c1 c2 : LWE) : Prog LWE := do
  let n0 ← K.not c0
  .fork (sumGate K Lut.andMajority c0 c1) (sumGate K Lut.andMajority n0 c2) (muxEnd K)

/-! ## Key generation with visible requests -/

/-- `NTTRLWE.zeroSample`: lattice/src/rlwe.rs 1034-1049. -/
def zeroSample (R : Ctx) (s a e : List Nat) : Prog NTTRLWE :=
  if a.length = s.length ∧ e.length = s.length then do
    let e ← toNtt R e
    let b ← Poly.nttAddMul R.w R.M e a s
    return ⟨a, b⟩
  else .stop none

/-- `NTTRLWE.valueSample`: lattice/src/rlwe.rs 1052-1071. -/
def valueSample (R : Ctx) (s : List Nat) (value : Nat) (a e : List Nat) : Prog NTTRLWE :=
  if a.length = s.length ∧ e.length = s.length then do
    let e ← NTTRLWE.addHead R e value
    let b ← toNtt R e
    let b ← Poly.nttAddMul R.w R.M b a s
    return ⟨a, b⟩
  else .stop none

/-- `NTTGadgetRLWE.negSecretElement`: lattice/src/gadget/rlwe.rs 501-502. -/
def negSecretElement (R : Ctx) (s : List Nat) (power : Nat) (a e : List Nat) : Prog NTTRLWE := do
  let r ← zeroSample R s a e
  let a ← (r.a.mapM fun v => Fp.add R.w R.M v power : Option (List Nat))
  return ⟨a, r.b⟩

/-- `NTTGadgetRLWE.generateLoop`: lattice/src/gadget/rlwe.rs 467-480 and 500-508. -/
def generateLoop (R : Ctx) (sample : Nat → List Nat → List Nat → Prog NTTRLWE) (basis : Nat) :
    Nat → Nat → List Draw → Prog (List NTTRLWE)
  | _, _, [] => .stop none
  | 0, power, (a, e) :: _ => do
    let r ← sample power a e
    return [r]
  | k + 1, power, (a, e) :: ds => do
    let r ← sample power a e
    let power ← mulC R.w power basis
    let rs ← generateLoop R sample basis k power ds
    return r :: rs

/-- The loop of `NTTGadgetRLWE.zeroSample`: lattice/src/gadget/rlwe.rs 446-448. -/
def zeroLoop (R : Ctx) (s : List Nat) : List Draw → Prog (List NTTRLWE)
  | [] => return []
  | (a, e) :: ds => do
    let r ← zeroSample R s a e
    let rs ← zeroLoop R s ds
    return r :: rs

/-- `NTTGadgetRLWE.zeroSample`: lattice/src/gadget/rlwe.rs 438-451. -/
def gadgetZero (R : Ctx) (s : List Nat) (B : Basis) (draws : List Draw) : Prog NTTGadgetRLWE :=
  if B.decomposeLen ≤ draws.length then do
    let data ← zeroLoop R s (draws.take B.decomposeLen)
    return ⟨data, B⟩
  else .stop none

/-- `NTTGadgetRLWE.oneSample` and `negSecretSample`: lattice/src/gadget/rlwe.rs 454-483 and 486-511. -/
def gadgetLoopSample (R : Ctx) (sample : Nat → List Nat → List Nat → Prog NTTRLWE) (B : Basis)
    (draws : List Draw) : Prog NTTGadgetRLWE := do
  let k ← subC B.decomposeLen 1
  let data ← generateLoop R sample B.basis k Fp.one draws
  return ⟨data, B⟩

/-- `NTTRGSW.zeroSample`: lattice/src/rgsw.rs 343-366. -/
def rgswZero (R : Ctx) (s : List Nat) (B : Basis) (d : BlindRotation.RgswDraw) : Prog NTTRGSW := do
  let c0 ← gadgetZero R s B d.1
  let c1 ← gadgetZero R s B d.2
  return ⟨c0, c1⟩

/-- `NTTRGSW.oneSample`: lattice/src/rgsw.rs 369-392. -/
def rgswOne (R : Ctx) (s : List Nat) (B : Basis) (d : BlindRotation.RgswDraw) : Prog NTTRGSW := do
  let c0 ← gadgetLoopSample R (negSecretElement R s) B d.1
  let c1 ← gadgetLoopSample R (valueSample R s) B d.2
  return ⟨c0, c1⟩

/-- `BlindRotation.binaryKey`: fhe_core/src/blind_rotation/binary.rs 85-101. -/
def binaryKey (R : Ctx) (sn : List Nat) (B : Basis) (s : Nat) (d : BlindRotation.RgswDraw) : Prog NTTRGSW :=
  if s = 0 then rgswZero R sn B d else rgswOne R sn B d

/-- `BlindRotation.binaryGenerate`: fhe_core/src/blind_rotation/binary.rs 72-104. -/
def binaryGenerate (R : Ctx) (sn : List Nat) (B : Basis) : List Nat → List BlindRotation.RgswDraw →
    Prog (List NTTRGSW)
  | [], _ => return []
  | _ :: _, [] => .stop none
  | s :: ss, d :: ds => do
    let g ← binaryKey R sn B s d
    let gs ← binaryGenerate R sn B ss ds
    return g :: gs

/-- `BlindRotation.ternaryKey`: fhe_core/src/blind_rotation/ternary.rs 111-158. -/
def ternaryKey (R : Ctx) (sn : List Nat) (B : Basis) (s : Nat)
    (d : BlindRotation.RgswDraw × BlindRotation.RgswDraw) : Prog (NTTRGSW × NTTRGSW) :=
  if s = 1 then do
    let x ← rgswOne R sn B d.1
    let y ← rgswZero R sn B d.2
    return (x, y)
  else if s = 0 then do
    let x ← rgswZero R sn B d.1
    let y ← rgswZero R sn B d.2
    return (x, y)
  else do
    let x ← rgswZero R sn B d.1
    let y ← rgswOne R sn B d.2
    return (x, y)

/-- `BlindRotation.ternaryGenerate`: fhe_core/src/blind_rotation/ternary.rs 98-161. -/
def ternaryGenerate (R : Ctx) (sn : List Nat) (B : Basis) : List Nat →
    List (BlindRotation.RgswDraw × BlindRotation.RgswDraw) → Prog (List (NTTRGSW × NTTRGSW))
  | [], _ => return []
  | _ :: _, [] => .stop none
  | s :: ss, d :: ds => do
    let g ← ternaryKey R sn B s d
    let gs ← ternaryGenerate R sn B ss ds
    return g :: gs

/-- `RotationKey.generate`: fhe_core/src/blind_rotation/mod.rs 59-85. -/
def rotationKey (R : Ctx) (P : Params) (pack : KeyPack) (d : EvalDraws) : Prog RotationKey :=
  match P.lweKeyType with
  | .binary => do
    let key ← binaryGenerate R pack.ringNtt P.basis pack.lwe d.binary
    return .binary key
  | .ternary => do
    let key ← ternaryGenerate R pack.ringNtt P.basis pack.lwe d.ternary
    return .ternary key

/-- `RlweSwitch.samples`: fhe_core/src/key_switch/rlwe.rs 74-83 and 98-110. -/
def samples (R : Ctx) (sn : List Nat) (basis : Nat) : Nat → List Nat → List Draw → Prog (List NTTRLWE)
  | 0, _, _ => return []
  | _ + 1, _, [] => .stop none
  | 1, z, (a, e) :: _ => do
    let x ← zeroSample R sn a e
    let b ← Poly.add R.w R.M x.b z
    return [⟨x.a, b⟩]
  | cnt + 2, z, (a, e) :: ds => do
    let x ← zeroSample R sn a e
    let b ← Poly.add R.w R.M x.b z
    let z ← Poly.mulScalar R.w R.M z basis
    let xs ← samples R sn basis (cnt + 1) z ds
    return ⟨x.a, b⟩ :: xs

/-- `RlweSwitch.element`: fhe_core/src/key_switch/rlwe.rs 84, 111. -/
def element (R : Ctx) (B : Basis) (sn : List Nat) (basis : Nat) (z : List Nat) (ds : List Draw) :
    Prog NTTGadgetRLWE := do
  let data ← samples R sn basis B.decomposeLen z ds
  if data.length = B.decomposeLen then return ⟨data, B⟩ else .stop none

/-- `RlweSwitch.elements`: fhe_core/src/key_switch/rlwe.rs 94-114. -/
def elements (R : Ctx) (B : Basis) (sn : List Nat) (basis : Nat) (d : Nat → List Draw) :
    Nat → List (List Nat) → Prog (List NTTGadgetRLWE)
  | _, [] => return []
  | c, z :: zs => do
    let z ← toNtt R z
    let g ← element R B sn basis z (d c)
    let gs ← elements R B sn basis d (c + 1) zs
    return g :: gs

/-- `RlweSwitch.keyParts`: fhe_core/src/key_switch/rlwe.rs 69-115. -/
def keyParts (R : Ctx) (B : Basis) (n : Nat) (sn : List Nat) (basis : Nat) (ring ringNtt : List Nat)
    (d : Nat → List Draw) : Prog (List NTTGadgetRLWE) :=
  if n = ring.length then do
    let g ← element R B sn basis ringNtt (d 0)
    return [g]
  else elements R B sn basis d 0 (RlweSwitch.chunks n ring)

/-- `RlweSwitch.generate`: fhe_core/src/key_switch/rlwe.rs 24-118. -/
def rlweSwitchKey (R : Ctx) (bits : Nat) (sk ring ringNtt : List Nat) (d : Nat → List Draw) :
    Prog (List NTTGadgetRLWE) :=
  let n := RlweSwitch.nextPow2 sk.length
  if n ≤ ring.length then do
    let B ← Basis.new R.w R.M.value bits
    let negOne ← Fp.negOne R.M
    let s := sk.map (LweSwitch.convert negOne) ++ List.replicate (n - sk.length) Fp.zero
    let sn ← toNtt R s
    let basis ← Fp.new R.w R.M B.basis
    keyParts R B n sn basis ring ringNtt d
  else .stop none

/-- `SwitchKey.generate`: bool/src/bfhe/evaluate.rs 53-61. -/
def switchKey (w : Nat) (R : Ctx) (P : Params) (pack : KeyPack) (d : EvalDraws) : Prog SwitchKey :=
  match P.steps with
  | .brMsKs => do
    let O ← (P.lwe w).ops
    let (B, key) ← LweSwitch.generate w P.q P.keySwitchBits O pack.lwe pack.ring d.lwe
    return .lwe B P.n key
  | .brKsMs => do
    let key ← rlweSwitchKey R P.keySwitchBits pack.lwe pack.ring pack.ringNtt d.rlwe
    return .rlwe P.n key
  | .brMs => return .none

/-- `EvalKey.new`: bool/src/bfhe/evaluate.rs 48-68. -/
def evalKey (w : Nat) (R : Ctx) (P : Params) (pack : KeyPack) (d : EvalDraws) : Prog EvalKey := do
  let rot ← rotationKey R P pack d
  let sw ← switchKey w R P pack d
  return ⟨w, R, P, rot, sw⟩

/-- `KeyPack.new`: fhe_core/src/secret_key.rs 69-122. -/
def keyPack (R : Ctx) (P : Params) (d : KeyDraws) : Prog KeyPack := do
  let lwe ← KeyPack.lweKey P d.lwe
  let ring ← KeyPack.ringKey R P lwe d
  let ringNtt ← toNtt R ring
  return ⟨lwe, ring, ringNtt⟩

/-- `App.start`: bool/src/key_gen.rs 13-18, bool/src/encrypt.rs 15, bool/src/bfhe/evaluate.rs 134 and
bool/src/decrypt.rs 14. -/
def start (w : Nat) (R : Ctx) (P : Params) (dk : KeyDraws) (d : EvalDraws) : Prog App := do
  let pack ← keyPack R P dk
  let K ← evalKey w R P pack d
  return ⟨w, P, pack, K, pack⟩

/-- `App.exec`: bool/src/encrypt.rs 21-27, bool/src/decrypt.rs 20-28 and bool/src/bfhe/evaluate.rs 160-336. -/
def exec (A : App) (cs : List LWE) : Call → Prog (List LWE × Option Reply)
  | .nand i j => do
    let c ← sumGate A.evaluator Lut.nand (← cs[i]?) (← cs[j]?)
    return (cs ++ [c], none)
  | .and i j => do
    let c ← sumGate A.evaluator Lut.andMajority (← cs[i]?) (← cs[j]?)
    return (cs ++ [c], none)
  | .or i j => do
    let c ← sumGate A.evaluator Lut.or (← cs[i]?) (← cs[j]?)
    return (cs ++ [c], none)
  | .nor i j => do
    let c ← sumGate A.evaluator Lut.nor (← cs[i]?) (← cs[j]?)
    return (cs ++ [c], none)
  | .xor i j => do
    let c ← diffGate A.evaluator Lut.xor (← cs[i]?) (← cs[j]?)
    return (cs ++ [c], none)
  | .xnor i j => do
    let c ← diffGate A.evaluator Lut.xnor (← cs[i]?) (← cs[j]?)
    return (cs ++ [c], none)
  | .majority i j k => do
    let c ← majority A.evaluator (← cs[i]?) (← cs[j]?) (← cs[k]?)
    return (cs ++ [c], none)
  | .mux i j k => do
    let c ← mux A.evaluator (← cs[i]?) (← cs[j]?) (← cs[k]?)
    return (cs ++ [c], none)
  | x => A.exec cs x

/-- `App.run`, the calls of one thread: bool/src/encrypt.rs 21-27, bool/src/decrypt.rs 20-28 and
bool/src/bfhe/evaluate.rs 160-336. -/
def calls (A : App) : List Call → List LWE → Prog (List LWE × List Reply)
  | [], cs => return (cs, [])
  | x :: xs, cs => do
    let (cs, r) ← exec A cs x
    let (cs, rs) ← calls A xs cs
    return (cs, r.toList ++ rs)

end Prog

/-! ## Interleaved execution -/

namespace Threads

/-- The shared memory: the `OnceCell` with its map, whether the mutex is held, whether it is poisoned.
algebra_derive/src/ntt.rs 51-53. -/
structure Mem where
  cell : Option (List (Nat × Table))
  locked : Bool
  poisoned : Bool

/-- Program start. algebra_derive/src/ntt.rs 51-53. -/
def Mem.init : Mem := ⟨none, false, false⟩

/-- Where a thread is inside `get_ntt_table`. algebra_derive/src/ntt.rs 149-193. -/
inductive Pc where
  /-- outside -/
  | calm
  /-- algebra_derive/src/ntt.rs 151: inside `tables.get(&log_n)`, without the lock -/
  | reading
  /-- algebra_derive/src/ntt.rs 163: waiting for the mutex -/
  | wantLock
  /-- algebra_derive/src/ntt.rs 171: the guard is held, the published map has no table of the size -/
  | filling
  /-- algebra_derive/src/ntt.rs 172: the guard is held, inside `tables.insert(..)` -/
  | inserting (t : Table)
  /-- algebra_derive/src/ntt.rs 178-184: the guard is held, the private map is built -/
  | building
  /-- algebra_derive/src/ntt.rs 175 and 190: the guard is held, about to return `Ok(())` -/
  | leaving
  /-- algebra_derive/src/ntt.rs 156-159: inside the second `get`, without the lock -/
  | readingBack

/-- A running computation: a thread inside or outside `get_ntt_table`, or the two halves of a `rayon::join`.
bool/src/bfhe/evaluate.rs 327. -/
inductive Task : Type → Type 1 where
  | run {α : Type} (pc : Pc) (p : Prog α) : Task α
  | join {α : Type} (l r : Task LWE) (f : LWE → LWE → Prog α) : Task α

/-- One step of a thread. `gen k` are the possible outcomes of `generate_ntt_table(k)`. The guard is released when
`init_ntt_table` returns; a panic in between poisons the mutex. algebra_derive/src/ntt.rs 149-193 and
bool/src/bfhe/evaluate.rs 327. -/
inductive Step (gen : Nat → Cache.Gen Table → Prop) : {α : Type} → Mem → Task α → Mem → Task α → Prop
  | peekNone {α s k} {f : Table → Prog α} : s.cell = none →
      Step gen s (.run .calm (.ask k f)) s (.run .wantLock (.ask k f))
  | peekSome {α s k} {f : Table → Prog α} : s.cell ≠ none →
      Step gen s (.run .calm (.ask k f)) s (.run .reading (.ask k f))
  | readHit {α s k m t} {f : Table → Prog α} : s.cell = some m → Cache.find m k = some t →
      Step gen s (.run .reading (.ask k f)) s (.run .calm (f t))
  | readMiss {α s k m} {f : Table → Prog α} : s.cell = some m → Cache.find m k = none →
      Step gen s (.run .reading (.ask k f)) s (.run .wantLock (.ask k f))
  | lockPoisoned {α s k} {f : Table → Prog α} : s.locked = false → s.poisoned = true →
      Step gen s (.run .wantLock (.ask k f)) s (.run .calm (.stop none))
  | lockHave {α s k m t} {f : Table → Prog α} : s.locked = false → s.poisoned = false → s.cell = some m →
      Cache.find m k = some t →
      Step gen s (.run .wantLock (.ask k f)) { s with locked := true } (.run .leaving (.ask k f))
  | lockMiss {α s k m} {f : Table → Prog α} : s.locked = false → s.poisoned = false → s.cell = some m →
      Cache.find m k = none →
      Step gen s (.run .wantLock (.ask k f)) { s with locked := true } (.run .filling (.ask k f))
  | lockNone {α s k} {f : Table → Prog α} : s.locked = false → s.poisoned = false → s.cell = none →
      Step gen s (.run .wantLock (.ask k f)) { s with locked := true } (.run .building (.ask k f))
  | fillErr {α s k} {f : Table → Prog α} : gen k .err →
      Step gen s (.run .filling (.ask k f)) { s with locked := false } (.run .calm (.stop none))
  | fillPanic {α s k} {f : Table → Prog α} : gen k .panic →
      Step gen s (.run .filling (.ask k f)) { s with locked := false, poisoned := true } (.run .calm (.stop none))
  | fillOk {α s k t} {f : Table → Prog α} : gen k (.ok t) →
      Step gen s (.run .filling (.ask k f)) s (.run (.inserting t) (.ask k f))
  | insert {α s k m t} {f : Table → Prog α} : s.cell = some m →
      Step gen s (.run (.inserting t) (.ask k f)) { s with cell := some (Cache.insert m k t) }
        (.run .leaving (.ask k f))
  | buildErr {α s k} {f : Table → Prog α} : gen k .err →
      Step gen s (.run .building (.ask k f)) { s with locked := false } (.run .calm (.stop none))
  | buildPanic {α s k} {f : Table → Prog α} : gen k .panic →
      Step gen s (.run .building (.ask k f)) { s with locked := false, poisoned := true } (.run .calm (.stop none))
  | publish {α s k t} {f : Table → Prog α} : gen k (.ok t) → s.cell = none →
      Step gen s (.run .building (.ask k f)) { s with cell := some (Cache.insert [] k t) }
        (.run .leaving (.ask k f))
  | publishTwice {α s k} {f : Table → Prog α} : s.cell ≠ none →
      Step gen s (.run .building (.ask k f)) { s with locked := false } (.run .calm (.stop none))
  | leave {α s k} {f : Table → Prog α} :
      Step gen s (.run .leaving (.ask k f)) { s with locked := false } (.run .readingBack (.ask k f))
  | readBack {α s k m t} {f : Table → Prog α} : s.cell = some m → Cache.find m k = some t →
      Step gen s (.run .readingBack (.ask k f)) s (.run .calm (f t))
  | readBackPanic {α s k} {f : Table → Prog α} : (∀ m, s.cell = some m → Cache.find m k = none) →
      Step gen s (.run .readingBack (.ask k f)) s (.run .calm (.stop none))
  | fork {α s p q} {f : LWE → LWE → Prog α} :
      Step gen s (.run .calm (.fork p q f)) s (.join (.run .calm p) (.run .calm q) f)
  | left {α s s' l l' r} {f : LWE → LWE → Prog α} : Step gen s l s' l' →
      Step gen s (.join l r f) s' (.join l' r f)
  | right {α s s' l r r'} {f : LWE → LWE → Prog α} : Step gen s r s' r' →
      Step gen s (.join l r f) s' (.join l r' f)
  | joined {α s a b} {f : LWE → LWE → Prog α} :
      Step gen s (.join (.run .calm (.stop (some a))) (.run .calm (.stop (some b))) f) s (.run .calm (f a b))
  | joinPanic {α s x y} {f : LWE → LWE → Prog α} : x = none ∨ y = none →
      Step gen s (.join (.run .calm (.stop x)) (.run .calm (.stop y)) f) s (.run .calm (.stop none))

/-- The memory and all threads of the program. algebra_derive/src/ntt.rs 51-53. -/
structure State (α : Type) where
  mem : Mem
  task : Nat → Task α

/-- Replace the state of thread `i`. Control flow of algebra_derive/src/ntt.rs 149-193. -/
def set {α : Type} (f : Nat → Task α) (i : Nat) (t : Task α) : Nat → Task α := fun j => if j = i then t else f j

/-- `Reaches gen s0 l s`: the schedule `l`, the list of the threads that made a step, the last one first, can lead
from `s0` to `s`. algebra_derive/src/ntt.rs 149-193. -/
inductive Reaches (gen : Nat → Cache.Gen Table → Prop) {α : Type} (s0 : State α) : List Nat → State α → Prop
  | refl : Reaches gen s0 [] s0
  | step {l : List Nat} {s : State α} {mem : Mem} {t : Task α} (i : Nat) : Reaches gen s0 l s →
      Step gen s.mem (s.task i) mem t → Reaches gen s0 (i :: l) ⟨mem, set s.task i t⟩

/-- How many halves of the task read the published map without the lock. algebra_derive/src/ntt.rs 151 and 158. -/
def Task.readers {α : Type} : Task α → Nat
  | .run .reading _ => 1
  | .run .readingBack _ => 1
  | .run _ _ => 0
  | .join l r _ => l.readers + r.readers

/-- How many halves of the task modify the published map. algebra_derive/src/ntt.rs 172. -/
def Task.writers {α : Type} : Task α → Nat
  | .run (.inserting _) _ => 1
  | .run _ _ => 0
  | .join l r _ => l.writers + r.writers

/-- A data race: while the map is modified there is another access, by another thread or by the other half of a
`rayon::join`. algebra_derive/src/ntt.rs 151, 158 and 172. -/
def Race {α : Type} (s : State α) : Prop :=
  (∃ i, 1 ≤ (s.task i).writers ∧ 2 ≤ (s.task i).writers + (s.task i).readers) ∨
  ∃ i j, i ≠ j ∧ 1 ≤ (s.task i).writers ∧ 1 ≤ (s.task j).writers + (s.task j).readers

/-- Threads that start with the computations `p`. bool/src/bfhe/evaluate.rs 160-336. -/
def launch {α : Type} (mem : Mem) (p : Nat → Prog α) : State α := ⟨mem, fun i => .run .calm (p i)⟩

end Threads
end Verif
