import Verif.Model.RGSW
import Verif.Model.LWE
import Verif.Model.Basis

/-!
# Key switching

`fhe_core/src/key_switch/lwe.rs` and `rlwe.rs`. Random draws are parameters.
-/

namespace Verif

/-- lattice/src/utils/decompose_basis.rs 22-41: `Basis::new` of a word modulus. The panics are
`none`. -/
def Basis.newWord (w bits q : Nat) : Option Basis := do
  let modulusBits := w - leadingZeros w q
  let modulusBits ← Basis.coverBits q modulusBits
  if modulusBits < bits ∨ bits = w then none
  else if bits = 0 then none
  else
    let basis ← shlC w 1 bits
    let mask ← subC basis 1
    return ⟨basis, (modulusBits + bits - 1) / bits, mask, bits⟩

namespace LweSwitch

/-- fhe_core/src/key_switch/lwe.rs 50-58, fhe_core/src/key_switch/rlwe.rs 44-52,
fhe_core/src/secret_key.rs 100-108: the
conversion of a secret key element of one modulus to the other. -/
def convert (negOne v : Nat) : Nat := if v = 0 then 0 else if v = 1 then 1 else negOne

/-- fhe_core/src/key_switch/lwe.rs 80-91: the key element of the value `v` for the secret coefficient `z`. `d`
holds the uniform samples and the noise sample. -/
def element (O : ModOps) (sk : List Nat) (z v : Nat) (d : List Nat × Nat) : Option LWE := do
  let c ← LWE.zeroSample O sk d.1 d.2
  let m ← O.mul v z
  let b ← O.add c.b m
  return ⟨c.a, b⟩

/-- fhe_core/src/key_switch/lwe.rs 77-96: the elements of one secret coefficient, `v = 1 .. basis - 1`. -/
def row (O : ModOps) (sk : List Nat) (basis z : Nat) (d : Nat → List Nat × Nat) :
    Option (List LWE) :=
  (List.range (basis - 1)).mapM fun v => element O sk z (v + 1) (d (v + 1))

/-- fhe_core/src/key_switch/lwe.rs 74-98: the rows of one level; `i` is the index of the first coefficient. -/
def level (O : ModOps) (sk : List Nat) (basis : Nat) (d : Nat → Nat → List Nat × Nat) :
    Nat → List Nat → Option (List (List LWE))
  | _, [] => some []
  | i, z :: zs => do
    let r ← row O sk basis z (d i)
    let rs ← level O sk basis d (i + 1) zs
    return r :: rs

/-- fhe_core/src/key_switch/lwe.rs 72-108: the levels from `j` on, `cnt` of them, `zs` are the scaled secret
coefficients. -/
def levels (O : ModOps) (sk : List Nat) (basis : Nat) (d : Nat → Nat → Nat → List Nat × Nat) :
    Nat → Nat → List Nat → Option (List (List (List LWE)))
  | 0, _, _ => some []
  | 1, j, zs => do
    let l ← level O sk basis (d j) 0 zs
    return [l]
  | cnt + 2, j, zs => do
    let l ← level O sk basis (d j) 0 zs
    let zs ← zs.mapM fun v => O.mul v basis
    let ls ← levels O sk basis d (cnt + 1) (j + 1) zs
    return l :: ls

/-- fhe_core/src/key_switch/lwe.rs 30-116: `generate`; `d j i v` are the draws of element `v` of coefficient
`i` at level `j`. -/
def generate (w q bits : Nat) (O : ModOps) (sk ring : List Nat)
    (d : Nat → Nat → Nat → List Nat × Nat) : Option (Basis × List (List (List LWE))) := do
  let B ← Basis.newWord w bits q
  let negOne ← subC q 1
  let key ← levels O sk B.basis d B.decomposeLen 0 (ring.map (convert negOne))
  return (B, key)

/-- fhe_core/src/key_switch/lwe.rs 128-133: one level, digits against rows. -/
def addLevel (O : ModOps) : List Nat → List (List LWE) → LWE → Option LWE
  | d :: ds, r :: rs, acc =>
    if d = 0 then addLevel O ds rs acc
    else do
      let c ← r[d - 1]?
      let acc ← LWE.addInplace O acc c
      addLevel O ds rs acc
  | _, _, acc => some acc

/-- fhe_core/src/key_switch/lwe.rs 126-134: the levels; `a` is the rest of the mask. -/
def addLevels (w : Nat) (B : Basis) (O : ModOps) : List (List (List LWE)) → List Nat → LWE → Option LWE
  | [], _, acc => some acc
  | l :: ls, a, acc => do
    let (ds, a) ← Poly.decomposeLsb w B a
    let acc ← addLevel O ds l acc
    addLevels w B O ls a acc

/-- fhe_core/src/key_switch/lwe.rs 119-139: `key_switch_for_lwe`; `dim` is the LWE dimension stored in the
key. -/
def keySwitch (w : Nat) (B : Basis) (O : ModOps) (dim : Nat) (key : List (List (List LWE)))
    (c : LWE) : Option LWE := do
  let r ← addLevels w B O key c.a ⟨List.replicate dim 0, 0⟩
  let r ← LWE.neg O r
  let b ← O.add r.b c.b
  return ⟨r.a, b⟩

end LweSwitch

namespace RlweSwitch

/-- `usize::next_power_of_two`; the overflow above `2^63` is left out.
fhe_core/src/key_switch/rlwe.rs 35, 122 and 147. -/
def nextPow2 (n : Nat) : Nat := if n ≤ 1 then 1 else 2 ^ (Nat.log2 (n - 1) + 1)

/-- `chunks_exact(n)`; `n` is a power of two here, so not zero.
fhe_core/src/key_switch/rlwe.rs 90, 133, 140, 156 and 167. -/
def chunks (n : Nat) (l : List Nat) : List (List Nat) :=
  (List.range (l.length / n)).map fun c => (l.drop (c * n)).take n

/-- fhe_core/src/key_switch/rlwe.rs 74-83 and 98-110: `cnt` samples for the transformed key part `z`, which is
multiplied by the basis between the samples. -/
def samples (R : Ctx) (sn : List Nat) (basis : Nat) :
    Nat → List Nat → List Draw → Option (List NTTRLWE)
  | 0, _, _ => some []
  | _ + 1, _, [] => none
  | 1, z, (a, e) :: _ => do
    let x ← NTTRLWE.zeroSample R sn a e
    let b ← Poly.add R.w R.M x.b z
    return [⟨x.a, b⟩]
  | cnt + 2, z, (a, e) :: ds => do
    let x ← NTTRLWE.zeroSample R sn a e
    let b ← Poly.add R.w R.M x.b z
    let z ← Poly.mulScalar R.w R.M z basis
    let xs ← samples R sn basis (cnt + 1) z ds
    return ⟨x.a, b⟩ :: xs

/-- fhe_core/src/key_switch/rlwe.rs 84, 111, with the length assertion of lattice/src/gadget/rlwe.rs 260-263.
-/
def element (R : Ctx) (B : Basis) (sn : List Nat) (basis : Nat) (z : List Nat) (ds : List Draw) :
    Option NTTGadgetRLWE := do
  let data ← samples R sn basis B.decomposeLen z ds
  if data.length = B.decomposeLen then some ⟨data, B⟩ else none

/-- fhe_core/src/key_switch/rlwe.rs 94-114: the elements of the key chunks; `d c` are the draws of chunk `c`.
-/
def elements (R : Ctx) (B : Basis) (sn : List Nat) (basis : Nat) (d : Nat → List Draw) :
    Nat → List (List Nat) → Option (List NTTGadgetRLWE)
  | _, [] => some []
  | c, z :: zs => do
    let z ← Poly.toNtt R.w R.M R.tbl z
    let g ← element R B sn basis z (d c)
    let gs ← elements R B sn basis d (c + 1) zs
    return g :: gs

/-- fhe_core/src/key_switch/rlwe.rs 69-115: the key for one or for several chunks. -/
def keyParts (R : Ctx) (B : Basis) (n : Nat) (sn : List Nat) (basis : Nat) (ring ringNtt : List Nat)
    (d : Nat → List Draw) : Option (List NTTGadgetRLWE) :=
  if n = ring.length then do
    let g ← element R B sn basis ringNtt (d 0)
    return [g]
  else elements R B sn basis d 0 (chunks n ring)

/-- fhe_core/src/key_switch/rlwe.rs 24-118: `generate` from the LWE key `sk` (its length is the LWE
dimension), the ring key `ring` and its transform `ringNtt`. -/
def generate (R : Ctx) (bits : Nat) (sk ring ringNtt : List Nat) (d : Nat → List Draw) :
    Option (List NTTGadgetRLWE) :=
  let n := nextPow2 sk.length
  if n ≤ ring.length then do
    let B ← Basis.new R.w R.M.value bits
    let negOne ← Fp.negOne R.M
    let s := sk.map (LweSwitch.convert negOne) ++ List.replicate (n - sk.length) Fp.zero
    let sn ← Poly.toNtt R.w R.M R.tbl s
    let basis ← Fp.new R.w R.M B.basis
    keyParts R B n sn basis ring ringNtt d
  else none

/-- fhe_core/src/key_switch/rlwe.rs 130, 134: `a[0] = -a[0]`, a panic on the empty slice. -/
def negHead (R : Ctx) : List Nat → Option (List Nat)
  | [] => none
  | x :: l => do
    let x ← Fp.neg R.M x
    return x :: l

/-- fhe_core/src/key_switch/rlwe.rs 130-131, 134-135: negate the head and reverse the tail. -/
def negHeadReverse (R : Ctx) (l : List Nat) : Option (List Nat) := do
  let l ← negHead R l
  RLWE.reverseTail l

/-- fhe_core/src/key_switch/rlwe.rs 156-157, 162-163: reverse and negate the tail. -/
def reverseNegTail (R : Ctx) (l : List Nat) : Option (List Nat) := do
  let l ← RLWE.reverseTail l
  let t ← (l.drop 1).mapM (Fp.neg R.M)
  return l.take 1 ++ t

/-- fhe_core/src/key_switch/rlwe.rs 181-189: the loop over key elements and mask chunks. -/
def loop (R : Ctx) : List NTTGadgetRLWE → List (List Nat) → NTTRLWE → Option NTTRLWE
  | g :: gs, p :: ps, x => do
    let x ← NTTRLWE.subGadgetMulFast R x g p
    loop R gs ps x
  | _, _, x => some x

/-- fhe_core/src/key_switch/rlwe.rs 172-192: `key_switch_inner`, with the initial value of
fhe_core/src/key_switch/rlwe.rs 124-127, 149-152 for the body `b`. -/
def inner (R : Ctx) (dim : Nat) (key : List NTTGadgetRLWE) (b : Nat) (ps : List (List Nat)) :
    Option LWE := do
  let n := nextPow2 dim
  let x ← loop R key ps ⟨Poly.zero n, List.replicate n b⟩
  let x ← NTTRLWE.toCoeff R x
  RLWE.extractPartial R x dim

/-- fhe_core/src/key_switch/rlwe.rs 129-138: the mask chunks of an RLWE ciphertext. -/
def rlweChunks (R : Ctx) (n : Nat) (a : List Nat) : Option (List (List Nat)) :=
  if a.length ≠ n then do
    let a ← negHeadReverse R a
    (chunks n a).mapM (negHeadReverse R)
  else some (chunks n a)

/-- fhe_core/src/key_switch/rlwe.rs 154-167: the mask chunks of an LWE ciphertext. -/
def lweChunks (R : Ctx) (n : Nat) (a : List Nat) : Option (List (List Nat)) :=
  if a.length ≠ n then (chunks n a).mapM (reverseNegTail R)
  else do
    let a ← reverseNegTail R a
    return chunks n a

/-- fhe_core/src/key_switch/rlwe.rs 121-143: `key_switch_for_rlwe`; `dim` is the LWE dimension stored in the
key. -/
def keySwitchRlwe (R : Ctx) (dim : Nat) (key : List NTTGadgetRLWE) (x : RLWE) : Option LWE := do
  let b ← x.b[0]?
  let ps ← rlweChunks R (nextPow2 dim) x.a
  inner R dim key b ps

/-- fhe_core/src/key_switch/rlwe.rs 146-170: `key_switch_for_lwe`. -/
def keySwitchLwe (R : Ctx) (dim : Nat) (key : List NTTGadgetRLWE) (c : LWE) : Option LWE := do
  let ps ← lweChunks R (nextPow2 dim) c.a
  inner R dim key c.b ps

end RlweSwitch
end Verif
