import Verif.Model.Aes
import Verif.Props.Block
import Mathlib.Tactic.FinCases
import Mathlib.Data.Fintype.Basic

/-! # C46 and C51: batch encryption, and AES-128 as in FIPS 197 -/

namespace Verif.Props
open Verif.Aes
open Spec.Aes (State Word)

/-- A block as a matrix of bytes: byte `r` of lane `c` is row `r`, column `c` (FIPS 197, 3.4). -/
def toState (b : Block) : State := fun r c => (b.get c.val).get r.val

/-- A lane as a word of the key schedule. -/
def toWord (v : V4 Byte) : Word := fun r => v.get r.val

theorem toState_inj {a b : Block} (h : toState a = toState b) : a = b := by
  obtain ⟨⟨a0, a1, a2, a3⟩, ⟨b0, b1, b2, b3⟩, ⟨c0, c1, c2, c3⟩, ⟨d0, d1, d2, d3⟩⟩ := a
  obtain ⟨⟨a0', a1', a2', a3'⟩, ⟨b0', b1', b2', b3'⟩, ⟨c0', c1', c2', c3'⟩, ⟨d0', d1', d2', d3'⟩⟩ := b
  have k := fun r c => congrFun (congrFun h r) c
  have := k 0 0; have := k 1 0; have := k 2 0; have := k 3 0
  have := k 0 1; have := k 1 1; have := k 2 1; have := k 3 1
  have := k 0 2; have := k 1 2; have := k 2 2; have := k 3 2
  have := k 0 3; have := k 1 3; have := k 2 3; have := k 3 3
  simp only [toState, V4.get] at *
  simp_all

/-! ## C46 -/

theorem foldl_map_comm {α κ : Type} (f : α → κ → α) : ∀ (ks : List κ) (xs : List α),
    ks.foldl (fun cs k => cs.map fun c => f c k) xs = xs.map fun x => ks.foldl f x
  | [], xs => by simp
  | k :: ks, xs => by
    simp only [List.foldl_cons]
    rw [foldl_map_comm f ks]
    simp [Function.comp_def]

/-- C46: encrypting an array of blocks encrypts every block, for every number of blocks and every
expanded key, on x86. -/
theorem C46_many_x86 (ks : RoundKeys) (blks : List Block) :
    encryptManyX86 ks blks = blks.map (encryptX86 ks) := by
  unfold encryptManyX86 encryptX86
  dsimp only
  rw [foldl_map_comm Simd.aesenc]
  simp [Function.comp_def]

/-- C46: the same on aarch64. -/
theorem C46_many_arm (ks : RoundKeys) (blks : List Block) :
    encryptManyArm ks blks = blks.map (encryptArm ks) := by
  unfold encryptManyArm encryptArm
  dsimp only
  rw [foldl_map_comm (fun ct key => Simd.vaesmc (Simd.vaese ct key))]
  simp [Function.comp_def]

theorem sliceLoop_spec (f : Block → Block) (many : List Block → List Block)
    (hm : ∀ l, many l = l.map f) : ∀ (n i : Nat) (blks : List Block), (i + n) * 8 ≤ blks.length →
    sliceLoop many n i blks =
      blks.take (i * 8) ++ ((blks.drop (i * 8)).take (n * 8)).map f ++ blks.drop ((i + n) * 8)
  | 0, i, blks, _ => by simp [sliceLoop]
  | n + 1, i, blks, h => by
    obtain ⟨p, mid, rest, hp, hmid, rfl⟩ : ∃ p mid rest, p.length = i * 8 ∧ mid.length = 8 ∧
        blks = p ++ (mid ++ rest) := by
      refine ⟨blks.take (i * 8), (blks.drop (i * 8)).take 8, (blks.drop (i * 8)).drop 8, ?_, ?_, ?_⟩
      · rw [List.length_take]; omega
      · rw [List.length_take, List.length_drop]; omega
      · rw [List.take_append_drop, List.take_append_drop]
    have e1 : ((p ++ (mid ++ rest)).drop (i * 8)).take 8 = mid := by
      rw [List.drop_left' hp, List.take_left' hmid]
    have e2 : splice (p ++ (mid ++ rest)) (mid.map f) (i * 8) = (p ++ mid.map f) ++ rest := by
      unfold splice
      rw [List.take_left' hp, List.length_map, ← List.append_assoc,
        List.drop_left' (by rw [List.length_append, hp])]
    unfold sliceLoop
    dsimp only
    rw [e1, hm, e2]
    have hlen : (p ++ (mid ++ rest)).length = (p ++ mid.map f ++ rest).length := by simp
    rw [sliceLoop_spec f many hm n (i + 1) _ (by rw [← hlen]; omega)]
    have hpm : (p ++ mid.map f).length = (i + 1) * 8 := by
      rw [List.length_append, List.length_map, hp, hmid]; ring
    have hpm' : (p ++ mid).length = (i + 1) * 8 := by
      rw [List.length_append, hp, hmid]; ring
    rw [List.take_left' hpm, List.drop_left' hpm, List.take_left' hp, List.drop_left' hp]
    have e3 : (mid ++ rest).take ((n + 1) * 8) = mid ++ rest.take (n * 8) := by
      rw [List.take_append, hmid, List.take_of_length_le (by omega)]
      congr 2; omega
    have e4 : (p ++ mid.map f ++ rest).drop ((i + 1 + n) * 8) = rest.drop (n * 8) := by
      rw [List.drop_append, List.drop_of_length_le (by rw [hpm]; omega), hpm, List.nil_append]
      congr 1; omega
    have e5 : (p ++ (mid ++ rest)).drop ((i + (n + 1)) * 8) = rest.drop (n * 8) := by
      rw [← List.append_assoc, List.drop_append, List.drop_of_length_le (by rw [hpm']; omega), hpm',
        List.nil_append]
      congr 1; omega
    rw [e3, e4, e5]
    simp

/-- The slice encryption applies any array encryption that works blockwise to every block. -/
theorem encryptSlice_spec (f : Block → Block) (many : List Block → List Block)
    (hm : ∀ l, many l = l.map f) (blks : List Block) :
    encryptSlice many blks = blks.map f := by
  unfold encryptSlice
  dsimp only
  rw [sliceLoop_spec f many hm _ 0 blks (by have := Nat.div_mul_le_self blks.length 8; omega)]
  obtain ⟨p, rest, hp, hr, rfl⟩ : ∃ p rest, p.length = blks.length / 8 * 8 ∧
      rest.length = blks.length % 8 ∧ blks = p ++ rest := by
    refine ⟨blks.take (blks.length / 8 * 8), blks.drop (blks.length / 8 * 8), ?_, ?_, ?_⟩
    · rw [List.length_take]; omega
    · rw [List.length_drop]; omega
    · rw [List.take_append_drop]
  rw [← hr]
  have e0 : (p ++ rest).length / 8 * 8 = p.length := hp.symm
  have e1 : (p ++ rest).length - rest.length = p.length := by simp
  rw [zero_add, Nat.zero_mul, List.take_zero, List.nil_append, List.drop_zero, e0, e1,
    List.take_left' rfl, List.drop_left' rfl]
  split
  · unfold splice
    rw [List.drop_left' (by simp), hm, List.take_left' (by simp),
      List.drop_of_length_le (by simp)]
    simp
  · next h =>
    have : rest = [] := List.length_eq_zero_iff.1 (by omega)
    subst this
    simp

/-- C46: encrypting a slice of any length gives the per-block encryptions in order, on both
architectures. -/
theorem C46_slice (ks : RoundKeys) (blks : List Block) :
    encryptSlice (encryptManyX86 ks) blks = blks.map (encryptX86 ks) ∧
    encryptSlice (encryptManyArm ks) blks = blks.map (encryptArm ks) :=
  ⟨encryptSlice_spec _ _ (C46_many_x86 ks) blks, encryptSlice_spec _ _ (C46_many_arm ks) blks⟩

/-! ## C51 -/

theorem mul_two : ∀ b : Byte, Spec.Aes.mul 2 b = Simd.xtime b := by decide +kernel
theorem mul_three : ∀ b : Byte, Spec.Aes.mul 3 b = Simd.xtime b ^^^ b := by decide +kernel

/-- The table of the repository is the S-box of the standard. -/
theorem C51_sbox_table : ∀ b : Byte, Neon.sbox b = Spec.Aes.sbox b := by decide +kernel

theorem toState_xor (a b : Block) : toState (Block.xor a b) = fun r c => toState a r c ^^^ toState b r c := by
  funext r c
  fin_cases r <;> fin_cases c <;> rfl

theorem toState_shiftRows (a : Block) : toState (Simd.shiftRows a) = Spec.Aes.shiftRows (toState a) := by
  funext r c
  fin_cases r <;> fin_cases c <;> rfl

theorem toState_sub (a : Block) : toState (a.map Simd.subLane) = Spec.Aes.subBytes (toState a) := by
  funext r c
  fin_cases r <;> fin_cases c <;> rfl

theorem toState_mix (a : Block) : toState (a.map Simd.mixLane) = Spec.Aes.mixColumns (toState a) := by
  funext r c
  unfold Spec.Aes.mixColumns
  rw [mul_two, mul_three]
  fin_cases r <;> fin_cases c <;> rfl

theorem shift_sub_comm (s : State) :
    Spec.Aes.subBytes (Spec.Aes.shiftRows s) = Spec.Aes.shiftRows (Spec.Aes.subBytes s) := rfl

theorem sub_shift_model (a : Block) :
    (Simd.shiftRows a).map Simd.subLane = Simd.shiftRows (a.map Simd.subLane) := rfl

/-- The lanes of block `b` are the four words `w (4 j), ..., w (4 j + 3)`. -/
def IsRoundKey (w : Nat → Word) (j : Nat) (b : Block) : Prop :=
  toWord b.x0 = w (4 * j) ∧ toWord b.x1 = w (4 * j + 1) ∧ toWord b.x2 = w (4 * j + 2) ∧
    toWord b.x3 = w (4 * j + 3)

theorem addRoundKey_eq {w : Nat → Word} {j : Nat} {k : Block} (h : IsRoundKey w j k) (a : Block) :
    toState (Block.xor a k) = Spec.Aes.addRoundKey w j (toState a) := by
  rw [toState_xor]
  obtain ⟨h0, h1, h2, h3⟩ := h
  funext r c
  unfold Spec.Aes.addRoundKey
  congr 1
  fin_cases c
  · exact congrFun h0 r
  · exact congrFun h1 r
  · exact congrFun h2 r
  · exact congrFun h3 r

theorem keyWord_first (key : State) (c : Fin 4) : Spec.Aes.keyWord key c.val = fun r => key r c := by
  rw [Spec.Aes.keyWord, dif_pos c.isLt]

theorem keyWord_zero (key : State) (j : Nat) : Spec.Aes.keyWord key (4 * (j + 1)) =
    fun i => Spec.Aes.keyWord key (4 * j) i ^^^
      Spec.Aes.subWord (Spec.Aes.rotWord (Spec.Aes.keyWord key (4 * j + 3))) i ^^^
      Spec.Aes.rcon (j + 1) i := by
  rw [Spec.Aes.keyWord, dif_neg (by omega), if_pos (by omega)]
  rw [show 4 * (j + 1) - 4 = 4 * j by omega, show 4 * (j + 1) - 1 = 4 * j + 3 by omega,
    show 4 * (j + 1) / 4 = j + 1 by omega]

theorem keyWord_succ (key : State) (j c : Nat) (hc : c < 3) :
    Spec.Aes.keyWord key (4 * (j + 1) + (c + 1)) =
    fun i => Spec.Aes.keyWord key (4 * j + (c + 1)) i ^^^
      Spec.Aes.keyWord key (4 * (j + 1) + c) i := by
  rw [Spec.Aes.keyWord, dif_neg (by omega), if_neg (by omega)]
  rw [show 4 * (j + 1) + (c + 1) - 4 = 4 * j + (c + 1) by omega,
    show 4 * (j + 1) + (c + 1) - 1 = 4 * (j + 1) + c by omega]

theorem toWord_xor (a b : V4 Byte) : toWord (V4.zip (· ^^^ ·) a b) = fun i => toWord a i ^^^ toWord b i := by
  funext i
  fin_cases i <;> rfl

theorem toWord_assist (a : V4 Byte) (rc : Byte) (j : Nat) (hrc : Spec.Aes.pow 2 (j - 1) = rc) :
    toWord (Simd.xorLow (Simd.rotLane (Simd.subLane a)) rc) =
    fun i => Spec.Aes.subWord (Spec.Aes.rotWord (toWord a)) i ^^^ Spec.Aes.rcon j i := by
  funext i
  fin_cases i
  · simp only [Spec.Aes.rcon, hrc]; rfl
  · exact (BitVec.xor_zero).symm
  · exact (BitVec.xor_zero).symm
  · exact (BitVec.xor_zero).symm

/-- The lanes after one expansion. -/
theorem expandX86_lanes (v1 v3 : Block) (h3 : v3.x0 = ⟨0, 0, 0, 0⟩) (rc : Byte) :
    ∃ k : V4 Byte, k = Simd.xorLow (Simd.rotLane (Simd.subLane v1.x3)) rc ∧
    let X := fun a b : V4 Byte => V4.zip (· ^^^ ·) a b
    (expandX86 v1 v3 255 rc).2.x0 = ⟨0, 0, 0, 0⟩ ∧
    (expandX86 v1 v3 255 rc).1.x0 = X v1.x0 k ∧
    (expandX86 v1 v3 255 rc).1.x1 = X v1.x1 (X v1.x0 k) ∧
    (expandX86 v1 v3 255 rc).1.x2 = X v1.x2 (X v1.x1 (X v1.x0 k)) ∧
    (expandX86 v1 v3 255 rc).1.x3 = X v1.x3 (X v1.x2 (X v1.x1 (X v1.x0 k))) := by
  refine ⟨_, rfl, ?_⟩
  obtain ⟨k, hk⟩ : ∃ k, k = Simd.xorLow (Simd.rotLane (Simd.subLane v1.x3)) rc := ⟨_, rfl⟩
  rw [← hk]
  have he : ∀ P : Block × Block, P = expandX86 v1 v3 255 rc →
      P = (let v3' := Simd.shufflePs v3 v1 16
        let v1' := Block.xor v1 v3'
        let v3'' := Simd.shufflePs v3' v1' 140
        (Block.xor (Block.xor v1' v3'') ⟨k, k, k, k⟩, v3'')) := by
    rintro P rfl
    rw [hk]; rfl
  rw [he _ rfl]
  obtain ⟨⟨a0, a1, a2, a3⟩, ⟨b0, b1, b2, b3⟩, ⟨c0, c1, c2, c3⟩, ⟨d0, d1, d2, d3⟩⟩ := v1
  obtain ⟨w0, w1, w2, w3⟩ := v3
  obtain ⟨k0, k1, k2, k3⟩ := k
  dsimp only at h3
  subst h3
  clear he hk
  simp only [Simd.shufflePs, Block.xor, V4.zip, V4.get, V4.mk.injEq]
  norm_num
  repeat' apply And.intro
  all_goals ac_rfl

theorem expandX86_step {key : State} {v1 v3 : Block} {j : Nat}
    (h : IsRoundKey (Spec.Aes.keyWord key) j v1) (h3 : v3.x0 = ⟨0, 0, 0, 0⟩) {rc : Byte}
    (hrc : Spec.Aes.pow 2 j = rc) :
    IsRoundKey (Spec.Aes.keyWord key) (j + 1) (expandX86 v1 v3 255 rc).1 ∧
      (expandX86 v1 v3 255 rc).2.x0 = ⟨0, 0, 0, 0⟩ := by
  obtain ⟨k, hk, e, e0, e1, e2, e3⟩ := expandX86_lanes v1 v3 h3 rc
  obtain ⟨h0, h1, h2, h3'⟩ := h
  have hk' : toWord k = fun i =>
      Spec.Aes.subWord (Spec.Aes.rotWord (Spec.Aes.keyWord key (4 * j + 3))) i ^^^
        Spec.Aes.rcon (j + 1) i := by
    rw [hk, toWord_assist _ rc (j + 1) hrc, h3']
  have w0 : toWord (expandX86 v1 v3 255 rc).1.x0 = Spec.Aes.keyWord key (4 * (j + 1)) := by
    rw [e0, toWord_xor, hk', h0, keyWord_zero]
    funext i
    exact (BitVec.xor_assoc _ _ _).symm
  have w1 : toWord (expandX86 v1 v3 255 rc).1.x1 = Spec.Aes.keyWord key (4 * (j + 1) + 1) := by
    rw [e1, ← e0, toWord_xor, h1, w0]
    exact (keyWord_succ key j 0 (by decide)).symm
  have w2 : toWord (expandX86 v1 v3 255 rc).1.x2 = Spec.Aes.keyWord key (4 * (j + 1) + 2) := by
    rw [e2, ← e1, toWord_xor, h2, w1]
    exact (keyWord_succ key j 1 (by decide)).symm
  have w3 : toWord (expandX86 v1 v3 255 rc).1.x3 = Spec.Aes.keyWord key (4 * (j + 1) + 3) := by
    rw [e3, ← e2, toWord_xor, h3', w2]
    exact (keyWord_succ key j 2 (by decide)).symm
  exact ⟨⟨w0, w1, w2, w3⟩, e⟩

theorem expandAll_spec {key : State} : ∀ (rcs : List Byte) (j : Nat) (v1 v3 : Block),
    IsRoundKey (Spec.Aes.keyWord key) j v1 → v3.x0 = ⟨0, 0, 0, 0⟩ →
    (∀ i (hi : i < rcs.length), Spec.Aes.pow 2 (j + i) = rcs[i]) →
    (expandAll expandX86 v1 v3 rcs).length = rcs.length ∧
    ∀ i < rcs.length, IsRoundKey (Spec.Aes.keyWord key) (j + 1 + i)
      ((expandAll expandX86 v1 v3 rcs).getD i Block.zero)
  | [], _, _, _, _, _, _ => ⟨rfl, by simp⟩
  | rc :: rcs, j, v1, v3, h, h3, hrc => by
    obtain ⟨hs, hz⟩ := expandX86_step h h3 (show Spec.Aes.pow 2 j = rc from hrc 0 (by simp))
    obtain ⟨hl, ih⟩ := expandAll_spec rcs (j + 1) _ _ hs hz (fun i hi => by
      have := hrc (i + 1) (by simpa using hi)
      rw [show j + (i + 1) = j + 1 + i by omega] at this
      simpa using this)
    refine ⟨by simp [expandAll, hl], fun i hi => ?_⟩
    cases i with
    | zero => exact hs
    | succ i =>
      have := ih i (by simpa using hi)
      rw [show j + 1 + (i + 1) = j + 1 + 1 + i by omega]
      exact this

/-- C51: the expanded key consists of the forty-four words of the key schedule of the standard, for
every key. -/
theorem C51_key_schedule (key : Block) :
    (newX86 key).length = 11 ∧
    ∀ j < 11, IsRoundKey (Spec.Aes.keyWord (toState key)) j ((newX86 key).getD j Block.zero) := by
  have h0 : IsRoundKey (Spec.Aes.keyWord (toState key)) 0 key := by
    have k := keyWord_first (toState key)
    exact ⟨(k 0).symm, (k 1).symm, (k 2).symm, (k 3).symm⟩
  have hrc : ∀ i (hi : i < rcons.length), Spec.Aes.pow 2 (0 + i) = rcons[i] := by decide +kernel
  obtain ⟨hl, h⟩ := expandAll_spec rcons 0 key Block.zero h0 rfl hrc
  refine ⟨by rw [newX86, List.length_cons, hl]; rfl, fun j hj => ?_⟩
  cases j with
  | zero => exact h0
  | succ j =>
    have := h j (by show j < 10; omega)
    rw [show 0 + 1 + j = j + 1 by omega] at this
    exact this

theorem foldl_aesenc {w : Nat → Word} : ∀ (ks : List Block) (n : Nat) (s : State) (a : Block),
    toState a = Spec.Aes.rounds w n s →
    (∀ i < ks.length, IsRoundKey w (n + 1 + i) (ks.getD i Block.zero)) →
    toState (ks.foldl Simd.aesenc a) = Spec.Aes.rounds w (n + ks.length) s
  | [], n, s, a, h, _ => h
  | k :: ks, n, s, a, h, hk => by
    rw [List.foldl_cons]
    have := foldl_aesenc (w := w) ks (n + 1) s (Simd.aesenc a k) (by
      unfold Simd.aesenc
      rw [addRoundKey_eq (show IsRoundKey w (n + 1) k from hk 0 (by simp)), toState_mix, toState_sub, toState_shiftRows, h,
        shift_sub_comm]
      rfl) (fun i hi => by
      have := hk (i + 1) (by simpa using hi)
      rw [show n + 1 + (i + 1) = n + 1 + 1 + i by omega] at this
      exact this)
    rw [this, List.length_cons]
    congr 1
    omega

/-- C51: on x86, encrypting a block under a key is the AES-128 cipher of FIPS 197, for every key and
every block. -/
theorem C51_fips197 (key blk : Block) :
    toState (encryptX86 (newX86 key) blk) = Spec.Aes.cipher (toState key) (toState blk) := by
  obtain ⟨hl, hk⟩ := C51_key_schedule key
  unfold encryptX86
  dsimp only
  have hlen : (((newX86 key).drop 1).take 9).length = 9 := by
    rw [List.length_take, List.length_drop, hl]; rfl
  have hmid : ∀ i < (((newX86 key).drop 1).take 9).length,
      IsRoundKey (Spec.Aes.keyWord (toState key)) (0 + 1 + i)
        ((((newX86 key).drop 1).take 9).getD i Block.zero) := by
    intro i hi
    rw [hlen] at hi
    have := hk (1 + i) (by omega)
    rw [Nat.zero_add]
    rw [List.getD_eq_getElem?_getD] at this ⊢
    rw [List.getElem?_take_of_lt hi, List.getElem?_drop]
    exact this
  have h1 := foldl_aesenc (((newX86 key).drop 1).take 9) 0
    (Spec.Aes.addRoundKey (Spec.Aes.keyWord (toState key)) 0 (toState blk))
    (Block.xor blk ((newX86 key).getD 0 Block.zero)) (addRoundKey_eq (hk 0 (by decide)) blk) hmid
  rw [hlen] at h1
  unfold Simd.aesenclast
  rw [addRoundKey_eq (hk 10 (by decide)), toState_sub, toState_shiftRows, h1, shift_sub_comm]
  rfl

/-! ### The aarch64 code agrees -/

theorem neon_shuffleEpi32 (a : Block) (imm : Nat) :
    Neon.shuffleEpi32 a imm = Simd.shuffleEpi32 a imm := by
  have key : ∀ (v : Block) (i : Nat), v.get (i &&& 3) = v.get i := by
    intro v i
    have : i &&& 3 = i % 4 := Nat.and_two_pow_sub_one_eq_mod i 2
    rw [this]
    unfold V4.get
    rw [Nat.mod_mod]
  simp only [Neon.shuffleEpi32, Simd.shuffleEpi32, key, Nat.shiftRight_eq_div_pow]

theorem neon_shufflePs (a b : Block) (imm : Nat) :
    Neon.shufflePs a b imm = Simd.shufflePs a b imm := by
  have key : ∀ (v : Block) (i : Nat), v.get (i &&& 3) = v.get i := by
    intro v i
    have : i &&& 3 = i % 4 := Nat.and_two_pow_sub_one_eq_mod i 2
    rw [this]
    unfold V4.get
    rw [Nat.mod_mod]
  simp only [Neon.shufflePs, Simd.shufflePs, key, Nat.shiftRight_eq_div_pow]

theorem ofU32_toU32 (v : V4 Byte) : Neon.ofU32 (Neon.toU32 v) = v := by
  obtain ⟨a, b, c, d⟩ := v
  have key : ∀ (x : BitVec 32) (y : BitVec 8) (k : Nat),
      (∀ i < 8, x.getLsbD (k + i) = y.getLsbD i) → x.extractLsb' k 8 = y := by
    intro x y k h
    apply BitVec.eq_of_getLsbD_eq
    intro i hi
    rw [BitVec.getLsbD_extractLsb', h i hi]
    simp [hi]
  simp only [Neon.ofU32, Neon.toU32, V4.mk.injEq]
  refine ⟨key _ _ _ fun i hi => ?_, key _ _ _ fun i hi => ?_, key _ _ _ fun i hi => ?_,
    key _ _ _ fun i hi => ?_⟩
  · rw [BitVec.getLsbD_append, if_pos (by omega), Nat.zero_add]
  · rw [BitVec.getLsbD_append, if_neg (by omega), BitVec.getLsbD_append, if_pos (by omega)]
    congr 1; omega
  · rw [BitVec.getLsbD_append, if_neg (by omega), BitVec.getLsbD_append, if_neg (by omega),
      BitVec.getLsbD_append, if_pos (by omega)]
    congr 1; omega
  · rw [BitVec.getLsbD_append, if_neg (by omega), BitVec.getLsbD_append, if_neg (by omega),
      BitVec.getLsbD_append, if_neg (by omega)]
    congr 1; omega

theorem toU32_ofU32 (x : BitVec 32) : Neon.toU32 (Neon.ofU32 x) = x := by
  apply BitVec.eq_of_getLsbD_eq
  intro i hi
  simp only [Neon.toU32, Neon.ofU32, BitVec.getLsbD_append, BitVec.getLsbD_extractLsb']
  split
  · simp; omega
  · split
    · rw [show 8 + (i - 8) = i by omega]; simp; omega
    · split
      · rw [show 16 + (i - 8 - 8) = i by omega]; simp; omega
      · rw [show 24 + (i - 8 - 8 - 8) = i by omega]; simp; omega

theorem toU32_byte (v : V4 Byte) (k i : Nat) (hk : k < 4) (hi : i < 8) :
    (Neon.toU32 v).getLsbD (8 * k + i) = (v.get k).getLsbD i := by
  have h := congrArg (fun u : V4 Byte => (u.get k).getLsbD i) (ofU32_toU32 v)
  rw [← h]
  have key : ∀ j, ((Neon.toU32 v).extractLsb' j 8).getLsbD i = (Neon.toU32 v).getLsbD (j + i) := by
    intro j
    rw [BitVec.getLsbD_extractLsb']
    simp [hi]
  interval_cases k
  · exact (key 0).symm
  · exact (key 8).symm
  · exact (key 16).symm
  · exact (key 24).symm

theorem rotXor_eq (v : V4 Byte) (rc : Byte) :
    Neon.ofU32 (Neon.rotXor (Neon.toU32 v) rc) = Simd.xorLow (Simd.rotLane v) rc := by
  rw [← ofU32_toU32 (Simd.xorLow (Simd.rotLane v) rc)]
  congr 1
  apply BitVec.eq_of_getLsbD_eq
  intro j hj
  obtain ⟨k, i, hk, hi, rfl⟩ : ∃ k i, k < 4 ∧ i < 8 ∧ j = 8 * k + i :=
    ⟨j / 8, j % 8, by omega, by omega, by omega⟩
  rw [toU32_byte _ k i hk hi]
  simp only [Neon.rotXor, BitVec.getLsbD_xor, BitVec.getLsbD_or, BitVec.getLsbD_rotateRight,
    BitVec.getLsbD_shiftLeft, BitVec.getLsbD_setWidth, Bool.cond_decide]
  by_cases h3 : k = 3
  · subst h3
    rw [if_neg (by omega), show 8 * 3 + i - (32 - 8 % 32) = 8 * 0 + i by omega,
      toU32_byte v 0 i (by decide) hi,
      BitVec.getLsbD_of_ge rc _ (by omega)]
    simp only [hj, decide_true, Bool.true_and, Bool.and_false, Bool.xor_false]
    rw [show decide (8 * 3 + i < 24) = false by simp]
    simp [V4.get, Simd.xorLow, Simd.rotLane]
  · rw [if_pos (by omega), show 8 % 32 + (8 * k + i) = 8 * (k + 1) + i by omega,
      toU32_byte v (k + 1) i (by omega) hi]
    simp only [hj, decide_true, Bool.true_and]
    rw [show decide (8 * k + i < 24) = true by simp; omega]
    have : k = 0 ∨ k = 1 ∨ k = 2 := by omega
    rcases this with rfl | rfl | rfl
    · simp [V4.get, Simd.xorLow, Simd.rotLane]
    · rw [BitVec.getLsbD_of_ge rc _ (by omega)]
      simp [V4.get, Simd.xorLow, Simd.rotLane]
    · rw [BitVec.getLsbD_of_ge rc _ (by omega)]
      simp [V4.get, Simd.xorLow, Simd.rotLane]

theorem neon_keyGenAssist (key : Block) (rc : Byte) :
    Neon.keyGenAssist key rc = Simd.keyGenAssist key rc := by
  have hs : ∀ v : V4 Byte, v.map Neon.sbox = Simd.subLane v := by
    intro v
    simp only [Simd.subLane, V4.map, C51_sbox_table]
  unfold Neon.keyGenAssist Simd.keyGenAssist
  dsimp only
  rw [ofU32_toU32, ofU32_toU32, rotXor_eq, rotXor_eq, hs, hs, neon_shuffleEpi32, neon_shuffleEpi32]
  rfl

theorem expandArm_eq : expandArm = expandX86 := by
  funext v1 v3 sc ac
  unfold expandArm expandX86
  rw [neon_keyGenAssist]
  simp only [neon_shufflePs, neon_shuffleEpi32]

/-- C51: the aarch64 key expansion, which emulates the x86 instructions, gives the same round keys. -/
theorem C51_arm_key (key : Block) : newArm key = newX86 key := by
  unfold newArm newX86
  rw [expandArm_eq]

theorem xor_zip_comm (a b : Block) : Block.xor a b = Block.xor b a := by
  simp only [Block.xor, V4.zip, BitVec.xor_comm]

/-- C51: for every expanded key of eleven round keys the aarch64 cipher, whose instructions add the key
before instead of after each round, gives the same block. -/
theorem C51_arm_cipher (ks : RoundKeys) (hk : ks.length = 11) (blk : Block) :
    encryptArm ks blk = encryptX86 ks blk := by
  match ks, hk with
  | [k0, k1, k2, k3, k4, k5, k6, k7, k8, k9, k10], _ =>
    have h1 : ∀ a k, Simd.aesenc a k =
        Block.xor ((Simd.shiftRows (a.map Simd.subLane)).map Simd.mixLane) k := fun _ _ => rfl
    have h2 : ∀ a k, Simd.aesenclast a k =
        Block.xor (Simd.shiftRows (a.map Simd.subLane)) k := fun _ _ => rfl
    have h3 : ∀ a, Simd.vaesmc a = a.map Simd.mixLane := fun _ => rfl
    have h4 : ∀ a k, Simd.vaese a k = Simd.shiftRows ((Block.xor a k).map Simd.subLane) :=
      fun _ _ => rfl
    show Block.xor (Simd.vaese ([k0, k1, k2, k3, k4, k5, k6, k7, k8].foldl
        (fun c k => Simd.vaesmc (Simd.vaese c k)) blk) k9) k10 =
      Simd.aesenclast ([k1, k2, k3, k4, k5, k6, k7, k8, k9].foldl Simd.aesenc (Block.xor blk k0)) k10
    simp only [List.foldl, h1, h2, h3, h4]

/-- C51: on aarch64 too, encrypting a block is AES-128. -/
theorem C51_fips197_arm (key blk : Block) :
    toState (encryptArm (newArm key) blk) = Spec.Aes.cipher (toState key) (toState blk) := by
  rw [C51_arm_key, C51_arm_cipher _ (C51_key_schedule key).1, C51_fips197]

/-! ### Encryption is injective -/

theorem sbox_injective : Function.Injective Spec.Aes.sbox := by
  have key : ∀ a b : Byte, Spec.Aes.sbox a = Spec.Aes.sbox b → a = b := by
    have hinv : ∃ g : Byte → Byte, ∀ a : Byte, g (Spec.Aes.sbox a) = a := by
      refine ⟨fun b => BitVec.ofNat 8 (Neon.sboxTable.idxOf b.toNat), ?_⟩
      decide +kernel
    obtain ⟨g, hg⟩ := hinv
    intro a b e
    rw [← hg a, e, hg]
  exact fun a b => key a b

theorem xor_right_inj {a b k : Byte} (h : a ^^^ k = b ^^^ k) : a = b := by
  have := congrArg (· ^^^ k) h
  simpa [BitVec.xor_assoc] using this

theorem xtime_xor (a b : Byte) : Simd.xtime (a ^^^ b) = Simd.xtime a ^^^ Simd.xtime b := by
  unfold Simd.xtime
  rw [BitVec.shiftLeft_xor_distrib, BitVec.msb_xor]
  have h : ∀ x y z : Byte, x ^^^ z ^^^ (y ^^^ z) = x ^^^ y := by
    intro x y z
    rw [BitVec.xor_comm y z, ← BitVec.xor_assoc, BitVec.xor_assoc x z z, BitVec.xor_self,
      BitVec.xor_zero]
  cases a.msb <;> cases b.msb
  · simp
  · simp; ac_rfl
  · simp; ac_rfl
  · simp only [Bool.xor_self, if_true, h]; simp

theorem xor_cancel_left (a b : Byte) : a ^^^ (a ^^^ b) = b := by
  rw [← BitVec.xor_assoc, BitVec.xor_self, BitVec.zero_xor]

theorem xor_left_comm' (a b c : Byte) : a ^^^ (b ^^^ c) = b ^^^ (a ^^^ c) := by
  rw [← BitVec.xor_assoc, BitVec.xor_comm a b, BitVec.xor_assoc]

/-- Mixing twice. -/
theorem mixLane_two (v : V4 Byte) :
    Simd.mixLane (Simd.mixLane v) =
      let q := fun b => Simd.xtime (Simd.xtime b)
      ⟨q v.x0 ^^^ v.x0 ^^^ q v.x2, q v.x1 ^^^ v.x1 ^^^ q v.x3, q v.x2 ^^^ v.x2 ^^^ q v.x0,
        q v.x3 ^^^ v.x3 ^^^ q v.x1⟩ := by
  obtain ⟨a, b, c, d⟩ := v
  simp only [Simd.mixLane, xtime_xor, V4.mk.injEq]
  refine ⟨?_, ?_, ?_, ?_⟩
  all_goals
    simp only [BitVec.xor_comm, xor_left_comm', BitVec.xor_assoc, xor_cancel_left,
      BitVec.xor_self, BitVec.xor_zero, BitVec.zero_xor]

/-- Column mixing has order four. -/
theorem mixLane_four (v : V4 Byte) :
    Simd.mixLane (Simd.mixLane (Simd.mixLane (Simd.mixLane v))) = v := by
  obtain ⟨a, b, c, d⟩ := v
  rw [mixLane_two, mixLane_two]
  simp only [xtime_xor, V4.mk.injEq]
  refine ⟨?_, ?_, ?_, ?_⟩
  all_goals
    simp only [BitVec.xor_comm, xor_left_comm', BitVec.xor_assoc, xor_cancel_left,
      BitVec.xor_self, BitVec.xor_zero, BitVec.zero_xor]

theorem block_map_inj {f : V4 Byte → V4 Byte} (hf : Function.Injective f) {a b : Block}
    (h : a.map f = b.map f) : a = b := by
  obtain ⟨a0, a1, a2, a3⟩ := a
  obtain ⟨b0, b1, b2, b3⟩ := b
  simp only [V4.map, V4.mk.injEq] at h ⊢
  exact ⟨hf h.1, hf h.2.1, hf h.2.2.1, hf h.2.2.2⟩

theorem subLane_inj : Function.Injective Simd.subLane := by
  rintro ⟨a, b, c, d⟩ ⟨a', b', c', d'⟩ h
  simp only [Simd.subLane, V4.map, V4.mk.injEq] at h ⊢
  exact ⟨sbox_injective h.1, sbox_injective h.2.1, sbox_injective h.2.2.1, sbox_injective h.2.2.2⟩

theorem mixLane_inj : Function.Injective Simd.mixLane := by
  intro u v h
  rw [← mixLane_four u, h, mixLane_four]

theorem shiftRows_inj {a b : Block} (h : Simd.shiftRows a = Simd.shiftRows b) : a = b := by
  obtain ⟨⟨a0, a1, a2, a3⟩, ⟨b0, b1, b2, b3⟩, ⟨c0, c1, c2, c3⟩, ⟨d0, d1, d2, d3⟩⟩ := a
  obtain ⟨⟨a0', a1', a2', a3'⟩, ⟨b0', b1', b2', b3'⟩, ⟨c0', c1', c2', c3'⟩, ⟨d0', d1', d2', d3'⟩⟩ := b
  simp only [Simd.shiftRows, V4.mk.injEq] at h ⊢
  simp [h]

theorem xor_inj {a b k : Block} (h : Block.xor a k = Block.xor b k) : a = b := by
  obtain ⟨⟨a0, a1, a2, a3⟩, ⟨b0, b1, b2, b3⟩, ⟨c0, c1, c2, c3⟩, ⟨d0, d1, d2, d3⟩⟩ := a
  obtain ⟨⟨a0', a1', a2', a3'⟩, ⟨b0', b1', b2', b3'⟩, ⟨c0', c1', c2', c3'⟩, ⟨d0', d1', d2', d3'⟩⟩ := b
  obtain ⟨⟨k0, k1, k2, k3⟩, ⟨l0, l1, l2, l3⟩, ⟨m0, m1, m2, m3⟩, ⟨n0, n1, n2, n3⟩⟩ := k
  simp only [Block.xor, V4.zip, V4.mk.injEq] at h ⊢
  obtain ⟨⟨h0, h1, h2, h3⟩, ⟨h4, h5, h6, h7⟩, ⟨h8, h9, h10, h11⟩, h12, h13, h14, h15⟩ := h
  exact ⟨⟨xor_right_inj h0, xor_right_inj h1, xor_right_inj h2, xor_right_inj h3⟩,
    ⟨xor_right_inj h4, xor_right_inj h5, xor_right_inj h6, xor_right_inj h7⟩,
    ⟨xor_right_inj h8, xor_right_inj h9, xor_right_inj h10, xor_right_inj h11⟩,
    xor_right_inj h12, xor_right_inj h13, xor_right_inj h14, xor_right_inj h15⟩

/-- C51: under any expanded key different blocks have different ciphertexts, on both
architectures. -/
theorem C51_injective (ks : RoundKeys) : Function.Injective (encryptX86 ks) ∧
    (ks.length = 11 → Function.Injective (encryptArm ks)) := by
  have hx : Function.Injective (encryptX86 ks) := by
    intro a b h
    unfold encryptX86 at h
    dsimp only at h
    have hfold : ∀ (l : List Block) (x y : Block),
        l.foldl Simd.aesenc x = l.foldl Simd.aesenc y → x = y := by
      intro l
      induction l with
      | nil => exact fun x y h => h
      | cons k l ih =>
        intro x y h
        have := ih _ _ h
        exact shiftRows_inj (block_map_inj subLane_inj (block_map_inj mixLane_inj (xor_inj this)))
    exact xor_inj (hfold _ _ _ (shiftRows_inj (block_map_inj subLane_inj (xor_inj h))))
  refine ⟨hx, fun hl a b h => ?_⟩
  rw [C51_arm_cipher ks hl, C51_arm_cipher ks hl] at h
  exact hx h

/-! ## Concrete cases -/

/-- FIPS 197, appendix B, through the code of both architectures. -/
example : ∃ key blk, Block.ofU128 0x3c4fcf098815f7aba6d2ae2816157e2b = some key ∧
    Block.ofU128 0x340737e0a29831318d305a88a8f64332 = some blk ∧
    Block.toU128 (encryptX86 (newX86 key) blk) = 0x320b6a19978511dcfb09dc021d842539 ∧
    Block.toU128 (encryptArm (newArm key) blk) = 0x320b6a19978511dcfb09dc021d842539 := by
  refine ⟨_, _, rfl, rfl, ?_, ?_⟩ <;> decide +kernel

/-- A slice of ten blocks is split into a group of eight and a remainder of two. -/
example : encryptSlice (encryptManyX86 (newX86 Block.zero)) (List.replicate 10 Block.zero) =
    List.replicate 10 (encryptX86 (newX86 Block.zero) Block.zero) := by
  rw [(C46_slice _ _).1, List.map_replicate]

end Verif.Props
