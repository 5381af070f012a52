import Verif.Model.Block
import Mathlib.Tactic.Ring
import Mathlib.Tactic.Linarith
import Mathlib.Tactic.IntervalCases

/-! # C48: conversions and operations of 128-bit blocks -/

namespace Verif.Props
open Verif.Block

theorem leValue_lt : ∀ l : List Byte, leValue l < 256 ^ l.length
  | [] => by simp [leValue]
  | b :: bs => by
    have h1 := leValue_lt bs
    have h2 := b.isLt
    simp only [leValue, List.length_cons, pow_succ]
    omega

theorem leValue_append : ∀ l r : List Byte,
    leValue (l ++ r) = leValue l + 256 ^ l.length * leValue r
  | [], r => by simp [leValue]
  | b :: bs, r => by
    simp only [List.cons_append, leValue, leValue_append bs r, List.length_cons, pow_succ]
    ring

theorem leBytes_length : ∀ k x, (leBytes k x).length = k
  | 0, _ => rfl
  | k + 1, x => by simp [leBytes, leBytes_length k]

theorem leBytes_leValue : ∀ l : List Byte, leBytes l.length (leValue l) = l
  | [] => rfl
  | b :: bs => by
    have hb := b.isLt
    have e1 : (b.toNat + 256 * leValue bs) / 256 = leValue bs := by omega
    have e2 : BitVec.ofNat 8 (b.toNat + 256 * leValue bs) = b := by
      apply BitVec.eq_of_toNat_eq
      rw [BitVec.toNat_ofNat]
      omega
    simp only [leValue, List.length_cons, leBytes, e1, e2, leBytes_leValue bs]

theorem leValue_leBytes : ∀ k x, leValue (leBytes k x) = x % 256 ^ k
  | 0, x => by simp [leBytes, leValue, Nat.mod_one]
  | k + 1, x => by
    simp only [leBytes, leValue, leValue_leBytes k, BitVec.toNat_ofNat]
    rw [pow_succ 256 k, mul_comm (256 ^ k) 256, Nat.mod_mul]

theorem toBytes_length (b : Block) : (toBytes b).length = 16 := rfl

theorem ofBytes_toBytes (b : Block) : ofBytes (toBytes b) = some b := rfl

theorem ofBytes_of_length {l : List Byte} (h : l.length = 16) :
    ∃ b, ofBytes l = some b ∧ toBytes b = l := by
  match l, h with
  | [a0, a1, a2, a3, b0, b1, b2, b3, c0, c1, c2, c3, d0, d1, d2, d3], _ => exact ⟨_, rfl, rfl⟩

theorem toBytes_inj {a b : Block} (h : toBytes a = toBytes b) : a = b := by
  have := ofBytes_toBytes a
  rw [h, ofBytes_toBytes] at this
  exact (Option.some.inj this).symm

/-- C48: block to bytes and back, in both directions. -/
theorem C48_bytes : (∀ b, ofBytes (toBytes b) = some b) ∧
    ∀ l : List Byte, l.length = 16 → ∃ b, ofBytes l = some b ∧ toBytes b = l :=
  ⟨ofBytes_toBytes, fun _ => ofBytes_of_length⟩

/-- C48: `try_from_slice` succeeds exactly on slices of sixteen bytes, with those bytes. -/
theorem C48_try_from_slice (l : List Byte) :
    ((tryFromSlice l).isSome ↔ l.length = 16) ∧
    ∀ b, tryFromSlice l = some b → toBytes b = l := by
  unfold tryFromSlice
  by_cases h : l.length = 16
  · rw [if_neg (by omega), List.take_of_length_le (by omega)]
    obtain ⟨b, e, hb⟩ := ofBytes_of_length h
    rw [e]
    refine ⟨by simp [h], fun c hc => ?_⟩
    rw [← Option.some.inj hc, hb]
  · rw [if_pos h]
    simp [h]

/-- C48: `u128` and blocks are in bijection. -/
theorem C48_u128 : (∀ b, toU128 b < 2 ^ 128 ∧ ofU128 (toU128 b) = some b) ∧
    ∀ x < 2 ^ 128, ∃ b, ofU128 x = some b ∧ toU128 b = x := by
  have e : (2 : Nat) ^ 128 = 256 ^ 16 := by norm_num
  rw [e]
  refine ⟨fun b => ⟨?_, ?_⟩, fun x hx => ?_⟩
  · exact leValue_lt (toBytes b)
  · unfold ofU128 toU128
    have := leBytes_leValue (toBytes b)
    rw [toBytes_length] at this
    rw [this, ofBytes_toBytes]
  · obtain ⟨b, e1, e2⟩ := ofBytes_of_length (leBytes_length 16 x)
    exact ⟨b, e1, by unfold toU128; rw [e2, leValue_leBytes, Nat.mod_eq_of_lt hx]⟩

/-- C48: pairs of `u64` and blocks are in bijection; the first element is the low half of the
`u128`. -/
theorem C48_u64s : (∀ b, (toU64s b).1 < 2 ^ 64 ∧ (toU64s b).2 < 2 ^ 64 ∧
      ofU64s (toU64s b).1 (toU64s b).2 = some b ∧
      toU128 b = (toU64s b).1 + 2 ^ 64 * (toU64s b).2) ∧
    ∀ x < 2 ^ 64, ∀ y < 2 ^ 64, ∃ b, ofU64s x y = some b ∧ toU64s b = (x, y) := by
  have e : (2 : Nat) ^ 64 = 256 ^ 8 := by norm_num
  rw [e]
  refine ⟨fun b => ⟨leValue_lt _, leValue_lt ((toBytes b).drop 8), ?_, ?_⟩, fun x hx y hy => ?_⟩
  · unfold ofU64s toU64s
    have h1 := leBytes_leValue ((toBytes b).take 8)
    have h2 := leBytes_leValue ((toBytes b).drop 8)
    rw [List.length_take, toBytes_length] at h1
    rw [List.length_drop, toBytes_length] at h2
    dsimp only
    rw [show min 8 16 = 8 from rfl] at h1
    rw [show 16 - 8 = 8 from rfl] at h2
    rw [h1, h2, List.take_append_drop, ofBytes_toBytes]
  · have := leValue_append ((toBytes b).take 8) ((toBytes b).drop 8)
    rw [List.take_append_drop, List.length_take, toBytes_length] at this
    exact this
  · have hl : (leBytes 8 x ++ leBytes 8 y).length = 16 := by
      rw [List.length_append, leBytes_length, leBytes_length]
    obtain ⟨b, e1, e2⟩ := ofBytes_of_length hl
    refine ⟨b, e1, ?_⟩
    unfold toU64s
    rw [e2, List.take_left' (leBytes_length 8 x), List.drop_left' (leBytes_length 8 x),
      leValue_leBytes, leValue_leBytes, Nat.mod_eq_of_lt hx, Nat.mod_eq_of_lt hy]

/-- C48: the equality test decides equality. -/
theorem C48_eq (a b : Block) : beq a b = true ↔ a = b := by
  unfold beq
  rw [beq_iff_eq]
  refine ⟨fun h => ?_, fun h => by rw [h]⟩
  have h1 := (C48_u128.1 a).2
  rw [h, (C48_u128.1 b).2] at h1
  exact (Option.some.inj h1).symm

theorem nat_bitwise_split (f : Bool → Bool → Bool) (op : Nat → Nat → Nat)
    (hop : ∀ a b i, (op a b).testBit i = f (a.testBit i) (b.testBit i))
    (a b x y : Nat) (ha : a < 256) (hb : b < 256) (hab : op a b < 256) :
    op (a + 256 * x) (b + 256 * y) = op a b + 256 * op x y := by
  have key : ∀ u v, u < 256 → ∀ i, (u + 256 * v).testBit i =
      if i < 8 then u.testBit i else v.testBit (i - 8) := by
    intro u v hu i
    have h256 : (256 : Nat) = 2 ^ 8 := rfl
    rw [Nat.add_comm, h256, Nat.testBit_two_pow_mul_add v (by omega)]
  apply Nat.eq_of_testBit_eq
  intro i
  rw [hop, key a x ha, key b y hb, key _ _ hab]
  split
  · rw [hop]
  · rw [hop]

theorem leValue_zip (f : Bool → Bool → Bool) (op : Nat → Nat → Nat) (bop : Byte → Byte → Byte)
    (hop : ∀ a b i, (op a b).testBit i = f (a.testBit i) (b.testBit i))
    (hb : ∀ a b, (bop a b).toNat = op a.toNat b.toNat) (h0 : op 0 0 = 0) :
    ∀ l r : List Byte, l.length = r.length →
      leValue (List.zipWith bop l r) = op (leValue l) (leValue r)
  | [], [], _ => by simp [leValue, h0]
  | [], _ :: _, h => by simp at h
  | _ :: _, [], h => by simp at h
  | a :: l, b :: r, h => by
    have hlt : op a.toNat b.toNat < 256 := by rw [← hb]; exact (bop a b).isLt
    simp only [List.zipWith_cons_cons, leValue,
      leValue_zip f op bop hop hb h0 l r (by simpa using h), hb]
    rw [nat_bitwise_split f op hop _ _ _ _ a.isLt b.isLt hlt]

/-- C48: the bitwise operations are those of the `u128` values. -/
theorem C48_bitwise (a b : Block) :
    toU128 (xor a b) = toU128 a ^^^ toU128 b ∧ toU128 (or a b) = toU128 a ||| toU128 b ∧
    toU128 (and a b) = toU128 a &&& toU128 b := by
  refine ⟨?_, ?_, ?_⟩
  · exact leValue_zip (· ^^ ·) (· ^^^ ·) (· ^^^ ·) (fun a b i => by simp [Nat.testBit_xor])
      (fun a b => BitVec.toNat_xor a b) rfl (toBytes a) (toBytes b) rfl
  · exact leValue_zip (· || ·) (· ||| ·) (· ||| ·) (fun a b i => by simp [Nat.testBit_or])
      (fun a b => BitVec.toNat_or a b) rfl (toBytes a) (toBytes b) rfl
  · exact leValue_zip (· && ·) (· &&& ·) (· &&& ·) (fun a b i => by simp [Nat.testBit_and])
      (fun a b => BitVec.toNat_and a b) rfl (toBytes a) (toBytes b) rfl

/-- The value of a hexadecimal digit. -/
def hexDigitValue (c : Char) : Option Nat :=
  if '0' ≤ c ∧ c ≤ '9' then some (c.toNat - 48)
  else if 'A' ≤ c ∧ c ≤ 'F' then some (c.toNat - 55) else none

/-- The value of a string of hexadecimal digits, most significant first. -/
def hexValue : List Char → Option Nat
  | [] => some 0
  | c :: cs => do
    let d ← hexDigitValue c
    let r ← hexValue cs
    return d * 16 ^ cs.length + r

theorem hexDigit_value : ∀ d < 16, ∀ cs v, hexValue cs = some v →
    hexValue (hexDigit d :: cs) = some (d * 16 ^ cs.length + v) := by
  intro d hd cs v hv
  have : hexDigitValue (hexDigit d) = some d := by
    interval_cases d <;> decide
  simp only [hexValue, hv, this]
  rfl

theorem format_value : ∀ l : List Byte,
    let s := l.reverse.flatMap fun x => [hexDigit (x.toNat / 16), hexDigit (x.toNat % 16)]
    s.length = 2 * l.length ∧ hexValue s = some (leValue l) := by
  have key : ∀ (l : List Byte) (acc : List Char) (v : Nat), hexValue acc = some v →
      let s := (l.flatMap fun x => [hexDigit (x.toNat / 16), hexDigit (x.toNat % 16)]) ++ acc
      s.length = 2 * l.length + acc.length ∧
      hexValue s = some (leValue l.reverse * 16 ^ acc.length + v) := by
    intro l
    induction l with
    | nil => intro acc v h; simp [leValue, h]
    | cons b bs ih =>
      intro acc v h
      obtain ⟨h1, h2⟩ := ih acc v h
      dsimp only at h1 h2 ⊢
      have hb := b.isLt
      have hl : (List.flatMap (fun x : Byte => [hexDigit (x.toNat / 16), hexDigit (x.toNat % 16)]) bs
          ++ acc).length = 2 * bs.length + acc.length := h1
      have e2 := hexDigit_value (b.toNat % 16) (by omega) _ _ h2
      have e1 := hexDigit_value (b.toNat / 16) (by omega) _ _ e2
      constructor
      · simp only [List.flatMap_cons, List.cons_append, List.nil_append, List.length_cons, hl]
        ring
      · simp only [List.flatMap_cons, List.cons_append, List.nil_append]
        rw [e1]
        simp only [List.length_cons, hl, List.reverse_cons, leValue_append, leValue,
          List.length_reverse]
        congr 1
        have e3 : b.toNat = 16 * (b.toNat / 16) + b.toNat % 16 := by omega
        conv_rhs => rw [e3]
        have e4 : (256 : Nat) ^ bs.length = 16 ^ (2 * bs.length) := by
          rw [pow_mul]; norm_num
        rw [e4]
        ring
  intro l
  have := key l.reverse [] 0 rfl
  simpa using this

/-- C48: the textual form is the value in hexadecimal with exactly 32 digits. -/
theorem C48_format (b : Block) :
    (format b).length = 32 ∧ hexValue (format b) = some (toU128 b) := format_value (toBytes b)

/-! ## Concrete cases -/

example : ∃ b, ofU64s 0x0123456789ABCDEF 0x1 = some b ∧
    toU128 b = 0x10123456789ABCDEF ∧
    String.ofList (format b) = "00000000000000010123456789ABCDEF" := by
  refine ⟨_, rfl, ?_, ?_⟩ <;> decide +kernel

example : tryFromSlice (List.replicate 15 1) = none ∧ (tryFromSlice (List.replicate 16 1)).isSome := by
  decide +kernel

end Verif.Props
