import Verif.Model.LWE
import Verif.Props.Plaintext
import Verif.Props.PowOf2

/-! # C31, C32, C33, C43: LWE encryption and linear operations -/

namespace Verif.Props
open Spec

/-- What the generic LWE code needs from the implementation of a modulus `q`. -/
structure IsModOps (q : Nat) (O : ModOps) : Prop where
  add : ∀ a b, a < q → b < q → ∃ r, O.add a b = some r ∧ r < q ∧ (r : ZMod q) = a + b
  sub : ∀ a b, a < q → b < q → ∃ r, O.sub a b = some r ∧ r < q ∧ (r : ZMod q) = a - b
  mul : ∀ a b, a < q → b < q → ∃ r, O.mul a b = some r ∧ r < q ∧ (r : ZMod q) = a * b
  neg : ∀ a, a < q → ∃ r, O.neg a = some r ∧ r < q ∧ (r : ZMod q) = -a

/-- Power-of-two moduli meet it. -/
theorem powOf2_isModOps {w k : Nat} (hkw : k < w) {M : PowOf2} (h : PowOf2.new (2 ^ k) = some M) :
    IsModOps (2 ^ k) (PowOf2.ops w M) := by
  have hlt : ∀ {a}, a < 2 ^ k → a < 2 ^ w := fun ha => lt_trans ha (two_pow_lt hkw)
  have key := fun a b (ha : a < 2 ^ k) (hb : b < 2 ^ k) =>
    C10_powof2_ring_ops w k a b hkw M h (hlt ha) (hlt hb)
  exact ⟨fun a b ha hb => ⟨_, rfl, (key a b ha hb).2.1⟩,
    fun a b ha hb => ⟨_, rfl, (key a b ha hb).2.2.1⟩,
    fun a b ha hb => ⟨_, rfl, (key a b ha hb).2.2.2.2⟩,
    fun a ha => ⟨_, rfl, (key a a ha ha).2.2.2.1⟩⟩

/-- The operations of a derived field, as a `ModOps` (`dot` is not used by the linear operations). -/
def fieldOps (w : Nat) (M : Barrett) : ModOps :=
  ⟨Fp.add w M, Fp.sub w M, Fp.mul w M, Fp.neg M, fun _ _ => none⟩

/-- So do Barrett moduli of derived fields. -/
theorem field_isModOps {w q : Nat} (hw : w % 2 = 0) {M : Barrett} (h : Fp.config w q = some M) :
    IsModOps q (fieldOps w M) := by
  have key := fun a b (ha : a < q) (hb : b < q) =>
    C49_field_ops w q hw M h a b a 0 ha hb ha (by positivity)
  exact ⟨fun a b ha hb => (key a b ha hb).2.2.2.1, fun a b ha hb => (key a b ha hb).2.2.2.2.1,
    fun a b ha hb => (key a b ha hb).2.2.2.2.2.2.2.1,
    fun a ha => (key a a ha ha).2.2.2.2.2.2.1⟩

/-- A ciphertext of dimension `n` with canonical words. -/
def LWEReduced (q n : Nat) (c : LWE) : Prop := Reduced q n c.a ∧ c.b < q

theorem zip_dot {q : Nat} {f : Nat → Nat → Option Nat} {α β : ZMod q}
    (hf : ∀ a b, a < q → b < q → ∃ r, f a b = some r ∧ r < q ∧ (r : ZMod q) = α * a + β * b) :
    ∀ x y : List Nat, x.length = y.length → (∀ a ∈ x, a < q) → (∀ a ∈ y, a < q) →
    ∃ out, LWE.zipCollect f x y = some out ∧ Poly.zipAssign f x y = some out ∧
      Reduced q x.length out ∧
      ∀ s, ((dot out s : Nat) : ZMod q) = α * (dot x s : Nat) + β * (dot y s : Nat)
  | [], [], _, _, _ => ⟨[], rfl, rfl, ⟨rfl, by simp⟩, by simp [dot]⟩
  | [], _ :: _, h, _, _ => by simp at h
  | _ :: _, [], h, _, _ => by simp at h
  | a :: x, b :: y, h, hx, hy => by
    obtain ⟨r, e, hr, hc⟩ := hf a b (hx a (by simp)) (hy b (by simp))
    obtain ⟨out, e1, e2, ho, hd⟩ := zip_dot hf x y (by simpa using h)
      (fun a ha => hx a (by simp [ha])) (fun a ha => hy a (by simp [ha]))
    refine ⟨r :: out, by simp [LWE.zipCollect, e, e1], by simp [Poly.zipAssign, e, e2],
      ⟨by simp [ho.1], ?_⟩, ?_⟩
    · intro c hc
      rcases List.mem_cons.1 hc with rfl | hc
      · exact hr
      · exact ho.2 c hc
    · intro s
      cases s with
      | nil => simp [dot]
      | cons c s =>
        simp only [dot, Nat.cast_add, Nat.cast_mul, hc, hd s]
        ring

theorem map_dot {q : Nat} {f : Nat → Option Nat} {α : ZMod q}
    (hf : ∀ a, a < q → ∃ r, f a = some r ∧ r < q ∧ (r : ZMod q) = α * a) :
    ∀ x : List Nat, (∀ a ∈ x, a < q) →
    ∃ out, x.mapM f = some out ∧ Reduced q x.length out ∧
      ∀ s, ((dot out s : Nat) : ZMod q) = α * (dot x s : Nat)
  | [], _ => ⟨[], rfl, ⟨rfl, by simp⟩, by simp [dot]⟩
  | a :: x, hx => by
    obtain ⟨r, e, hr, hc⟩ := hf a (hx a (by simp))
    obtain ⟨out, e1, ho, hd⟩ := map_dot hf x (fun a ha => hx a (by simp [ha]))
    refine ⟨r :: out, by simp [List.mapM_cons, e, e1], ⟨by simp [ho.1], ?_⟩, ?_⟩
    · intro c hc
      rcases List.mem_cons.1 hc with rfl | hc
      · exact hr
      · exact ho.2 c hc
    · intro s
      cases s with
      | nil => simp [dot]
      | cons c s =>
        simp only [dot, Nat.cast_add, Nat.cast_mul, hc, hd s]
        ring

section C33
variable (q n : Nat) (O : ModOps) (hO : IsModOps q O) (x y : LWE) (hx : LWEReduced q n x)
  (hy : LWEReduced q n y)
include hO hx

include hy

/-- C33: addition and its in-place form give the same reduced ciphertext, whose phase under every key
is the sum of the phases. -/
theorem C33_add : ∃ r, LWE.addRef O x y = some r ∧ LWE.addInplace O x y = some r ∧
    LWEReduced q n r ∧
    ∀ s, lwePhase q s r.a r.b = lwePhase q s x.a x.b + lwePhase q s y.a y.b := by
  have hl : x.a.length = y.a.length := by rw [hx.1.1, hy.1.1]
  obtain ⟨a, e1, e2, ha, hd⟩ := zip_dot (α := 1) (β := 1) (f := O.add) (by simpa using hO.add)
    x.a y.a hl hx.1.2 hy.1.2
  obtain ⟨b, e3, hb, hc⟩ := hO.add x.b y.b hx.2 hy.2
  refine ⟨⟨a, b⟩, ?_, ?_, ⟨by rw [← hx.1.1]; exact ha, hb⟩, fun s => ?_⟩
  · unfold LWE.addRef; rw [if_pos hl, mbind e1, mbind e3]; rfl
  · unfold LWE.addInplace; rw [if_pos hl, mbind e2, mbind e3]; rfl
  · simp only [lwePhase, hd s, hc]; ring

/-- C33: the same for subtraction. -/
theorem C33_sub : ∃ r, LWE.subRef O x y = some r ∧ LWE.subInplace O x y = some r ∧
    LWEReduced q n r ∧
    ∀ s, lwePhase q s r.a r.b = lwePhase q s x.a x.b - lwePhase q s y.a y.b := by
  have hl : x.a.length = y.a.length := by rw [hx.1.1, hy.1.1]
  obtain ⟨a, e1, e2, ha, hd⟩ := zip_dot (α := 1) (β := -1) (f := O.sub)
    (by simpa [← sub_eq_add_neg] using hO.sub) x.a y.a hl hx.1.2 hy.1.2
  obtain ⟨b, e3, hb, hc⟩ := hO.sub x.b y.b hx.2 hy.2
  refine ⟨⟨a, b⟩, ?_, ?_, ⟨by rw [← hx.1.1]; exact ha, hb⟩, fun s => ?_⟩
  · unfold LWE.subRef; rw [if_pos hl, mbind e1, mbind e3]; rfl
  · unfold LWE.subInplace; rw [if_pos hl, mbind e2, mbind e3]; rfl
  · simp only [lwePhase, hd s, hc]; ring

/-- C33: adding a multiple of a ciphertext. -/
theorem C33_add_mul_scalar (c : Nat) (hc : c < q) :
    ∃ r, LWE.addMulScalar O x y c = some r ∧ LWEReduced q n r ∧
    ∀ s, lwePhase q s r.a r.b = lwePhase q s x.a x.b + c * lwePhase q s y.a y.b := by
  have hl : x.a.length = y.a.length := by rw [hx.1.1, hy.1.1]
  have hf : ∀ a b, a < q → b < q → ∃ r, (O.mul b c >>= fun m => O.add a m) = some r ∧ r < q ∧
      (r : ZMod q) = 1 * a + c * b := by
    intro a b ha hb
    obtain ⟨m, em, hm, cm⟩ := hO.mul b c hb hc
    obtain ⟨r, er, hr, cr⟩ := hO.add a m ha hm
    exact ⟨r, by rw [mbind em, er], hr, by rw [cr, cm]; ring⟩
  obtain ⟨a, e1, e2, ha, hd⟩ := zip_dot hf x.a y.a hl hx.1.2 hy.1.2
  obtain ⟨m, e3, hm, cm⟩ := hO.mul y.b c hy.2 hc
  obtain ⟨b, e4, hb, cb⟩ := hO.add x.b m hx.2 hm
  refine ⟨⟨a, b⟩, ?_, ⟨by rw [← hx.1.1]; exact ha, hb⟩, fun s => ?_⟩
  · unfold LWE.addMulScalar; rw [mbind e2, mbind e3, mbind e4]; rfl
  · simp only [lwePhase, hd s, cb, cm]; ring

omit hy

/-- C33: multiplication by a scalar and negation. -/
theorem C33_scalar_neg (c : Nat) (hc : c < q) :
    (∃ r, LWE.scalarMul O x c = some r ∧ LWEReduced q n r ∧
      ∀ s, lwePhase q s r.a r.b = c * lwePhase q s x.a x.b) ∧
    (∃ r, LWE.neg O x = some r ∧ LWEReduced q n r ∧
      ∀ s, lwePhase q s r.a r.b = -lwePhase q s x.a x.b) := by
  constructor
  · obtain ⟨a, e1, ha, hd⟩ := map_dot (α := (c : ZMod q)) (f := fun v => O.mul v c)
      (fun a ha => by simpa [mul_comm] using hO.mul a c ha hc) x.a hx.1.2
    obtain ⟨b, e2, hb, cb⟩ := hO.mul x.b c hx.2 hc
    refine ⟨⟨a, b⟩, ?_, ⟨by rw [← hx.1.1]; exact ha, hb⟩, fun s => ?_⟩
    · unfold LWE.scalarMul; rw [mbind e1, mbind e2]; rfl
    · simp only [lwePhase, hd s, cb]; ring
  · obtain ⟨a, e1, ha, hd⟩ := map_dot (α := (-1 : ZMod q)) (f := O.neg)
      (fun a ha => by simpa using hO.neg a ha) x.a hx.1.2
    obtain ⟨b, e2, hb, cb⟩ := hO.neg x.b hx.2
    refine ⟨⟨a, b⟩, ?_, ⟨by rw [← hx.1.1]; exact ha, hb⟩, fun s => ?_⟩
    · unfold LWE.neg; rw [mbind e1, mbind e2]; rfl
    · simp only [lwePhase, hd s, cb]; ring

end C33

/-- C33: ciphertexts of different dimensions are rejected (the assertion of a debug build). -/
theorem C33_dimension_mismatch (O : ModOps) (x y : LWE) (h : x.a.length ≠ y.a.length) :
    LWE.addRef O x y = none ∧ LWE.addInplace O x y = none ∧ LWE.subRef O x y = none ∧
    LWE.subInplace O x y = none := by
  simp [LWE.addRef, LWE.addInplace, LWE.subRef, LWE.subInplace, h]

/-! ## Encryption -/

/-- Parameters with powers of two `1 ≤ t < q` that fit the word types. -/
structure LWEParamsOk (P : LWEParams) (i k : Nat) : Prop where
  t : P.t = 2 ^ i
  q : P.q = 2 ^ k
  lt : i < k
  fits : k < P.w
  width : P.w ≤ 64

theorem powOf2_new_eq {k : Nat} (hk : 0 < k) : PowOf2.new (2 ^ k) = some ⟨2 ^ k - 1⟩ := by
  have : 2 ^ 1 ≤ 2 ^ k := Nat.pow_le_pow_right (by decide) hk
  unfold PowOf2.new
  rw [if_pos ⟨by omega, isPow2_iff.2 ⟨k, rfl⟩⟩]

theorem LWEParamsOk.ops {P : LWEParams} {i k : Nat} (h : LWEParamsOk P i k) :
    ∃ M, PowOf2.new (2 ^ k) = some M ∧ P.ops = some (PowOf2.ops P.w M) := by
  refine ⟨_, powOf2_new_eq (by have := h.lt; omega), ?_⟩
  unfold LWEParams.ops
  rw [h.q, mbind (powOf2_new_eq (by have := h.lt; omega))]
  rfl

/-- The phase computed by decryption is the phase. -/
theorem phase_eq {P : LWEParams} {i k n : Nat} (h : LWEParamsOk P i k) {M : PowOf2}
    (hM : PowOf2.new (2 ^ k) = some M) {secret : List Nat} (hs : secret.length = n) {c : LWE}
    (hc : LWEReduced (2 ^ k) n c) :
    ∃ p, LWEParams.phase (PowOf2.ops P.w M) secret c = some p ∧ p < 2 ^ k ∧
      (p : ZMod (2 ^ k)) = lwePhase (2 ^ k) secret c.a c.b := by
  have e1 : (PowOf2.ops P.w M).dot c.a secret = some (dot c.a secret % 2 ^ k) := by
    show PowOf2.dotProduct P.w M c.a secret = _
    rw [C10_powof2_dot P.w k h.fits M hM, if_pos (by rw [hs, hc.1.1])]
  obtain ⟨p, e2, hp, cp⟩ := (powOf2_isModOps h.fits hM).sub c.b (dot c.a secret % 2 ^ k) hc.2
    (Nat.mod_lt _ (Nat.two_pow_pos k))
  refine ⟨p, ?_, hp, ?_⟩
  · unfold LWEParams.phase; rw [mbind e1, e2]
  · rw [cp, ZMod.natCast_mod]; rfl

/-- C31, decryption: a ciphertext whose phase is `m q/t + z` with `z` in the tolerated range decrypts
to `m`, for every key and every dimension. -/
theorem C31_decrypt (P : LWEParams) (i k n : Nat) (h : LWEParamsOk P i k) (secret : List Nat)
    (hs : secret.length = n) (c : LWE) (hc : LWEReduced (2 ^ k) n c) (m : Nat) (z : Int)
    (hm : m < 2 ^ i) (hz : NoiseInRange (2 ^ i) (2 ^ k) z)
    (hp : lwePhase (2 ^ k) secret c.a c.b = (m * (2 ^ k / 2 ^ i) : Nat) + (z : ZMod (2 ^ k)))
    (msg : Plain.Msg) (hf : Fits msg m) :
    P.decrypt msg secret c = some m := by
  obtain ⟨M, hM, e⟩ := h.ops
  obtain ⟨p, ep, hp1, hp2⟩ := phase_eq h hM hs hc
  have hk : k < 64 := by have := h.fits; have := h.width; omega
  unfold LWEParams.decrypt
  rw [mbind e, mbind ep, h.t, h.q]
  exact (C30_round_trip i k m p z h.lt hk hm hp1 hz (by rw [hp2, hp]) msg).2.1 hf

/-- C31: decrypting a fresh encryption of `m` gives `m`, for every secret key and dimension, every
mask and every noise value in the tolerated range; the phase of the ciphertext is the encoded message
plus the noise. -/
theorem C31_encrypt_decrypt (P : LWEParams) (i k n : Nat) (h : LWEParamsOk P i k)
    (secret draws : List Nat) (hs : secret.length = n) (hd : n ≤ draws.length)
    (hr : ∀ x ∈ draws, x < 2 ^ k) (m : Nat) (z : Int)
    (hm : m < 2 ^ i) (hz : NoiseInRange (2 ^ i) (2 ^ k) z) :
    ∃ c, P.encrypt secret draws z m = some c ∧ LWEReduced (2 ^ k) n c ∧ c.a = draws.take n ∧
      lwePhase (2 ^ k) secret c.a c.b = (m * (2 ^ k / 2 ^ i) : Nat) + (z : ZMod (2 ^ k)) ∧
      ∀ msg, Fits msg m → P.decrypt msg secret c = some m := by
  obtain ⟨M, hM, e⟩ := h.ops
  have hO := powOf2_isModOps (w := P.w) h.fits hM
  have hpk := Nat.two_pow_pos k
  have hw := two_pow_lt h.fits
  have hlt := h.lt
  -- the noise word
  have hz1 : 2 * z.natAbs ≤ 2 ^ k ∧ (z < 0 → z.natAbs ≠ 0) := by
    unfold NoiseInRange at hz
    have hi : (1 : Int) ≤ ((2 ^ i : Nat) : Int) := by exact_mod_cast Nat.two_pow_pos i
    constructor
    · have : 2 * |z| ≤ ((2 ^ k : Nat) : Int) := by
        rcases abs_cases z with ⟨e, h0⟩ | ⟨e, h0⟩ <;> rw [e] <;> nlinarith [hz.1, hz.2]
      rw [Int.abs_eq_natAbs] at this
      omega
    · omega
  obtain ⟨e', he, he1, he2⟩ : ∃ e', discreteGaussian P.w P.q z = some e' ∧ e' < 2 ^ k ∧
      (e' : ZMod (2 ^ k)) = (z : ZMod (2 ^ k)) := by
    have hmin : min z.natAbs (2 ^ P.w - 1) = z.natAbs := by omega
    unfold discreteGaussian
    rw [hmin, h.q]
    split
    · next hneg =>
      refine ⟨2 ^ k - z.natAbs, subC_eq (by omega), by have := hz1.2 hneg; omega, ?_⟩
      rw [Nat.cast_sub (by omega), ZMod.natCast_self, zero_sub]
      have : z = -(z.natAbs : Int) := by omega
      conv_rhs => rw [this]
      simp
    · next hpos =>
      refine ⟨z.natAbs, rfl, ?_, ?_⟩
      · have : 0 < k := by omega
        have : 2 ^ 1 ≤ 2 ^ k := Nat.pow_le_pow_right (by decide) this
        omega
      · have : z = (z.natAbs : Int) := by omega
        conv_rhs => rw [this]
        simp
  -- the zero sample
  have hlen : (draws.take n).length = n := by rw [List.length_take]; omega
  have hra : Reduced (2 ^ k) n (draws.take n) := ⟨hlen, fun x hx => hr x (List.mem_of_mem_take hx)⟩
  have e1 : (PowOf2.ops P.w M).dot (draws.take n) secret =
      some (dot (draws.take n) secret % 2 ^ k) := by
    show PowOf2.dotProduct P.w M _ secret = _
    rw [C10_powof2_dot P.w k h.fits M hM, if_pos (by rw [hs, hlen])]
  obtain ⟨b, e2, hb, cb⟩ := hO.add (dot (draws.take n) secret % 2 ^ k) e'
    (Nat.mod_lt _ hpk) he1
  have e3 := C30_encode P.w i k m h.lt.le h.fits h.width
  rw [if_pos hm] at e3
  have hmk : m * (2 ^ k / 2 ^ i) < 2 ^ k := by
    rw [Nat.pow_div h.lt.le (by decide)]
    calc m * 2 ^ (k - i) < 2 ^ i * 2 ^ (k - i) := Nat.mul_lt_mul_of_pos_right hm (Nat.two_pow_pos _)
      _ = 2 ^ k := by rw [← pow_add]; congr 1; omega
  obtain ⟨b', e4, hb', cb'⟩ := hO.add b _ hb hmk
  have hc : LWEReduced (2 ^ k) n ⟨draws.take n, b'⟩ := ⟨hra, hb'⟩
  have hphase : lwePhase (2 ^ k) secret (draws.take n) b' =
      (m * (2 ^ k / 2 ^ i) : Nat) + (z : ZMod (2 ^ k)) := by
    rw [lwePhase, cb', cb, he2, ZMod.natCast_mod]; ring
  refine ⟨⟨draws.take n, b'⟩, ?_, hc, rfl, hphase, fun msg hf => ?_⟩
  · have e5 : LWE.zeroSample (PowOf2.ops P.w M) secret draws e' = some ⟨draws.take n, b⟩ := by
      unfold LWE.zeroSample; dsimp only; rw [hs, mbind e1, mbind e2]; rfl
    unfold LWEParams.encrypt
    rw [mbind e, mbind he, mbind e5, h.t, h.q, mbind e3]
    dsimp only
    rw [mbind e4]; rfl
  · exact C31_decrypt P i k n h secret hs _ hc m z hm hz hphase msg hf

/-- C32: `decrypt_with_noise` returns the message and exactly the absolute value of the noise. -/
theorem C32_noise (P : LWEParams) (i k n : Nat) (h : LWEParamsOk P i k) (secret : List Nat)
    (hs : secret.length = n) (c : LWE) (hc : LWEReduced (2 ^ k) n c) (m : Nat) (z : Int)
    (hm : m < 2 ^ i) (hz : NoiseInRange (2 ^ i) (2 ^ k) z)
    (hp : lwePhase (2 ^ k) secret c.a c.b = (m * (2 ^ k / 2 ^ i) : Nat) + (z : ZMod (2 ^ k)))
    (msg : Plain.Msg) (hf : Fits msg m) :
    P.decryptWithNoise msg secret c = some (m, z.natAbs) := by
  obtain ⟨M, hM, e⟩ := h.ops
  have hO := powOf2_isModOps (w := P.w) h.fits hM
  obtain ⟨p, ep, hp1, hp2⟩ := phase_eq h hM hs hc
  have hk : k < 64 := by have := h.fits; have := h.width; omega
  have hpk := Nat.two_pow_pos k
  have ed := (C30_round_trip i k m p z h.lt hk hm hp1 hz (by rw [hp2, hp]) msg).2.1 hf
  have e3 := C30_encode P.w i k m h.lt.le h.fits h.width
  rw [if_pos hm] at e3
  have hmk : m * (2 ^ k / 2 ^ i) < 2 ^ k := by
    rw [Nat.pow_div h.lt.le (by decide)]
    calc m * 2 ^ (k - i) < 2 ^ i * 2 ^ (k - i) := Nat.mul_lt_mul_of_pos_right hm (Nat.two_pow_pos _)
      _ = 2 ^ k := by rw [← pow_add]; congr 1; have := h.lt; omega
  obtain ⟨x, ex, hx, cx⟩ := hO.sub p _ hp1 hmk
  obtain ⟨y, ey, hy, cy⟩ := hO.sub _ p hmk hp1
  have cx' : (x : ZMod (2 ^ k)) = (z : ZMod (2 ^ k)) := by rw [cx, hp2, hp]; ring
  have cy' : (y : ZMod (2 ^ k)) = ((-z : Int) : ZMod (2 ^ k)) := by
    rw [cy, hp2, hp]; push_cast; ring
  have hxz : (x : Int) = z % (2 ^ k : Nat) := by
    have := (ZMod.intCast_eq_intCast_iff' (x : Int) z (2 ^ k)).1 (by simpa using cx')
    rw [← this, Int.emod_eq_of_lt (by positivity) (by exact_mod_cast hx)]
  have hyz : (y : Int) = (-z) % (2 ^ k : Nat) := by
    have := (ZMod.intCast_eq_intCast_iff' (y : Int) (-z) (2 ^ k)).1 (by simpa using cy')
    rw [← this, Int.emod_eq_of_lt (by positivity) (by exact_mod_cast hy)]
  have hz1 : 2 * |z| ≤ ((2 ^ k : Nat) : Int) := by
    unfold NoiseInRange at hz
    have hi : (1 : Int) ≤ ((2 ^ i : Nat) : Int) := by exact_mod_cast Nat.two_pow_pos i
    rcases abs_cases z with ⟨e, h0⟩ | ⟨e, h0⟩ <;> rw [e] <;> nlinarith [hz.1, hz.2]
  have hmin : min x y = z.natAbs := by
    generalize 2 ^ k = Q at *
    rcases lt_trichotomy z 0 with h0 | h0 | h0
    · rw [abs_of_neg h0] at hz1
      have e1 : z % (Q : Int) = z + Q := by
        rw [← Int.add_emod_right, Int.emod_eq_of_lt (by omega) (by omega)]
      have e2 : -z % (Q : Int) = -z := Int.emod_eq_of_lt (by omega) (by omega)
      omega
    · subst h0
      simp at hxz hyz
      omega
    · rw [abs_of_pos h0] at hz1
      have e1 : -z % (Q : Int) = -z + Q := by
        rw [← Int.add_emod_right, Int.emod_eq_of_lt (by omega) (by omega)]
      have e2 : z % (Q : Int) = z := Int.emod_eq_of_lt (by omega) (by omega)
      omega
  unfold LWEParams.decryptWithNoise
  rw [mbind e, mbind ep, h.t, h.q, mbind ed, mbind e3, mbind ex, mbind ey, hmin]
  rfl

/-- C32 covers every ciphertext: every phase is an encoded message plus a noise in the tolerated
range. -/
theorem C32_every_phase (i k : Nat) (hik : i < k) (p : ZMod (2 ^ k)) :
    ∃ (m : Nat) (z : Int), m < 2 ^ i ∧ NoiseInRange (2 ^ i) (2 ^ k) z ∧
      p = (m * (2 ^ k / 2 ^ i) : Nat) + (z : ZMod (2 ^ k)) := by
  obtain ⟨s, rfl⟩ : ∃ s, k = i + (s + 1) := ⟨k - i - 1, by omega⟩
  rw [Nat.pow_div (by omega) (by decide), show i + (s + 1) - i = s + 1 by omega]
  have : NeZero (2 ^ (i + (s + 1))) := ⟨Nat.pos_iff_ne_zero.1 (Nat.two_pow_pos _)⟩
  obtain ⟨c, hc⟩ : ∃ c, c = p.val := ⟨_, rfl⟩
  have hS := Nat.two_pow_pos s
  have e1 := Nat.div_add_mod (c + 2 ^ s) (2 ^ (s + 1))
  have e2 := Nat.mod_lt (c + 2 ^ s) (Nat.two_pow_pos (s + 1))
  have e3 := Nat.div_add_mod ((c + 2 ^ s) / 2 ^ (s + 1)) (2 ^ i)
  refine ⟨(c + 2 ^ s) / 2 ^ (s + 1) % 2 ^ i, ((c + 2 ^ s) % 2 ^ (s + 1) : Nat) - 2 ^ s,
    Nat.mod_lt _ (Nat.two_pow_pos i), ?_, ?_⟩
  · unfold NoiseInRange
    push_cast
    have e2' : (((c + 2 ^ s) % 2 ^ (s + 1) : Nat) : Int) < 2 * 2 ^ s := by
      have : (2 : Nat) ^ (s + 1) = 2 * 2 ^ s := by ring
      rw [this] at e2 ⊢
      exact_mod_cast e2
    have e4 : (0 : Int) ≤ (((c + 2 ^ s) % 2 ^ (s + 1) : Nat) : Int) := by positivity
    push_cast at e2' e4
    have hi : (0 : Int) < 2 ^ i := by positivity
    have hq : (2 : Int) ^ (i + (s + 1)) = 2 * 2 ^ i * 2 ^ s := by ring
    rw [hq]
    constructor
    · nlinarith
    · nlinarith
  · have hp : p = (c : ZMod (2 ^ (i + (s + 1)))) := by rw [hc, ZMod.natCast_zmod_val]
    rw [hp]
    have e5 : c + 2 ^ s = 2 ^ (s + 1) * (2 ^ i * ((c + 2 ^ s) / 2 ^ (s + 1) / 2 ^ i) +
        (c + 2 ^ s) / 2 ^ (s + 1) % 2 ^ i) + (c + 2 ^ s) % 2 ^ (s + 1) := by rw [e3, e1]
    have e6 := congrArg (Nat.cast (R := ZMod (2 ^ (i + (s + 1))))) e5
    have e7 : ((2 ^ (s + 1) * 2 ^ i : Nat) : ZMod (2 ^ (i + (s + 1)))) = 0 := by
      rw [← pow_add, show s + 1 + i = i + (s + 1) by omega, ZMod.natCast_self]
    generalize (c + 2 ^ s) / 2 ^ (s + 1) / 2 ^ i = u at *
    generalize (c + 2 ^ s) / 2 ^ (s + 1) % 2 ^ i = v at *
    generalize (c + 2 ^ s) % 2 ^ (s + 1) = r at *
    push_cast at e6 e7 ⊢
    linear_combination e6 + (u : ZMod (2 ^ (i + (s + 1)))) * e7

/-- C43: for `t = 4`, `not` of a ciphertext of the bit `m` whose noise is below `q/8` in absolute value
decrypts to the negated bit, with the same noise magnitude. -/
theorem C43_not (P : LWEParams) (k n : Nat) (h : LWEParamsOk P 2 k) (secret : List Nat)
    (hs : secret.length = n) (c : LWE) (hc : LWEReduced (2 ^ k) n c) (m : Bool) (z : Int)
    (hz : 8 * |z| < 2 ^ k)
    (hp : lwePhase (2 ^ k) secret c.a c.b = (m.toNat * (2 ^ k / 4) : Nat) + (z : ZMod (2 ^ k))) :
    ∃ c', P.not c = some c' ∧ LWEReduced (2 ^ k) n c' ∧
      P.decrypt .bool secret c = some m.toNat ∧
      P.decrypt .bool secret c' = some (!m).toNat ∧
      P.decryptWithNoise .bool secret c' = some ((!m).toNat, z.natAbs) := by
  obtain ⟨M, hM, e⟩ := h.ops
  have hO := powOf2_isModOps (w := P.w) h.fits hM
  have hpk := Nat.two_pow_pos k
  obtain ⟨r, er, hr, hrp⟩ := (C33_scalar_neg (2 ^ k) n _ hO c hc 0 hpk).2
  have hlt := h.lt
  have hfit := h.fits
  have hq4 : 2 ^ k / 4 < 2 ^ k := Nat.div_lt_self hpk (by decide)
  obtain ⟨b, eb, hb, cb⟩ := hO.add r.b (2 ^ k / 4) hr.2 hq4
  have hz' : ∀ y : Int, |y| = |z| → NoiseInRange (2 ^ 2) (2 ^ k) y := by
    intro y hy
    unfold NoiseInRange
    rw [← hy] at hz
    push_cast
    obtain ⟨h1, h2⟩ := abs_lt.1 (show |y| < 2 ^ k / 8 + 1 by omega)
    rcases abs_cases y with ⟨e, h0⟩ | ⟨e, h0⟩ <;> rw [e] at hz <;> constructor <;> omega
  have hphase : lwePhase (2 ^ k) secret r.a b =
      ((!m).toNat * (2 ^ k / 2 ^ 2) : Nat) + ((-z : Int) : ZMod (2 ^ k)) := by
    have e1 := hrp secret
    rw [hp] at e1
    have e2 : lwePhase (2 ^ k) secret r.a b =
        lwePhase (2 ^ k) secret r.a r.b + (2 ^ k / 4 : Nat) := by
      rw [lwePhase, lwePhase, cb]; ring
    rw [e2, e1]
    cases m <;> simp <;> ring
  have hc' : LWEReduced (2 ^ k) n ⟨r.a, b⟩ := ⟨hr.1, hb⟩
  have hbit : ∀ b : Bool, b.toNat < 2 ^ 2 ∧ Fits .bool b.toNat := by
    intro b; cases b <;> simp [Fits]
  refine ⟨⟨r.a, b⟩, ?_, hc', ?_, ?_, ?_⟩
  · have es : shrC P.w P.q 2 = some (2 ^ k / 4) := by
      unfold shrC; rw [if_pos (by omega), h.q]
    unfold LWEParams.not
    rw [mbind e, mbind er, mbind es, mbind eb]; rfl
  · exact C31_decrypt P 2 k n h secret hs c hc m.toNat z (hbit m).1 (hz' z rfl)
      (by rw [hp, show (2 : Nat) ^ 2 = 4 by norm_num]) .bool (hbit m).2
  · exact C31_decrypt P 2 k n h secret hs _ hc' (!m).toNat (-z) (hbit _).1 (hz' _ (abs_neg z))
      hphase .bool (hbit _).2
  · rw [C32_noise P 2 k n h secret hs _ hc' (!m).toNat (-z) (hbit _).1 (hz' _ (abs_neg z))
      hphase .bool (hbit _).2, Int.natAbs_neg]

/-! ## Concrete cases -/

/-- The default parameters of the Boolean scheme: `u16` words, `t = 4`, `q = 1024`. -/
example : LWEParamsOk ⟨16, 4, 1024⟩ 2 10 := by constructor <;> norm_num

example : let P : LWEParams := ⟨16, 4, 1024⟩
    (P.encrypt [1, 0, 1023] [5, 600, 1000] (-17) 1) = some ⟨[5, 600, 1000], 268⟩ ∧
    P.decrypt .bool [1, 0, 1023] ⟨[5, 600, 1000], 268⟩ = some 1 ∧
    P.decryptWithNoise .bool [1, 0, 1023] ⟨[5, 600, 1000], 268⟩ = some (1, 17) ∧
    P.not ⟨[5, 600, 1000], 268⟩ = some ⟨[1019, 424, 24], 1012⟩ ∧
    P.decryptWithNoise .bool [1, 0, 1023] ⟨[1019, 424, 24], 1012⟩ = some (0, 17) := by
  decide +kernel

/-- The bound in C43 is sharp on one side: the noise `-q/8` is still decrypted, but not its
negative. -/
example : let P : LWEParams := ⟨16, 4, 1024⟩
    P.decrypt .bool [] ⟨[], 896⟩ = some 0 ∧ P.not ⟨[], 896⟩ = some ⟨[], 384⟩ ∧
    P.decrypt .bool [] ⟨[], 384⟩ = none := by decide +kernel

end Verif.Props
