import Verif.Props.Bootstrap

/-!
# C44: gates on encrypted bits

Concrete cases that meet the hypotheses are in `Props/EndToEnd.lean`.
-/

namespace Verif.Props
open Fp Finset Spec Ntt

section
variable {K : EvalKey} {Q k m : Nat} [Fact Q.Prime] (G : GateParams K.w K.R K.P Q k m) {sk z : List Nat}
  {S Z : List ℤ} {E E' : Nat} (V : K.Valid Q k m sk z S Z E E') {Λ : Level}

omit [Fact Q.Prime] in
include G in
theorem gate_ops : ∃ O, (K.P.lwe K.w).ops = some O ∧ IsModOps (2 ^ m) O := by
  obtain ⟨M, hM, e⟩ := G.lwe.ops
  exact ⟨_, e, powOf2_isModOps G.lwe.fits hM⟩

omit [Fact Q.Prime] in
include G in
theorem gate_dim : 0 < 2 ^ k ∧ 4 ∣ 2 ^ k :=
  ⟨Nat.two_pow_pos k, Nat.pow_dvd_pow 2 G.two_le⟩

include G V in
/-- A gate that bootstraps the sum of its inputs. -/
theorem sumGate_spec {c0 c1 : LWE} (h0 : LWEReduced (2 ^ m) sk.length c0)
    (h1 : LWEReduced (2 ^ m) sk.length c1) {a b : Bool} {e0 e1 : ℤ}
    (p0 : EncryptsBit (2 ^ m) sk c0 a e0) (p1 : EncryptsBit (2 ^ m) sk c1 b e1)
    (hn : 8 * 2 ^ k * |e0 + e1| + 2 * 2 ^ m * Λ.inp < 2 ^ k * 2 ^ m)
    (L : Ctx → Nat → Nat → Option (List Nat)) (g : Bool → Bool → Bool)
    (hL : ∀ step, 0 < step → step ∣ 2 ^ k / 4 → ∃ lut, L K.R (2 ^ k) step = some lut ∧
      Reduced Q (2 ^ k) lut ∧ ∀ (a b : Bool) (φ : ℤ), (step : ℤ) ∣ φ →
        NearBy (2 ^ k) 4 (((a.toNat + b.toNat) * (2 ^ k / 2) : Nat) : ℤ) φ →
        tableAt Q (2 ^ k) lut φ = signedEighth Q (g a b))
    (hrun : K.SumNoise Q k m sk z S Z Λ L c0 c1) :
    K.Refreshed Q m sk Λ (K.sumGate L c0 c1) (g a b) := by
  obtain ⟨O, eO, hO⟩ := gate_ops G
  obtain ⟨c, ec, -, hc, hp⟩ := C33_add (2 ^ m) sk.length O hO c0 c1 h0 h1
  unfold EvalKey.sumGate
  rw [mbind eO, mbind ec]
  rw [keyWords_length V.keyS] at hc
  refine bootstrap_sum G V hc (a.toNat + b.toNat) (e0 + e1) ?_ hn (g a b) L ?_ ?_
  · rw [hp sk, p0, p1]; push_cast; ring
  · intro step hs hd
    obtain ⟨lut, e, hr, h⟩ := hL step hs hd
    exact ⟨lut, e, hr, fun φ hφ hnear => h a b φ hφ hnear⟩
  · exact fun step l es el => hrun O c step l eO ec es el

include G V in
/-- A gate that bootstraps twice the difference of its inputs. -/
theorem diffGate_spec {c0 c1 : LWE} (h0 : LWEReduced (2 ^ m) sk.length c0)
    (h1 : LWEReduced (2 ^ m) sk.length c1) {a b : Bool} {e0 e1 : ℤ}
    (p0 : EncryptsBit (2 ^ m) sk c0 a e0) (p1 : EncryptsBit (2 ^ m) sk c1 b e1)
    (hn : 8 * 2 ^ k * |e0 - e1| + 2 ^ m * Λ.inp < 2 ^ k * 2 ^ m)
    (L : Ctx → Nat → Nat → Option (List Nat)) (g : Bool → Bool → Bool)
    (hL : ∀ step, 0 < step → step ∣ 2 ^ k / 4 → ∃ lut, L K.R (2 ^ k) step = some lut ∧
      Reduced Q (2 ^ k) lut ∧ ∀ (a b : Bool) (φ : ℤ), (step : ℤ) ∣ φ →
        NearBy (2 ^ k) 2 (((a.toNat : ℤ) - b.toNat) * (2 ^ k : Nat)) φ →
        tableAt Q (2 ^ k) lut φ = signedEighth Q (g a b))
    (hrun : K.DiffNoise Q k m sk z S Z Λ L c0 c1) :
    K.Refreshed Q m sk Λ (K.diffGate L c0 c1) (g a b) := by
  obtain ⟨O, eO, hO⟩ := gate_ops G
  have h2 : 2 < 2 ^ m := by
    have := G.lwe.lt
    calc 2 < 2 ^ 2 := by decide
      _ ≤ 2 ^ m := Nat.pow_le_pow_right (by decide) (by omega)
  obtain ⟨c, ec, -, hc, hp⟩ := C33_sub (2 ^ m) sk.length O hO c0 c1 h0 h1
  obtain ⟨c', ec', hc', hp'⟩ := (C33_scalar_neg (2 ^ m) sk.length O hO c hc 2 h2).1
  unfold EvalKey.diffGate
  rw [mbind eO, mbind ec, mbind ec']
  rw [keyWords_length V.keyS] at hc'
  refine bootstrap_diff G V hc' ((a.toNat : ℤ) - b.toNat) (e0 - e1) ?_ hn (g a b) L ?_ ?_
  · rw [hp' sk, hp sk, p0, p1]
    generalize 2 ^ m / 4 = q4
    push_cast; ring
  · intro step hs hd
    obtain ⟨lut, e, hr, h⟩ := hL step hs hd
    exact ⟨lut, e, hr, fun φ hφ hnear => h a b φ hφ hnear⟩
  · exact fun step l es el => hrun O c c' step l eO ec ec' es el

section
variable {c0 c1 : LWE} (h0 : LWEReduced (2 ^ m) sk.length c0)
    (h1 : LWEReduced (2 ^ m) sk.length c1) {a b : Bool} {e0 e1 : ℤ}
    (p0 : EncryptsBit (2 ^ m) sk c0 a e0) (p1 : EncryptsBit (2 ^ m) sk c1 b e1)
include G V h0 h1 p0 p1

section
variable (hn : 8 * 2 ^ k * |e0 + e1| + 2 * 2 ^ m * Λ.inp < 2 ^ k * 2 ^ m)
include hn

/-- C44: `nand` of two encrypted bits, with a noise that does not depend on the noises of the inputs. -/
theorem C44_nand (hrun : K.SumNoise Q k m sk z S Z Λ Lut.nand c0 c1) :
    K.Refreshed Q m sk Λ (K.nand c0 c1) (!(a && b)) :=
  sumGate_spec G V h0 h1 p0 p1 hn Lut.nand (fun a b => !(a && b))
    (fun _ hs hd => C42_nand ⟨G.field.even, G.field.conf⟩ (gate_dim G).1 (gate_dim G).2 hs hd) hrun

/-- C44: `and`. -/
theorem C44_and (hrun : K.SumNoise Q k m sk z S Z Λ Lut.andMajority c0 c1) :
    K.Refreshed Q m sk Λ (K.and c0 c1) (a && b) :=
  sumGate_spec G V h0 h1 p0 p1 hn Lut.andMajority (fun a b => a && b)
    (fun _ hs hd => C42_and ⟨G.field.even, G.field.conf⟩ (gate_dim G).1 (gate_dim G).2 hs hd) hrun

/-- C44: `or`. -/
theorem C44_or (hrun : K.SumNoise Q k m sk z S Z Λ Lut.or c0 c1) :
    K.Refreshed Q m sk Λ (K.or c0 c1) (a || b) :=
  sumGate_spec G V h0 h1 p0 p1 hn Lut.or (fun a b => a || b)
    (fun _ hs hd => C42_or ⟨G.field.even, G.field.conf⟩ (gate_dim G).1 (gate_dim G).2 hs hd) hrun

/-- C44: `nor`. -/
theorem C44_nor (hrun : K.SumNoise Q k m sk z S Z Λ Lut.nor c0 c1) :
    K.Refreshed Q m sk Λ (K.nor c0 c1) (!(a || b)) :=
  sumGate_spec G V h0 h1 p0 p1 hn Lut.nor (fun a b => !(a || b))
    (fun _ hs hd => C42_nor ⟨G.field.even, G.field.conf⟩ (gate_dim G).1 (gate_dim G).2 hs hd) hrun

end

section
variable (hn : 8 * 2 ^ k * |e0 - e1| + 2 ^ m * Λ.inp < 2 ^ k * 2 ^ m)
include hn

/-- C44: `xor`. -/
theorem C44_xor (hrun : K.DiffNoise Q k m sk z S Z Λ Lut.xor c0 c1) :
    K.Refreshed Q m sk Λ (K.xor c0 c1) (a ^^ b) :=
  diffGate_spec G V h0 h1 p0 p1 hn Lut.xor (fun a b => a ^^ b)
    (fun _ hs hd => C42_xor ⟨G.field.even, G.field.conf⟩ (gate_dim G).1 (gate_dim G).2 hs hd) hrun

/-- C44: `xnor`. -/
theorem C44_xnor (hrun : K.DiffNoise Q k m sk z S Z Λ Lut.xnor c0 c1) :
    K.Refreshed Q m sk Λ (K.xnor c0 c1) (!(a ^^ b)) :=
  diffGate_spec G V h0 h1 p0 p1 hn Lut.xnor (fun a b => !(a ^^ b))
    (fun _ hs hd => C42_xnor ⟨G.field.even, G.field.conf⟩ (gate_dim G).1 (gate_dim G).2 hs hd) hrun

end
end

omit [Fact Q.Prime] in
include G in
/-- C44: `not` needs no bootstrapping: it flips the bit and negates the noise. -/
theorem C44_not {c0 : LWE} (h0 : LWEReduced (2 ^ m) sk.length c0) {a : Bool} {e0 : ℤ}
    (p0 : EncryptsBit (2 ^ m) sk c0 a e0) :
    ∃ c, K.not c0 = some c ∧ LWEReduced (2 ^ m) sk.length c ∧
      EncryptsBit (2 ^ m) sk c (!a) (-e0) := by
  obtain ⟨O, eO, hO⟩ := gate_ops G
  have hlt := G.lwe.lt
  have hfit := G.lwe.fits
  have hpk := Nat.two_pow_pos m
  obtain ⟨r, er, hr, hrp⟩ := (C33_scalar_neg (2 ^ m) sk.length O hO c0 h0 0 hpk).2
  obtain ⟨b, eb, hb, cb⟩ := hO.add r.b (2 ^ m / 4) hr.2 (Nat.div_lt_self hpk (by decide))
  have es : shrC (K.P.lwe K.w).w (K.P.lwe K.w).q 2 = some (2 ^ m / 4) := by
    unfold shrC; rw [if_pos (by omega), G.lwe.q]
  refine ⟨⟨r.a, b⟩, ?_, ⟨hr.1, hb⟩, ?_⟩
  · unfold EvalKey.not LWEParams.not
    rw [mbind eO, mbind er, mbind es, mbind eb]; rfl
  · have e2 : lwePhase (2 ^ m) sk r.a b = lwePhase (2 ^ m) sk r.a r.b + (2 ^ m / 4 : Nat) := by
      rw [lwePhase, lwePhase, cb]; ring
    unfold EncryptsBit at p0 ⊢
    rw [e2, hrp sk, p0]
    cases a <;> simp; ring

include G V in
/-- C44: `majority` of three encrypted bits. -/
theorem C44_majority {c0 c1 c2 : LWE} (h0 : LWEReduced (2 ^ m) sk.length c0)
    (h1 : LWEReduced (2 ^ m) sk.length c1) (h2 : LWEReduced (2 ^ m) sk.length c2) {a b c : Bool}
    {e0 e1 e2 : ℤ} (p0 : EncryptsBit (2 ^ m) sk c0 a e0) (p1 : EncryptsBit (2 ^ m) sk c1 b e1)
    (p2 : EncryptsBit (2 ^ m) sk c2 c e2)
    (hn : 8 * 2 ^ k * |e0 + e1 + e2| + 2 * 2 ^ m * Λ.inp < 2 ^ k * 2 ^ m)
    (hrun : K.MajNoise Q k m sk z S Z Λ c0 c1 c2) :
    K.Refreshed Q m sk Λ (K.majority c0 c1 c2) (maj a b c) := by
  obtain ⟨O, eO, hO⟩ := gate_ops G
  obtain ⟨x, ex, -, hx, hp⟩ := C33_add (2 ^ m) sk.length O hO c0 c1 h0 h1
  obtain ⟨y, -, ey, hy, hp'⟩ := C33_add (2 ^ m) sk.length O hO x c2 hx h2
  unfold EvalKey.majority
  rw [mbind eO, mbind ex, mbind ey]
  rw [keyWords_length V.keyS] at hy
  refine bootstrap_sum G V hy (a.toNat + b.toNat + c.toNat) (e0 + e1 + e2) ?_ hn (maj a b c)
    Lut.andMajority ?_ ?_
  · rw [hp' sk, hp sk, p0, p1, p2]; push_cast; ring
  · intro step hs hd
    obtain ⟨lut, e, hr, h⟩ :=
      C42_majority ⟨G.field.even, G.field.conf⟩ (gate_dim G).1 (gate_dim G).2 hs hd
    exact ⟨lut, e, hr, fun φ hφ hnear => h a b c φ hφ hnear⟩
  · exact fun step l es el => hrun O x y step l eO ex ey es el

include G V in
/-- C44: `mux` returns the second bit if the first is set and the third otherwise. The second condition
says that the results of the two inner gates are good enough for the last one. -/
theorem C44_mux {c0 c1 c2 : LWE} (h0 : LWEReduced (2 ^ m) sk.length c0)
    (h1 : LWEReduced (2 ^ m) sk.length c1) (h2 : LWEReduced (2 ^ m) sk.length c2) {a b c : Bool}
    {e0 e1 e2 : ℤ} (p0 : EncryptsBit (2 ^ m) sk c0 a e0) (p1 : EncryptsBit (2 ^ m) sk c1 b e1)
    (p2 : EncryptsBit (2 ^ m) sk c2 c e2)
    (hn : 8 * 2 ^ k * |e0 + e1| + 2 * 2 ^ m * Λ.inp < 2 ^ k * 2 ^ m)
    (hn' : 8 * 2 ^ k * |e2 - e0| + 2 * 2 ^ m * Λ.inp < 2 ^ k * 2 ^ m)
    (hm : 4 * 2 ^ k * outError K.P.steps Q m Λ + 2 * Q * 2 ^ m * Λ.inp <
      Q * 2 ^ k * 2 ^ m)
    (hrun : K.MuxNoise Q k m sk z S Z Λ c0 c1 c2) :
    K.Refreshed Q m sk Λ (K.mux c0 c1 c2) (if a then b else c) := by
  obtain ⟨O, eO, hO⟩ := gate_ops G
  obtain ⟨n0, en, hn0, pn⟩ := C44_not G h0 p0
  obtain ⟨t0, f0, et0, ht0, pt0, b0, -⟩ := C44_and G V h0 h1 p0 p1 hn hrun.left
  obtain ⟨t1, f1, et1, ht1, pt1, b1, -⟩ := C44_and G V hn0 h2 pn p2
    (by rw [neg_add_eq_sub]; exact hn') (hrun.right n0 en)
  obtain ⟨x, ex, ex', hx, hp⟩ := C33_add (2 ^ m) sk.length O hO t0 t1 ht0 ht1
  have hQ : (0 : ℤ) < Q := by exact_mod_cast (Fact.out : Q.Prime).pos
  have hnoise : 8 * 2 ^ k * |f0 + f1| + 2 * 2 ^ m * Λ.inp < 2 ^ k * 2 ^ m := by
    have h1 : |4 * Q * (f0 + f1)| ≤ 2 * outError K.P.steps Q m Λ := by
      rw [mul_add]; exact (abs_add_le _ _).trans (by linarith)
    rw [abs_mul, abs_of_pos (by linarith : (0 : ℤ) < 4 * Q)] at h1
    have h2 := mul_le_mul_of_nonneg_left h1 (by positivity : (0 : ℤ) ≤ 2 * 2 ^ k)
    refine lt_of_mul_lt_mul_left (a := (Q : ℤ)) ?_ hQ.le
    nlinarith
  have key := sumGate_spec G V ht0 ht1 pt0 pt1 hnoise Lut.or (fun a b => a || b)
    (fun _ hs hd => C42_or ⟨G.field.even, G.field.conf⟩ (gate_dim G).1 (gate_dim G).2 hs hd)
    (hrun.last n0 t0 t1 en et0 et1)
  unfold EvalKey.sumGate at key
  rw [mbind eO, mbind ex] at key
  unfold EvalKey.mux
  rw [mbind eO, mbind en, mbind et0, mbind et1, mbind ex']
  cases a <;> simpa using key

end

end Verif.Props
