import Verif.Props.Session
import Verif.SpecTotal

/-!
# C72: the evaluator never panics on well-formed ciphertexts
-/

namespace Verif.Props
open Fp Finset Spec Ntt

/-! ## Words above the modulus -/

section
variable {w m : Nat} (hmw : m < w) {M : PowOf2} (hM : PowOf2.new (2 ^ m) = some M)

theorem natCast_inj {q a b : Nat} (ha : a < q) (hb : b < q) (h : (a : ZMod q) = b) : a = b := by
  have := (ZMod.natCast_eq_natCast_iff' a b q).1 h
  rwa [Nat.mod_eq_of_lt ha, Nat.mod_eq_of_lt hb] at this

include hmw hM

theorem ops_mod {a b : Nat} (ha : a < 2 ^ w) (hb : b < 2 ^ w) :
    (PowOf2.ops w M).add a b = (PowOf2.ops w M).add (a % 2 ^ m) (b % 2 ^ m) ∧
    (PowOf2.ops w M).sub a b = (PowOf2.ops w M).sub (a % 2 ^ m) (b % 2 ^ m) ∧
    (PowOf2.ops w M).neg a = (PowOf2.ops w M).neg (a % 2 ^ m) := by
  have hp := Nat.two_pow_pos m
  have hlt := two_pow_lt hmw
  have ha' := Nat.mod_lt a hp
  have hb' := Nat.mod_lt b hp
  obtain ⟨-, ⟨a1, a2⟩, ⟨s1, s2⟩, ⟨n1, n2⟩, -⟩ := C10_powof2_ring_ops w m a b hmw M hM ha hb
  obtain ⟨-, ⟨b1, b2⟩, ⟨t1, t2⟩, ⟨o1, o2⟩, -⟩ :=
    C10_powof2_ring_ops w m (a % 2 ^ m) (b % 2 ^ m) hmw M hM (ha'.trans hlt) (hb'.trans hlt)
  rw [ZMod.natCast_mod, ZMod.natCast_mod] at b2 t2
  rw [ZMod.natCast_mod] at o2
  exact ⟨congrArg some (natCast_inj a1 b1 (a2.trans b2.symm)), congrArg some (natCast_inj s1 t1 (s2.trans t2.symm)),
    congrArg some (natCast_inj n1 o1 (n2.trans o2.symm))⟩

omit hmw hM in
theorem zipCollect_mod {q : Nat} {f : Nat → Nat → Option Nat}
    (hf : ∀ a b, a < 2 ^ w → b < 2 ^ w → f a b = f (a % q) (b % q)) : ∀ x y : List Nat,
    (∀ a ∈ x, a < 2 ^ w) → (∀ a ∈ y, a < 2 ^ w) →
    LWE.zipCollect f x y = LWE.zipCollect f (x.map (· % q)) (y.map (· % q))
  | [], _, _, _ => by simp [LWE.zipCollect]
  | _ :: _, [], _, _ => by simp [LWE.zipCollect]
  | a :: x, b :: y, hx, hy => by
    simp only [List.map_cons, LWE.zipCollect]
    rw [hf a b (hx a List.mem_cons_self) (hy b List.mem_cons_self),
      zipCollect_mod hf x y (fun c hc => hx c (List.mem_cons_of_mem _ hc)) (fun c hc => hy c (List.mem_cons_of_mem _ hc))]

omit hmw hM in
theorem zipAssign_mod {q : Nat} {f : Nat → Nat → Option Nat}
    (hf : ∀ a b, a < 2 ^ w → b < 2 ^ w → f a b = f (a % q) (b % q)) : ∀ x y : List Nat, x.length = y.length →
    (∀ a ∈ x, a < 2 ^ w) → (∀ a ∈ y, a < 2 ^ w) →
    Poly.zipAssign f x y = Poly.zipAssign f (x.map (· % q)) (y.map (· % q))
  | [], [], _, _, _ => rfl
  | a :: x, b :: y, hl, hx, hy => by
    simp only [List.map_cons, Poly.zipAssign]
    rw [hf a b (hx a List.mem_cons_self) (hy b List.mem_cons_self),
      zipAssign_mod hf x y (by simpa using hl) (fun c hc => hx c (List.mem_cons_of_mem _ hc))
        (fun c hc => hy c (List.mem_cons_of_mem _ hc))]

omit hmw hM in
theorem mapM_mod {q : Nat} {f : Nat → Option Nat} (hf : ∀ a, a < 2 ^ w → f a = f (a % q)) : ∀ x : List Nat,
    (∀ a ∈ x, a < 2 ^ w) → x.mapM f = (x.map (· % q)).mapM f
  | [], _ => rfl
  | a :: x, hx => by
    rw [List.map_cons, List.mapM_cons, List.mapM_cons, hf a (hx a List.mem_cons_self),
      mapM_mod hf x fun c hc => hx c (List.mem_cons_of_mem _ hc)]

/-- The linear operations see only residues. -/
theorem linear_mod {n : Nat} {x y : LWE} (hx : CipherWords w n x) (hy : CipherWords w n y) :
    LWE.addRef (PowOf2.ops w M) x y = LWE.addRef (PowOf2.ops w M) (residues (2 ^ m) x) (residues (2 ^ m) y) ∧
    LWE.addInplace (PowOf2.ops w M) x y =
      LWE.addInplace (PowOf2.ops w M) (residues (2 ^ m) x) (residues (2 ^ m) y) ∧
    LWE.subRef (PowOf2.ops w M) x y = LWE.subRef (PowOf2.ops w M) (residues (2 ^ m) x) (residues (2 ^ m) y) ∧
    LWE.neg (PowOf2.ops w M) x = LWE.neg (PowOf2.ops w M) (residues (2 ^ m) x) := by
  have hl : x.a.length = y.a.length := hx.1.1.trans hy.1.1.symm
  have h := fun a b (ha : a < 2 ^ w) (hb : b < 2 ^ w) => ops_mod hmw hM ha hb
  have hb := h x.b y.b hx.2 hy.2
  refine ⟨?_, ?_, ?_, ?_⟩
  · unfold LWE.addRef residues
    simp only [List.length_map]
    rw [zipCollect_mod (fun a b ha hb => (h a b ha hb).1) x.a y.a hx.1.2 hy.1.2, hb.1]
  · unfold LWE.addInplace residues
    simp only [List.length_map]
    rw [zipAssign_mod (fun a b ha hb => (h a b ha hb).1) x.a y.a hl hx.1.2 hy.1.2, hb.1]
  · unfold LWE.subRef residues
    simp only [List.length_map]
    rw [zipCollect_mod (fun a b ha hb => (h a b ha hb).2.1) x.a y.a hx.1.2 hy.1.2, hb.2.1]
  · unfold LWE.neg residues
    simp only []
    rw [mapM_mod (fun a ha => (h a a ha ha).2.2) x.a hx.1.2, hb.2.2]

omit hmw hM in
theorem residues_reduced {n : Nat} {x : LWE} (hx : CipherWords w n x) : LWEReduced (2 ^ m) n (residues (2 ^ m) x) := by
  have hp := Nat.two_pow_pos m
  refine ⟨⟨by simp [residues, hx.1.1], fun v hv => ?_⟩, Nat.mod_lt _ hp⟩
  obtain ⟨u, _, rfl⟩ := List.mem_map.1 hv
  exact Nat.mod_lt _ hp

omit hmw hM in
theorem residues_of_reduced {q n : Nat} {x : LWE} (hx : LWEReduced q n x) : residues q x = x := by
  have h : x.a.map (· % q) = x.a := by
    conv_rhs => rw [← List.map_id x.a]
    exact List.map_congr_left fun v hv => Nat.mod_eq_of_lt (hx.1.2 v hv)
  unfold residues
  rw [Nat.mod_eq_of_lt hx.2, h]

omit hM in
theorem words_of_reduced {n : Nat} {x : LWE} (hx : LWEReduced (2 ^ m) n x) : CipherWords w n x := by
  have := two_pow_lt hmw
  exact ⟨⟨hx.1.1, fun v hv => (hx.1.2 v hv).trans this⟩, hx.2.trans this⟩

end

/-! ## The gates -/

section
variable {K : EvalKey} {Q k m : Nat} [Fact Q.Prime] (G : GateParams K.w K.R K.P Q k m) {sk z : List Nat}
  {S Z : List ℤ} {E E' : Nat} (V : K.Valid Q k m sk z S Z E E')
include G V

/-- Bootstrapping succeeds for every ciphertext and table. -/
theorem bootstrap_total {c : LWE} (hc : LWEReduced (2 ^ m) S.length c) {lut : List Nat}
    (hl : Reduced Q (2 ^ k) lut) :
    ∃ out, K.bootstrap c lut = some out ∧ LWEReduced (2 ^ m) S.length out := by
  obtain ⟨c', _, _, ec, hr, -⟩ := switchIn_spec G S hc (Int.ModEq.refl (intPhase S c.a c.b))
  obtain ⟨r, er, _, _, hph⟩ := rotate_spec G V hr hl
  obtain ⟨acc, ea, hra, hrb, _⟩ := addEighth_spec (z := z) G hph.a hph.b
  have eacc : K.accumulate c' lut = some acc := by
    unfold EvalKey.accumulate; rw [mbind er, ea]
  have h0 := runNoise_of_valid G V hc hl
  have : NeZero Q := ⟨(Fact.out : Q.Prime).ne_zero⟩
  generalize worstLevel K Q k m S Z E E' = Λ at h0
  have hrun : K.RunNoise Q k m sk z S Z
      ⟨Λ.rot + (ringPhase0 Q (2 ^ k) z acc (Nat.two_pow_pos k)).val, Λ.sw, Λ.inp, Λ.out⟩ c lut :=
    ⟨h0.switch, fun c' r h1 h2 => by
      obtain ⟨e, he, h⟩ := h0.rotate c' r h1 h2
      exact ⟨e, he.trans (by push_cast; omega), h⟩, h0.lwe, h0.rlwe, h0.roundExtracted, h0.roundSwitched⟩
  obtain ⟨out, _, eo, ho, -⟩ := finish_spec G V hrun ec hr.1.1 eacc hra hrb false
    ((ringPhase0 Q (2 ^ k) z acc (Nat.two_pow_pos k)).val : ℤ)
    (by rw [abs_of_nonneg (by positivity)]; push_cast; omega) (by simp)
  refine ⟨out, ?_, ho⟩
  unfold EvalKey.bootstrap
  rw [mbind ec, mbind eacc, eo]

/-- The end of every gate: a table for the step, then bootstrapping. -/
theorem table_total {c : LWE} (hc : LWEReduced (2 ^ m) sk.length c) (L : Ctx → Nat → Nat → Option (List Nat))
    (hL : ∀ step, 0 < step → step ∣ 2 ^ k / 4 → ∃ lut, L K.R (2 ^ k) step = some lut ∧ Reduced Q (2 ^ k) lut) :
    ∃ out, (do
      let step ← K.P.lutStep
      let l ← L K.R K.P.ringDimension step
      K.bootstrap c l) = some out ∧ LWEReduced (2 ^ m) sk.length out := by
  rw [keyWords_length V.keyS] at hc ⊢
  have hm3 : 3 ≤ m := by have := G.lwe.lt; omega
  have hk31 := G.le
  obtain ⟨step, es, hs0, hsd, -⟩ := C42_step K.P k m G.two_le (by omega) hm3 G.ring G.lwe.q
  obtain ⟨lut, el, hl⟩ := hL step hs0 hsd
  obtain ⟨out, eo, ho⟩ := bootstrap_total G V hc hl
  exact ⟨out, by rw [mbind es, G.ring, mbind el, eo], ho⟩

theorem sumGate_total (L : Ctx → Nat → Nat → Option (List Nat))
    (hL : ∀ step, 0 < step → step ∣ 2 ^ k / 4 → ∃ lut, L K.R (2 ^ k) step = some lut ∧ Reduced Q (2 ^ k) lut)
    {c0 c1 : LWE} (h0 : CipherWords K.w sk.length c0) (h1 : CipherWords K.w sk.length c1) :
    ∃ out, K.sumGate L c0 c1 = some out ∧ LWEReduced (2 ^ m) sk.length out ∧
      K.sumGate L (residues (2 ^ m) c0) (residues (2 ^ m) c1) = some out := by
  obtain ⟨M, hM, eO⟩ := G.lwe.ops
  have hO := powOf2_isModOps (w := K.w) G.lwe.fits hM
  obtain ⟨c, ec, -, hc, -⟩ := C33_add (2 ^ m) sk.length _ hO _ _ (residues_reduced (m := m) h0)
    (residues_reduced (m := m) h1)
  have ec' := ((linear_mod (w := K.w) G.lwe.fits hM h0 h1).1).trans ec
  obtain ⟨out, eo, ho⟩ := table_total G V hc L hL
  have hlwe : (K.P.lwe K.w).w = K.w := rfl
  rw [hlwe] at eO
  refine ⟨out, ?_, ho, ?_⟩
  · unfold EvalKey.sumGate
    rw [mbind eO, mbind ec', eo]
  · unfold EvalKey.sumGate
    rw [mbind eO, mbind ec, eo]

theorem diffGate_total (L : Ctx → Nat → Nat → Option (List Nat))
    (hL : ∀ step, 0 < step → step ∣ 2 ^ k / 4 → ∃ lut, L K.R (2 ^ k) step = some lut ∧ Reduced Q (2 ^ k) lut)
    {c0 c1 : LWE} (h0 : CipherWords K.w sk.length c0) (h1 : CipherWords K.w sk.length c1) :
    ∃ out, K.diffGate L c0 c1 = some out ∧ LWEReduced (2 ^ m) sk.length out ∧
      K.diffGate L (residues (2 ^ m) c0) (residues (2 ^ m) c1) = some out := by
  obtain ⟨M, hM, eO⟩ := G.lwe.ops
  have hO := powOf2_isModOps (w := K.w) G.lwe.fits hM
  have h2 : 2 < 2 ^ m := by
    have := G.lwe.lt
    calc 2 < 2 ^ 2 := by decide
      _ ≤ 2 ^ m := Nat.pow_le_pow_right (by decide) (by omega)
  obtain ⟨c, ec, -, hc, -⟩ := C33_sub (2 ^ m) sk.length _ hO _ _ (residues_reduced (m := m) h0)
    (residues_reduced (m := m) h1)
  have ec' := ((linear_mod (w := K.w) G.lwe.fits hM h0 h1).2.2.1).trans ec
  obtain ⟨d, ed, hd, -⟩ := (C33_scalar_neg (2 ^ m) sk.length _ hO c hc 2 h2).1
  obtain ⟨out, eo, ho⟩ := table_total G V hd L hL
  have hlwe : (K.P.lwe K.w).w = K.w := rfl
  rw [hlwe] at eO
  refine ⟨out, ?_, ho, ?_⟩
  · unfold EvalKey.diffGate
    rw [mbind eO, mbind ec', mbind ed, eo]
  · unfold EvalKey.diffGate
    rw [mbind eO, mbind ec, mbind ed, eo]

/-- The results of all gates on the given ciphertexts. -/
def gateResults (K : EvalKey) (c0 c1 c2 : LWE) : List (Option LWE) :=
  [K.not c0, K.nand c0 c1, K.and c0 c1, K.or c0 c1, K.nor c0 c1, K.xor c0 c1, K.xnor c0 c1,
    K.majority c0 c1 c2, K.mux c0 c1 c2]

/-- C72: on ciphertexts of the right number of words, with any content, no gate panics, the results are ciphertexts
modulo `q`, and they depend only on the residues of the words. -/
theorem C72_gates {c0 c1 c2 : LWE} (h0 : CipherWords K.w sk.length c0) (h1 : CipherWords K.w sk.length c1)
    (h2 : CipherWords K.w sk.length c2) :
    (∀ r ∈ gateResults K c0 c1 c2, ∃ out, r = some out ∧ LWEReduced (2 ^ m) sk.length out) ∧
    gateResults K c0 c1 c2 =
      gateResults K (residues (2 ^ m) c0) (residues (2 ^ m) c1) (residues (2 ^ m) c2) := by
  have C : Config K.R.w Q K.R.M := ⟨G.field.even, G.field.conf⟩
  obtain ⟨d1, d2⟩ := gate_dim G
  have lNand : ∀ step, 0 < step → step ∣ 2 ^ k / 4 → ∃ lut, Lut.nand K.R (2 ^ k) step = some lut ∧
      Reduced Q (2 ^ k) lut := fun step hs hd => by
    obtain ⟨l, e, h, -⟩ := C42_nand C d1 d2 hs hd; exact ⟨l, e, h⟩
  have lAnd : ∀ step, 0 < step → step ∣ 2 ^ k / 4 → ∃ lut, Lut.andMajority K.R (2 ^ k) step = some lut ∧
      Reduced Q (2 ^ k) lut := fun step hs hd => by
    obtain ⟨l, e, h, -⟩ := C42_and C d1 d2 hs hd; exact ⟨l, e, h⟩
  have lOr : ∀ step, 0 < step → step ∣ 2 ^ k / 4 → ∃ lut, Lut.or K.R (2 ^ k) step = some lut ∧
      Reduced Q (2 ^ k) lut := fun step hs hd => by
    obtain ⟨l, e, h, -⟩ := C42_or C d1 d2 hs hd; exact ⟨l, e, h⟩
  have lNor : ∀ step, 0 < step → step ∣ 2 ^ k / 4 → ∃ lut, Lut.nor K.R (2 ^ k) step = some lut ∧
      Reduced Q (2 ^ k) lut := fun step hs hd => by
    obtain ⟨l, e, h, -⟩ := C42_nor C d1 d2 hs hd; exact ⟨l, e, h⟩
  have lXor : ∀ step, 0 < step → step ∣ 2 ^ k / 4 → ∃ lut, Lut.xor K.R (2 ^ k) step = some lut ∧
      Reduced Q (2 ^ k) lut := fun step hs hd => by
    obtain ⟨l, e, h, -⟩ := C42_xor C d1 d2 hs hd; exact ⟨l, e, h⟩
  have lXnor : ∀ step, 0 < step → step ∣ 2 ^ k / 4 → ∃ lut, Lut.xnor K.R (2 ^ k) step = some lut ∧
      Reduced Q (2 ^ k) lut := fun step hs hd => by
    obtain ⟨l, e, h, -⟩ := C42_xnor C d1 d2 hs hd; exact ⟨l, e, h⟩
  obtain ⟨M, hM, eO⟩ := G.lwe.ops
  have hO := powOf2_isModOps (w := K.w) G.lwe.fits hM
  have hlwe : (K.P.lwe K.w).w = K.w := rfl
  rw [hlwe] at eO
  have hfit : m < K.w := G.lwe.fits
  -- `not`
  have tNot : ∀ {c : LWE}, CipherWords K.w sk.length c → ∃ out, K.not c = some out ∧
      LWEReduced (2 ^ m) sk.length out ∧ K.not (residues (2 ^ m) c) = some out := by
    intro c hc
    have hpk := Nat.two_pow_pos m
    obtain ⟨r, er, hr, -⟩ := (C33_scalar_neg (2 ^ m) sk.length _ hO _ (residues_reduced (m := m) hc) 0 hpk).2
    have er' := (linear_mod hfit hM hc hc).2.2.2.trans er
    obtain ⟨b, eb, hb, -⟩ := hO.add r.b (2 ^ m / 4) hr.2 (Nat.div_lt_self hpk (by decide))
    have hlt := G.lwe.lt
    have es : shrC (K.P.lwe K.w).w (K.P.lwe K.w).q 2 = some (2 ^ m / 4) := by
      unfold shrC; rw [if_pos (by rw [hlwe]; omega), G.lwe.q]
    refine ⟨⟨r.a, b⟩, ?_, ⟨hr.1, hb⟩, ?_⟩
    · unfold EvalKey.not LWEParams.not
      rw [mbind eO, mbind er', mbind es, mbind eb]; rfl
    · unfold EvalKey.not LWEParams.not
      rw [mbind eO, mbind er, mbind es, mbind eb]; rfl
  obtain ⟨o1, e1, r1, s1⟩ := tNot h0
  obtain ⟨o2, e2, r2, s2⟩ := sumGate_total G V Lut.nand lNand h0 h1
  obtain ⟨o3, e3, r3, s3⟩ := sumGate_total G V Lut.andMajority lAnd h0 h1
  obtain ⟨o4, e4, r4, s4⟩ := sumGate_total G V Lut.or lOr h0 h1
  obtain ⟨o5, e5, r5, s5⟩ := sumGate_total G V Lut.nor lNor h0 h1
  obtain ⟨o6, e6, r6, s6⟩ := diffGate_total G V Lut.xor lXor h0 h1
  obtain ⟨o7, e7, r7, s7⟩ := diffGate_total G V Lut.xnor lXnor h0 h1
  -- `majority`
  obtain ⟨o8, e8, r8, s8⟩ : ∃ out, K.majority c0 c1 c2 = some out ∧ LWEReduced (2 ^ m) sk.length out ∧
      K.majority (residues (2 ^ m) c0) (residues (2 ^ m) c1) (residues (2 ^ m) c2) = some out := by
    obtain ⟨x, ex, -, hx, -⟩ := C33_add (2 ^ m) sk.length _ hO _ _ (residues_reduced (m := m) h0)
      (residues_reduced (m := m) h1)
    have ex' := (linear_mod hfit hM h0 h1).1.trans ex
    obtain ⟨y, -, ey, hy, -⟩ := C33_add (2 ^ m) sk.length _ hO _ _ hx (residues_reduced (m := m) h2)
    have ey' := (linear_mod hfit hM (words_of_reduced hfit hx) h2).2.1
    rw [residues_of_reduced hx, ey] at ey'
    obtain ⟨out, eo, ho⟩ := table_total G V hy Lut.andMajority lAnd
    refine ⟨out, ?_, ho, ?_⟩
    · unfold EvalKey.majority
      rw [mbind eO, mbind ex', mbind ey', eo]
    · unfold EvalKey.majority
      rw [mbind eO, mbind ex, mbind ey, eo]
  -- `mux`
  obtain ⟨o9, e9, r9, s9⟩ : ∃ out, K.mux c0 c1 c2 = some out ∧ LWEReduced (2 ^ m) sk.length out ∧
      K.mux (residues (2 ^ m) c0) (residues (2 ^ m) c1) (residues (2 ^ m) c2) = some out := by
    obtain ⟨t, et, ht, st⟩ := sumGate_total G V Lut.andMajority lAnd (words_of_reduced hfit r1) h2
    rw [residues_of_reduced r1] at st
    obtain ⟨y, -, ey, hy, -⟩ := C33_add (2 ^ m) sk.length _ hO _ _ r3 ht
    obtain ⟨out, eo, ho⟩ := table_total G V hy Lut.or lOr
    refine ⟨out, ?_, ho, ?_⟩
    · unfold EvalKey.mux EvalKey.and
      rw [mbind eO, mbind e1, mbind e3, mbind et, mbind ey, eo]
    · unfold EvalKey.mux EvalKey.and
      rw [mbind eO, mbind s1, mbind s3, mbind st, mbind ey, eo]
  constructor
  · intro r hr
    simp only [gateResults, List.mem_cons, List.not_mem_nil, or_false] at hr
    rcases hr with rfl | rfl | rfl | rfl | rfl | rfl | rfl | rfl | rfl
    · exact ⟨_, e1, r1⟩
    · exact ⟨_, e2, r2⟩
    · exact ⟨_, e3, r3⟩
    · exact ⟨_, e4, r4⟩
    · exact ⟨_, e5, r5⟩
    · exact ⟨_, e6, r6⟩
    · exact ⟨_, e7, r7⟩
    · exact ⟨_, e8, r8⟩
    · exact ⟨_, e9, r9⟩
  · have e2' : K.nand c0 c1 = _ := e2.trans s2.symm
    have e3' : K.and c0 c1 = _ := e3.trans s3.symm
    have e4' : K.or c0 c1 = _ := e4.trans s4.symm
    have e5' : K.nor c0 c1 = _ := e5.trans s5.symm
    have e6' : K.xor c0 c1 = _ := e6.trans s6.symm
    have e7' : K.xnor c0 c1 = _ := e7.trans s7.symm
    unfold gateResults
    rw [e1.trans s1.symm, e2', e3', e4', e5', e6', e7', e8.trans s8.symm, e9.trans s9.symm]
    rfl

end

/-! ## Encryption and decryption -/

theorem dot_map_mod (q : Nat) : ∀ x s : List Nat, ((dot (x.map (· % q)) s : Nat) : ZMod q) = (dot x s : Nat)
  | [], _ => by simp [dot]
  | _ :: _, [] => by simp [dot]
  | a :: x, b :: s => by
    have := dot_map_mod q x s
    simp only [dot, List.map_cons]
    push_cast at this ⊢
    rw [this, ZMod.natCast_mod]

theorem lwePhase_residues (q : Nat) (s : List Nat) (c : LWE) :
    lwePhase q s (residues q c).a (residues q c).b = lwePhase q s c.a c.b := by
  unfold lwePhase residues
  rw [dot_map_mod, ZMod.natCast_mod]

section
variable {P : LWEParams} {i k n : Nat} (h : LWEParamsOk P i k) {secret : List Nat} (hs : secret.length = n)
include h

include hs in
/-- C72: encryption of a message in range panics exactly when the deviate is below `-q`. -/
theorem C72_encrypt {draws : List Nat} (hd : n ≤ draws.length) (hr : ∀ x ∈ draws, x < 2 ^ k) {v : Nat}
    (hv : v < 2 ^ i) (z : ℤ) :
    (-(2 ^ k : ℤ) ≤ z → ∃ c, P.encrypt secret draws z v = some c ∧ LWEReduced (2 ^ k) n c) ∧
    (z < -(2 ^ k : ℤ) → P.encrypt secret draws z v = none) := by
  obtain ⟨M, hM, e⟩ := h.ops
  have hpk := Nat.two_pow_pos k
  have hw := two_pow_lt h.fits
  have hw2 : 2 * 2 ^ k ≤ 2 ^ P.w := by
    rw [← pow_succ']; exact Nat.pow_le_pow_right (by decide) h.fits
  have hpi : ((2 ^ k : Nat) : ℤ) = 2 ^ k := by push_cast; rfl
  have h2k : 2 ≤ 2 ^ k := by
    have := h.lt
    calc 2 = 2 ^ 1 := rfl
      _ ≤ 2 ^ k := Nat.pow_le_pow_right (by decide) (by omega)
  constructor
  · intro hz
    obtain ⟨e', he, he1⟩ : ∃ e', discreteGaussian P.w P.q z = some e' ∧ e' < 2 ^ P.w := by
      unfold discreteGaussian
      rw [h.q]
      split
      · next hneg => exact ⟨2 ^ k - min z.natAbs (2 ^ P.w - 1), subC_eq (by omega), by omega⟩
      · exact ⟨_, rfl, by omega⟩
    have hlen : (draws.take n).length = n := by rw [List.length_take]; omega
    have e1 : (PowOf2.ops P.w M).dot (draws.take n) secret = some (dot (draws.take n) secret % 2 ^ k) := by
      show PowOf2.dotProduct P.w M _ secret = _
      rw [C10_powof2_dot P.w k h.fits M hM, if_pos (by rw [hs, hlen])]
    obtain ⟨-, ⟨hb, -⟩, -⟩ := C10_powof2_ring_ops P.w k (dot (draws.take n) secret % 2 ^ k) e' h.fits M hM
      ((Nat.mod_lt _ hpk).trans hw) he1
    have e3 := C30_encode P.w i k v h.lt.le h.fits h.width
    rw [if_pos hv] at e3
    have hmk : v * (2 ^ k / 2 ^ i) < 2 ^ k := by
      rw [Nat.pow_div h.lt.le (by decide)]
      calc v * 2 ^ (k - i) < 2 ^ i * 2 ^ (k - i) := Nat.mul_lt_mul_of_pos_right hv (Nat.two_pow_pos _)
        _ = 2 ^ k := by rw [← pow_add]; congr 1; have := h.lt; omega
    obtain ⟨b', e4, hb', -⟩ := (powOf2_isModOps (w := P.w) h.fits hM).add _ _ hb hmk
    refine ⟨⟨draws.take n, b'⟩, ?_, ⟨hlen, fun x hx => hr x (List.mem_of_mem_take hx)⟩, hb'⟩
    have e5 : LWE.zeroSample (PowOf2.ops P.w M) secret draws e' = some ⟨draws.take n,
        PowOf2.addReduce P.w M (dot (draws.take n) secret % 2 ^ k) e'⟩ := by
      unfold LWE.zeroSample; dsimp only; rw [hs, mbind e1]; rfl
    unfold LWEParams.encrypt
    rw [mbind e, mbind he, mbind e5, h.t, h.q, mbind e3]
    dsimp only
    rw [mbind e4]; rfl
  · intro hz
    have he : discreteGaussian P.w P.q z = none := by
      unfold discreteGaussian
      rw [h.q, if_pos (by omega)]
      unfold subC
      rw [if_neg (by omega)]
    unfold LWEParams.encrypt
    rw [mbind e, he]; rfl

include hs in
theorem phase_words {c : LWE} (hc : CipherWords P.w n c) {M : PowOf2} (hM : PowOf2.new (2 ^ k) = some M) :
    LWEParams.phase (PowOf2.ops P.w M) secret c = some (lwePhase (2 ^ k) secret c.a c.b).val := by
  have : NeZero (2 ^ k) := ⟨(Nat.two_pow_pos k).ne'⟩
  have e1 : (PowOf2.ops P.w M).dot c.a secret = some (dot c.a secret % 2 ^ k) := by
    show PowOf2.dotProduct P.w M c.a secret = _
    rw [C10_powof2_dot P.w k h.fits M hM, if_pos (by rw [hs, hc.1.1])]
  obtain ⟨-, -, ⟨hp1, hp2⟩, -⟩ := C10_powof2_ring_ops P.w k c.b (dot c.a secret % 2 ^ k) h.fits M hM hc.2
    ((Nat.mod_lt _ (Nat.two_pow_pos k)).trans (two_pow_lt h.fits))
  unfold LWEParams.phase
  rw [mbind e1]
  show some _ = some _
  congr 1
  refine natCast_inj hp1 (ZMod.val_lt _) ?_
  rw [hp2, ZMod.natCast_mod, ZMod.natCast_zmod_val, lwePhase]

include hs in
/-- C72: decryption returns the message nearest to the phase if it fits the type, and panics exactly if it does not;
with noise it also returns the distance of the phase from that message. -/
theorem C72_decrypt {c : LWE} (hc : CipherWords P.w n c) (msg : Plain.Msg) :
    let p := (lwePhase (2 ^ k) secret c.a c.b).val
    let v := nearestMessage (2 ^ i) (2 ^ k) p
    (Fits msg v → P.decrypt msg secret c = some v ∧ ∃ z : ℤ,
      lwePhase (2 ^ k) secret c.a c.b = (v * (2 ^ k / 2 ^ i) : Nat) + (z : ZMod (2 ^ k)) ∧
      NoiseInRange (2 ^ i) (2 ^ k) z ∧ P.decryptWithNoise msg secret c = some (v, z.natAbs)) ∧
    (¬ Fits msg v → P.decrypt msg secret c = none ∧ P.decryptWithNoise msg secret c = none) := by
  intro p v
  have : NeZero (2 ^ k) := ⟨(Nat.two_pow_pos k).ne'⟩
  obtain ⟨M, hM, e⟩ := h.ops
  have hpk := Nat.two_pow_pos k
  have hk : k < 64 := by have := h.fits; have := h.width; omega
  have ep : LWEParams.phase (PowOf2.ops P.w M) secret c = some p := phase_words h hs hc hM
  have hpq : p < 2 ^ k := ZMod.val_lt _
  have ed : Plain.decodeRaw p (2 ^ i) (2 ^ k) = some v := by
    rw [C30_decode_rounds i k p h.lt hk (hpq.trans (two_pow_lt hk))]
    show some _ = some (nearestMessage _ _ _)
    unfold nearestMessage
    rw [show 2 * p * 2 ^ i = 2 * 2 ^ i * p by ring]
  obtain ⟨s1, s2⟩ := shrink_eq msg v
  have edec : P.decrypt msg secret c = Plain.shrink msg v := by
    unfold LWEParams.decrypt Plain.decode
    rw [mbind e, mbind ep, h.t, h.q, mbind ed]
  have ephase : ((p : Nat) : ZMod (2 ^ k)) = lwePhase (2 ^ k) secret c.a c.b := ZMod.natCast_zmod_val _
  constructor
  · intro hf
    refine ⟨edec.trans (s1 hf), ?_⟩
    obtain ⟨v', z, hv', hz, hpz⟩ := C32_every_phase i k h.lt (lwePhase (2 ^ k) secret c.a c.b)
    have hrt := (C30_round_trip i k v' p z h.lt hk hv' hpq hz (ephase.trans hpz) msg).1
    rw [ed] at hrt
    obtain rfl : v = v' := Option.some.inj hrt
    refine ⟨z, hpz, hz, ?_⟩
    -- the residues of the words
    have hres := residues_reduced (m := k) hc
    have hph : lwePhase (2 ^ k) secret (residues (2 ^ k) c).a (residues (2 ^ k) c).b = lwePhase (2 ^ k) secret c.a c.b :=
      lwePhase_residues _ _ _
    have := C32_noise P i k n h secret hs _ hres v z hv' hz (hph.trans hpz) msg hf
    have ep' := phase_words h hs (words_of_reduced h.fits hres) hM
    rw [hph] at ep'
    rw [← this]
    unfold LWEParams.decryptWithNoise
    rw [mbind e, mbind ep, mbind e, mbind ep']
  · intro hf
    refine ⟨edec.trans (s2 hf), ?_⟩
    unfold LWEParams.decryptWithNoise Plain.decode
    rw [mbind e, mbind ep, h.t, h.q, mbind ed, s2 hf]; rfl

end

/-- C72: decryption to a bit panics exactly when the phase lies in the half of the circle between `3q/8` and `7q/8`. -/
theorem C72_decrypt_bit {P : LWEParams} {k n : Nat} (h : LWEParamsOk P 2 k) {secret : List Nat} (hs : secret.length = n)
    {c : LWE} (hc : CipherWords P.w n c) :
    P.decrypt .bool secret c = none ↔
      3 * 2 ^ k ≤ 8 * (lwePhase (2 ^ k) secret c.a c.b).val ∧ 8 * (lwePhase (2 ^ k) secret c.a c.b).val < 7 * 2 ^ k := by
  have : NeZero (2 ^ k) := ⟨(Nat.two_pow_pos k).ne'⟩
  obtain ⟨h1, h2⟩ := C72_decrypt h hs hc .bool
  have hp := ZMod.val_lt (lwePhase (2 ^ k) secret c.a c.b)
  generalize (lwePhase (2 ^ k) secret c.a c.b).val = p at *
  have hq := Nat.two_pow_pos k
  generalize 2 ^ k = q at *
  have hiff : Fits .bool (nearestMessage (2 ^ 2) q p) ↔ ¬(3 * q ≤ 8 * p ∧ 8 * p < 7 * q) := by
    unfold Fits nearestMessage
    have hd := Nat.div_add_mod (2 * 2 ^ 2 * p + q) (2 * q)
    have hm := Nat.mod_lt (2 * 2 ^ 2 * p + q) (show 0 < 2 * q by omega)
    generalize (2 * 2 ^ 2 * p + q) % (2 * q) = r at *
    generalize (2 * 2 ^ 2 * p + q) / (2 * q) = d at *
    have hd5 : d < 5 := by
      by_contra hge
      have := Nat.mul_le_mul_left (2 * q) (show 5 ≤ d by omega)
      omega
    interval_cases d <;> omega
  constructor
  · intro hn
    by_contra hc
    have := (h1 (hiff.2 hc)).1
    rw [hn] at this; cases this
  · exact fun hn => (h2 (fun hf => hiff.1 hf hn)).1

/-! ## Applications -/

section
variable {w : Nat} {R : Ctx} {P : Params} {Q k m : Nat} [Fact Q.Prime]

theorem exec_total (hlwe : LWEParamsOk (P.lwe w) 2 m) {A : App} (hw : A.w = w) (hP : A.P = P) {sk : List Nat}
    (hn : sk.length = P.n) (he : A.encryptor.lwe = sk)
    (hK : ∀ c0 c1 c2, CipherWords w P.n c0 → CipherWords w P.n c1 → CipherWords w P.n c2 →
      ∀ r ∈ gateResults A.evaluator c0 c1 c2, ∃ out, r = some out ∧ LWEReduced (2 ^ m) P.n out)
    {cs : List LWE} (hcs : ∀ c ∈ cs, CipherWords w P.n c) (x : Call) (hx : x.Makes P.n P.q)
    (hu : ∀ i ∈ x.uses, i < cs.length) :
    ∃ c, A.exec cs x = some (cs ++ [c], none) ∧ LWEReduced (2 ^ m) P.n c := by
  have get : ∀ {i}, i ∈ x.uses → ∃ c, cs[i]? = some c ∧ CipherWords w P.n c := fun {i} hi =>
    ⟨cs[i]'(hu i hi), List.getElem?_eq_getElem (hu i hi), hcs _ (List.getElem_mem _)⟩
  cases x with
  | encrypt b mask z =>
    obtain ⟨⟨m1, m2⟩, hz⟩ := hx
    have hq : P.q = 2 ^ m := hlwe.q
    rw [hq] at hz m2
    obtain ⟨c, ec, hc⟩ := (C72_encrypt hlwe hn m1 m2 (v := b.toNat) (by have := Bool.toNat_lt b; omega) z).1
      (by push_cast at hz; exact hz)
    refine ⟨c, ?_, hc⟩
    unfold App.exec App.encrypt
    dsimp only
    rw [hw, hP, he, mbind ec]; rfl
  | not i =>
    obtain ⟨c0, f0, h0⟩ := get (i := i) (by simp [Call.uses])
    obtain ⟨out, eo, ho⟩ := hK c0 c0 c0 h0 h0 h0 (A.evaluator.not c0) (by simp [gateResults])
    exact ⟨out, by unfold App.exec; dsimp only; rw [mbind f0, mbind eo]; rfl, ho⟩
  | nand i j =>
    obtain ⟨c0, f0, h0⟩ := get (i := i) (by simp [Call.uses])
    obtain ⟨c1, f1, h1⟩ := get (i := j) (by simp [Call.uses])
    obtain ⟨out, eo, ho⟩ := hK c0 c1 c1 h0 h1 h1 (A.evaluator.nand c0 c1) (by simp [gateResults])
    exact ⟨out, by unfold App.exec; dsimp only; rw [mbind f0, mbind f1, mbind eo]; rfl, ho⟩
  | and i j =>
    obtain ⟨c0, f0, h0⟩ := get (i := i) (by simp [Call.uses])
    obtain ⟨c1, f1, h1⟩ := get (i := j) (by simp [Call.uses])
    obtain ⟨out, eo, ho⟩ := hK c0 c1 c1 h0 h1 h1 (A.evaluator.and c0 c1) (by simp [gateResults])
    exact ⟨out, by unfold App.exec; dsimp only; rw [mbind f0, mbind f1, mbind eo]; rfl, ho⟩
  | or i j =>
    obtain ⟨c0, f0, h0⟩ := get (i := i) (by simp [Call.uses])
    obtain ⟨c1, f1, h1⟩ := get (i := j) (by simp [Call.uses])
    obtain ⟨out, eo, ho⟩ := hK c0 c1 c1 h0 h1 h1 (A.evaluator.or c0 c1) (by simp [gateResults])
    exact ⟨out, by unfold App.exec; dsimp only; rw [mbind f0, mbind f1, mbind eo]; rfl, ho⟩
  | nor i j =>
    obtain ⟨c0, f0, h0⟩ := get (i := i) (by simp [Call.uses])
    obtain ⟨c1, f1, h1⟩ := get (i := j) (by simp [Call.uses])
    obtain ⟨out, eo, ho⟩ := hK c0 c1 c1 h0 h1 h1 (A.evaluator.nor c0 c1) (by simp [gateResults])
    exact ⟨out, by unfold App.exec; dsimp only; rw [mbind f0, mbind f1, mbind eo]; rfl, ho⟩
  | xor i j =>
    obtain ⟨c0, f0, h0⟩ := get (i := i) (by simp [Call.uses])
    obtain ⟨c1, f1, h1⟩ := get (i := j) (by simp [Call.uses])
    obtain ⟨out, eo, ho⟩ := hK c0 c1 c1 h0 h1 h1 (A.evaluator.xor c0 c1) (by simp [gateResults])
    exact ⟨out, by unfold App.exec; dsimp only; rw [mbind f0, mbind f1, mbind eo]; rfl, ho⟩
  | xnor i j =>
    obtain ⟨c0, f0, h0⟩ := get (i := i) (by simp [Call.uses])
    obtain ⟨c1, f1, h1⟩ := get (i := j) (by simp [Call.uses])
    obtain ⟨out, eo, ho⟩ := hK c0 c1 c1 h0 h1 h1 (A.evaluator.xnor c0 c1) (by simp [gateResults])
    exact ⟨out, by unfold App.exec; dsimp only; rw [mbind f0, mbind f1, mbind eo]; rfl, ho⟩
  | majority i j l =>
    obtain ⟨c0, f0, h0⟩ := get (i := i) (by simp [Call.uses])
    obtain ⟨c1, f1, h1⟩ := get (i := j) (by simp [Call.uses])
    obtain ⟨c2, f2, h2⟩ := get (i := l) (by simp [Call.uses])
    obtain ⟨out, eo, ho⟩ := hK c0 c1 c2 h0 h1 h2 (A.evaluator.majority c0 c1 c2) (by simp [gateResults])
    exact ⟨out, by unfold App.exec; dsimp only; rw [mbind f0, mbind f1, mbind f2, mbind eo]; rfl, ho⟩
  | mux i j l =>
    obtain ⟨c0, f0, h0⟩ := get (i := i) (by simp [Call.uses])
    obtain ⟨c1, f1, h1⟩ := get (i := j) (by simp [Call.uses])
    obtain ⟨c2, f2, h2⟩ := get (i := l) (by simp [Call.uses])
    obtain ⟨out, eo, ho⟩ := hK c0 c1 c2 h0 h1 h2 (A.evaluator.mux c0 c1 c2) (by simp [gateResults])
    exact ⟨out, by unfold App.exec; dsimp only; rw [mbind f0, mbind f1, mbind f2, mbind eo]; rfl, ho⟩
  | decrypt i => exact absurd hx (by simp [Call.Makes])
  | decryptWithNoise i => exact absurd hx (by simp [Call.Makes])

theorem run_total (hlwe : LWEParamsOk (P.lwe w) 2 m) {A : App} (hw : A.w = w) (hP : A.P = P) {sk : List Nat}
    (hn : sk.length = P.n) (he : A.encryptor.lwe = sk) (hm : m < w)
    (hK : ∀ c0 c1 c2, CipherWords w P.n c0 → CipherWords w P.n c1 → CipherWords w P.n c2 →
      ∀ r ∈ gateResults A.evaluator c0 c1 c2, ∃ out, r = some out ∧ LWEReduced (2 ^ m) P.n out) :
    ∀ (xs : List Call) {cs : List LWE}, (∀ c ∈ cs, CipherWords w P.n c) → Call.History P.n P.q cs.length xs →
    ∃ new, A.run xs cs = some (cs ++ new, []) ∧ new.length = xs.length ∧ ∀ c ∈ new, LWEReduced (2 ^ m) P.n c
  | [], cs, _, _ => ⟨[], by simp [App.run], rfl, by simp⟩
  | x :: xs, cs, hcs, hx => by
    obtain ⟨h1, h2, h3⟩ := hx
    obtain ⟨c, ec, hc⟩ := exec_total hlwe hw hP hn he hK hcs x h1 h2
    obtain ⟨new, en, hl, hr⟩ := run_total hlwe hw hP hn he hm hK xs (cs := cs ++ [c]) (fun d hd => by
      rcases List.mem_append.1 hd with hd | hd
      · exact hcs d hd
      · rw [List.mem_singleton.1 hd]; exact words_of_reduced hm hc) (by simpa using h3)
    refine ⟨c :: new, ?_, by simp [hl], fun d hd => ?_⟩
    · unfold App.run
      rw [mbind ec]
      dsimp only
      rw [mbind en]
      simp
    · rcases List.mem_cons.1 hd with rfl | hd
      · exact hc
      · exact hr d hd

/-- C72: an application never panics before it decrypts. For every parameter set with keys, every randomness of the keys
and every history of encryptions and gates on ciphertexts that exist, starting from any ciphertexts of the right number
of words, all calls return ciphertexts modulo `q`. Nothing is assumed of the noise. -/
theorem C72_application (G : GateParams w R P Q k m) (hS : StepsOk R P Q k m) (bits : Nat)
    (hB : Basis.new R.w Q bits = some P.basis) (dk : KeyDraws) (hg : GaussOk P Q dk) (E E' : Nat)
    (d : EvalDraws) (hd : EvalDrawsOk R P Q k m E E' d) :
    ∃ A, App.start w R P dk d = some A ∧
      ∀ (xs : List Call) (cs : List LWE), (∀ c ∈ cs, CipherWords w P.n c) → Call.History P.n P.q cs.length xs →
        ∃ new, A.run xs cs = some (cs ++ new, []) ∧ new.length = xs.length ∧ ∀ c ∈ new, LWEReduced P.q P.n c := by
  obtain ⟨pack, rot, sw, Z, ep, eK, hlen, hZ, V⟩ :=
    C52_evaluation_key G hS bits hB dk hg E E' d hd
  have hq : P.q = 2 ^ m := G.lwe.q
  refine ⟨⟨w, P, pack, ⟨w, R, P, rot, sw⟩, pack⟩, ?_, fun xs cs hcs hx => ?_⟩
  · unfold App.start KeyGen.generateSecretKey
    rw [mbind ep, mbind eK]; rfl
  · have := run_total G.lwe (A := ⟨w, P, pack, ⟨w, R, P, rot, sw⟩, pack⟩) rfl rfl hlen rfl G.lwe.fits
      (fun c0 c1 c2 h0 h1 h2 => by
        rw [← hlen] at h0 h1 h2 ⊢
        exact (C72_gates (K := ⟨w, R, P, rot, sw⟩) G V h0 h1 h2).1) xs hcs hx
    rw [hq]
    exact this

end

-- the small instance: two received ciphertexts of arbitrary words, an encryption with a deviate far outside the
-- tolerated range, and gates on them
example : ∃ A new, App.start 16 nativeCtx smallParams ⟨fun _ => 14, fun _ => 0x2d2d2d2d, []⟩ smallEvalDraws = some A ∧
    A.run [.encrypt true [5, 60] (-60), .nand 0 2, .mux 3 1 2, .not 4, .xor 5 0]
      [⟨[65535, 1000], 40000⟩, ⟨[0, 64], 31⟩] = some ([⟨[65535, 1000], 40000⟩, ⟨[0, 64], 31⟩] ++ new, []) ∧
      new.length = 5 ∧ ∀ c ∈ new, LWEReduced smallParams.q smallParams.n c := by
  obtain ⟨A, eA, h⟩ := C72_application small_gateParams small_stepsOk 7 (by decide +kernel)
    ⟨fun _ => 14, fun _ => 0x2d2d2d2d, []⟩ (fun h => by cases h) 1 1 _ smallEvalDraws_ok
  obtain ⟨new, e, hl, hr⟩ := h [.encrypt true [5, 60] (-60), .nand 0 2, .mux 3 1 2, .not 4, .xor 5 0]
    [⟨[65535, 1000], 40000⟩, ⟨[0, 64], 31⟩] (by simp [CipherWords, smallParams])
    (by simp [Call.History, Call.Makes, Call.uses, smallParams])
  exact ⟨A, new, eA, e, hl, hr⟩

-- a bit cannot be decrypted from the ciphertext of 2, a byte can
example : (LWEParams.mk 16 4 64).decrypt .bool [1, 0] ⟨[5, 60], 37⟩ = none ∧
    (LWEParams.mk 16 4 64).decrypt (.uint 8) [1, 0] ⟨[5, 60], 37⟩ = some 2 ∧
    (LWEParams.mk 16 4 64).decrypt (.uint 8) [1, 0] ⟨[5 + 64, 60 + 640], 37 + 128⟩ = some 2 := by decide +kernel

end Verif.Props
