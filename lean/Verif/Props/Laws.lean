import Verif.Props.Total
import Verif.SpecLaws

/-!
# C89: laws of the gates for ciphertexts
-/

namespace Verif.Props
open Fp Finset Spec Ntt

/-! ## Linear operations -/

theorem laws_modulus {q : Nat} {M : PowOf2} (h : PowOf2.new q = some M) : ∃ m, q = 2 ^ m ∧ M = ⟨2 ^ m - 1⟩ := by
  unfold PowOf2.new at h
  split at h
  · next hq =>
    obtain ⟨m, rfl⟩ := isPow2_iff.1 hq.2
    exact ⟨m, rfl, (Option.some.inj h).symm⟩
  · cases h

section
variable {w m : Nat} (hm : m ≤ w)
include hm

theorem laws_add (a b : Nat) : (PowOf2.ops w ⟨2 ^ m - 1⟩).add a b = some ((a + b) % 2 ^ m) := by
  change some (_ &&& _) = _
  rw [Nat.and_two_pow_sub_one_eq_mod, wrappingAdd, Nat.mod_mod_of_dvd _ (pow_dvd_pow 2 hm)]

theorem laws_zipCollect : ∀ x y : List Nat, LWE.zipCollect (PowOf2.ops w ⟨2 ^ m - 1⟩).add x y =
    some ((List.zipWith (· + ·) x y).map (· % 2 ^ m))
  | [], y => by cases y <;> rfl
  | _ :: _, [] => rfl
  | a :: x, b :: y => by
    rw [LWE.zipCollect, laws_add hm, mbind rfl, laws_zipCollect x y]; rfl

theorem laws_zipAssign : ∀ x y : List Nat, x.length = y.length → Poly.zipAssign (PowOf2.ops w ⟨2 ^ m - 1⟩).add x y =
    some ((List.zipWith (· + ·) x y).map (· % 2 ^ m))
  | [], [], _ => rfl
  | a :: x, b :: y, h => by
    rw [Poly.zipAssign, laws_add hm, mbind rfl, laws_zipAssign x y (by simpa using h)]; rfl

theorem laws_addRef (x y : LWE) : LWE.addRef (PowOf2.ops w ⟨2 ^ m - 1⟩) x y =
    if x.a.length = y.a.length then some (residues (2 ^ m) (plus x y)) else none := by
  unfold LWE.addRef
  split
  · rw [laws_zipCollect hm, laws_add hm]; rfl
  · rfl

theorem laws_addInplace (x y : LWE) : LWE.addInplace (PowOf2.ops w ⟨2 ^ m - 1⟩) x y =
    if x.a.length = y.a.length then some (residues (2 ^ m) (plus x y)) else none := by
  unfold LWE.addInplace
  split
  · next h => rw [laws_zipAssign hm _ _ h, laws_add hm]; rfl
  · rfl

end

theorem plus_comm (x y : LWE) : plus x y = plus y x := by
  unfold plus
  rw [Nat.add_comm, List.zipWith_comm_of_comm (f := (· + ·)) (fun a b => Nat.add_comm a b)]

theorem plus_residues (q : Nat) (x y : LWE) :
    residues q (plus (residues q x) y) = residues q (plus x y) := by
  unfold plus residues
  congr 1
  · rw [List.zipWith_map_left, List.map_zipWith, List.map_zipWith]
    congr 1; funext a b; exact Nat.mod_add_mod ..
  · exact Nat.mod_add_mod ..

theorem plus_assoc (x y z : LWE) : plus (plus x y) z = plus x (plus y z) := by
  unfold plus
  congr 1
  · dsimp only
    generalize x.a = a
    generalize y.a = b
    generalize z.a = c
    induction a generalizing b c with
    | nil => rfl
    | cons a as ih =>
      cases b with
      | nil => cases c <;> rfl
      | cons b bs =>
        cases c with
        | nil => rfl
        | cons c cs => simp only [List.zipWith_cons_cons, ih, Nat.add_assoc]
  · exact Nat.add_assoc ..

/-! ## Calls -/

/-- C89: the operands of the four gates that add their operands may be swapped: the same ciphertext results, bit for
bit, or both calls panic, whatever the key and the ciphertexts. -/
theorem C89_order (K : EvalKey) (c0 c1 : LWE) :
    K.nand c0 c1 = K.nand c1 c0 ∧ K.and c0 c1 = K.and c1 c0 ∧ K.or c0 c1 = K.or c1 c0 ∧ K.nor c0 c1 = K.nor c1 c0 := by
  have hz : ∀ (M : PowOf2) (x y : List Nat), LWE.zipCollect (PowOf2.ops K.w M).add x y =
      LWE.zipCollect (PowOf2.ops K.w M).add y x := by
    intro M x
    induction x with
    | nil => intro y; cases y <;> rfl
    | cons a x ih =>
      intro y
      cases y with
      | nil => rfl
      | cons b y =>
        rw [LWE.zipCollect, LWE.zipCollect, ih]
        have : (PowOf2.ops K.w M).add a b = (PowOf2.ops K.w M).add b a := by
          change some (_ &&& _) = some (_ &&& _)
          rw [wrappingAdd, wrappingAdd, Nat.add_comm]
        rw [this]
  have h : ∀ L, K.sumGate L c0 c1 = K.sumGate L c1 c0 := by
    intro L
    unfold EvalKey.sumGate
    rcases hM : PowOf2.new (K.P.lwe K.w).q with _ | M
    · simp [LWEParams.ops, hM]
    · have eO : (K.P.lwe K.w).ops = some (PowOf2.ops K.w M) := by simp [LWEParams.ops, hM]; rfl
      rw [mbind eO, mbind eO]
      have : LWE.addRef (PowOf2.ops K.w M) c0 c1 = LWE.addRef (PowOf2.ops K.w M) c1 c0 := by
        unfold LWE.addRef
        have hb : (PowOf2.ops K.w M).add c0.b c1.b = (PowOf2.ops K.w M).add c1.b c0.b := by
          change some (_ &&& _) = some (_ &&& _)
          rw [wrappingAdd, wrappingAdd, Nat.add_comm]
        rw [hz M c0.a c1.a, hb]
        by_cases hl : c0.a.length = c1.a.length
        · rw [if_pos hl, if_pos hl.symm]
        · rw [if_neg hl, if_neg (Ne.symm hl)]
      rw [this]
  exact ⟨h _, h _, h _, h _⟩

/-- A gate of the evaluator that adds its operands. -/
theorem laws_sumGate {K : EvalKey} (hq : K.P.q < 2 ^ K.w) (L : Ctx → Nat → Nat → Option (List Nat)) (c0 c1 : LWE) :
    K.sumGate L c0 c1 = if c0.a.length = c1.a.length then (do
      let _ ← PowOf2.new K.P.q
      let step ← K.P.lutStep
      let l ← L K.R K.P.ringDimension step
      K.bootstrap (residues K.P.q (plus c0 c1)) l) else none := by
  unfold EvalKey.sumGate
  have hlq : (K.P.lwe K.w).q = K.P.q := rfl
  rcases hM : PowOf2.new K.P.q with _ | M
  · have eO : (K.P.lwe K.w).ops = none := by simp [LWEParams.ops, hlq, hM]
    rw [eO]; split <;> rfl
  · obtain ⟨m, em, rfl⟩ := laws_modulus hM
    have eO : (K.P.lwe K.w).ops = some (PowOf2.ops K.w ⟨2 ^ m - 1⟩) := by simp [LWEParams.ops, hlq, hM]; rfl
    have hm : m ≤ K.w := by
      rw [em] at hq; exact ((Nat.pow_lt_pow_iff_right (by decide)).1 hq).le
    rw [mbind eO, laws_addRef hm, ← em]
    split <;> rfl

theorem laws_majority {K : EvalKey} (hq : K.P.q < 2 ^ K.w) (c0 c1 c2 : LWE) :
    K.majority c0 c1 c2 = if c0.a.length = c1.a.length ∧ c1.a.length = c2.a.length then (do
      let _ ← PowOf2.new K.P.q
      let step ← K.P.lutStep
      let l ← Lut.andMajority K.R K.P.ringDimension step
      K.bootstrap (residues K.P.q (plus (plus c0 c1) c2)) l) else none := by
  unfold EvalKey.majority
  have hlq : (K.P.lwe K.w).q = K.P.q := rfl
  rcases hM : PowOf2.new K.P.q with _ | M
  · have eO : (K.P.lwe K.w).ops = none := by simp [LWEParams.ops, hlq, hM]
    rw [eO]; split <;> rfl
  · obtain ⟨m, em, rfl⟩ := laws_modulus hM
    have eO : (K.P.lwe K.w).ops = some (PowOf2.ops K.w ⟨2 ^ m - 1⟩) := by simp [LWEParams.ops, hlq, hM]; rfl
    have hm : m ≤ K.w := by
      rw [em] at hq; exact ((Nat.pow_lt_pow_iff_right (by decide)).1 hq).le
    rw [mbind eO, laws_addRef hm, ← em]
    by_cases h0 : c0.a.length = c1.a.length
    · rw [if_pos h0, mbind rfl, em, laws_addInplace hm, ← em, plus_residues]
      have hl : (residues K.P.q (plus c0 c1)).a.length = c1.a.length := by
        simp [residues, plus, h0]
      rw [hl]
      by_cases h1 : c1.a.length = c2.a.length
      · rw [if_pos h1, if_pos ⟨h0, h1⟩]; rfl
      · rw [if_neg h1, if_neg (fun h => h1 h.2)]; rfl
    · rw [if_neg h0, if_neg (fun h => h0 h.1)]; rfl

/-- C89: `majority` gives the same ciphertext for all orders of its operands. -/
theorem C89_majority_order (K : EvalKey) (hq : K.P.q < 2 ^ K.w) (c0 c1 c2 : LWE) :
    K.majority c0 c1 c2 = K.majority c1 c0 c2 ∧ K.majority c0 c1 c2 = K.majority c0 c2 c1 := by
  rw [laws_majority hq, laws_majority hq, laws_majority hq, plus_comm c0 c1, plus_assoc c0 c2 c1, plus_comm c2 c1,
    ← plus_assoc, plus_comm c0 c1]
  constructor
  · congr 1
    exact propext ⟨fun h => ⟨h.1.symm, h.1.trans h.2⟩, fun h => ⟨h.1.symm, h.1.trans h.2⟩⟩
  · congr 1
    exact propext ⟨fun h => ⟨h.1.trans h.2, h.2.symm⟩, fun h => ⟨h.1.trans h.2, h.2.symm⟩⟩

/-- C89: the result of `nand`, `and`, `or` and `nor` depends only on the sum of the operands modulo `q`. -/
theorem C89_sum (K : EvalKey) (hq : K.P.q < 2 ^ K.w) {c0 c1 d0 d1 : LWE} (hc : c0.a.length = c1.a.length)
    (hd : d0.a.length = d1.a.length) (h : residues K.P.q (plus c0 c1) = residues K.P.q (plus d0 d1)) :
    K.nand c0 c1 = K.nand d0 d1 ∧ K.and c0 c1 = K.and d0 d1 ∧ K.or c0 c1 = K.or d0 d1 ∧ K.nor c0 c1 = K.nor d0 d1 := by
  have : ∀ L, K.sumGate L c0 c1 = K.sumGate L d0 d1 := fun L => by
    rw [laws_sumGate hq, laws_sumGate hq, if_pos hc, if_pos hd, h]
  exact ⟨this _, this _, this _, this _⟩

/-- C89: `and` is `majority` with a trivial encryption of `false`. -/
theorem C89_and_is_majority (K : EvalKey) (hq : K.P.q < 2 ^ K.w) (c0 c1 : LWE) :
    K.and c0 c1 = K.majority c0 c1 (trivialFalse c1.a.length) := by
  unfold EvalKey.and
  rw [laws_sumGate hq, laws_majority hq]
  have h0 : (trivialFalse c1.a.length).a.length = c1.a.length := by simp [trivialFalse]
  rw [h0]
  by_cases h : c0.a.length = c1.a.length
  · have : plus (plus c0 c1) (trivialFalse c1.a.length) = plus c0 c1 := by
      have hz : ∀ l : List Nat, List.zipWith (· + ·) l (List.replicate l.length 0) = l := by
        intro l
        induction l with
        | nil => rfl
        | cons a l ih => rw [List.length_cons, List.replicate_succ, List.zipWith_cons_cons, ih, Nat.add_zero]
      have hl : (List.zipWith (· + ·) c0.a c1.a).length = c1.a.length := by simp [h]
      unfold trivialFalse
      conv_lhs => rw [← hl]
      simp only [plus, Nat.add_zero, hz]
    rw [if_pos h, if_pos ⟨h, rfl⟩, this]
  · rw [if_neg h, if_neg (fun x => h x.1)]

/-! ## Differences and negations -/

theorem laws_mod_eq {q a b : Nat} (h : (a : ZMod q) = b) : a % q = b % q := (ZMod.natCast_eq_natCast_iff' a b q).1 h

theorem laws_two_pow {w m : Nat} (hm : m ≤ w) : ((2 ^ w : Nat) : ZMod (2 ^ m)) = 0 :=
  (ZMod.natCast_eq_zero_iff _ _).2 (pow_dvd_pow 2 hm)

section
variable {w m : Nat} (hm : m ≤ w)
include hm

theorem laws_sub (a b : Nat) : (PowOf2.ops w ⟨2 ^ m - 1⟩).sub a b = some ((a + 2 ^ w - b) % 2 ^ m) := by
  change some (_ &&& _) = _
  rw [Nat.and_two_pow_sub_one_eq_mod, wrappingSub, Nat.mod_mod_of_dvd _ (pow_dvd_pow 2 hm)]

theorem laws_neg (a : Nat) : (PowOf2.ops w ⟨2 ^ m - 1⟩).neg a = some ((2 ^ w - a) % 2 ^ m) := by
  change some (_ &&& _) = _
  rw [Nat.and_two_pow_sub_one_eq_mod, wrappingNeg, Nat.mod_mod_of_dvd _ (pow_dvd_pow 2 hm)]

theorem laws_sub_eq {a b a' b' : Nat} (hb : b < 2 ^ w) (hb' : b' < 2 ^ w) (h : (a + b') % 2 ^ m = (a' + b) % 2 ^ m) :
    (PowOf2.ops w ⟨2 ^ m - 1⟩).sub a b = (PowOf2.ops w ⟨2 ^ m - 1⟩).sub a' b' := by
  rw [laws_sub hm, laws_sub hm]
  congr 1
  refine laws_mod_eq ?_
  have := (ZMod.natCast_eq_natCast_iff' (a + b') (a' + b) (2 ^ m)).2 h
  rw [Nat.cast_sub (by omega), Nat.cast_sub (by omega), Nat.cast_add, Nat.cast_add, laws_two_pow hm]
  push_cast at this
  linear_combination this

theorem laws_zip_sub : ∀ x y x' y' : List Nat, x.length = y.length → x'.length = y'.length → x.length = x'.length →
    (∀ a ∈ y, a < 2 ^ w) → (∀ a ∈ y', a < 2 ^ w) →
    (List.zipWith (· + ·) x y').map (· % 2 ^ m) = (List.zipWith (· + ·) x' y).map (· % 2 ^ m) →
    LWE.zipCollect (PowOf2.ops w ⟨2 ^ m - 1⟩).sub x y = LWE.zipCollect (PowOf2.ops w ⟨2 ^ m - 1⟩).sub x' y'
  | [], [], [], [], _, _, _, _, _, _ => rfl
  | a :: x, b :: y, a' :: x', b' :: y', h1, h2, h3, h4, h5, h6 => by
    simp only [List.zipWith_cons_cons, List.map_cons, List.cons.injEq] at h6
    rw [LWE.zipCollect, LWE.zipCollect, laws_sub_eq hm (h4 b List.mem_cons_self) (h5 b' List.mem_cons_self) h6.1,
      laws_zip_sub x y x' y' (by simpa using h1) (by simpa using h2) (by simpa using h3)
        (fun c hc => h4 c (List.mem_cons_of_mem _ hc)) (fun c hc => h5 c (List.mem_cons_of_mem _ hc)) h6.2]

theorem laws_mapM_neg : ∀ x : List Nat, x.mapM (PowOf2.ops w ⟨2 ^ m - 1⟩).neg =
    some (x.map fun a => (2 ^ w - a) % 2 ^ m)
  | [] => rfl
  | a :: x => by rw [List.mapM_cons, laws_neg hm, mbind rfl, laws_mapM_neg x]; rfl

end

/-- C89: the result of `xor` and `xnor` depends only on the difference of the operands modulo `q`. -/
theorem C89_difference (K : EvalKey) (hq : K.P.q < 2 ^ K.w) {n : Nat} {c0 c1 d0 d1 : LWE} (hc0 : c0.a.length = n)
    (hc1 : CipherWords K.w n c1) (hd0 : d0.a.length = n) (hd1 : CipherWords K.w n d1)
    (h : residues K.P.q (plus c0 d1) = residues K.P.q (plus d0 c1)) :
    K.xor c0 c1 = K.xor d0 d1 ∧ K.xnor c0 c1 = K.xnor d0 d1 := by
  have : ∀ L, K.diffGate L c0 c1 = K.diffGate L d0 d1 := fun L => by
    unfold EvalKey.diffGate
    have hlq : (K.P.lwe K.w).q = K.P.q := rfl
    rcases hM : PowOf2.new K.P.q with _ | M
    · have eO : (K.P.lwe K.w).ops = none := by simp [LWEParams.ops, hlq, hM]
      rw [eO]; rfl
    · obtain ⟨m, em, rfl⟩ := laws_modulus hM
      have eO : (K.P.lwe K.w).ops = some (PowOf2.ops K.w ⟨2 ^ m - 1⟩) := by simp [LWEParams.ops, hlq, hM]; rfl
      have hm : m ≤ K.w := by
        rw [em] at hq; exact ((Nat.pow_lt_pow_iff_right (by decide)).1 hq).le
      rw [em] at h
      have ha := congrArg LWE.a h
      have hb := congrArg LWE.b h
      dsimp only [residues, plus] at ha hb
      rw [mbind eO, mbind eO]
      have : LWE.subRef (PowOf2.ops K.w ⟨2 ^ m - 1⟩) c0 c1 = LWE.subRef (PowOf2.ops K.w ⟨2 ^ m - 1⟩) d0 d1 := by
        unfold LWE.subRef
        rw [if_pos (hc0.trans hc1.1.1.symm), if_pos (hd0.trans hd1.1.1.symm),
          laws_zip_sub hm c0.a c1.a d0.a d1.a (hc0.trans hc1.1.1.symm) (hd0.trans hd1.1.1.symm) (hc0.trans hd0.symm)
            hc1.1.2 hd1.1.2 ha, laws_sub_eq hm hc1.2 hd1.2 hb]
      rw [this]
  exact ⟨this _, this _⟩

/-- C89: `xor` (`xnor`) of a ciphertext with itself is one and the same ciphertext for all ciphertexts. -/
theorem C89_self (K : EvalKey) (hq : K.P.q < 2 ^ K.w) {n : Nat} {c d : LWE} (hc : CipherWords K.w n c)
    (hd : CipherWords K.w n d) : K.xor c c = K.xor d d ∧ K.xnor c c = K.xnor d d :=
  C89_difference K hq hc.1.1 hc hd.1.1 hd (by rw [plus_comm])

theorem laws_not {K : EvalKey} (hq : K.P.q < 2 ^ K.w) (hw : 2 < K.w) (c : LWE) :
    K.not c = (PowOf2.new K.P.q).map fun _ =>
      ⟨c.a.map fun a => (2 ^ K.w - a) % K.P.q, ((2 ^ K.w - c.b) % K.P.q + K.P.q / 4) % K.P.q⟩ := by
  unfold EvalKey.not LWEParams.not
  have hlq : (K.P.lwe K.w).q = K.P.q := rfl
  rcases hM : PowOf2.new K.P.q with _ | M
  · have eO : (K.P.lwe K.w).ops = none := by simp [LWEParams.ops, hlq, hM]
    rw [eO]; rfl
  · obtain ⟨m, em, rfl⟩ := laws_modulus hM
    have eO : (K.P.lwe K.w).ops = some (PowOf2.ops K.w ⟨2 ^ m - 1⟩) := by simp [LWEParams.ops, hlq, hM]; rfl
    have hm : m ≤ K.w := by
      rw [em] at hq; exact ((Nat.pow_lt_pow_iff_right (by decide)).1 hq).le
    have es : shrC (K.P.lwe K.w).w (K.P.lwe K.w).q 2 = some (2 ^ m / 4) := by
      unfold shrC
      rw [if_pos (show 2 < (K.P.lwe K.w).w from hw), hlq, em]
    have en : LWE.neg (PowOf2.ops K.w ⟨2 ^ m - 1⟩) c =
        some ⟨c.a.map fun a => (2 ^ K.w - a) % 2 ^ m, (2 ^ K.w - c.b) % 2 ^ m⟩ := by
      unfold LWE.neg; rw [laws_mapM_neg hm, laws_neg hm]; rfl
    rw [mbind eO, mbind en, mbind es, laws_add hm, em]
    rfl

/-- C89: two negations give the ciphertext back, with every word reduced modulo `q`. -/
theorem C89_not_not (K : EvalKey) (hq : K.P.q < 2 ^ K.w) (hw : 2 < K.w) {n : Nat} {c d : LWE}
    (hc : CipherWords K.w n c) (hd : K.not c = some d) : K.not d = some (residues K.P.q c) := by
  rw [laws_not hq hw] at hd ⊢
  rcases hM : PowOf2.new K.P.q with _ | M
  · rw [hM] at hd; cases hd
  · rw [hM] at hd
    obtain ⟨m, em, rfl⟩ := laws_modulus hM
    have hm : m ≤ K.w := by
      rw [em] at hq; exact ((Nat.pow_lt_pow_iff_right (by decide)).1 hq).le
    have hle : 2 ^ m ≤ 2 ^ K.w := Nat.pow_le_pow_right (by decide) hm
    have hp := Nat.two_pow_pos m
    obtain rfl := (Option.some.inj hd).symm
    rw [em]
    rw [Option.map_some]
    refine congrArg some ?_
    unfold residues
    dsimp only
    congr 1
    · rw [List.map_map]
      refine List.map_congr_left fun a ha => laws_mod_eq ?_
      have := Nat.mod_lt (2 ^ K.w - a) hp
      change ((2 ^ K.w - (2 ^ K.w - a) % 2 ^ m : Nat) : ZMod (2 ^ m)) = a
      rw [Nat.cast_sub (by omega), ZMod.natCast_mod, Nat.cast_sub (hc.1.2 a ha).le, laws_two_pow hm]
      ring
    · refine laws_mod_eq ?_
      have := Nat.mod_lt ((2 ^ K.w - c.b) % 2 ^ m + 2 ^ m / 4) hp
      rw [Nat.cast_add, ZMod.natCast_mod, Nat.cast_sub (by omega), ZMod.natCast_mod, Nat.cast_add, ZMod.natCast_mod,
        Nat.cast_sub hc.2.le, laws_two_pow hm]
      ring

theorem laws_not_words {K : EvalKey} (hq : K.P.q < 2 ^ K.w) (hw : 2 < K.w) {n : Nat} {c d : LWE}
    (hc : CipherWords K.w n c) (hd : K.not c = some d) : CipherWords K.w n d ∧
    residues K.P.q (plus d c) = ⟨List.replicate n 0, (K.P.q / 4) % K.P.q⟩ := by
  rw [laws_not hq hw] at hd
  rcases hM : PowOf2.new K.P.q with _ | M
  · rw [hM] at hd; cases hd
  · rw [hM] at hd
    obtain ⟨m, em, rfl⟩ := laws_modulus hM
    have hm : m ≤ K.w := by
      rw [em] at hq; exact ((Nat.pow_lt_pow_iff_right (by decide)).1 hq).le
    have hle : 2 ^ m ≤ 2 ^ K.w := Nat.pow_le_pow_right (by decide) hm
    have hp := Nat.two_pow_pos m
    obtain rfl := (Option.some.inj hd).symm
    rw [em]
    refine ⟨⟨⟨by simpa using hc.1.1, fun x hx => ?_⟩, (Nat.mod_lt _ hp).trans_le hle⟩, ?_⟩
    · obtain ⟨a, -, rfl⟩ := List.mem_map.1 hx
      exact (Nat.mod_lt _ hp).trans_le hle
    · unfold residues plus
      congr 1
      · rw [← hc.1.1]
        have := hc.1.2
        revert this
        generalize c.a = l
        intro hl
        induction l with
        | nil => rfl
        | cons a l ih =>
          simp only [List.map_cons, List.zipWith_cons_cons, List.length_cons, List.replicate_succ, List.cons.injEq]
          refine ⟨?_, ih fun x hx => hl x (List.mem_cons_of_mem _ hx)⟩
          have ha := hl a List.mem_cons_self
          have : ((2 ^ K.w - a) % 2 ^ m + a) % 2 ^ m = 0 % 2 ^ m := by
            refine laws_mod_eq ?_
            rw [Nat.cast_add, ZMod.natCast_mod, Nat.cast_sub ha.le, laws_two_pow hm]
            push_cast; ring
          rw [this, Nat.zero_mod]
      · refine laws_mod_eq ?_
        rw [Nat.cast_add, ZMod.natCast_mod, Nat.cast_add, ZMod.natCast_mod, Nat.cast_sub hc.2.le, laws_two_pow hm]
        ring

/-- C89: `xor` (`xnor`) of two negated ciphertexts is that of the swapped ciphertexts. -/
theorem C89_both_negated (K : EvalKey) (hq : K.P.q < 2 ^ K.w) (hw : 2 < K.w) {n : Nat} {c0 c1 d0 d1 : LWE}
    (h0 : CipherWords K.w n c0) (h1 : CipherWords K.w n c1) (e0 : K.not c0 = some d0) (e1 : K.not c1 = some d1) :
    K.xor d0 d1 = K.xor c1 c0 ∧ K.xnor d0 d1 = K.xnor c1 c0 := by
  obtain ⟨w0, s0⟩ := laws_not_words hq hw h0 e0
  obtain ⟨w1, s1⟩ := laws_not_words hq hw h1 e1
  exact C89_difference K hq w0.1.1 w1 h1.1.1 h0 (by rw [s0, plus_comm, s1])

theorem plus_residues_left_eq {q : Nat} {x x' y : LWE} (h : residues q x = residues q x') :
    residues q (plus x y) = residues q (plus x' y) := by
  rw [← plus_residues q x y, h, plus_residues]

/-- C89: `mux` with a negated selector is `mux` with swapped alternatives. -/
theorem C89_negated_selector (K : EvalKey) (hq : K.P.q < 2 ^ K.w) (hw : 2 < K.w) {n : Nat} {c0 c1 c2 d : LWE}
    (h0 : CipherWords K.w n c0) (h2 : c2.a.length = n) (e : K.not c0 = some d) :
    K.mux d c1 c2 = K.mux c0 c2 c1 := by
  have e2 := C89_not_not K hq hw h0 e
  unfold EvalKey.mux
  have hlq : (K.P.lwe K.w).q = K.P.q := rfl
  rcases hM : PowOf2.new K.P.q with _ | M
  · have eO : (K.P.lwe K.w).ops = none := by simp [LWEParams.ops, hlq, hM]
    rw [eO]; rfl
  · obtain ⟨m, em, rfl⟩ := laws_modulus hM
    have eO : (K.P.lwe K.w).ops = some (PowOf2.ops K.w ⟨2 ^ m - 1⟩) := by simp [LWEParams.ops, hlq, hM]; rfl
    have hm : m ≤ K.w := by
      rw [em] at hq; exact ((Nat.pow_lt_pow_iff_right (by decide)).1 hq).le
    rw [mbind eO, mbind eO, mbind e2, mbind e]
    have ea : K.and (residues K.P.q c0) c2 = K.and c0 c2 := by
      refine (C89_sum K hq ?_ ?_ (plus_residues _ _ _)).2.1
      · simpa [residues, h0.1.1] using h2.symm
      · rw [h0.1.1, h2]
    rw [ea]
    rcases K.and d c1 with _ | t0
    · rcases K.and c0 c2 with _ | t1 <;> rfl
    · rcases K.and c0 c2 with _ | t1
      · rfl
      · rw [mbind rfl, mbind rfl, mbind rfl, mbind rfl, laws_addInplace hm, laws_addInplace hm, plus_comm]
        by_cases hl : t0.a.length = t1.a.length
        · rw [if_pos hl, if_pos hl.symm]
        · rw [if_neg hl, if_neg (Ne.symm hl)]

/-! ## Circuits -/

section
variable {K : EvalKey} {Q k m : Nat} [Fact Q.Prime] (G : GateParams K.w K.R K.P Q k m) {sk z : List Nat}
  {S Z : List ℤ} {E E' : Nat} (V : K.Valid Q k m sk z S Z E E')
include G V

/-- Every circuit runs to the end, whatever the noise. -/
theorem laws_run_total {c : Nat → LWE} (hc : ∀ i, LWEReduced (2 ^ m) sk.length (c i)) : ∀ X : Circuit,
    ∃ out, X.run K c = some out ∧ LWEReduced (2 ^ m) sk.length out
  | .input i => ⟨_, rfl, hc i⟩
  | .not x => by
    obtain ⟨a, ea, ha⟩ := laws_run_total hc x
    have wa := words_of_reduced G.lwe.fits ha
    obtain ⟨o, eo, ho⟩ := (C72_gates G V wa wa wa).1 _ (by simp [gateResults] : K.not a ∈ _)
    exact ⟨o, by rw [Circuit.run, mbind ea, eo], ho⟩
  | .nand x y => by
    obtain ⟨a, ea, ha⟩ := laws_run_total hc x
    obtain ⟨b, eb, hb⟩ := laws_run_total hc y
    have wa := words_of_reduced G.lwe.fits ha
    have wb := words_of_reduced G.lwe.fits hb
    obtain ⟨o, eo, ho⟩ := (C72_gates G V wa wb wb).1 (K.nand a b) (by simp [gateResults])
    exact ⟨o, by rw [Circuit.run, mbind ea, mbind eb, eo], ho⟩
  | .and x y => by
    obtain ⟨a, ea, ha⟩ := laws_run_total hc x
    obtain ⟨b, eb, hb⟩ := laws_run_total hc y
    have wa := words_of_reduced G.lwe.fits ha
    have wb := words_of_reduced G.lwe.fits hb
    obtain ⟨o, eo, ho⟩ := (C72_gates G V wa wb wb).1 (K.and a b) (by simp [gateResults])
    exact ⟨o, by rw [Circuit.run, mbind ea, mbind eb, eo], ho⟩
  | .or x y => by
    obtain ⟨a, ea, ha⟩ := laws_run_total hc x
    obtain ⟨b, eb, hb⟩ := laws_run_total hc y
    have wa := words_of_reduced G.lwe.fits ha
    have wb := words_of_reduced G.lwe.fits hb
    obtain ⟨o, eo, ho⟩ := (C72_gates G V wa wb wb).1 (K.or a b) (by simp [gateResults])
    exact ⟨o, by rw [Circuit.run, mbind ea, mbind eb, eo], ho⟩
  | .nor x y => by
    obtain ⟨a, ea, ha⟩ := laws_run_total hc x
    obtain ⟨b, eb, hb⟩ := laws_run_total hc y
    have wa := words_of_reduced G.lwe.fits ha
    have wb := words_of_reduced G.lwe.fits hb
    obtain ⟨o, eo, ho⟩ := (C72_gates G V wa wb wb).1 (K.nor a b) (by simp [gateResults])
    exact ⟨o, by rw [Circuit.run, mbind ea, mbind eb, eo], ho⟩
  | .xor x y => by
    obtain ⟨a, ea, ha⟩ := laws_run_total hc x
    obtain ⟨b, eb, hb⟩ := laws_run_total hc y
    have wa := words_of_reduced G.lwe.fits ha
    have wb := words_of_reduced G.lwe.fits hb
    obtain ⟨o, eo, ho⟩ := (C72_gates G V wa wb wb).1 (K.xor a b) (by simp [gateResults])
    exact ⟨o, by rw [Circuit.run, mbind ea, mbind eb, eo], ho⟩
  | .xnor x y => by
    obtain ⟨a, ea, ha⟩ := laws_run_total hc x
    obtain ⟨b, eb, hb⟩ := laws_run_total hc y
    have wa := words_of_reduced G.lwe.fits ha
    have wb := words_of_reduced G.lwe.fits hb
    obtain ⟨o, eo, ho⟩ := (C72_gates G V wa wb wb).1 (K.xnor a b) (by simp [gateResults])
    exact ⟨o, by rw [Circuit.run, mbind ea, mbind eb, eo], ho⟩
  | .majority x y z => by
    obtain ⟨a, ea, ha⟩ := laws_run_total hc x
    obtain ⟨b, eb, hb⟩ := laws_run_total hc y
    obtain ⟨d, ed, hd⟩ := laws_run_total hc z
    have wa := words_of_reduced G.lwe.fits ha
    have wb := words_of_reduced G.lwe.fits hb
    have wd := words_of_reduced G.lwe.fits hd
    obtain ⟨o, eo, ho⟩ := (C72_gates G V wa wb wd).1 (K.majority a b d) (by simp [gateResults])
    exact ⟨o, by rw [Circuit.run, mbind ea, mbind eb, mbind ed, eo], ho⟩
  | .mux x y z => by
    obtain ⟨a, ea, ha⟩ := laws_run_total hc x
    obtain ⟨b, eb, hb⟩ := laws_run_total hc y
    obtain ⟨d, ed, hd⟩ := laws_run_total hc z
    have wa := words_of_reduced G.lwe.fits ha
    have wb := words_of_reduced G.lwe.fits hb
    have wd := words_of_reduced G.lwe.fits hd
    obtain ⟨o, eo, ho⟩ := (C72_gates G V wa wb wd).1 (K.mux a b d) (by simp [gateResults])
    exact ⟨o, by rw [Circuit.run, mbind ea, mbind eb, mbind ed, eo], ho⟩

theorem laws_rewrites {c : Nat → LWE} (hc : ∀ i, LWEReduced (2 ^ m) sk.length (c i)) {X Y : Circuit}
    (h : X.Rewrites Y) : X.run K c = Y.run K c := by
  have hqe : K.P.q = 2 ^ m := G.lwe.q
  have hq : K.P.q < 2 ^ K.w := by rw [hqe]; exact two_pow_lt G.lwe.fits
  have hw : 2 < K.w := by have := G.lwe.fits; have := G.lwe.lt; change m < K.w at *; omega
  have hW : ∀ {a : LWE}, LWEReduced (2 ^ m) sk.length a → CipherWords K.w sk.length a :=
    fun h => words_of_reduced G.lwe.fits h
  have T := laws_run_total G V hc
  induction h with
  | refl x => rfl
  | symm _ ih => exact ih.symm
  | trans _ _ i1 i2 => exact i1.trans i2
  | inNot _ i => rw [Circuit.run, Circuit.run, i]
  | inNand _ _ i j => rw [Circuit.run, Circuit.run, i, j]
  | inAnd _ _ i j => rw [Circuit.run, Circuit.run, i, j]
  | inOr _ _ i j => rw [Circuit.run, Circuit.run, i, j]
  | inNor _ _ i j => rw [Circuit.run, Circuit.run, i, j]
  | inXor _ _ i j => rw [Circuit.run, Circuit.run, i, j]
  | inXnor _ _ i j => rw [Circuit.run, Circuit.run, i, j]
  | inMajority _ _ _ i j l => rw [Circuit.run, Circuit.run, i, j, l]
  | inMux _ _ _ i j l => rw [Circuit.run, Circuit.run, i, j, l]
  | nandComm x y =>
    obtain ⟨a, ea, -⟩ := T x
    obtain ⟨b, eb, -⟩ := T y
    rw [Circuit.run, Circuit.run, ea, eb]; exact (C89_order K a b).1
  | andComm x y =>
    obtain ⟨a, ea, -⟩ := T x
    obtain ⟨b, eb, -⟩ := T y
    rw [Circuit.run, Circuit.run, ea, eb]; exact (C89_order K a b).2.1
  | orComm x y =>
    obtain ⟨a, ea, -⟩ := T x
    obtain ⟨b, eb, -⟩ := T y
    rw [Circuit.run, Circuit.run, ea, eb]; exact (C89_order K a b).2.2.1
  | norComm x y =>
    obtain ⟨a, ea, -⟩ := T x
    obtain ⟨b, eb, -⟩ := T y
    rw [Circuit.run, Circuit.run, ea, eb]; exact (C89_order K a b).2.2.2
  | majorityFirst x y z =>
    obtain ⟨a, ea, -⟩ := T x
    obtain ⟨b, eb, -⟩ := T y
    obtain ⟨d, ed, -⟩ := T z
    rw [Circuit.run, Circuit.run, ea, eb, ed]; exact (C89_majority_order K hq a b d).1
  | majorityLast x y z =>
    obtain ⟨a, ea, -⟩ := T x
    obtain ⟨b, eb, -⟩ := T y
    obtain ⟨d, ed, -⟩ := T z
    rw [Circuit.run, Circuit.run, ea, eb, ed]; exact (C89_majority_order K hq a b d).2
  | notNot x =>
    obtain ⟨a, ea, ha⟩ := T x
    obtain ⟨b, eb, -⟩ := T (.not x)
    rw [Circuit.run, eb]
    rw [Circuit.run, ea] at eb
    have := C89_not_not K hq hw (hW ha) eb
    rw [hqe, residues_of_reduced ha] at this
    rw [ea]; exact this
  | muxNot x y z =>
    obtain ⟨a, ea, ha⟩ := T x
    obtain ⟨b, eb, -⟩ := T y
    obtain ⟨d, ed, hd⟩ := T z
    obtain ⟨n, en, -⟩ := T (.not x)
    rw [Circuit.run, en, Circuit.run, ea, eb, ed]
    rw [Circuit.run, ea] at en
    exact C89_negated_selector K hq hw (hW ha) hd.1.1 en
  | xorNot x y =>
    obtain ⟨a, ea, ha⟩ := T x
    obtain ⟨b, eb, hb⟩ := T y
    obtain ⟨a', ea', -⟩ := T (.not x)
    obtain ⟨b', eb', -⟩ := T (.not y)
    rw [Circuit.run, ea', eb', Circuit.run, ea, eb]
    rw [Circuit.run, ea] at ea'
    rw [Circuit.run, eb] at eb'
    exact (C89_both_negated K hq hw (hW ha) (hW hb) ea' eb').1
  | xnorNot x y =>
    obtain ⟨a, ea, ha⟩ := T x
    obtain ⟨b, eb, hb⟩ := T y
    obtain ⟨a', ea', -⟩ := T (.not x)
    obtain ⟨b', eb', -⟩ := T (.not y)
    rw [Circuit.run, ea', eb', Circuit.run, ea, eb]
    rw [Circuit.run, ea] at ea'
    rw [Circuit.run, eb] at eb'
    exact (C89_both_negated K hq hw (hW ha) (hW hb) ea' eb').2
  | xorSelf x y =>
    obtain ⟨a, ea, ha⟩ := T x
    obtain ⟨b, eb, hb⟩ := T y
    rw [Circuit.run, Circuit.run, ea, eb]
    exact (C89_self K hq (hW ha) (hW hb)).1
  | xnorSelf x y =>
    obtain ⟨a, ea, ha⟩ := T x
    obtain ⟨b, eb, hb⟩ := T y
    rw [Circuit.run, Circuit.run, ea, eb]
    exact (C89_self K hq (hW ha) (hW hb)).2

end

/-- C89: with a generated evaluation key, two circuits of any size that arise from each other by the laws give, on all
ciphertexts modulo `q`, one and the same ciphertext. Nothing is assumed of the noise. -/
theorem C89_circuits {w : Nat} {R : Ctx} {P : Params} {Q k m : Nat} [Fact Q.Prime] (G : GateParams w R P Q k m)
    (hS : StepsOk R P Q k m) (bits : Nat) (hB : Basis.new R.w Q bits = some P.basis) (dk : KeyDraws)
    (hg : GaussOk P Q dk) (E E' : Nat) (d : EvalDraws) (hd : EvalDrawsOk R P Q k m E E' d) :
    ∃ A, App.start w R P dk d = some A ∧
      ∀ c : Nat → LWE, (∀ i, LWEReduced P.q P.n (c i)) → ∀ X Y : Circuit, X.Rewrites Y →
        ∃ out, X.run A.evaluator c = some out ∧ Y.run A.evaluator c = some out := by
  obtain ⟨pack, rot, sw, Z, ep, eK, hlen, hZ, V⟩ :=
    C52_evaluation_key G hS bits hB dk hg E E' d hd
  have hq : P.q = 2 ^ m := G.lwe.q
  refine ⟨⟨w, P, pack, ⟨w, R, P, rot, sw⟩, pack⟩, ?_, fun c hc X Y h => ?_⟩
  · unfold App.start KeyGen.generateSecretKey
    rw [mbind ep, mbind eK]; rfl
  · rw [hq, ← hlen] at hc
    obtain ⟨out, eo, -⟩ := laws_run_total (K := ⟨w, R, P, rot, sw⟩) G V hc X
    exact ⟨out, eo, by rw [← laws_rewrites (K := ⟨w, R, P, rot, sw⟩) G V hc h, eo]⟩

/-- The laws hold for bits. -/
theorem C89_bits {X Y : Circuit} (h : X.Rewrites Y) (b : Nat → Bool) : X.eval b = Y.eval b := by
  induction h with
  | refl x => rfl
  | symm _ ih => exact ih.symm
  | trans _ _ i1 i2 => exact i1.trans i2
  | _ => simp_all [Circuit.eval, Bool.and_comm, Bool.or_comm, Spec.maj]; try grind

/-- Bits 1 and 0 under the key `(1, -1)` of the small instance, with noise. -/
def lawsInput : Nat → LWE := fun i => if i = 0 then ⟨[5, 60], 26⟩ else ⟨[6, 61], 8⟩

/-- Pairs of circuits that compute the same bit. -/
def lawsPairs : List (Circuit × Circuit) :=
  [(Circuit.xor (.input 0) (.input 1), Circuit.xor (.input 1) (.input 0)),
    (.nand (.input 0) (.input 1), .not (.and (.input 0) (.input 1))),
    (.xnor (.input 0) (.input 1), .not (.xor (.input 0) (.input 1))),
    (.or (.input 0) (.input 1), .nand (.not (.input 0)) (.not (.input 1)))]

theorem laws_bits_agree : ∀ p ∈ lawsPairs, ∀ b, p.1.eval b = p.2.eval b := by
  intro p hp b
  simp only [lawsPairs, List.mem_cons, List.not_mem_nil, or_false] at hp
  rcases hp with rfl | rfl | rfl | rfl <;> simp only [Circuit.eval] <;>
    cases b 0 <;> cases b 1 <;> rfl

/-- The small instance, started. -/
def lawsStart : Option App :=
  App.start 16 nativeCtx smallParams ⟨fun _ => 14, fun _ => 0x2d2d2d2d, []⟩ smallEvalDraws

theorem laws_xor : (lawsStart.bind fun A => Circuit.run A.evaluator lawsInput (.xor (.input 0) (.input 1))) =
    some ⟨[9, 49], 40⟩ := by
  decide +kernel

theorem laws_xor_swapped : (lawsStart.bind fun A => Circuit.run A.evaluator lawsInput (.xor (.input 1) (.input 0))) =
    some ⟨[19, 44], 55⟩ := by
  decide +kernel

theorem laws_xnor : (lawsStart.bind fun A => Circuit.run A.evaluator lawsInput (.xnor (.input 0) (.input 1))) =
    some ⟨[10, 53], 22⟩ := by
  decide +kernel

theorem laws_nand : (lawsStart.bind fun A => Circuit.run A.evaluator lawsInput (.nand (.input 0) (.input 1))) =
    some ⟨[40, 38], 18⟩ := by
  decide +kernel

theorem laws_not_and : (lawsStart.bind fun A => Circuit.run A.evaluator lawsInput (.not (.and (.input 0) (.input 1)))) =
    some ⟨[20, 60], 40⟩ := by
  decide +kernel

theorem laws_not_xor : (lawsStart.bind fun A => Circuit.run A.evaluator lawsInput (.not (.xor (.input 0) (.input 1)))) =
    some ⟨[55, 15], 40⟩ := by
  decide +kernel

theorem laws_or : (lawsStart.bind fun A => Circuit.run A.evaluator lawsInput (.or (.input 0) (.input 1))) =
    some ⟨[9, 29], 60⟩ := by
  decide +kernel

theorem laws_nand_nots : (lawsStart.bind fun A => Circuit.run A.evaluator lawsInput (.nand (.not (.input 0)) (.not (.input 1)))) =
    some ⟨[49, 19], 47⟩ := by
  decide +kernel

theorem laws_at {A : App} (eA : lawsStart = some A) {X : Circuit} {c : LWE}
    (h : (lawsStart.bind fun A => X.run A.evaluator lawsInput) = some c) :
    X.run A.evaluator lawsInput = some c := by rw [eA] at h; exact h

theorem laws_ne {A : App} (eA : lawsStart = some A) {X Y : Circuit} {c c' : LWE}
    (h : (lawsStart.bind fun A => X.run A.evaluator lawsInput) = some c)
    (h' : (lawsStart.bind fun A => Y.run A.evaluator lawsInput) = some c') (hne : c ≠ c') :
    X.run A.evaluator lawsInput ≠ Y.run A.evaluator lawsInput := by
  rw [laws_at eA h, laws_at eA h']
  exact fun e => hne (Option.some.inj e)

theorem laws_differ {A : App} (eA : lawsStart = some A) :
    ∀ p ∈ lawsPairs, p.1.run A.evaluator lawsInput ≠ p.2.run A.evaluator lawsInput := by
  intro p hp
  simp only [lawsPairs, List.mem_cons, List.not_mem_nil, or_false] at hp
  rcases hp with rfl | rfl | rfl | rfl
  · exact laws_ne eA laws_xor laws_xor_swapped (by decide)
  · exact laws_ne eA laws_nand laws_not_and (by decide)
  · exact laws_ne eA laws_xnor laws_not_xor (by decide)
  · exact laws_ne eA laws_or laws_nand_nots (by decide)

/-- C89: other laws of Boolean algebra hold for the bits but not for the ciphertexts: the small instance returns
different ciphertexts for swapped operands of `xor`, for `nand` and the negated `and`, for `xnor` and the negated
`xor`, and for `or` and the `nand` of the negations. -/
theorem C89_not_laws : ∃ A, App.start 16 nativeCtx smallParams ⟨fun _ => 14, fun _ => 0x2d2d2d2d, []⟩ smallEvalDraws =
      some A ∧
    ∀ p ∈ lawsPairs,
      (∀ b, p.1.eval b = p.2.eval b) ∧ p.1.run A.evaluator lawsInput ≠ p.2.run A.evaluator lawsInput := by
  obtain ⟨A, eA, -⟩ := Option.bind_eq_some_iff.1 laws_xor
  exact ⟨A, eA, fun p hp => ⟨laws_bits_agree p hp, laws_differ eA p hp⟩⟩

-- the hypotheses of the laws are met by the small instance; a rewriting of depth two
example : ∃ A, App.start 16 nativeCtx smallParams ⟨fun _ => 14, fun _ => 0x2d2d2d2d, []⟩ smallEvalDraws = some A ∧
    ∃ out, Circuit.run A.evaluator lawsInput (.or (.mux (.not (.input 0)) (.input 1) (.input 2)) (.not (.not (.input 3)))) =
      some out ∧
    Circuit.run A.evaluator lawsInput (.or (.input 3) (.mux (.input 0) (.input 2) (.input 1))) = some out := by
  obtain ⟨A, eA, h⟩ := C89_circuits small_gateParams small_stepsOk 7 (by decide +kernel)
    ⟨fun _ => 14, fun _ => 0x2d2d2d2d, []⟩ (fun h => by cases h) 1 1 _ smallEvalDraws_ok
  refine ⟨A, eA, h lawsInput (fun i => ?_) _ _
    (.trans (.orComm _ _) (.inOr (.notNot _) (.muxNot _ _ _)))⟩
  unfold lawsInput
  split <;> exact ⟨⟨rfl, by decide⟩, by decide⟩

-- words above the modulus are allowed for single calls
example : CipherWords 16 2 ⟨[65535, 1000], 40000⟩ ∧ smallParams.q < 2 ^ 16 :=
  ⟨⟨⟨rfl, by decide⟩, by decide⟩, by decide⟩

end Verif.Props
