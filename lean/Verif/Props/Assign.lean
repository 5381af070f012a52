import Verif.Model.Assign
import Verif.Props.Poly

/-! # C77: all spellings of an operation give the same result -/

namespace Verif.Props
open Spec Ntt Fp

/-- C77: for every modulus type, every assigning form stores what the value form returns and panics when it panics,
for all words, canonical or not. -/
theorem C77_moduli :
    (∀ w m a b, Assign.add w m a b = addReduce w m a b ∧ subReduceAssign w m a b = subReduce w m a b ∧
      Assign.neg m a = negReduce m a) ∧
    (∀ w M a b, Assign.Barrett.reduce w M a = Barrett.reduce1 w M a ∧
      Assign.Barrett.lazyReduce w M a = Barrett.lazyReduce1 w M a ∧
      Assign.Barrett.add w M a b = Barrett.addReduceB w M a b ∧
      Assign.Barrett.sub w M a b = Barrett.subReduceB w M a b ∧
      Assign.Barrett.neg M a = Barrett.negReduceB M a ∧
      Assign.Barrett.mul w M a b = Barrett.mulReduce w M a b ∧
      Assign.Barrett.lazyMul w M a b = Barrett.lazyMulReduce w M a b ∧
      Assign.Barrett.inv w M a = Gcd.invReduce w a M.value ∧
      Assign.Barrett.div w M a b = (Gcd.invReduce w b M.value).bind (Barrett.mulReduce w M a)) ∧
    (∀ w a s m, Assign.shoupMul w a s m = Shoup.mulReduce w s a m) ∧
    (∀ w M a b, Assign.PowOf2.reduce M a = PowOf2.reduce M a ∧ Assign.PowOf2.add w M a b = PowOf2.addReduce w M a b ∧
      Assign.PowOf2.sub w M a b = PowOf2.subReduce w M a b ∧ Assign.PowOf2.neg w M a = PowOf2.negReduce w M a ∧
      Assign.PowOf2.mul w M a b = PowOf2.mulReduce w M a b) ∧
    (∀ w a b, Assign.Native.reduce a = Native.reduce a ∧ Assign.Native.add w a b = Native.add w a b ∧
      Assign.Native.sub w a b = Native.sub w a b ∧ Assign.Native.neg w a = Native.neg w a ∧
      Assign.Native.mul w a b = Native.mul w a b ∧ Assign.Native.div a b = Native.div a b) ∧
    (∀ a b, Assign.BabyBear.add a b = BabyBear.addReduce a b ∧ Assign.BabyBear.sub a b = BabyBear.subReduce a b ∧
      Assign.BabyBear.neg a = BabyBear.negReduce a ∧ Assign.BabyBear.mul a b = BabyBear.mulReduce a b ∧
      Assign.BabyBear.inv a = BabyBear.invReduce a ∧ Assign.BabyBear.div a b = BabyBear.divReduce a b) ∧
    ∀ a b, Assign.Goldilocks.reduce a = Goldilocks.reduce a ∧ Assign.Goldilocks.add a b = Goldilocks.addReduce a b ∧
      Assign.Goldilocks.sub a b = Goldilocks.subReduce a b ∧ Assign.Goldilocks.neg a = Goldilocks.negReduce a ∧
      Assign.Goldilocks.mul a b = Goldilocks.mulReduce a b ∧ Assign.Goldilocks.inv a = Goldilocks.invReduce a ∧
      Assign.Goldilocks.div a b = Goldilocks.divReduce a b := by
  have hneg : ∀ m a, Assign.neg m a = negReduce m a := fun m a => by
    unfold Assign.neg negReduce
    by_cases h : a = 0 <;> simp [h]
  have hsub : ∀ w m a b, subReduceAssign w m a b = subReduce w m a b := fun w m a b => by
    unfold subReduceAssign subReduce addC
    simp only [Nat.add_comm a]
  refine ⟨fun w m a b => ⟨rfl, hsub w m a b, hneg m a⟩, fun w M a b => ⟨rfl, rfl, rfl, hsub _ _ _ _, hneg _ _, rfl, rfl, rfl, rfl⟩,
    fun w a s m => rfl, fun w M a b => ⟨rfl, rfl, rfl, rfl, rfl⟩, fun w a b => ⟨rfl, rfl, rfl, rfl, rfl, rfl⟩,
    fun a b => ⟨rfl, rfl, rfl, rfl, rfl, rfl⟩, fun a b => ⟨rfl, rfl, rfl, rfl, rfl, rfl, rfl⟩⟩

/-- C77: the operators of a derived field, for all words; and the bit operators of blocks. -/
theorem C77_operators (w : Nat) (M : Barrett) (a b c : Nat) (x y : Block) :
    Assign.Fp.add w M a b = Fp.add w M a b ∧ Fp.subAssign w M a b = Fp.sub w M a b ∧
    Assign.Fp.mul w M a b = Fp.mul w M a b ∧ Assign.Fp.div w M a b = Fp.div w M a b ∧
    Assign.Fp.addMul w M c a b = Fp.addMul w M c a b ∧ Assign.Fp.mulFast w M a b = Fp.mulFast w M a b ∧
    Assign.Fp.addMulFast w M c a b = Fp.addMulFast w M c a b ∧
    Assign.blockXor x y = Block.xor x y ∧ Assign.blockOr x y = Block.or x y ∧
    Assign.blockAnd x y = Block.and x y :=
  ⟨rfl, (C77_moduli.1 w M.value a b).2.1, rfl, rfl, rfl, rfl, rfl, rfl, rfl, rfl⟩

/-- C77: a field that keeps the provided methods of the traits computes the same as the derived ones: the same word
for `add_mul`, and the same residue for the fast forms. -/
theorem C77_provided_methods (w q : Nat) (hw : w % 2 = 0) (M : Barrett) (h : Fp.config w q = some M) (a b c : Nat)
    (ha : a < q) (hb : b < q) (hc : c < q) :
    Assign.Fp.addMulDefault w M c a b = Fp.addMul w M c a b ∧
    (∃ r s, Assign.Fp.addMulDefault w M c a b = some r ∧ Fp.addMulFast w M c a b = some s ∧ s % q = r) ∧
    ∃ r s, Assign.Fp.mulFastDefault w M a b = some r ∧ Fp.mulFast w M a b = some s ∧ s % q = r := by
  have C : Config w q M := ⟨hw, h⟩
  have h4 := C.four_mul_lt
  have h2 := C.two_le
  obtain ⟨-, -, -, -, -, -, -, ⟨p, ep, lp, cp⟩, -, ⟨r, er, lr, cr⟩⟩ :=
    C49_field_ops w q hw M h a b c 0 ha hb hc (by positivity)
  obtain ⟨-, -, -, ⟨t, et, lt, ct⟩, -⟩ := C49_field_ops w q hw M h c p 0 0 hc lp (by omega) (by positivity)
  have htr : t = r := eq_of_cast lt lr (by rw [ct, cp, cr])
  subst htr
  have hd : Assign.Fp.addMulDefault w M c a b = some t := by
    unfold Assign.Fp.addMulDefault
    rw [mbind ep, et]
  obtain ⟨⟨f, ef, -, hf⟩, g, eg, -, hg⟩ := C49_fast_ops w q hw M h a b c (by omega) (by omega) (by omega)
  refine ⟨hd.trans er.symm, ⟨t, g, hd, eg, ?_⟩, p, f, ep, ef, ?_⟩
  · exact eq_of_cast (Nat.mod_lt _ (by omega)) lt (by rw [ZMod.natCast_mod, cr, natCast_eq_of_mod hg]; push_cast; rfl)
  · exact eq_of_cast (Nat.mod_lt _ (by omega)) lp (by rw [ZMod.natCast_mod, cp, natCast_eq_of_mod hf]; push_cast; rfl)

section
variable {w : Nat} {M : Barrett}

theorem zipAssign_flip {f : Nat → Nat → Option Nat} :
    ∀ {a b : List Nat}, a.length = b.length → Poly.zipAssign (fun y x => f x y) b a = Poly.zipAssign f a b
  | [], [], _ => rfl
  | x :: xs, y :: ys, h => by
    unfold Poly.zipAssign
    rw [zipAssign_flip (by simpa using h)]

theorem zipAssign_comm {f : Nat → Nat → Option Nat} (hf : ∀ x y, f x y = f y x) :
    ∀ {a b : List Nat}, a.length = b.length → Poly.zipAssign f a b = Poly.zipAssign f b a
  | [], [], _ => rfl
  | x :: xs, y :: ys, h => by
    unfold Poly.zipAssign
    rw [hf x y, zipAssign_comm hf (by simpa using h)]

theorem zipCollect_assign_eq {f : Nat → Nat → Option Nat} :
    ∀ {a b : List Nat}, a.length = b.length → EvalForm.zipCollect f a b = Poly.zipAssign f a b
  | [], [], _ => rfl
  | x :: xs, y :: ys, h => by
    unfold Poly.zipAssign EvalForm.zipCollect
    rw [zipCollect_assign_eq (by simpa using h)]

end

/-- C77: the sums and differences of polynomials, whichever operand is borrowed, consumed or overwritten, are the
same list or fail together, for all lists of words. -/
theorem C77_polynomials (w : Nat) (M : Barrett) (a b : List Nat) (s : Nat) :
    Assign.Poly.add w M a b = Poly.add w M a b ∧ Assign.Poly.addOwned w M a b = Poly.add w M a b ∧
    Assign.Poly.addRef w M a b = Poly.add w M a b ∧ Assign.Poly.subRef w M a b = Poly.sub w M a b ∧
    Poly.subAssign w M a b = Poly.sub w M a b ∧ EvalForm.subOwnedNative w M a b = Poly.sub w M a b ∧
    Assign.Poly.mulScalar w M a s = Poly.mulScalar w M a s := by
  have hadd : ∀ x y, Fp.add w M x y = Fp.add w M y x := fun x y => by
    unfold Fp.add addReduce addC
    rw [Nat.add_comm]
  have hsub : Fp.subAssign w M = Fp.sub w M := funext fun x => funext fun y => (C77_moduli.1 w M.value x y).2.1
  by_cases h : a.length = b.length
  · refine ⟨rfl, ?_, ?_, ?_, ?_, ?_, rfl⟩
    · unfold Assign.Poly.addOwned Assign.Poly.add Poly.add
      rw [if_pos h, if_pos h.symm]
      exact zipAssign_comm hadd h.symm
    · unfold Assign.Poly.addRef Poly.add
      rw [if_pos h, if_pos h, zipCollect_assign_eq h]
    · unfold Assign.Poly.subRef Poly.sub
      rw [if_pos h, if_pos h, zipCollect_assign_eq h]
    · unfold Poly.subAssign Poly.sub
      rw [hsub]
    · unfold EvalForm.subOwnedNative Poly.sub
      rw [if_pos h, if_pos h, zipAssign_flip h]
  · refine ⟨rfl, ?_, ?_, ?_, ?_, ?_, rfl⟩
    · unfold Assign.Poly.addOwned Assign.Poly.add Poly.add
      rw [if_neg h, if_neg (Ne.symm h)]
    all_goals
      simp only [Assign.Poly.addRef, Poly.add, Assign.Poly.subRef, Poly.sub, Poly.subAssign,
        EvalForm.subOwnedNative, if_neg h]

/-- C77: the product of polynomials does not depend on which operand is consumed. -/
theorem C77_product (w q : Nat) [Fact q.Prime] (M : Barrett) (tbl : Nat → Option Table) (k : Nat) (hk : 0 < k)
    (F : TableField w q M tbl k) (a b : List Nat) (ha : Reduced q (2 ^ k) a) (hb : Reduced q (2 ^ k) b) :
    Assign.Poly.mulOwned w M tbl a b = Poly.mul w M tbl a b := by
  obtain ⟨r, e, rr, hr, -⟩ := C25_mul_partial w q M tbl k hk F a b ha hb
  obtain ⟨r', e', rr', hr', -⟩ := C25_mul_partial w q M tbl k hk F b a hb ha
  unfold Assign.Poly.mulOwned
  rw [e, e', list_ext_of_cast (q := q) rr'.1 rr.1 (fun i hi => rr'.2 _ (getD_mem _ (by rw [rr'.1]; exact hi)))
    (fun i hi => rr.2 _ (getD_mem _ (by rw [rr.1]; exact hi))) (fun i hi => ?_)]
  refine (hr' i hi).trans (Eq.trans ?_ (hr i hi).symm)
  unfold negacyclicCoeff
  rw [Finset.sum_comm]
  refine Finset.sum_congr rfl fun j _ => Finset.sum_congr rfl fun l _ => ?_
  rw [Nat.add_comm l j, mul_comm]

-- a derived field with modulus 17 in 8-bit words
example : Assign.add 8 17 16 5 = some 4 ∧ Assign.neg 17 3 = some 14 ∧ Assign.Fp.mul 8 barrett17 5 7 = some 1 ∧
    Assign.Poly.addOwned 8 barrett17 [1, 16] [3, 4] = some [4, 3] ∧
    Assign.Fp.addMulDefault 8 barrett17 2 5 7 = some 3 ∧
    Assign.Poly.mulOwned 8 barrett17 tbl17 [1, 2, 0, 0] [0, 0, 0, 1] = some [15, 0, 0, 1] := by
  decide +kernel

end Verif.Props
