import Verif.Model.Work
import Verif.SpecWork
import Mathlib.Tactic.Abel
import Mathlib.Algebra.Group.Prod

/-!
# Counting transforms: one lemma per function

`Costs x v k`: the counting computation `x` returns what `v` returns, panics when `v` does, and adds `k`.
-/

namespace Verif.Work

open Verif.SpecWork

variable {α β : Type}

theorem _root_.Verif.SpecWork.Costs.cast {x : WorkM α} {v v' : Option α} {k k' : Work} (h : Costs x v k) (hk : k = k') (hv : v = v') :
    Costs x v' k' := hk ▸ hv ▸ h

theorem _root_.Verif.SpecWork.Costs.none {x : WorkM α} {k : Work} (h : Costs x none k) (k' : Work) : Costs x Option.none k' :=
  fun s => by rw [h s]; rfl

theorem costs_lift (v : Option α) : Costs (liftM v : WorkM α) v 0 := by
  intro s
  cases v <;> rfl

theorem costs_fail (k : Work) : Costs (StateT.lift (none : Option α) : WorkM α) none k := fun _ => rfl

theorem costs_pure (r : α) : Costs (pure r : WorkM α) (some r) 0 := fun _ => rfl

theorem _root_.Verif.SpecWork.Costs.bind' {x : WorkM α} {v : Option α} {f : α → WorkM β} {g : α → Option β} {k k' : Work}
    (h : Costs x v k) (hf : ∀ r, v = some r → Costs (f r) (g r) k') : Costs (x >>= f) (v >>= g) (k + k') := by
  intro s
  show (x s >>= fun p => f p.1 p.2) = _
  rw [h s]
  cases v with
  | none => rfl
  | some r =>
    show f r (s + k) = _
    rw [hf r rfl (s + k), add_assoc]
    rfl

theorem _root_.Verif.SpecWork.Costs.bind {x : WorkM α} {v : Option α} {f : α → WorkM β} {g : α → Option β} {k k' : Work}
    (h : Costs x v k) (hf : ∀ r, Costs (f r) (g r) k') : Costs (x >>= f) (v >>= g) (k + k') :=
  h.bind' fun r _ => hf r

/-- A bind after something that counts nothing. -/
theorem _root_.Verif.SpecWork.Costs.step {v : Option α} {f : α → WorkM β} {g : α → Option β} {k : Work}
    (hf : ∀ r, Costs (f r) (g r) k) : Costs ((liftM v : WorkM α) >>= f) (v >>= g) k :=
  ((costs_lift v).bind hf).cast (zero_add k) rfl

theorem _root_.Verif.SpecWork.Costs.step' {v : Option α} {f : α → WorkM β} {g : α → Option β} {k : Work}
    (hf : ∀ r, v = some r → Costs (f r) (g r) k) : Costs ((liftM v : WorkM α) >>= f) (v >>= g) k :=
  ((costs_lift v).bind' hf).cast (zero_add k) rfl

theorem _root_.Verif.SpecWork.Costs.ret {x : WorkM α} {v : Option α} {f : α → β} {k : Work} (h : Costs x v k) :
    Costs (x >>= fun r => pure (f r)) (v >>= fun r => some (f r)) k :=
  (h.bind fun r => costs_pure (f r)).cast (add_zero k) rfl

theorem _root_.Verif.SpecWork.Costs.ite {p : Prop} [Decidable p] {x y : WorkM α} {v u : Option α} {k : Work} (h : p → Costs x v k)
    (h' : ¬ p → Costs y u k) : Costs (if p then x else y) (if p then v else u) k := by
  split
  · exact h ‹_›
  · exact h' ‹_›

theorem costs_transform (w : Nat) (M : Barrett) (t : Table) (a : List Nat) :
    Costs (transform w M t a) (Table.transform w M t a) (1, 0) := by
  have h : Costs (modify fun k => (k.1 + 1, k.2) : WorkM Unit) (some ()) (1, 0) := fun _ => rfl
  exact (h.bind fun _ => costs_lift (Table.transform w M t a)).cast (add_zero _) rfl

theorem costs_inverse (w : Nat) (M : Barrett) (t : Table) (a : List Nat) :
    Costs (inverse w M t a) (Table.inverse w M t a) (0, 1) := by
  have h : Costs (modify fun k => (k.1, k.2 + 1) : WorkM Unit) (some ()) (0, 1) := fun _ => rfl
  exact (h.bind fun _ => costs_lift (Table.inverse w M t a)).cast (add_zero _) rfl

theorem costs_toNtt (w : Nat) (M : Barrett) (tbl : Nat → Option Table) (a : List Nat) :
    Costs (Poly.toNtt w M tbl a) (Verif.Poly.toNtt w M tbl a) (1, 0) :=
  Costs.step fun t => costs_transform w M t a

theorem costs_ofNtt (w : Nat) (M : Barrett) (tbl : Nat → Option Table) (a : List Nat) :
    Costs (Poly.ofNtt w M tbl a) (Verif.Poly.ofNtt w M tbl a) (0, 1) :=
  Costs.step fun t => costs_inverse w M t a

theorem costs_mul (w : Nat) (M : Barrett) (tbl : Nat → Option Table) (a b : List Nat) :
    Costs (Poly.mul w M tbl a b) (Verif.Poly.mul w M tbl a b) (2, 1) :=
  Costs.ite (fun _ => Costs.step fun t => (costs_transform w M t b).bind (k' := (1, 1)) fun _ =>
    (costs_transform w M t a).bind (k' := (0, 1)) fun _ => Costs.step fun _ => costs_inverse w M t _)
    fun _ => costs_fail _

theorem costs_mulNtt (w : Nat) (M : Barrett) (tbl : Nat → Option Table) (a b : List Nat) :
    Costs (Poly.mulNtt w M tbl a b) (Verif.Poly.mulNtt w M tbl a b) (1, 1) :=
  Costs.ite (fun _ => Costs.step fun t => (costs_transform w M t a).bind (k' := (0, 1)) fun _ =>
    Costs.step fun _ => costs_inverse w M t _) fun _ => costs_fail _

theorem costs_inv (w : Nat) (M : Barrett) (tbl : Nat → Option Table) (a : List Nat) :
    Costs (Poly.inv w M tbl a) (Verif.Poly.inv w M tbl a) (1, 1) :=
  (costs_toNtt w M tbl a).bind (k' := (0, 1)) fun _ => Costs.step fun _ => costs_ofNtt w M tbl _

variable (R : Ctx)

theorem costs_rlwe_toNtt (x : RLWE) : Costs (RLWE.toNtt R x) (Verif.RLWE.toNtt R x) (2, 0) :=
  (costs_toNtt _ _ _ _).bind (k' := (1, 0)) fun _ => (costs_toNtt _ _ _ _).ret

theorem costs_rlwe_mulNtt (x : RLWE) (p : List Nat) :
    Costs (RLWE.mulNtt R x p) (Verif.RLWE.mulNtt R x p) (2, 0) :=
  Costs.ite (fun _ => (costs_toNtt _ _ _ _).bind (k' := (1, 0)) fun _ =>
    (costs_toNtt _ _ _ _).bind (k' := (0, 0)) fun _ => Costs.step fun _ => Costs.step fun _ => costs_pure _)
    fun _ => costs_fail _

theorem costs_rlwe_zeroSample (s a e : List Nat) :
    Costs (RLWE.zeroSample R s a e) (Verif.RLWE.zeroSample R s a e) (1, 1) :=
  Costs.ite (fun _ => (costs_toNtt _ _ _ _).bind (k' := (0, 1)) fun _ => Costs.step fun _ =>
    (costs_ofNtt _ _ _ _).bind (k' := (0, 0)) fun _ => Costs.step fun _ => costs_pure _)
    fun _ => costs_fail _

theorem costs_toCoeff (x : NTTRLWE) : Costs (NTTRLWE.toCoeff R x) (Verif.NTTRLWE.toCoeff R x) (0, 2) :=
  (costs_ofNtt _ _ _ _).bind (k' := (0, 1)) fun _ => (costs_ofNtt _ _ _ _).ret

theorem costs_zeroSample (s a e : List Nat) :
    Costs (NTTRLWE.zeroSample R s a e) (Verif.NTTRLWE.zeroSample R s a e) (1, 0) :=
  Costs.ite (fun _ => (costs_toNtt _ _ _ _).bind (k' := (0, 0)) fun _ => Costs.step fun _ => costs_pure _)
    fun _ => costs_fail _

theorem costs_valueSample (s : List Nat) (v : Nat) (a e : List Nat) :
    Costs (NTTRLWE.valueSample R s v a e) (Verif.NTTRLWE.valueSample R s v a e) (1, 0) :=
  Costs.ite (fun _ => Costs.step fun _ => (costs_toNtt _ _ _ _).bind (k' := (0, 0)) fun _ =>
    Costs.step fun _ => costs_pure _) fun _ => costs_fail _

theorem costs_gadgetLoop {G : Type} (B : Basis) (f : NTTRLWE → G → List Nat → WorkM NTTRLWE)
    (g : NTTRLWE → G → List Nat → Option NTTRLWE) (k : Work) (h : ∀ x e d, Costs (f x e d) (g x e d) k) :
    ∀ (gs : List G) (p : List Nat) (x : NTTRLWE), Costs (NTTRLWE.gadgetLoop R B f gs p x)
      (Verif.NTTRLWE.gadgetLoop R B g gs p x) (gs.length • ((1, 0) + k))
  | [], _, x => (costs_pure x).cast (by simp) rfl
  | e :: gs, p, x => by
    unfold NTTRLWE.gadgetLoop Verif.NTTRLWE.gadgetLoop
    refine Costs.step fun r => ?_
    obtain ⟨d, p'⟩ := r
    refine ((costs_toNtt _ _ _ _).bind (k' := k + gs.length • ((1, 0) + k)) fun d' =>
      (h x e d').bind fun x' => costs_gadgetLoop B f g k h gs p' x').cast ?_ rfl
    rw [List.length_cons, succ_nsmul]
    abel

theorem costs_gadget_fast (B : Basis) (gs : List NTTRLWE) (p : List Nat) (x : NTTRLWE) :
    Costs (NTTRLWE.gadgetLoop R B (fun x g d => liftM (Verif.NTTRLWE.addMulFast R x g d)) gs p x)
      (Verif.NTTRLWE.gadgetLoop R B (Verif.NTTRLWE.addMulFast R) gs p x) (gs.length, 0) :=
  (costs_gadgetLoop R B _ _ 0 (fun x e d => costs_lift _) gs p x).cast (by simp) rfl

theorem costs_gadget (B : Basis) (gs : List NTTRLWE) (p : List Nat) (x : NTTRLWE) :
    Costs (NTTRLWE.gadgetLoop R B (fun x g d => liftM (Verif.NTTRLWE.addMul R x g d)) gs p x)
      (Verif.NTTRLWE.gadgetLoop R B (Verif.NTTRLWE.addMul R) gs p x) (gs.length, 0) :=
  (costs_gadgetLoop R B _ _ 0 (fun x e d => costs_lift _) gs p x).cast (by simp) rfl

theorem costs_gadget_coeff (B : Basis) (gs : List RLWE) (p : List Nat) (x : NTTRLWE) :
    Costs (NTTRLWE.gadgetLoop R B (GadgetRLWE.accumulate R) gs p x)
      (Verif.NTTRLWE.gadgetLoop R B (Verif.GadgetRLWE.accumulate R) gs p x) (3 * gs.length, 0) :=
  (costs_gadgetLoop R B _ _ (2, 0) (fun x e d => (costs_rlwe_mulNtt R e d).bind (k' := (0, 0))
    fun _ => costs_lift _) gs p x).cast (by simp [Nat.mul_comm]) rfl

theorem costs_mulPolynomial_coeff (g : GadgetRLWE) (p : List Nat) :
    Costs (GadgetRLWE.mulPolynomial R g p) (Verif.GadgetRLWE.mulPolynomial R g p) (3 * g.data.length, 2) :=
  (costs_gadget_coeff R g.basis g.data p _).bind (k' := (0, 2)) fun x => costs_toCoeff R x

theorem costs_mulPolynomialAdd_coeff (g : GadgetRLWE) (p : List Nat) (x : RLWE) :
    Costs (GadgetRLWE.mulPolynomialAdd R g p x) (Verif.GadgetRLWE.mulPolynomialAdd R g p x)
      (3 * g.data.length + 2, 2) :=
  ((costs_rlwe_toNtt R x).bind fun x => (costs_gadget_coeff R g.basis g.data p x).bind fun x =>
    costs_toCoeff R x).cast (by simp [Nat.add_comm]) rfl

theorem costs_mulRgsw (x : RLWE) (g : RGSW) : Costs (RLWE.mulRgsw R x g) (Verif.RLWE.mulRgsw R x g)
    (3 * (g.cNegSM.data.length + g.cM.data.length) + 2, 4) :=
  ((costs_mulPolynomial_coeff R _ _).bind fun r => costs_mulPolynomialAdd_coeff R g.cM x.b r).cast
    (by simp [Nat.mul_add, Nat.add_assoc]) rfl

theorem costs_mulNttRgsw (x : RLWE) (g : NTTRGSW) : Costs (RLWE.mulNttRgsw R x g) (Verif.RLWE.mulNttRgsw R x g)
    (g.cNegSM.data.length + g.cM.data.length, 2) :=
  ((costs_gadget R g.cNegSM.basis g.cNegSM.data x.a _).bind fun r =>
    (costs_gadget R g.cM.basis g.cM.data x.b r).bind fun r => costs_toCoeff R r).cast (by simp) rfl

theorem costs_mulAssignNttRgsw (x : RLWE) (g : NTTRGSW) (m : NTTRLWE) :
    Costs (RLWE.mulAssignNttRgsw R x g m) (Verif.RLWE.mulAssignNttRgsw R x g m)
      (g.cNegSM.data.length + g.cM.data.length, 2) :=
  ((costs_gadget_fast R g.cNegSM.basis g.cNegSM.data x.a _).bind fun r =>
    (costs_gadget_fast R g.cM.basis g.cM.data x.b r).bind fun r => (costs_toCoeff R r).ret).cast (by simp) rfl

/-! ## Samples -/

theorem costs_zeroLoop (s : List Nat) : ∀ ds : List Draw, Costs (NTTGadgetRLWE.zeroLoop R s ds)
    (ds.mapM fun d => Verif.NTTRLWE.zeroSample R s d.1 d.2) (ds.length, 0)
  | [] => costs_pure _
  | d :: ds => by
    rw [List.mapM_cons]
    exact ((costs_zeroSample R s d.1 d.2).bind fun r => (costs_zeroLoop s ds).ret).cast
      (by simp [Nat.add_comm]) rfl

theorem costs_gadget_zeroSample (s : List Nat) (B : Basis) (ds : List Draw) :
    Costs (NTTGadgetRLWE.zeroSample R s B ds) (Verif.NTTGadgetRLWE.zeroSample R s B ds) (B.decomposeLen, 0) :=
  Costs.ite (fun h => (costs_zeroLoop R s _).ret.cast (by rw [List.length_take, Nat.min_eq_left h]) rfl)
    fun _ => costs_fail _

theorem costs_generateLoop (f : Nat → List Nat → List Nat → WorkM NTTRLWE)
    (g : Nat → List Nat → List Nat → Option NTTRLWE) (h : ∀ p a e, Costs (f p a e) (g p a e) (1, 0))
    (basis : Nat) : ∀ (k p : Nat) (ds : List Draw), Costs (NTTGadgetRLWE.generateLoop R f basis k p ds)
      (Verif.NTTGadgetRLWE.generateLoop R g basis k p ds) (k + 1, 0)
  | 0, _, [] => costs_fail _
  | _ + 1, _, [] => costs_fail _
  | 0, p, (a, e) :: _ => (h p a e).ret
  | k + 1, p, (a, e) :: ds =>
    ((h p a e).bind fun _ => Costs.step fun p => (costs_generateLoop f g h basis k p ds).ret).cast
      (by simp [Nat.add_comm]) rfl

theorem costs_gadget_oneSample (s : List Nat) (B : Basis) (ds : List Draw) :
    Costs (NTTGadgetRLWE.oneSample R s B ds) (Verif.NTTGadgetRLWE.oneSample R s B ds) (B.decomposeLen, 0) :=
  Costs.step' fun k hk => ((costs_generateLoop R _ _ (fun p a e => costs_valueSample R s p a e) _ k _ ds).ret).cast
    (by
      unfold subC at hk
      split at hk
      · simp only [Option.some.injEq] at hk
        rw [← hk, Nat.sub_add_cancel ‹_›]
      · simp at hk) rfl

theorem costs_gadget_negSecretSample (s : List Nat) (B : Basis) (ds : List Draw) :
    Costs (NTTGadgetRLWE.negSecretSample R s B ds) (Verif.NTTGadgetRLWE.negSecretSample R s B ds)
      (B.decomposeLen, 0) :=
  Costs.step' fun k hk => ((costs_generateLoop R (NTTGadgetRLWE.negSecretElement R s)
    (Verif.NTTGadgetRLWE.negSecretElement R s) (fun p a e => (costs_zeroSample R s a e).bind
    (k' := (0, 0)) fun r => Costs.step fun a => costs_pure _) _ k _ ds).ret).cast
    (by
      unfold subC at hk
      split at hk
      · simp only [Option.some.injEq] at hk
        rw [← hk, Nat.sub_add_cancel ‹_›]
      · simp at hk) rfl

theorem costs_rgsw_zeroSample (s : List Nat) (B : Basis) (d0 d1 : List Draw) :
    Costs (NTTRGSW.zeroSample R s B d0 d1) (Verif.NTTRGSW.zeroSample R s B d0 d1) (2 * B.decomposeLen, 0) :=
  ((costs_gadget_zeroSample R s B d0).bind fun _ => (costs_gadget_zeroSample R s B d1).ret).cast
    (by simp [Nat.two_mul]) rfl

theorem costs_rgsw_oneSample (s : List Nat) (B : Basis) (d0 d1 : List Draw) :
    Costs (NTTRGSW.oneSample R s B d0 d1) (Verif.NTTRGSW.oneSample R s B d0 d1) (2 * B.decomposeLen, 0) :=
  ((costs_gadget_negSecretSample R s B d0).bind fun _ => (costs_gadget_oneSample R s B d1).ret).cast
    (by simp [Nat.two_mul]) rfl

/-! ## Blind rotation -/

theorem costs_update (n : Nat) (st : Verif.BlindRotation.State) (key : NTTRGSW) (a : Nat) :
    Costs (BlindRotation.update R n st key a) (Verif.BlindRotation.update R n st key a)
      (key.cNegSM.data.length + key.cM.data.length, 2) := by
  unfold BlindRotation.update Verif.BlindRotation.update
  refine Costs.step fun ext => ?_
  refine ((costs_mulAssignNttRgsw R ext key st.median).bind (k' := (0, 0)) fun r => ?_).cast (by simp) rfl
  obtain ⟨e, m⟩ := r
  exact Costs.step fun _ => costs_pure _

/-- A loop whose steps have a fixed cost where the mask is not zero. -/
theorem costs_loop {K : Type} (P : K → Prop) (f : Verif.BlindRotation.State → K → Nat → WorkM Verif.BlindRotation.State)
    (g : Verif.BlindRotation.State → K → Nat → Option Verif.BlindRotation.State) (c : Work)
    (h : ∀ st k a, P k → Costs (f st k a) (g st k a) (if a = 0 then 0 else c)) :
    ∀ (ks : List K) (as : List Nat) (st : Verif.BlindRotation.State), (∀ k ∈ ks, P k) →
      Costs (BlindRotation.loop f ks as st) (Verif.BlindRotation.loop g ks as st)
        (nonzero (as.take ks.length) • c)
  | [], as, st, _ => by
    cases as <;> exact (costs_pure st).cast (by simp [nonzero]) rfl
  | _ :: _, [], st, _ => (costs_pure st).cast (by simp [nonzero]) rfl
  | k :: ks, a :: as, st, hk => by
    unfold BlindRotation.loop Verif.BlindRotation.loop
    refine ((h st k a (hk k (List.mem_cons_self ..))).bind fun st' =>
      costs_loop P f g c h ks as st' fun x hx => hk x (List.mem_cons_of_mem _ hx)).cast ?_ rfl
    rw [List.length_cons, List.take_succ_cons]
    unfold nonzero
    rw [List.filter_cons]
    by_cases ha : a = 0
    · simp [ha]
    · simp only [ne_eq, ha, not_false_eq_true, decide_true, if_true, if_false, List.length_cons, succ_nsmul']

theorem costs_binaryStep (n L : Nat) (st : Verif.BlindRotation.State) (key : NTTRGSW) (a : Nat)
    (h : key.cNegSM.data.length = L ∧ key.cM.data.length = L) :
    Costs (BlindRotation.binaryStep R n st key a) (Verif.BlindRotation.binaryStep R n st key a)
      (if a = 0 then 0 else (2 * L, 2)) := by
  unfold BlindRotation.binaryStep Verif.BlindRotation.binaryStep
  split
  · exact costs_pure st
  · exact (costs_update R n st key a).cast (by rw [h.1, h.2, Nat.two_mul]) rfl

theorem mapM_length {γ δ : Type} (f : γ → Option δ) : ∀ (l : List γ) (r : List δ), l.mapM f = some r →
    r.length = l.length
  | [], r, h => by
    simp only [List.mapM_nil] at h
    cases h
    rfl
  | a :: l, r, h => by
    rw [List.mapM_cons] at h
    obtain ⟨x, -, h⟩ := Option.bind_eq_some_iff.1 h
    obtain ⟨xs, e, h⟩ := Option.bind_eq_some_iff.1 h
    cases h
    rw [List.length_cons, List.length_cons, mapM_length f l xs e]

theorem addMulNtt_length {g h r : NTTGadgetRLWE} {p : List Nat} (e : Verif.NTTGadgetRLWE.addMulNtt R g h p = some r) :
    r.data.length = min g.data.length h.data.length := by
  obtain ⟨d, e', hr⟩ := Option.bind_eq_some_iff.1 e
  cases hr
  rw [mapM_length _ _ _ e', List.length_zip]

theorem costs_ternaryStep (t : Table) (n L : Nat) (st : Verif.BlindRotation.State) (key : NTTRGSW × NTTRGSW) (a : Nat)
    (h : (key.1.cNegSM.data.length = L ∧ key.1.cM.data.length = L) ∧
      key.2.cNegSM.data.length = L ∧ key.2.cM.data.length = L) :
    Costs (BlindRotation.ternaryStep R t n st key a) (Verif.BlindRotation.ternaryStep R t n st key a)
      (if a = 0 then 0 else (2 * L, 2)) := by
  unfold BlindRotation.ternaryStep Verif.BlindRotation.ternaryStep
  split
  · exact costs_pure st
  · refine Costs.step fun _ => Costs.step fun _ => Costs.step' fun ek hek => ?_
    obtain ⟨c0, e0, hek⟩ := Option.bind_eq_some_iff.1 hek
    obtain ⟨c1, e1, hek⟩ := Option.bind_eq_some_iff.1 hek
    cases hek
    refine (costs_update R n st _ a).cast ?_ rfl
    rw [addMulNtt_length R e0, addMulNtt_length R e1, h.1.1, h.1.2, h.2.1, h.2.2, Nat.min_self, Nat.two_mul]

theorem costs_binary (L : Nat) (key : List NTTRGSW) (lut : List Nat) (c : LWE)
    (h : ∀ k ∈ key, k.cNegSM.data.length = L ∧ k.cM.data.length = L) :
    Costs (BlindRotation.binary R key lut c) (Verif.BlindRotation.binary R key lut c)
      (rotation L (c.a.take key.length)) :=
  Costs.step fun lut => ((costs_loop (fun k => k.cNegSM.data.length = L ∧ k.cM.data.length = L) _ _ (2 * L, 2)
    (fun st k a hk => costs_binaryStep R lut.length L st k a hk) key c.a _ h).ret).cast
    (by simp [rotation]) rfl

theorem costs_ternary (L : Nat) (key : List (NTTRGSW × NTTRGSW)) (lut : List Nat) (c : LWE)
    (h : ∀ k ∈ key, (k.1.cNegSM.data.length = L ∧ k.1.cM.data.length = L) ∧
      k.2.cNegSM.data.length = L ∧ k.2.cM.data.length = L) :
    Costs (BlindRotation.ternary R key lut c) (Verif.BlindRotation.ternary R key lut c)
      (rotation L (c.a.take key.length)) :=
  Costs.step fun t => Costs.step fun lut => ((costs_loop (fun k : NTTRGSW × NTTRGSW =>
    (k.1.cNegSM.data.length = L ∧ k.1.cM.data.length = L) ∧
      k.2.cNegSM.data.length = L ∧ k.2.cM.data.length = L) _ _ (2 * L, 2)
    (fun st k a hk => costs_ternaryStep R t lut.length L st k a hk) key c.a _ h).ret).cast
    (by simp [rotation]) rfl

theorem costs_binaryGenerate (sn : List Nat) (B : Basis) : ∀ (ss : List Nat)
    (ds : List Verif.BlindRotation.RgswDraw), Costs (BlindRotation.binaryGenerate R sn B ss ds)
      (Verif.BlindRotation.binaryGenerate R sn B ss ds) (2 * B.decomposeLen * ss.length, 0)
  | [], _ => costs_pure _
  | _ :: _, [] => costs_fail _
  | s :: ss, d :: ds =>
    ((Costs.ite (fun _ => costs_rgsw_zeroSample R sn B d.1 d.2) fun _ => costs_rgsw_oneSample R sn B d.1 d.2 :
      Costs (BlindRotation.binaryKey R sn B s d) (Verif.BlindRotation.binaryKey R sn B s d) _).bind fun _ =>
      (costs_binaryGenerate sn B ss ds).ret).cast (by simp [Nat.mul_add, Nat.add_comm]) rfl

theorem costs_ternaryKey (sn : List Nat) (B : Basis) (s : Nat)
    (d : Verif.BlindRotation.RgswDraw × Verif.BlindRotation.RgswDraw) :
    Costs (BlindRotation.ternaryKey R sn B s d) (Verif.BlindRotation.ternaryKey R sn B s d)
      (4 * B.decomposeLen, 0) := by
  have e : ((2 * B.decomposeLen, 0) + (2 * B.decomposeLen, 0) : Work) = (4 * B.decomposeLen, 0) := by
    simp only [Prod.mk_add_mk]
    congr 1
    omega
  refine Costs.ite (fun _ => ?_) fun _ => Costs.ite (fun _ => ?_) fun _ => ?_
  · exact ((costs_rgsw_oneSample R sn B _ _).bind fun _ => (costs_rgsw_zeroSample R sn B _ _).ret).cast e rfl
  · exact ((costs_rgsw_zeroSample R sn B _ _).bind fun _ => (costs_rgsw_zeroSample R sn B _ _).ret).cast e rfl
  · exact ((costs_rgsw_zeroSample R sn B _ _).bind fun _ => (costs_rgsw_oneSample R sn B _ _).ret).cast e rfl

theorem costs_ternaryGenerate (sn : List Nat) (B : Basis) : ∀ (ss : List Nat)
    (ds : List (Verif.BlindRotation.RgswDraw × Verif.BlindRotation.RgswDraw)),
      Costs (BlindRotation.ternaryGenerate R sn B ss ds)
        (Verif.BlindRotation.ternaryGenerate R sn B ss ds) (4 * B.decomposeLen * ss.length, 0)
  | [], _ => costs_pure _
  | _ :: _, [] => costs_fail _
  | s :: ss, d :: ds =>
    ((costs_ternaryKey R sn B s d).bind fun _ => (costs_ternaryGenerate sn B ss ds).ret).cast
      (by simp [Nat.mul_add, Nat.add_comm]) rfl

/-! ## Key switching -/

theorem costs_samples (sn : List Nat) (basis : Nat) : ∀ (cnt : Nat) (z : List Nat) (ds : List Draw),
    Costs (RlweSwitch.samples R sn basis cnt z ds) (Verif.RlweSwitch.samples R sn basis cnt z ds) (cnt, 0)
  | 0, _, _ => costs_pure _
  | 1, _, [] => costs_fail _
  | _ + 2, _, [] => costs_fail _
  | 1, _, (a, e) :: _ => (costs_zeroSample R sn a e).bind (k' := (0, 0)) fun _ => Costs.step fun _ => costs_pure _
  | cnt + 2, z, (a, e) :: ds =>
    ((costs_zeroSample R sn a e).bind fun _ => Costs.step fun _ => Costs.step fun z =>
      (costs_samples sn basis (cnt + 1) z ds).ret).cast (by simp; omega) rfl

theorem costs_element (B : Basis) (sn : List Nat) (basis : Nat) (z : List Nat) (ds : List Draw) :
    Costs (RlweSwitch.element R B sn basis z ds) (Verif.RlweSwitch.element R B sn basis z ds)
      (B.decomposeLen, 0) :=
  (costs_samples R sn basis B.decomposeLen z ds).bind (k' := (0, 0)) fun _ =>
    Costs.ite (fun _ => costs_pure _) fun _ => costs_fail _

theorem costs_elements (B : Basis) (sn : List Nat) (basis : Nat) (d : Nat → List Draw) :
    ∀ (c : Nat) (zs : List (List Nat)), Costs (RlweSwitch.elements R B sn basis d c zs)
      (Verif.RlweSwitch.elements R B sn basis d c zs) (zs.length * (B.decomposeLen + 1), 0)
  | _, [] => (costs_pure _).cast (by simp; rfl) rfl
  | c, z :: zs =>
    ((costs_toNtt _ _ _ _).bind fun z => (costs_element R B sn basis z (d c)).bind fun _ =>
      (costs_elements B sn basis d (c + 1) zs).ret).cast (by simp [Nat.add_mul]; omega) rfl

theorem chunks_length (n : Nat) (l : List Nat) : (Verif.RlweSwitch.chunks n l).length = l.length / n := by
  simp [Verif.RlweSwitch.chunks]

theorem costs_rlweGenerate (bits : Nat) (sk ring ringNtt : List Nat) (d : Nat → List Draw) {B : Basis}
    (hB : Basis.new R.w R.M.value bits = some B) :
    Costs (RlweSwitch.generate R bits sk ring ringNtt d) (Verif.RlweSwitch.generate R bits sk ring ringNtt d)
      (switchKey B.decomposeLen (Verif.RlweSwitch.nextPow2 sk.length) ring.length) := by
  unfold RlweSwitch.generate Verif.RlweSwitch.generate
  refine Costs.ite (fun hn => ?_) fun _ => costs_fail _
  refine Costs.step' fun B' hB' => ?_
  rw [hB] at hB'
  cases hB'
  refine Costs.step fun m => ?_
  refine ((costs_toNtt _ _ _ _).bind (k' := (switchKey B.decomposeLen (Verif.RlweSwitch.nextPow2 sk.length)
    ring.length - (1, 0))) fun sn => Costs.step fun b => ?_).cast ?_ rfl
  · unfold RlweSwitch.keyParts Verif.RlweSwitch.keyParts
    refine Costs.ite (fun h => ?_) fun h => ?_
    · exact (costs_element R B sn b ringNtt (d 0)).ret.cast (by simp [switchKey, h]) rfl
    · refine (costs_elements R B sn b d 0 _).cast ?_ rfl
      rw [chunks_length]
      simp [switchKey, h]
  · unfold switchKey
    split <;> simp [Nat.add_comm]

theorem costs_subGadgetMulFast (x : NTTRLWE) (g : NTTGadgetRLWE) (p : List Nat) :
    Costs (NTTRLWE.subGadgetMulFast R x g p) (Verif.NTTRLWE.subGadgetMulFast R x g p) (g.data.length, 0) :=
  Costs.step fun p => costs_gadget_fast R g.basis g.data p x

theorem costs_switchLoop (L : Nat) : ∀ (gs : List NTTGadgetRLWE) (ps : List (List Nat)) (x : NTTRLWE),
    (∀ g ∈ gs, g.data.length = L) → Costs (RlweSwitch.loop R gs ps x) (Verif.RlweSwitch.loop R gs ps x)
      (min gs.length ps.length * L, 0)
  | [], ps, x, _ => by
    cases ps <;> exact (costs_pure x).cast (by simp; rfl) rfl
  | _ :: _, [], x, _ => (costs_pure x).cast (by simp; rfl) rfl
  | g :: gs, p :: ps, x, h =>
    ((costs_subGadgetMulFast R x g p).bind fun x =>
      costs_switchLoop L gs ps x fun y hy => h y (List.mem_cons_of_mem _ hy)).cast
      (by
        rw [h g (List.mem_cons_self ..)]
        simp only [Prod.mk_add_mk, List.length_cons, Nat.succ_min_succ]
        congr 1
        rw [Nat.succ_mul]
        omega) rfl

theorem costs_inner (L dim : Nat) (key : List NTTGadgetRLWE) (b : Nat) (ps : List (List Nat))
    (h : ∀ g ∈ key, g.data.length = L) :
    Costs (RlweSwitch.inner R dim key b ps) (Verif.RlweSwitch.inner R dim key b ps)
      (min key.length ps.length * L, 2) :=
  ((costs_switchLoop R L key ps _ h).bind fun x => (costs_toCoeff R x).bind (k' := (0, 0)) fun x =>
    costs_lift _).cast (by simp) rfl

end Verif.Work
