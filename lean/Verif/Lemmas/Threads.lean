import Verif.Model.Threads

/-! # The functions with visible requests, run alone, are the sequential functions -/

namespace Verif.Prog

theorem run_bind (tbl : Nat → Option Table) {α β : Type} : ∀ (p : Prog α) (g : α → Prog β),
    (p >>= g).run tbl = (p.run tbl).bind fun a => (g a).run tbl
  | .stop none, g => rfl
  | .stop (some a), g => rfl
  | .ask k f, g => by
    show (Prog.ask k fun t => (f t).bind g).run tbl = _
    simp only [run]
    cases tbl k with
    | none => rfl
    | some t => exact run_bind tbl (f t) g
  | .fork p q f, g => by
    show (Prog.fork p q fun a b => (f a b).bind g).run tbl = _
    simp only [run]
    cases p.run tbl with
    | none => rfl
    | some a =>
      cases q.run tbl with
      | none => rfl
      | some b => exact run_bind tbl (f a b) g

theorem run_pure (tbl : Nat → Option Table) {α : Type} (a : α) : (pure a : Prog α).run tbl = some a := rfl

theorem run_lift (tbl : Nat → Option Table) {α : Type} (o : Option α) :
    (liftM o : Prog α).run tbl = o := rfl

theorem run_stop (tbl : Nat → Option Table) {α : Type} (o : Option α) : (Prog.stop o).run tbl = o := rfl

section
variable (R : Ctx)

theorem tableFor_run (n : Nat) : (tableFor n).run R.tbl = Poly.tableFor R.tbl n := by
  unfold tableFor Poly.tableFor
  split
  · simp only [run]; cases R.tbl _ <;> rfl
  · rfl

theorem toNtt_run (a : List Nat) : (toNtt R a).run R.tbl = Poly.toNtt R.w R.M R.tbl a := by
  simp only [toNtt, Poly.toNtt, run_bind, run_lift, tableFor_run]; rfl

theorem ofNtt_run (a : List Nat) : (ofNtt R a).run R.tbl = Poly.ofNtt R.w R.M R.tbl a := by
  simp only [ofNtt, Poly.ofNtt, run_bind, run_lift, tableFor_run]; rfl

theorem toCoeff_run (x : NTTRLWE) : (toCoeff R x).run R.tbl = NTTRLWE.toCoeff R x := by
  simp only [toCoeff, NTTRLWE.toCoeff, run_bind, run_pure, ofNtt_run]; rfl

theorem gadgetLoop_run (B : Basis) : ∀ (gs : List NTTRLWE) (p : List Nat) (x : NTTRLWE),
    (gadgetLoop R B gs p x).run R.tbl = NTTRLWE.gadgetLoop R B (NTTRLWE.addMulFast R) gs p x
  | [], _, _ => rfl
  | g :: gs, p, x => by
    simp only [gadgetLoop, NTTRLWE.gadgetLoop, run_bind, run_lift, toNtt_run, gadgetLoop_run B gs]; rfl

theorem mulAssignNttRgsw_run (x : RLWE) (g : NTTRGSW) (m : NTTRLWE) :
    (mulAssignNttRgsw R x g m).run R.tbl = RLWE.mulAssignNttRgsw R x g m := by
  simp only [mulAssignNttRgsw, RLWE.mulAssignNttRgsw, run_bind, run_pure, gadgetLoop_run, toCoeff_run]; rfl

theorem update_run (n : Nat) (st : BlindRotation.State) (key : NTTRGSW) (a : Nat) :
    (update R n st key a).run R.tbl = BlindRotation.update R n st key a := by
  simp only [update, BlindRotation.update, run_bind, run_pure, run_lift, mulAssignNttRgsw_run]; rfl

theorem binaryStep_run (n : Nat) (st : BlindRotation.State) (key : NTTRGSW) (a : Nat) :
    (binaryStep R n st key a).run R.tbl = BlindRotation.binaryStep R n st key a := by
  unfold binaryStep BlindRotation.binaryStep
  split
  · rfl
  · exact update_run R n st key a

theorem ternaryStep_run (t : Table) (n : Nat) (st : BlindRotation.State) (key : NTTRGSW × NTTRGSW) (a : Nat) :
    (ternaryStep R t n st key a).run R.tbl = BlindRotation.ternaryStep R t n st key a := by
  unfold ternaryStep BlindRotation.ternaryStep
  split
  · rfl
  · simp only [run_bind, run_lift, update_run]; rfl

theorem rotationLoop_run {K : Type} {step : BlindRotation.State → K → Nat → Prog BlindRotation.State}
    {step' : BlindRotation.State → K → Nat → Option BlindRotation.State}
    (h : ∀ st k a, (step st k a).run R.tbl = step' st k a) : ∀ (ks : List K) (as : List Nat) (st : BlindRotation.State),
    (rotationLoop step ks as st).run R.tbl = BlindRotation.loop step' ks as st
  | [], _, _ => by simp only [rotationLoop, BlindRotation.loop, run_pure]
  | _ :: _, [], _ => by simp only [rotationLoop, BlindRotation.loop, run_pure]
  | k :: ks, a :: as, st => by
    simp only [rotationLoop, BlindRotation.loop, run_bind, h, rotationLoop_run h ks as]; rfl

theorem rotate_run (lut : List Nat) (c : LWE) (key : RotationKey) :
    (rotate R lut c key).run R.tbl = key.rotate R lut c := by
  cases key with
  | binary key =>
    simp only [rotate, RotationKey.rotate, BlindRotation.binary, run_bind, run_lift, run_pure,
      rotationLoop_run R (binaryStep_run R _)]; rfl
  | ternary key =>
    simp only [rotate, RotationKey.rotate, BlindRotation.ternary, run_bind, run_lift, run_pure, tableFor_run,
      rotationLoop_run R (ternaryStep_run R _ _)]; rfl

theorem switchLoop_run : ∀ (key : List NTTGadgetRLWE) (ps : List (List Nat)) (x : NTTRLWE),
    (switchLoop R key ps x).run R.tbl = RlweSwitch.loop R key ps x
  | [], _, _ => by simp only [switchLoop, RlweSwitch.loop, run_pure]
  | _ :: _, [], _ => by simp only [switchLoop, RlweSwitch.loop, run_pure]
  | g :: gs, p :: ps, x => by
    simp only [switchLoop, RlweSwitch.loop, NTTRLWE.subGadgetMulFast, run_bind, run_lift, gadgetLoop_run,
      switchLoop_run gs ps, Option.bind_eq_bind, Option.bind_assoc]

theorem switchInner_run (dim : Nat) (key : List NTTGadgetRLWE) (b : Nat) (ps : List (List Nat)) :
    (switchInner R dim key b ps).run R.tbl = RlweSwitch.inner R dim key b ps := by
  simp only [switchInner, RlweSwitch.inner, run_bind, run_lift, switchLoop_run, toCoeff_run]; rfl

theorem keySwitchRlwe_run (dim : Nat) (key : List NTTGadgetRLWE) (x : RLWE) :
    (keySwitchRlwe R dim key x).run R.tbl = RlweSwitch.keySwitchRlwe R dim key x := by
  simp only [keySwitchRlwe, RlweSwitch.keySwitchRlwe, run_bind, run_lift, switchInner_run]; rfl

end

section
variable (K : EvalKey)

theorem finish_run (c : LWE) (acc : RLWE) : (finish K c acc).run K.R.tbl = K.finish c acc := by
  unfold finish EvalKey.finish
  cases K.P.steps with
  | brMsKs =>
    cases K.sw <;> simp only [run_bind, run_lift] <;> rfl
  | brKsMs =>
    cases K.sw <;> simp only [run_bind, run_lift, keySwitchRlwe_run] <;> rfl
  | brMs => simp only [run_bind, run_lift]; rfl

theorem bootstrap_run (c : LWE) (lut : List Nat) : (bootstrap K c lut).run K.R.tbl = K.bootstrap c lut := by
  simp only [bootstrap, accumulate, EvalKey.bootstrap, EvalKey.accumulate, run_bind, run_lift, rotate_run,
    finish_run]; rfl

theorem sumGate_run (lut : Ctx → Nat → Nat → Option (List Nat)) (c0 c1 : LWE) :
    (sumGate K lut c0 c1).run K.R.tbl = K.sumGate lut c0 c1 := by
  simp only [sumGate, EvalKey.sumGate, run_bind, run_lift, bootstrap_run]; rfl

theorem diffGate_run (lut : Ctx → Nat → Nat → Option (List Nat)) (c0 c1 : LWE) :
    (diffGate K lut c0 c1).run K.R.tbl = K.diffGate lut c0 c1 := by
  simp only [diffGate, EvalKey.diffGate, run_bind, run_lift, bootstrap_run]; rfl

theorem majority_run (c0 c1 c2 : LWE) : (majority K c0 c1 c2).run K.R.tbl = K.majority c0 c1 c2 := by
  simp only [majority, EvalKey.majority, run_bind, run_lift, bootstrap_run]; rfl

theorem mux_run (c0 c1 c2 : LWE) : (mux K c0 c1 c2).run K.R.tbl = K.mux c0 c1 c2 := by
  have hf (n0 : LWE) : (Prog.fork (sumGate K Lut.andMajority c0 c1) (sumGate K Lut.andMajority n0 c2)
      (muxEnd K)).run K.R.tbl = (K.and c0 c1).bind fun a => (K.and n0 c2).bind fun b => (muxEnd K a b).run K.R.tbl := by
    simp only [run, sumGate_run]; rfl
  simp only [mux, EvalKey.mux, run_bind, run_lift, hf, muxEnd, bootstrap_run]
  cases h : (K.P.lwe K.w).ops with
  | none =>
    have : K.not c0 = none := by simp [EvalKey.not, LWEParams.not, h]
    simp [this]
  | some O => rfl

end

section
variable (R : Ctx)

theorem zeroSample_run (s a e : List Nat) : (zeroSample R s a e).run R.tbl = NTTRLWE.zeroSample R s a e := by
  unfold zeroSample NTTRLWE.zeroSample
  split
  · simp only [run_bind, run_lift, run_pure, toNtt_run]; rfl
  · rfl

theorem valueSample_run (s : List Nat) (v : Nat) (a e : List Nat) :
    (valueSample R s v a e).run R.tbl = NTTRLWE.valueSample R s v a e := by
  unfold valueSample NTTRLWE.valueSample
  split
  · simp only [run_bind, run_lift, run_pure, toNtt_run]; rfl
  · rfl

theorem negSecretElement_run (s : List Nat) (v : Nat) (a e : List Nat) :
    (negSecretElement R s v a e).run R.tbl = NTTGadgetRLWE.negSecretElement R s v a e := by
  simp only [negSecretElement, NTTGadgetRLWE.negSecretElement, run_bind, run_lift, run_pure, zeroSample_run]; rfl

theorem generateLoop_run {f : Nat → List Nat → List Nat → Prog NTTRLWE}
    {f' : Nat → List Nat → List Nat → Option NTTRLWE} (h : ∀ v a e, (f v a e).run R.tbl = f' v a e) (basis : Nat) :
    ∀ (k power : Nat) (ds : List Draw),
      (generateLoop R f basis k power ds).run R.tbl = NTTGadgetRLWE.generateLoop R f' basis k power ds
  | 0, _, [] => by simp only [generateLoop, NTTGadgetRLWE.generateLoop]; rfl
  | _ + 1, _, [] => by simp only [generateLoop, NTTGadgetRLWE.generateLoop]; rfl
  | 0, power, (a, e) :: _ => by
    simp only [generateLoop, NTTGadgetRLWE.generateLoop, run_bind, h, run_pure]; rfl
  | k + 1, power, (a, e) :: ds => by
    simp only [generateLoop, NTTGadgetRLWE.generateLoop, run_bind, run_lift, h, run_pure,
      generateLoop_run h basis k]; rfl

theorem zeroLoop_run (s : List Nat) : ∀ (ds : List Draw),
    (zeroLoop R s ds).run R.tbl = ds.mapM fun d => NTTRLWE.zeroSample R s d.1 d.2
  | [] => rfl
  | (a, e) :: ds => by
    simp only [zeroLoop, List.mapM_cons, run_bind, run_pure, zeroSample_run, zeroLoop_run s ds]; rfl

theorem rgswZero_run (s : List Nat) (B : Basis) (d : BlindRotation.RgswDraw) :
    (rgswZero R s B d).run R.tbl = NTTRGSW.zeroSample R s B d.1 d.2 := by
  have h : ∀ ds, (gadgetZero R s B ds).run R.tbl = NTTGadgetRLWE.zeroSample R s B ds := by
    intro ds
    unfold gadgetZero NTTGadgetRLWE.zeroSample
    split
    · simp only [run_bind, run_pure, zeroLoop_run]; rfl
    · rfl
  simp only [rgswZero, NTTRGSW.zeroSample, run_bind, run_pure, h]; rfl

theorem rgswOne_run (s : List Nat) (B : Basis) (d : BlindRotation.RgswDraw) :
    (rgswOne R s B d).run R.tbl = NTTRGSW.oneSample R s B d.1 d.2 := by
  simp only [rgswOne, NTTRGSW.oneSample, gadgetLoopSample, NTTGadgetRLWE.oneSample, NTTGadgetRLWE.negSecretSample,
    run_bind, run_lift, run_pure, generateLoop_run R (valueSample_run R s),
    generateLoop_run R (negSecretElement_run R s)]; rfl

theorem binaryGenerate_run (sn : List Nat) (B : Basis) : ∀ (ss : List Nat) (ds : List BlindRotation.RgswDraw),
    (binaryGenerate R sn B ss ds).run R.tbl = BlindRotation.binaryGenerate R sn B ss ds
  | [], _ => by simp only [binaryGenerate, BlindRotation.binaryGenerate, run_pure]
  | _ :: _, [] => rfl
  | s :: ss, d :: ds => by
    have h : (binaryKey R sn B s d).run R.tbl = BlindRotation.binaryKey R sn B s d := by
      unfold binaryKey BlindRotation.binaryKey
      split
      · exact rgswZero_run R sn B d
      · exact rgswOne_run R sn B d
    simp only [binaryGenerate, BlindRotation.binaryGenerate, run_bind, run_pure, h, binaryGenerate_run sn B ss ds]
    rfl

theorem ternaryKey_run (sn : List Nat) (B : Basis) (s : Nat) (d : BlindRotation.RgswDraw × BlindRotation.RgswDraw) :
    (ternaryKey R sn B s d).run R.tbl = BlindRotation.ternaryKey R sn B s d := by
  unfold ternaryKey BlindRotation.ternaryKey
  split
  · simp only [run_bind, run_pure, rgswZero_run, rgswOne_run]; rfl
  split
  · simp only [run_bind, run_pure, rgswZero_run]; rfl
  · simp only [run_bind, run_pure, rgswZero_run, rgswOne_run]; rfl

theorem ternaryGenerate_run (sn : List Nat) (B : Basis) :
    ∀ (ss : List Nat) (ds : List (BlindRotation.RgswDraw × BlindRotation.RgswDraw)),
    (ternaryGenerate R sn B ss ds).run R.tbl = BlindRotation.ternaryGenerate R sn B ss ds
  | [], _ => by simp only [ternaryGenerate, BlindRotation.ternaryGenerate, run_pure]
  | _ :: _, [] => rfl
  | s :: ss, d :: ds => by
    simp only [ternaryGenerate, BlindRotation.ternaryGenerate, run_bind, run_pure, ternaryKey_run,
      ternaryGenerate_run sn B ss ds]
    rfl

theorem rotationKey_run (P : Params) (pack : KeyPack) (d : EvalDraws) :
    (rotationKey R P pack d).run R.tbl = RotationKey.generate R P pack d := by
  unfold rotationKey RotationKey.generate
  cases P.lweKeyType <;> simp only [run_bind, run_pure, binaryGenerate_run, ternaryGenerate_run] <;> rfl

theorem samples_run (sn : List Nat) (basis : Nat) : ∀ (cnt : Nat) (z : List Nat) (ds : List Draw),
    (samples R sn basis cnt z ds).run R.tbl = RlweSwitch.samples R sn basis cnt z ds
  | 0, _, _ => by simp only [samples, RlweSwitch.samples, run_pure]
  | 1, _, [] => rfl
  | _ + 2, _, [] => rfl
  | 1, z, (a, e) :: _ => by
    simp only [samples, RlweSwitch.samples, run_bind, run_lift, run_pure, zeroSample_run]; rfl
  | cnt + 2, z, (a, e) :: ds => by
    simp only [samples, RlweSwitch.samples, run_bind, run_lift, run_pure, zeroSample_run,
      samples_run sn basis (cnt + 1)]; rfl

theorem element_run (B : Basis) (sn : List Nat) (basis : Nat) (z : List Nat) (ds : List Draw) :
    (element R B sn basis z ds).run R.tbl = RlweSwitch.element R B sn basis z ds := by
  simp only [element, RlweSwitch.element, run_bind, samples_run]
  refine congrArg _ (funext fun data => ?_)
  split <;> rfl

theorem elements_run (B : Basis) (sn : List Nat) (basis : Nat) (d : Nat → List Draw) :
    ∀ (c : Nat) (zs : List (List Nat)),
      (elements R B sn basis d c zs).run R.tbl = RlweSwitch.elements R B sn basis d c zs
  | _, [] => rfl
  | c, z :: zs => by
    simp only [elements, RlweSwitch.elements, run_bind, run_pure, toNtt_run, element_run,
      elements_run B sn basis d (c + 1) zs]; rfl

theorem rlweSwitchKey_run (bits : Nat) (sk ring ringNtt : List Nat) (d : Nat → List Draw) :
    (rlweSwitchKey R bits sk ring ringNtt d).run R.tbl = RlweSwitch.generate R bits sk ring ringNtt d := by
  unfold rlweSwitchKey RlweSwitch.generate
  have h (B n sn basis) : (keyParts R B n sn basis ring ringNtt d).run R.tbl
      = RlweSwitch.keyParts R B n sn basis ring ringNtt d := by
    unfold keyParts RlweSwitch.keyParts
    split
    · simp only [run_bind, run_pure, element_run]; rfl
    · exact elements_run ..
  dsimp only
  split
  · simp only [run_bind, run_lift, toNtt_run, h]; rfl
  · rfl

theorem start_run (w : Nat) (P : Params) (dk : KeyDraws) (d : EvalDraws) :
    (start w R P dk d).run R.tbl = App.start w R P dk d := by
  have hs (pack) : (switchKey w R P pack d).run R.tbl = SwitchKey.generate w R P pack d := by
    unfold switchKey SwitchKey.generate
    cases P.steps <;> simp only [run_bind, run_lift, run_pure, rlweSwitchKey_run] <;> rfl
  simp only [start, keyPack, evalKey, App.start, KeyGen.generateSecretKey, KeyPack.new, EvalKey.new, run_bind,
    run_lift, run_pure, toNtt_run, rotationKey_run, hs]
  rfl

end

section
variable (A : App)

theorem exec_run (cs : List LWE) (x : Call) : (exec A cs x).run A.evaluator.R.tbl = A.exec cs x := by
  cases x <;> simp only [exec, App.exec, run_bind, run_lift, run_pure, sumGate_run, diffGate_run, majority_run,
    mux_run] <;> rfl

theorem calls_run : ∀ (xs : List Call) (cs : List LWE), (calls A xs cs).run A.evaluator.R.tbl = A.run xs cs
  | [], _ => rfl
  | x :: xs, cs => by
    simp only [calls, App.run, run_bind, run_pure, exec_run, calls_run xs]; rfl

end
end Verif.Prog
