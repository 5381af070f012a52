import Verif.Props.EndToEnd
import Verif.SpecSession

/-!
# C61: applications
-/

namespace Verif.Props
open Fp Finset Spec Ntt

section
variable {w : Nat} {R : Ctx} {P : Params} {Q k m : Nat} [Fact Q.Prime] (G : GateParams w R P Q k m)

/-- The evaluator computes every circuit on ciphertexts of noise at most `η`, with a result of noise at most `η`. -/
def EvaluatesAll (K : EvalKey) (m : Nat) (sk : List Nat) (η : ℤ) : Prop :=
  ∀ (c : Nat → LWE) (b : Nat → Bool), (∀ i, Encrypts (2 ^ m) sk η (c i) (b i)) → ∀ X : Circuit,
    ∃ out, X.run K c = some out ∧ Encrypts (2 ^ m) sk η out (X.eval b)

theorem forall₂_getElem? {α β : Type} {r : α → β → Prop} {l : List α} {l' : List β}
    (h : List.Forall₂ r l l') {i : Nat} {y : β} (hy : l'[i]? = some y) : ∃ x, l[i]? = some x ∧ r x y := by
  obtain ⟨hlen, hget⟩ := List.forall₂_iff_get.1 h
  obtain ⟨hi, rfl⟩ := List.getElem?_eq_some_iff.1 hy
  have hi' : i < l.length := by omega
  exact ⟨l[i], List.getElem?_eq_getElem hi', hget i hi' hi⟩

theorem evaluates_gate {K : EvalKey} {sk : List Nat} {η : ℤ} (hK : EvaluatesAll K m sk η) {c0 c1 c2 : LWE}
    {b0 b1 b2 : Bool} (h0 : Encrypts (2 ^ m) sk η c0 b0) (h1 : Encrypts (2 ^ m) sk η c1 b1)
    (h2 : Encrypts (2 ^ m) sk η c2 b2) (X : Circuit) :
    ∃ out, X.run K (fun i => if i = 0 then c0 else if i = 1 then c1 else c2) = some out ∧
      Encrypts (2 ^ m) sk η out (X.eval fun i => if i = 0 then b0 else if i = 1 then b1 else b2) :=
  hK _ _ (fun i => by split_ifs <;> assumption) X

/-- One call. -/
theorem exec_spec (hlwe : LWEParamsOk (P.lwe w) 2 m) {A : App} (hw : A.w = w) (hP : A.P = P) {sk : List Nat} (hn : sk.length = P.n)
    (he : A.encryptor.lwe = sk) (hd : A.decryptor.lwe = sk) {η : ℤ} (hη : 24 * η < 2 ^ m)
    (hK : EvaluatesAll A.evaluator m sk η) {cs : List LWE} {bs bs' : List Bool} {r : Option Answer}
    (h : List.Forall₂ (fun c b => Encrypts (2 ^ m) sk η c b) cs bs) (x : Call) (hx : x.Ok P.n P.q η)
    (hp : x.plain bs = some (bs', r)) :
    ∃ cs' r', A.exec cs x = some (cs', r') ∧ List.Forall₂ (fun c b => Encrypts (2 ^ m) sk η c b) cs' bs' ∧
      List.Forall₂ (Reply.Correct η) r'.toList r.toList := by
  have happ : ∀ {c : LWE} {b : Bool}, Encrypts (2 ^ m) sk η c b →
      List.Forall₂ (fun c b => Encrypts (2 ^ m) sk η c b) (cs ++ [c]) (bs ++ [b]) := fun {c b} hc =>
    List.rel_append h (.cons hc .nil)
  have hq : P.q = 2 ^ m := hlwe.q
  have hrange : ∀ {z : ℤ}, |z| ≤ η → NoiseInRange (2 ^ 2) (2 ^ m) z := fun {z} hz => by
    have h5 := abs_le.1 hz
    have h6 : 0 ≤ η := (abs_nonneg _).trans hz
    unfold NoiseInRange
    push_cast
    constructor <;> linarith
  have hbit : ∀ b : Bool, b.toNat < 2 ^ 2 := fun b => by have := Bool.toNat_lt b; omega
  have two : ∀ {i j : Nat} {g : Bool → Bool → Bool} {f : LWE → LWE → Option LWE} (X : Circuit),
      (∀ c0 c1, X.run A.evaluator (fun i => if i = 0 then c0 else if i = 1 then c1 else c1) = f c0 c1) →
      (∀ b0 b1, (X.eval fun i => if i = 0 then b0 else if i = 1 then b1 else b1) = g b0 b1) →
      (do
        let x ← bs[i]?
        let y ← bs[j]?
        return (bs ++ [g x y], (none : Option Answer))) = some (bs', r) →
      ∃ cs' r', (do
        let c ← f (← cs[i]?) (← cs[j]?)
        return (cs ++ [c], (none : Option Reply))) = some (cs', r') ∧
        List.Forall₂ (fun c b => Encrypts (2 ^ m) sk η c b) cs' bs' ∧
        List.Forall₂ (Reply.Correct η) r'.toList r.toList := by
    intro i j g f X hX hg hp
    obtain ⟨b0, e0, hp⟩ := Option.bind_eq_some_iff.1 hp
    obtain ⟨b1, e1, hp⟩ := Option.bind_eq_some_iff.1 hp
    obtain ⟨rfl, rfl⟩ := Prod.mk.inj (Option.some.inj hp)
    obtain ⟨c0, f0, h0⟩ := forall₂_getElem? h e0
    obtain ⟨c1, f1, h1⟩ := forall₂_getElem? h e1
    obtain ⟨out, eo, ho⟩ := evaluates_gate hK h0 h1 h1 X
    rw [hX] at eo
    rw [hg] at ho
    exact ⟨_, _, by rw [mbind f0, mbind f1, mbind eo]; rfl, happ ho, .nil⟩
  have three : ∀ {i j l : Nat} {g : Bool → Bool → Bool → Bool} {f : LWE → LWE → LWE → Option LWE} (X : Circuit),
      (∀ c0 c1 c2, X.run A.evaluator (fun i => if i = 0 then c0 else if i = 1 then c1 else c2) = f c0 c1 c2) →
      (∀ b0 b1 b2, (X.eval fun i => if i = 0 then b0 else if i = 1 then b1 else b2) = g b0 b1 b2) →
      (do
        let x ← bs[i]?
        let y ← bs[j]?
        let z ← bs[l]?
        return (bs ++ [g x y z], (none : Option Answer))) = some (bs', r) →
      ∃ cs' r', (do
        let c ← f (← cs[i]?) (← cs[j]?) (← cs[l]?)
        return (cs ++ [c], (none : Option Reply))) = some (cs', r') ∧
        List.Forall₂ (fun c b => Encrypts (2 ^ m) sk η c b) cs' bs' ∧
        List.Forall₂ (Reply.Correct η) r'.toList r.toList := by
    intro i j l g f X hX hg hp
    obtain ⟨b0, e0, hp⟩ := Option.bind_eq_some_iff.1 hp
    obtain ⟨b1, e1, hp⟩ := Option.bind_eq_some_iff.1 hp
    obtain ⟨b2, e2, hp⟩ := Option.bind_eq_some_iff.1 hp
    obtain ⟨rfl, rfl⟩ := Prod.mk.inj (Option.some.inj hp)
    obtain ⟨c0, f0, h0⟩ := forall₂_getElem? h e0
    obtain ⟨c1, f1, h1⟩ := forall₂_getElem? h e1
    obtain ⟨c2, f2, h2⟩ := forall₂_getElem? h e2
    obtain ⟨out, eo, ho⟩ := evaluates_gate hK h0 h1 h2 X
    rw [hX] at eo
    rw [hg] at ho
    exact ⟨_, _, by rw [mbind f0, mbind f1, mbind f2, mbind eo]; rfl, happ ho, .nil⟩
  cases x with
  | encrypt b mask z =>
    obtain ⟨rfl, rfl⟩ := Prod.mk.inj (Option.some.inj hp)
    obtain ⟨⟨m1, m2⟩, hz⟩ := hx
    obtain ⟨c, ec, hc, -, hph, -⟩ := C31_encrypt_decrypt (P.lwe w) 2 m P.n hlwe sk mask hn m1
      (by rw [← hq]; exact m2) b.toNat z (hbit b) (hrange hz)
    refine ⟨cs ++ [c], none, ?_, happ ⟨by rw [hn]; exact hc, z, hz, hph⟩, .nil⟩
    unfold App.exec App.encrypt
    dsimp only
    rw [hw, hP, he, mbind ec]; rfl
  | not i =>
    obtain ⟨b0, e0, hp⟩ := Option.bind_eq_some_iff.1 hp
    obtain ⟨rfl, rfl⟩ := Prod.mk.inj (Option.some.inj hp)
    obtain ⟨c0, f0, h0⟩ := forall₂_getElem? h e0
    obtain ⟨out, eo, ho⟩ := evaluates_gate hK h0 h0 h0 (.not (.input 0))
    refine ⟨cs ++ [out], none, ?_, happ (b := decide (b0 = false)) ?_, .nil⟩
    · unfold App.exec
      dsimp only
      rw [mbind f0, mbind (show A.evaluator.not c0 = some out from eo)]; rfl
    · have : decide (b0 = false) = !b0 := by cases b0 <;> rfl
      rw [this]; exact ho
  | nand i j =>
    exact two (.nand (.input 0) (.input 1)) (fun _ _ => rfl) (fun a b => by cases a <;> cases b <;> rfl) hp
  | and i j =>
    exact two (.and (.input 0) (.input 1)) (fun _ _ => rfl) (fun a b => by cases a <;> cases b <;> rfl) hp
  | or i j =>
    exact two (.or (.input 0) (.input 1)) (fun _ _ => rfl) (fun a b => by cases a <;> cases b <;> rfl) hp
  | nor i j =>
    exact two (.nor (.input 0) (.input 1)) (fun _ _ => rfl) (fun a b => by cases a <;> cases b <;> rfl) hp
  | xor i j =>
    exact two (.xor (.input 0) (.input 1)) (fun _ _ => rfl) (fun a b => by cases a <;> cases b <;> rfl) hp
  | xnor i j =>
    exact two (.xnor (.input 0) (.input 1)) (fun _ _ => rfl) (fun a b => by cases a <;> cases b <;> rfl) hp
  | majority i j l =>
    exact three (.majority (.input 0) (.input 1) (.input 2)) (fun _ _ _ => rfl)
      (fun a b c => by cases a <;> cases b <;> cases c <;> rfl) hp
  | mux i j l =>
    exact three (.mux (.input 0) (.input 1) (.input 2)) (fun _ _ _ => rfl)
      (fun a b c => by cases a <;> cases b <;> cases c <;> rfl) hp
  | decrypt i =>
    obtain ⟨b0, e0, hp⟩ := Option.bind_eq_some_iff.1 hp
    obtain ⟨rfl, rfl⟩ := Prod.mk.inj (Option.some.inj hp)
    obtain ⟨c0, f0, hc, e, hbe, hph⟩ := forall₂_getElem? h e0
    have ed := C31_decrypt (P.lwe w) 2 m sk.length hlwe sk rfl c0 hc b0.toNat e (hbit b0) (hrange hbe) hph
      .bool (show b0.toNat < 2 from Bool.toNat_lt b0)
    refine ⟨cs, some (.value b0.toNat), ?_, h, .cons rfl .nil⟩
    unfold App.exec App.decrypt
    dsimp only
    rw [mbind f0, hw, hP, hd, mbind ed]; rfl
  | decryptWithNoise i =>
    obtain ⟨b0, e0, hp⟩ := Option.bind_eq_some_iff.1 hp
    obtain ⟨rfl, rfl⟩ := Prod.mk.inj (Option.some.inj hp)
    obtain ⟨c0, f0, hc, e, hbe, hph⟩ := forall₂_getElem? h e0
    have ed := C32_noise (P.lwe w) 2 m sk.length hlwe sk rfl c0 hc b0.toNat e (hbit b0) (hrange hbe) hph
      .bool (show b0.toNat < 2 from Bool.toNat_lt b0)
    refine ⟨cs, some (.noisy b0.toNat e.natAbs), ?_, h, .cons ⟨rfl, ?_⟩ .nil⟩
    · unfold App.exec App.decryptWithNoise
      dsimp only
      rw [mbind f0, hw, hP, hd, mbind ed]; rfl
    · rw [← Int.abs_eq_natAbs]; exact hbe

/-- A history of calls. -/
theorem run_spec (hlwe : LWEParamsOk (P.lwe w) 2 m) {A : App} (hw : A.w = w) (hP : A.P = P) {sk : List Nat} (hn : sk.length = P.n)
    (he : A.encryptor.lwe = sk) (hd : A.decryptor.lwe = sk) {η : ℤ} (hη : 24 * η < 2 ^ m)
    (hK : EvaluatesAll A.evaluator m sk η) : ∀ (xs : List Call) {cs : List LWE} {bs bs' : List Bool}
    {rs : List Answer},
    List.Forall₂ (fun c b => Encrypts (2 ^ m) sk η c b) cs bs → (∀ x ∈ xs, x.Ok P.n P.q η) →
    Call.plainRun xs bs = some (bs', rs) →
    ∃ cs' rs', A.run xs cs = some (cs', rs') ∧ List.Forall₂ (fun c b => Encrypts (2 ^ m) sk η c b) cs' bs' ∧
      List.Forall₂ (Reply.Correct η) rs' rs
  | [], cs, bs, bs', rs, h, _, hp => by
    obtain ⟨rfl, rfl⟩ := Prod.mk.inj (Option.some.inj hp)
    exact ⟨cs, [], rfl, h, .nil⟩
  | x :: xs, cs, bs, bs', rs, h, hx, hp => by
    obtain ⟨⟨b1, r1⟩, e1, hp⟩ := Option.bind_eq_some_iff.1 hp
    obtain ⟨⟨b2, r2⟩, e2, hp⟩ := Option.bind_eq_some_iff.1 hp
    obtain ⟨rfl, rfl⟩ := Prod.mk.inj (Option.some.inj hp)
    obtain ⟨c1, s1, f1, h1, g1⟩ := exec_spec hlwe hw hP hn he hd hη hK h x (hx x List.mem_cons_self) e1
    obtain ⟨c2, s2, f2, h2, g2⟩ := run_spec hlwe hw hP hn he hd hη hK xs h1
      (fun y hy => hx y (List.mem_cons_of_mem _ hy)) e2
    refine ⟨c2, s1.toList ++ s2, ?_, h2, List.rel_append g1 g2⟩
    unfold App.run
    rw [mbind f1]
    dsimp only
    rw [mbind f2]; rfl

include G in
/-- C61: an application that generates keys and then encrypts, evaluates gates and decrypts in any order gets the replies
of the same calls on bits, and every reported noise is at most `η`. The samples are within the bounds of a stable level. -/
theorem C61_application (hS : StepsOk R P Q k m) (bits : Nat)
    (hB : Basis.new R.w Q bits = some P.basis) (dk : KeyDraws) (hg : GaussOk P Q dk) (E E' : Nat)
    (d : EvalDraws) (hd : EvalDrawsOk R P Q k m E E' d) (η : ℤ)
    (hη : WorstStable P Q k m (worstRotation P k E) (worstSwitch w R P Q k m E') η) :
    ∃ A, App.start w R P dk d = some A ∧
      ∀ (xs : List Call) (bs : List Bool) (rs : List Answer), (∀ x ∈ xs, x.Ok P.n P.q η) →
        Call.plainRun xs [] = some (bs, rs) →
        ∃ cs rs', A.run xs [] = some (cs, rs') ∧ List.Forall₂ (Reply.Correct η) rs' rs := by
  obtain ⟨pack, rot, sw, Z, ep, eK, hlen, hZ, V⟩ :=
    C52_evaluation_key G hS bits hB dk hg E E' d hd
  have hZn : P.steps = .brMsKs → norm1 Z ≤ 2 ^ k := fun hst => by
    have hng : P.ringKeyType ≠ .gaussian := by
      unfold StepsOk at hS; rw [hst] at hS; exact hS.1
    rw [hZ hng]
    refine (norm1_digits _).trans ?_
    have := V.red.1
    rw [this]; push_cast; exact le_rfl
  have hst := worst_stable (K := ⟨w, R, P, rot, sw⟩) rfl rfl rfl hlen hZn hη
  refine ⟨⟨w, P, pack, ⟨w, R, P, rot, sw⟩, pack⟩, ?_, fun xs bs rs hx hp => ?_⟩
  · unfold App.start KeyGen.generateSecretKey
    rw [mbind ep, mbind eK]; rfl
  · have h24 : 24 * η < 2 ^ m := by
      have h1 := hst.gate
      have h2 : (0 : ℤ) ≤ 2 * 2 ^ m * (worstLevel ⟨w, R, P, rot, sw⟩ Q k m (pack.lwe.map ternaryDigit) Z E E').inp :=
        mul_nonneg (by positivity) hst.nonneg
      have h3 : (24 * η) * 2 ^ k < 2 ^ m * 2 ^ k := by linarith
      exact lt_of_mul_lt_mul_right h3 (by positivity)
    obtain ⟨cs, rs', e, -, h⟩ := run_spec G.lwe (A := ⟨w, P, pack, ⟨w, R, P, rot, sw⟩, pack⟩) rfl rfl hlen rfl rfl h24
      (fun c b hc X => by
        obtain ⟨out, e, ho, -⟩ := C44_circuit (K := ⟨w, R, P, rot, sw⟩) G V hst (C44_noise_bound G V) c b hc X
        exact ⟨out, e, ho⟩) xs .nil hx hp
    exact ⟨cs, rs', e, h⟩

end

/-- C61: the functions on bits are the gates. -/
theorem C61_bits (a b c : Bool) :
    (Util.not a = true ↔ a = false) ∧ (Util.and a b = true ↔ a = true ∧ b = true) ∧
    (Util.nand a b = true ↔ ¬(a = true ∧ b = true)) ∧ (Util.or a b = true ↔ a = true ∨ b = true) ∧
    (Util.nor a b = true ↔ ¬(a = true ∨ b = true)) ∧ (Util.xor a b = true ↔ a ≠ b) ∧
    (Util.xnor a b = true ↔ a = b) ∧ (Util.majority a b c = true ↔ 2 ≤ a.toNat + b.toNat + c.toNat) := by
  cases a <;> cases b <;> cases c <;> decide

-- an application on the small instance: majority of three bits, its negation, and both decrypted
example : ∃ A cs v e, App.start 16 nativeCtx smallParams ⟨fun _ => 14, fun _ => 0x2d2d2d2d, []⟩ smallEvalDraws = some A ∧
    A.run [.encrypt true [5, 60] 2, .encrypt false [6, 61] (-1), .encrypt true [7, 62] 0,
      .majority 0 1 2, .decrypt 3, .not 3, .decryptWithNoise 4] [] = some (cs, [.value 1, .noisy v e]) ∧
      v = 0 ∧ (e : ℤ) ≤ 2 := by
  obtain ⟨A, eA, h⟩ := C61_application small_gateParams small_stepsOk 7 (by decide +kernel)
    ⟨fun _ => 14, fun _ => 0x2d2d2d2d, []⟩ (fun h => by cases h) 1 1 _ smallEvalDraws_ok 2
    ⟨by decide +kernel, by decide +kernel⟩
  obtain ⟨cs, rs', e, hr⟩ := h [.encrypt true [5, 60] 2, .encrypt false [6, 61] (-1), .encrypt true [7, 62] 0,
      .majority 0 1 2, .decrypt 3, .not 3, .decryptWithNoise 4] [true, false, true, true, false] [.value true, .noisy false]
      (by simp [Call.Ok, smallParams]) rfl
  rcases rs' with _ | ⟨r1, _ | ⟨r2, _ | ⟨r3, l⟩⟩⟩ <;> simp only [List.forall₂_cons, List.forall₂_nil_left_iff,
    List.forall₂_nil_right_iff, reduceCtorEq, and_false, and_true] at hr
  rcases r1 with v1 | ⟨v1, e1⟩ <;> rcases r2 with v2 | ⟨v2, e2⟩ <;> simp only [Reply.Correct, and_false, false_and] at hr
  obtain ⟨rfl, rfl, h2⟩ := hr
  exact ⟨A, cs, _, e2, eA, e, rfl, h2⟩

end Verif.Props
