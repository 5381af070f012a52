import Verif.Props.Session
import Verif.Props.Params
import Verif.SpecKeys

/-!
# C73: which accepted parameters have keys
-/

namespace Verif.Props
open Fp Finset Spec Ntt

theorem nextPow2_le {n k : Nat} (h : n ≤ 2 ^ k) : RlweSwitch.nextPow2 n ≤ 2 ^ k := by
  unfold RlweSwitch.nextPow2
  split
  · exact Nat.one_le_two_pow
  · refine Nat.pow_le_pow_right (by decide) ?_
    have : Nat.log2 (n - 1) < k := by
      rw [Nat.log2_lt (by omega)]; omega
    omega

theorem le_nextPow2 (n : Nat) : n ≤ RlweSwitch.nextPow2 n := by
  unfold RlweSwitch.nextPow2
  split
  · omega
  · have := Nat.lt_log2_self (n := n - 1)
    omega

theorem newWord_none {w bits m : Nat} (hm : 0 < m) (hmw : m < w) (h : ¬(1 ≤ bits ∧ bits ≤ m)) :
    Basis.newWord w bits (2 ^ m) = none := by
  have hcov : Basis.coverBits (2 ^ m) (w - leadingZeros w (2 ^ m)) = some m := by
    unfold Basis.coverBits
    have hbl : bitLen (2 ^ m) = m + 1 := by
      have h1 : bitLen (2 ^ m) ≤ m + 1 := bitLen_le_iff.2 (two_pow_lt (by omega))
      have h2 : ¬ bitLen (2 ^ m) ≤ m := fun h => lt_irrefl _ (bitLen_le_iff.1 h)
      omega
    rw [if_pos (isPow2_iff.2 ⟨m, rfl⟩)]
    unfold leadingZeros
    rw [hbl, subC_eq (by omega)]
    congr 1
    omega
  unfold Basis.newWord
  simp only []
  rw [mbind hcov]
  by_cases h0 : m < bits ∨ bits = w
  · rw [if_pos h0]
  · rw [if_neg h0, if_pos (by omega)]

section
variable {w : Nat} {R : Ctx} {P : Params} {Q k m : Nat} [Fact Q.Prime] (G : GateParams w R P Q k m)
include G

/-- C73: parameters that fit have keys: key generation succeeds for all randomness. -/
theorem C73_keys (hn : 2 ≤ P.n) (hT : ∀ k', 0 < k' → k' ≤ k → TableField R.w Q R.M R.tbl k')
    (hF : KeysFit R.w Q k m P) (bits : Nat) (hB : Basis.new R.w Q bits = some P.basis) (dk : KeyDraws)
    (hg : GaussOk P Q dk) (E E' : Nat) (d : EvalDraws) (hd : EvalDrawsOk R P Q k m E E' d) :
    ∃ A, App.start w R P dk d = some A := by
  have C : Config R.w Q R.M := ⟨G.field.even, G.field.conf⟩
  have hS : StepsOk R P Q k m := by
    unfold KeysFit at hF
    unfold StepsOk
    cases hst : P.steps with
    | brMsKs => rw [hst] at hF; exact hF
    | brKsMs =>
      rw [hst] at hF
      obtain ⟨h1, h2⟩ := hF
      obtain ⟨B, eB⟩ := Option.isSome_iff_exists.1 ((basis_new_iff R.w Q P.keySwitchBits (by have := C.four_mul_lt; omega)).2 h2)
      have hl := Nat.lt_log2_self (n := P.n - 1)
      have hl' := Nat.log2_self_le (n := P.n - 1) (by omega)
      have hlt : Nat.log2 (P.n - 1) < k := by rw [Nat.log2_lt (by omega)]; omega
      refine ⟨Nat.log2 (P.n - 1) + 1, B, by omega, by omega, ?_, by omega, hT _ (by omega) (by omega), eB⟩
      rw [Nat.add_sub_cancel]; omega
    | brMs => rw [hst] at hF; exact hF
  obtain ⟨pack, rot, sw, Z, ep, eK, -⟩ := C52_evaluation_key G hS bits hB dk hg E E' d hd
  refine ⟨⟨w, P, pack, ⟨w, R, P, rot, sw⟩, pack⟩, ?_⟩
  unfold App.start KeyGen.generateSecretKey
  rw [mbind ep, mbind eK]; rfl

omit [Fact Q.Prime] in
/-- C73: parameters that do not fit have no keys: key generation panics for all randomness. -/
theorem C73_no_keys (hF : ¬ KeysFit R.w Q k m P) (dk : KeyDraws) (d : EvalDraws) : App.start w R P dk d = none := by
  have C : Config R.w Q R.M := ⟨G.field.even, G.field.conf⟩
  have hQw : Q < 2 ^ R.w := by have := C.four_mul_lt; omega
  by_contra hne
  obtain ⟨A, hA⟩ := Option.ne_none_iff_exists'.1 hne
  apply hF
  obtain ⟨pack, ep, hA⟩ := Option.bind_eq_some_iff.1 hA
  obtain ⟨K, eK, -⟩ := Option.bind_eq_some_iff.1 hA
  obtain ⟨lwe, el, ep⟩ := Option.bind_eq_some_iff.1 ep
  obtain ⟨ring, er, ep⟩ := Option.bind_eq_some_iff.1 ep
  obtain ⟨rn, en, ep⟩ := Option.bind_eq_some_iff.1 ep
  obtain rfl := Option.some.inj ep
  obtain ⟨rot, -, eK⟩ := Option.bind_eq_some_iff.1 eK
  obtain ⟨sw, es, -⟩ := Option.bind_eq_some_iff.1 eK
  unfold KeysFit
  unfold KeyPack.ringKey at er
  unfold SwitchKey.generate at es
  cases hst : P.steps with
  | brMsKs =>
    rw [hst] at er es
    simp only [] at er es ⊢
    refine ⟨fun hg => by (rw [hg] at er; cases er), ?_⟩
    by_contra hb
    obtain ⟨O, eO, es⟩ := Option.bind_eq_some_iff.1 es
    obtain ⟨x, ex, -⟩ := Option.bind_eq_some_iff.1 es
    obtain ⟨B, eB, -⟩ := Option.bind_eq_some_iff.1 ex
    rw [show P.q = 2 ^ m from G.lwe.q, newWord_none (w := w) (by have := G.lwe.lt; omega) G.lwe.fits hb] at eB
    cases eB
  | brKsMs =>
    rw [hst] at er es
    simp only [] at er es ⊢
    obtain ⟨key, ek, -⟩ := Option.bind_eq_some_iff.1 es
    unfold RlweSwitch.generate at ek
    simp only [] at ek
    split_ifs at ek with hle
    · obtain ⟨B, eB, -⟩ := Option.bind_eq_some_iff.1 ek
      rw [C.value] at eB
      refine ⟨?_, (basis_new_iff R.w Q _ hQw).1 (by rw [eB]; rfl)⟩
      have hPq : P.q = 2 ^ m := G.lwe.q
      have hq2 : 2 ≤ P.q := by
        rw [hPq]
        have := G.lwe.lt
        calc 2 = 2 ^ 1 := rfl
          _ ≤ 2 ^ m := Nat.pow_le_pow_right (by decide) (by omega)
      obtain ⟨l, el', hl, -⟩ := C52_lwe_key P hq2 dk.lwe
      obtain rfl := Option.some.inj (el.symm.trans el')
      obtain ⟨bin, ter, eb, et, rb, rt, -⟩ := ring_vec G dk.ring
      have hr : ring.length ≤ 2 ^ k := by
        cases ht : P.ringKeyType with
        | binary => rw [ht] at er; simp only [] at er; rw [← Option.some.inj er, eb]; exact rb.1.le
        | ternary => rw [ht] at er; simp only [] at er; rw [Option.some.inj (er.symm.trans et)]; exact rt.1.le
        | gaussian =>
          rw [ht] at er; simp only [] at er
          rw [← Option.some.inj er, List.length_take, G.ring]; omega
      have := le_nextPow2 lwe.length
      omega
  | brMs =>
    rw [hst] at er
    simp only [] at er ⊢
    split_ifs at er with hc
    exact ⟨fun hg => by rw [hg] at hc; simp at hc, by rw [hc.2, G.ring]⟩

end

/-- The tuple of the default parameters with another LWE dimension, ring key type, steps and digit length. -/
def constWith (n : Nat) (t : RingKeyType) (s : Steps) (bits : Nat) : ConstParams :=
  ⟨n, 4, 1024, .ternary, 1024, 132120577, t, 3, s, bits⟩

/-- The accepted parameters of `constWith`. -/
def fullWith (n : Nat) (t : RingKeyType) (s : Steps) (bits : Nat) : Params :=
  ⟨n, 4, 1024, .ternary, 1024, 132120577, t, ⟨8, 9, 7, 3⟩, s, bits⟩

theorem fullWith_gateParams [DefaultBuild] (n : Nat) (t : RingKeyType) (s : Steps) (bits : Nat) :
    GateParams 16 defaultCtx (fullWith n t s bits) 132120577 10 10 :=
  ⟨default_table, ⟨rfl, rfl, by decide, show 10 < 16 by decide, show 16 ≤ 64 by decide⟩, rfl, by decide,
    by decide, by decide, by decide, by decide⟩

/-- The steps and the ring key type are not checked against the rest: these tuples are accepted. -/
theorem C73_accepted (n : Nat) (t : RingKeyType) (s : Steps) (bits : Nat) :
    Params.new 32 132120577 (constWith n t s bits) = some (.ok (fullWith n t s bits)) := by
  have hB : Basis.new 32 132120577 3 = some ⟨8, 9, 7, 3⟩ := by decide +kernel
  have hs : shlC 64 1024 1 = some 2048 := by decide +kernel
  have hm : mulC 64 (132120576 / 2048) 2048 = some 132120576 := by decide +kernel
  show (if isPow2 1024 then _ else _) = _
  rw [if_pos (by decide +kernel)]
  show (shlC 64 1024 1 >>= _) = _
  rw [mbind hs, if_pos (by decide)]
  show (subC 132120577 1 >>= _) = _
  rw [mbind (subC_eq (by decide))]
  show (mulC 64 (132120576 / 2048) 2048 >>= _) = _
  rw [mbind hm, if_neg (by decide)]
  unfold Params.finish constWith
  dsimp only
  rw [if_pos (show (4 : Nat) ≤ 1024 by decide)]
  rw [if_pos (show (isPow2 4 && isPow2 1024) = true by decide +kernel)]
  show (Basis.new 32 132120577 3 >>= _) = _
  rw [mbind hB]; rfl

/-- Accepted parameters without keys: a Gaussian ring key with `BrMsKs` or `BrMs`, different dimensions with `BrMs`, an
LWE dimension above the ring dimension with `BrKsMs`, and digits of 0 or of too many bits. -/
theorem C73_accepted_without_keys [DefaultBuild] : ∀ P ∈ [fullWith 512 .gaussian .brMsKs 7, fullWith 1024 .gaussian .brMs 1,
    fullWith 512 .ternary .brMs 1, fullWith 1025 .ternary .brKsMs 1, fullWith 512 .ternary .brMsKs 0,
    fullWith 512 .ternary .brMsKs 11, fullWith 512 .ternary .brKsMs 28], ∀ dk d,
    App.start 16 defaultCtx P dk d = none := by
  intro P hP dk d
  simp only [List.mem_cons, List.not_mem_nil, or_false] at hP
  rcases hP with rfl | rfl | rfl | rfl | rfl | rfl | rfl <;>
    exact C73_no_keys (fullWith_gateParams _ _ _ _) (by simp [KeysFit, fullWith]) dk d

-- the parameters of the crate fit, and so does a Gaussian ring key with `BrKsMs`
example : KeysFit 32 132120577 10 10 defaultParams ∧ KeysFit 32 132120577 10 10 (fullWith 700 .gaussian .brKsMs 27) ∧
    KeysFit 32 132120577 10 10 (fullWith 1024 .binary .brMs 0) := by
  simp [KeysFit, fullWith, defaultParams]

-- the small instance has keys
example : ∃ A, App.start 16 nativeCtx smallParams ⟨fun _ => 14, fun _ => 0x2d2d2d2d, []⟩ smallEvalDraws = some A :=
  C73_keys small_gateParams (by decide) (fun k' _ h => native_table (by omega))
    (by simp [KeysFit, smallParams, nativeCtx]) 7 (by decide +kernel) _ (fun h => by cases h) 1 1 _ smallEvalDraws_ok

end Verif.Props
