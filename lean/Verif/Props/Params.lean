import Verif.Model.Params
import Verif.Props.LWE
import Verif.Props.Basis

/-! # C45: parameter validation -/

namespace Verif.Props
open Spec

/-- `Basis::new` succeeds exactly for a positive number of bits that is below the word width and at
most the length of the modulus. -/
theorem basis_new_iff (w q bits : Nat) (hq : q < 2 ^ w) :
    (Basis.new w q bits).isSome ↔ 1 ≤ bits ∧ bits < w ∧ 2 ^ (bits - 1) ≤ q := by
  constructor
  · intro h
    obtain ⟨B, hB⟩ := Option.isSome_iff_exists.1 h
    obtain ⟨h1, _, _, _, h2, _, h3, _⟩ := new_basis hq hB
    refine ⟨h1, h2, ?_⟩
    by_contra hlt
    have := bitLen_le_iff.2 (Nat.lt_of_not_le hlt)
    omega
  · rintro ⟨h1, h2, h3⟩
    have hbl : bitLen q ≤ w := bitLen_le_iff.2 hq
    have hle : bits ≤ bitLen q := by
      by_contra hlt
      have : bitLen q ≤ bits - 1 := by omega
      have := bitLen_le_iff.1 this
      omega
    have hmb : w - leadingZeros w q = bitLen q := by unfold leadingZeros; omega
    have hcov : ∃ c, Basis.coverBits q (bitLen q) = some c := by
      unfold Basis.coverBits
      split
      · exact ⟨_, subC_eq (by omega)⟩
      · exact ⟨_, rfl⟩
    obtain ⟨c, hc⟩ := hcov
    unfold Basis.new
    simp only [hmb]
    rw [if_pos hle, mbind hc, mbind (subC_eq (by omega : bits ≤ w))]
    unfold shrC shlC
    rw [if_pos (by omega), if_pos h2]
    simp only [Option.bind_eq_bind, Option.bind_some]
    rw [if_neg (by omega)]
    rfl

/-- What `Parameters::new` checks. -/
structure ParamsValid (wQ Q : Nat) (p : ConstParams) : Prop where
  /-- The ring dimension is a power of two whose double fits a word. -/
  dim : ∃ l < 63, p.ringDimension = 2 ^ l
  /-- `2N` divides `Q - 1`. -/
  pos : 1 ≤ p.ringModulus
  dvd : 2 * p.ringDimension ∣ p.ringModulus - 1
  /-- `t ≤ q`, both powers of two. -/
  le : p.lwePlainModulus ≤ p.lweCipherModulus
  t : ∃ i, p.lwePlainModulus = 2 ^ i
  q : ∃ k, p.lweCipherModulus = 2 ^ k
  /-- The gadget basis exists for the field. -/
  bits : 1 ≤ p.blindRotationBits ∧ p.blindRotationBits < wQ ∧ 2 ^ (p.blindRotationBits - 1) ≤ Q

theorem params_finish (wQ Q : Nat) (hQ : Q < 2 ^ wQ) (p : ConstParams) :
    ((∃ P, Params.finish wQ Q p = some (.ok P)) ↔
      p.lwePlainModulus ≤ p.lweCipherModulus ∧ (∃ i, p.lwePlainModulus = 2 ^ i) ∧
      (∃ k, p.lweCipherModulus = 2 ^ k) ∧
      (1 ≤ p.blindRotationBits ∧ p.blindRotationBits < wQ ∧ 2 ^ (p.blindRotationBits - 1) ≤ Q)) ∧
    ∀ e, Params.finish wQ Q p ≠ some (.error e) := by
  rw [← basis_new_iff wQ Q _ hQ, ← isPow2_iff, ← isPow2_iff]
  unfold Params.finish
  split
  · next h1 =>
    split
    · next h2 =>
      rw [Bool.and_eq_true] at h2
      cases hB : Basis.new wQ Q p.blindRotationBits with
      | none => simp
      | some B => simp [h1, h2.1, h2.2]
    · next h2 =>
      refine ⟨⟨by simp, ?_⟩, by simp⟩
      rintro ⟨_, h3, h4, _⟩
      simp [h3, h4] at h2
  · next h1 => exact ⟨⟨by simp, fun h => absurd h.1 h1⟩, by simp⟩

/-- C45: the decision of `Parameters::new`. It reports a bad ring dimension exactly when that is not a
power of two; otherwise it reports an incompatible modulus exactly when `2N` does not divide `Q - 1`;
it accepts exactly the valid tuples; everything else panics. -/
theorem C45_decision (wQ Q : Nat) (hQ : Q < 2 ^ wQ) (hw : wQ ≤ 64) (p : ConstParams)
    (hN : p.ringDimension < 2 ^ 64) (hR : p.ringModulus < 2 ^ wQ) :
    (∀ N, Params.new wQ Q p = some (.error (.ringDimension N)) ↔
      N = p.ringDimension ∧ ¬ ∃ l, p.ringDimension = 2 ^ l) ∧
    (∀ R N, Params.new wQ Q p = some (.error (.modulusAndDimension R N)) ↔
      R = p.ringModulus ∧ N = p.ringDimension ∧ (∃ l < 63, p.ringDimension = 2 ^ l) ∧
      1 ≤ p.ringModulus ∧ ¬ 2 * p.ringDimension ∣ p.ringModulus - 1) ∧
    ((∃ P, Params.new wQ Q p = some (.ok P)) ↔ ParamsValid wQ Q p) := by
  have hw' : 2 ^ wQ ≤ 2 ^ 64 := Nat.pow_le_pow_right (by decide) hw
  obtain ⟨hok, herr⟩ := params_finish wQ Q hQ p
  have hvalid : ParamsValid wQ Q p ↔ ((∃ l < 63, p.ringDimension = 2 ^ l) ∧ 1 ≤ p.ringModulus ∧
      2 * p.ringDimension ∣ p.ringModulus - 1) ∧ ∃ P, Params.finish wQ Q p = some (.ok P) := by
    rw [hok]
    exact ⟨fun h => ⟨⟨h.1, h.2, h.3⟩, h.4, h.5, h.6, h.7⟩,
      fun ⟨⟨a, b, c⟩, d, e, f, g⟩ => ⟨a, b, c, d, e, f, g⟩⟩
  by_cases hp : isPow2 p.ringDimension = true
  · obtain ⟨l, hl⟩ := isPow2_iff.1 hp
    have hl64 : l < 64 := by
      rw [hl] at hN
      exact (Nat.pow_lt_pow_iff_right (by decide)).1 hN
    have hnot : ∀ N, ¬ (N = p.ringDimension ∧ ¬ ∃ l, p.ringDimension = 2 ^ l) :=
      fun N h => h.2 ⟨l, hl⟩
    have hsh : shlC 64 p.ringDimension 1 = some (p.ringDimension * 2 % 2 ^ 64) := by
      unfold shlC; rw [if_pos (by decide), pow_one]
    by_cases hl63 : l < 63
    · have hlt : 2 * p.ringDimension < 2 ^ 64 := by
        rw [hl, mul_comm, ← pow_succ]
        exact Nat.pow_lt_pow_right (by decide) (by omega)
      have hpos : 0 < p.ringDimension := by rw [hl]; exact Nat.two_pow_pos l
      have htw : p.ringDimension * 2 % 2 ^ 64 = 2 * p.ringDimension := by
        rw [Nat.mod_eq_of_lt (by omega)]; ring
      rw [htw] at hsh
      by_cases h1 : 1 ≤ p.ringModulus
      · have hm := subC_eq h1
        have hprod : mulC 64 ((p.ringModulus - 1) / (2 * p.ringDimension)) (2 * p.ringDimension) =
            some ((p.ringModulus - 1) / (2 * p.ringDimension) * (2 * p.ringDimension)) := by
          unfold mulC
          rw [if_pos]
          have := Nat.div_mul_le_self (p.ringModulus - 1) (2 * p.ringDimension)
          omega
        have hnew : Params.new wQ Q p =
            if (p.ringModulus - 1) / (2 * p.ringDimension) * (2 * p.ringDimension) ≠
              p.ringModulus - 1
            then some (.error (.modulusAndDimension p.ringModulus p.ringDimension))
            else Params.finish wQ Q p := by
          unfold Params.new
          rw [if_pos hp, mbind hsh, if_pos (by omega), mbind hm, mbind hprod]
          rfl
        have hdvd : (p.ringModulus - 1) / (2 * p.ringDimension) * (2 * p.ringDimension) =
            p.ringModulus - 1 ↔ 2 * p.ringDimension ∣ p.ringModulus - 1 :=
          ⟨fun h => ⟨(p.ringModulus - 1) / (2 * p.ringDimension), by rw [mul_comm]; exact h.symm⟩, fun h => Nat.div_mul_cancel h⟩
        rw [hnew]
        by_cases hd : 2 * p.ringDimension ∣ p.ringModulus - 1
        · rw [if_neg (by rw [not_not, hdvd]; exact hd)]
          refine ⟨fun N => ⟨fun h => absurd h (herr _), fun h => absurd h (hnot N)⟩,
            fun R N => ⟨fun h => absurd h (herr _), fun h => absurd hd h.2.2.2.2⟩, ?_⟩
          rw [hvalid]
          exact ⟨fun h => ⟨⟨⟨l, hl63, hl⟩, h1, hd⟩, h⟩, fun h => h.2⟩
        · rw [if_pos (by rw [ne_eq, hdvd]; exact hd)]
          refine ⟨fun N => ⟨by simp, fun h => absurd h (hnot N)⟩, fun R N => ?_,
            ⟨by simp, fun h => absurd h.dvd hd⟩⟩
          constructor
          · intro h
            simp only [Option.some.injEq, Except.error.injEq, ParamError.modulusAndDimension.injEq] at h
            exact ⟨h.1.symm, h.2.symm, ⟨l, hl63, hl⟩, h1, hd⟩
          · rintro ⟨rfl, rfl, _⟩; rfl
      · have hm : subC p.ringModulus 1 = none := by unfold subC; rw [if_neg h1]
        have hnew : Params.new wQ Q p = none := by
          unfold Params.new
          rw [if_pos hp, mbind hsh, if_pos (by omega), hm]; rfl
        rw [hnew]
        exact ⟨fun N => ⟨by simp, fun h => absurd h (hnot N)⟩,
          fun R N => ⟨by simp, fun h => absurd h.2.2.2.1 h1⟩,
          ⟨by simp, fun h => absurd h.pos h1⟩⟩
    · have hl' : l = 63 := by omega
      subst hl'
      have hno : ¬ ∃ l < 63, p.ringDimension = 2 ^ l := by
        rintro ⟨j, hj, e⟩
        rw [hl] at e
        have := Nat.pow_right_injective (le_refl 2) e
        omega
      have hnew : Params.new wQ Q p = none := by
        unfold Params.new
        rw [if_pos hp, mbind hsh, if_neg (by rw [hl]; norm_num)]
      rw [hnew]
      exact ⟨fun N => ⟨by simp, fun h => absurd h (hnot N)⟩,
        fun R N => ⟨by simp, fun h => absurd h.2.2.1 hno⟩,
        ⟨by simp, fun h => absurd h.dim hno⟩⟩
  · have hno : ¬ ∃ l, p.ringDimension = 2 ^ l := fun h => hp (isPow2_iff.2 h)
    have hno' : ¬ ∃ l < 63, p.ringDimension = 2 ^ l := fun ⟨l, _, h⟩ => hno ⟨l, h⟩
    have hnew : Params.new wQ Q p = some (.error (.ringDimension p.ringDimension)) := by
      unfold Params.new; rw [if_neg hp]
    rw [hnew]
    refine ⟨fun N => ?_, fun R N => ⟨by simp, fun h => absurd h.2.2.1 hno'⟩,
      ⟨by simp, fun h => absurd h.dim hno'⟩⟩
    simp only [Option.some.injEq, Except.error.injEq, ParamError.ringDimension.injEq]
    exact ⟨fun h => ⟨h.symm, hno⟩, fun h => h.1.symm⟩

/-- Accepted parameters carry the given moduli. -/
theorem params_new_fields {wQ Q : Nat} {p : ConstParams} {P : Params}
    (h : Params.new wQ Q p = some (.ok P)) :
    P.n = p.lweDimension ∧ P.t = p.lwePlainModulus ∧ P.q = p.lweCipherModulus ∧
    P.ringDimension = p.ringDimension ∧ P.ringModulus = p.ringModulus ∧ P.steps = p.steps ∧
    Basis.new wQ Q p.blindRotationBits = some P.basis := by
  have hf : Params.finish wQ Q p = some (.ok P) := by
    unfold Params.new at h
    split at h
    · cases h1 : shlC 64 p.ringDimension 1 with
      | none => simp [h1] at h
      | some a =>
        rw [mbind h1] at h
        split at h
        · cases h2 : subC p.ringModulus 1 with
          | none => simp [h2] at h
          | some m =>
            rw [mbind h2] at h
            cases h3 : mulC 64 (m / a) a with
            | none => simp [h3] at h
            | some c =>
              rw [mbind h3] at h
              split at h
              · simp at h
              · exact h
        · simp at h
    · simp at h
  unfold Params.finish at hf
  split at hf
  · split at hf
    · cases hB : Basis.new wQ Q p.blindRotationBits with
      | none => simp [hB] at hf
      | some B =>
        rw [mbind hB] at hf
        simp only [Option.pure_def, Option.some.injEq, Except.ok.injEq] at hf
        subst hf
        exact ⟨rfl, rfl, rfl, rfl, rfl, rfl, rfl⟩
    · simp at hf
  · simp at hf

/-- C45, second half. Full statement: accepted parameters never make encryption or decryption of an
in-range message panic. Proved under the extra check `t < q` that the code does not make (see
`C45_accepts_equal_moduli` for why it is needed): encryption succeeds for every key, mask and
tolerated noise, and the ciphertext decrypts to the message. -/
theorem C45_accepted_partial (wQ Q w : Nat) (hQ : Q < 2 ^ wQ) (hwQ : wQ ≤ 64) (hw : w ≤ 64)
    (p : ConstParams) (hN : p.ringDimension < 2 ^ 64) (hR : p.ringModulus < 2 ^ wQ)
    (hq : p.lweCipherModulus < 2 ^ w) (P : Params) (h : Params.new wQ Q p = some (.ok P))
    (htq : p.lwePlainModulus < p.lweCipherModulus)
    (secret draws : List Nat) (hs : secret.length = P.n) (hd : P.n ≤ draws.length)
    (hr : ∀ x ∈ draws, x < P.q) (m : Nat) (hm : m < P.t) (z : Int)
    (hz : NoiseInRange P.t P.q z) :
    ∃ c, (P.lwe w).encrypt secret draws z m = some c ∧
      ∀ msg, Fits msg m → (P.lwe w).decrypt msg secret c = some m := by
  have hv := (C45_decision wQ Q hQ hwQ p hN hR).2.2.1 ⟨P, h⟩
  obtain ⟨_, ft, fq, _⟩ := params_new_fields h
  obtain ⟨i, hi⟩ := hv.t
  obtain ⟨k, hk⟩ := hv.q
  rw [hi, hk] at htq
  rw [hk] at hq
  have hok : LWEParamsOk (P.lwe w) i k :=
    ⟨ft.trans hi, fq.trans hk, (Nat.pow_lt_pow_iff_right (by decide)).1 htq,
      (Nat.pow_lt_pow_iff_right (by decide)).1 hq, hw⟩
  rw [fq, hk] at hr hz
  rw [ft, hi] at hm hz
  obtain ⟨c, e, _, _, _, hdec⟩ :=
    C31_encrypt_decrypt (P.lwe w) i k P.n hok secret draws hs hd hr m z hm hz
  exact ⟨c, e, hdec⟩

/-- The tuple of the default parameters of the Boolean scheme with other moduli `t`, `q` and
`R`. -/
def paramsWith (t q R : Nat) : ConstParams :=
  ⟨1024, t, q, .ternary, 1024, R, .ternary, 3, .brKsMs, 1⟩

/-- Whether the parameters were accepted. -/
def accepted : Option (Except ParamError Params) → Bool
  | some (.ok _) => true
  | _ => false

theorem exists_of_accepted {x : Option (Except ParamError Params)} (h : accepted x = true) :
    ∃ P, x = some (.ok P) := by
  match x, h with
  | some (.ok P), _ => exact ⟨P, rfl⟩

/-- The code accepts `t = q`, and then decryption panics for every message type, key and
ciphertext. -/
theorem C45_accepts_equal_moduli :
    ∃ P, Params.new 32 132120577 (paramsWith 1024 1024 132120577) = some (.ok P) ∧
      ∀ msg secret c, (P.lwe 16).decrypt msg secret c = none := by
  obtain ⟨P, hP⟩ : ∃ P, Params.new 32 132120577 (paramsWith 1024 1024 132120577) = some (.ok P) :=
    exists_of_accepted (by decide +kernel)
  obtain ⟨_, ft, fq, _⟩ := params_new_fields hP
  refine ⟨P, hP, fun msg secret c => ?_⟩
  have ht : P.t = 2 ^ 10 := by rw [ft]; rfl
  have hq : P.q = 2 ^ 10 := by rw [fq]; rfl
  unfold LWEParams.decrypt
  cases h1 : (P.lwe 16).ops with
  | none => rfl
  | some O =>
    rw [mbind rfl]
    cases h2 : LWEParams.phase O secret c with
    | none => rfl
    | some x =>
      rw [mbind rfl]
      show Plain.decode msg x P.t P.q = none
      rw [ht, hq]
      exact C30_decode_equal_moduli msg x 10

/-- The code accepts `q = 1`, and then every encryption and decryption panics. -/
theorem C45_accepts_modulus_one :
    ∃ P, Params.new 32 132120577 (paramsWith 1 1 132120577) = some (.ok P) ∧
      (∀ secret draws z m, (P.lwe 16).encrypt secret draws z m = none) ∧
      ∀ msg secret c, (P.lwe 16).decrypt msg secret c = none := by
  obtain ⟨P, hP⟩ : ∃ P, Params.new 32 132120577 (paramsWith 1 1 132120577) = some (.ok P) :=
    exists_of_accepted (by decide +kernel)
  obtain ⟨_, ft, fq, _⟩ := params_new_fields hP
  have hops : (P.lwe 16).ops = none := by
    unfold LWEParams.ops
    show (PowOf2.new P.q >>= _) = _
    rw [fq]; rfl
  exact ⟨P, hP, fun secret draws z m => by unfold LWEParams.encrypt; rw [hops]; rfl,
    fun msg secret c => by unfold LWEParams.decrypt; rw [hops]; rfl⟩

/-- The ring modulus of the tuple is not compared with the modulus of the field the scheme is
instantiated with: any `R ≡ 1 (mod 2N)` is accepted. -/
theorem C45_accepts_foreign_modulus :
    ∃ P, Params.new 32 132120577 (paramsWith 4 1024 2049) = some (.ok P) ∧
      P.ringModulus = 2049 := by
  obtain ⟨P, hP⟩ := exists_of_accepted
    (show accepted (Params.new 32 132120577 (paramsWith 4 1024 2049)) = true by decide +kernel)
  exact ⟨P, hP, (params_new_fields hP).2.2.2.2.1⟩

/-! ## Concrete cases -/

/-- The two parameter sets of the Boolean scheme are valid. -/
example : (∃ P, Params.new 32 132120577 (paramsWith 4 1024 132120577) = some (.ok P)) ∧
    ∃ P, Params.new 32 132120577
      ⟨512, 4, 2 ^ 14, .ternary, 1024, 132120577, .ternary, 7, .brMsKs, 7⟩ = some (.ok P) :=
  ⟨exists_of_accepted (by decide +kernel), exists_of_accepted (by decide +kernel)⟩

example : Params.new 32 132120577 { paramsWith 4 1024 132120577 with ringDimension := 1000 } =
      some (.error (.ringDimension 1000)) ∧
    Params.new 32 132120577 (paramsWith 4 1024 132120579) =
      some (.error (.modulusAndDimension 132120579 1024)) ∧
    Params.new 32 132120577 (paramsWith 2048 1024 132120577) = none ∧
    Params.new 32 132120577 (paramsWith 3 1024 132120577) = none := by
  refine ⟨?_, ?_, ?_, ?_⟩ <;> decide +kernel

end Verif.Props
