import Verif.Props.Gates
import Verif.Props.Sample
import Verif.Model.SecretKey

/-!
# C52: generated keys

Concrete cases that meet the hypotheses are in `Props/EndToEnd.lean`.
-/

namespace Verif.Props
open Fp Finset Spec Ntt

/-- A key word is one of `0`, `1`, `q - 1`. -/
def KeyWord (q v : Nat) : Prop := v = 0 ∨ v = 1 ∨ v = q - 1

theorem keyWord_digit {q v : Nat} (hq : 2 ≤ q) (h : KeyWord q v) :
    (v : ZMod q) = (ternaryDigit v : ZMod q) := by
  unfold ternaryDigit
  rcases h with h | h | h
  · simp [h]
  · simp [h]
  · split_ifs with h1 h0
    · simp [h1]
    · simp [h0]
    · rw [h, Nat.cast_sub (by omega), ZMod.natCast_self]; simp

theorem keyWords_digits {q : Nat} {l : List Nat} (hq : 2 ≤ q) (h : ∀ v ∈ l, KeyWord q v) :
    KeyWords q l (l.map ternaryDigit) := by
  unfold KeyWords
  rw [List.map_map]
  exact List.map_congr_left fun v hv => keyWord_digit hq (h v hv)

theorem keyWords_self {q : Nat} (l : List Nat) : KeyWords q l (l.map fun v : Nat => (v : ℤ)) := by
  unfold KeyWords
  rw [List.map_map]
  exact List.map_congr_left fun v _ => by simp

/-- The conversion to another modulus keeps the digit. -/
theorem convert_digit {Q v : Nat} (hQ : 2 ≤ Q) :
    LweSwitch.convert (Q - 1) v < Q ∧
      ((LweSwitch.convert (Q - 1) v : Nat) : ZMod Q) = (ternaryDigit v : ZMod Q) := by
  unfold LweSwitch.convert ternaryDigit
  by_cases h0 : v = 0
  · simp [h0]; omega
  · by_cases h1 : v = 1
    · simp [h1]; omega
    · simp only [h0, h1, if_false]
      refine ⟨by omega, ?_⟩
      rw [Nat.cast_sub (by omega), ZMod.natCast_self]; simp

theorem convert_keyWords {Q : Nat} (hQ : 2 ≤ Q) (l : List Nat) :
    Reduced Q l.length (l.map (LweSwitch.convert (Q - 1))) ∧
      KeyWords Q (l.map (LweSwitch.convert (Q - 1))) (l.map ternaryDigit) := by
  refine ⟨⟨by simp, fun x hx => ?_⟩, ?_⟩
  · obtain ⟨v, _, rfl⟩ := List.mem_map.1 hx
    exact (convert_digit hQ).1
  · unfold KeyWords
    rw [List.map_map, List.map_map]
    exact List.map_congr_left fun v _ => (convert_digit hQ).2

theorem fillVec_mem {tbl : List Nat} {b c : Nat} (hc : 0 < c) (words : Nat → Nat) (n : Nat)
    {p : Nat → Prop} (h0 : p 0) (h : ∀ v ∈ tbl, p v) :
    (Sample.fillVec tbl b c words n).length = n ∧ ∀ v ∈ Sample.fillVec tbl b c words n, p v := by
  obtain ⟨h1, h2⟩ := fillVec_spec tbl b c hc words n
  refine ⟨h1, fun v hv => ?_⟩
  obtain ⟨j, hj, rfl⟩ := List.getElem_of_mem hv
  rw [h1] at hj
  have := h2 j hj
  rw [List.getElem?_eq_getElem (by rw [h1]; exact hj)] at this
  rw [Option.some.inj this, List.getD_eq_getElem?_getD]
  cases e : tbl[words (j / c) / 2 ^ (b * (j % c)) % 2 ^ b]? with
  | none => exact h0
  | some x => exact h x (List.mem_of_getElem? e)

/-- C52: the LWE secret key has `n` words, each `0`, `1` or `q - 1`; a binary key has no `q - 1`. -/
theorem C52_lwe_key (P : Params) (hq : 2 ≤ P.q) (words : Nat → Nat) :
    ∃ l, KeyPack.lweKey P words = some l ∧ l.length = P.n ∧ (∀ v ∈ l, KeyWord P.q v) ∧
      (P.lweKeyType = .binary → ∀ v ∈ l, v = 0 ∨ v = 1) := by
  unfold KeyPack.lweKey
  cases P.lweKeyType with
  | binary =>
    obtain ⟨h1, h2⟩ := fillVec_mem (tbl := [0, 1]) (b := 1) (c := 32) (by decide) words P.n
      (p := fun v => v = 0 ∨ v = 1) (.inl rfl) (by simp)
    exact ⟨_, rfl, h1, fun v hv => (h2 v hv).imp_right .inl, fun _ => h2⟩
  | ternary =>
    obtain ⟨h1, h2⟩ := fillVec_mem (tbl := [0, 0, 1, P.q - 1]) (b := 2) (c := 16) (by decide) words P.n
      (p := KeyWord P.q) (.inl rfl) (by simp [KeyWord])
    refine ⟨_, ?_, h1, h2, by simp⟩
    unfold Sample.ternaryValues
    rw [mbind (subC_eq (by omega))]; rfl

section
variable {w : Nat} {R : Ctx} {P : Params} {Q k m : Nat} [Fact Q.Prime] (G : GateParams w R P Q k m)

/-- What the steps ask of the parameters: for `BrMsKs` a ring key that is not Gaussian and a basis for
`q`; for `BrKsMs` an LWE dimension that fits the ring, with a transform for its next power of two `2^k'`,
and a basis for `Q`; for `BrMs` equal dimensions and a ring key type that is not Gaussian. -/
def StepsOk (R : Ctx) (P : Params) (Q k m : Nat) : Prop :=
  match P.steps with
  | .brMsKs => P.ringKeyType ≠ .gaussian ∧ 1 ≤ P.keySwitchBits ∧ P.keySwitchBits ≤ m
  | .brKsMs => ∃ k' B, 0 < k' ∧ k' ≤ k ∧ 2 ^ (k' - 1) < P.n ∧ P.n ≤ 2 ^ k' ∧
      TableField R.w Q R.M R.tbl k' ∧ Basis.new R.w Q P.keySwitchBits = some B
  | .brMs => P.ringKeyType ≠ .gaussian ∧ P.n = 2 ^ k

/-- The samples of a Gaussian ring key are enough field elements. -/
def GaussOk (P : Params) (Q : Nat) (d : KeyDraws) : Prop :=
  P.ringKeyType = .gaussian → P.ringDimension ≤ d.gauss.length ∧ ∀ v ∈ d.gauss, v < Q

omit [Fact Q.Prime] in
include G in
theorem ring_vec (words : Nat → Nat) : ∃ bin ter, Sample.binaryVec words P.ringDimension = bin ∧
    Sample.ternaryVec R.M words P.ringDimension = some ter ∧
    Reduced Q (2 ^ k) bin ∧ Reduced Q (2 ^ k) ter ∧
    (∀ v ∈ bin, KeyWord Q v) ∧ (∀ v ∈ ter, KeyWord Q v) := by
  have C : Config R.w Q R.M := ⟨G.field.even, G.field.conf⟩
  have h2 := C.two_le
  have hlt : ∀ v, KeyWord Q v → v < Q := by
    intro v hv; rcases hv with h | h | h <;> omega
  obtain ⟨a1, a2⟩ := fillVec_mem (tbl := [Fp.zero, Fp.one]) (b := 1) (c := 32) (by decide) words
    P.ringDimension (p := KeyWord Q) (.inl rfl) (by simp [KeyWord, Fp.zero, Fp.one])
  obtain ⟨b1, b2⟩ := fillVec_mem (tbl := [Fp.zero, Fp.zero, Fp.one, Q - 1]) (b := 2) (c := 16)
    (by decide) words P.ringDimension (p := KeyWord Q) (.inl rfl) (by simp [KeyWord, Fp.zero, Fp.one])
  rw [G.ring] at a1 b1
  refine ⟨_, _, rfl, ?_, ⟨by rw [← a1]; rw [G.ring]; rfl, fun v hv => hlt v (a2 v hv)⟩,
    ⟨by rw [← b1]; rw [G.ring], fun v hv => hlt v (b2 v hv)⟩, a2, b2⟩
  unfold Sample.ternaryVec Fp.negOne
  rw [C.value, mbind (subC_eq (by omega))]; rfl

include G in
/-- C52: the secret keys. -/
theorem C52_key_pack (hS : StepsOk R P Q k m) (d : KeyDraws) (hd : GaussOk P Q d) :
    ∃ pack, KeyPack.new R P d = some pack ∧ pack.lwe.length = P.n ∧
      (∀ v ∈ pack.lwe, KeyWord (2 ^ m) v) ∧
      (P.lweKeyType = .binary → ∀ v ∈ pack.lwe, v = 0 ∨ v = 1) ∧
      Reduced Q (2 ^ k) pack.ring ∧ Poly.toNtt R.w R.M R.tbl pack.ring = some pack.ringNtt ∧
      (P.ringKeyType ≠ .gaussian → ∀ v ∈ pack.ring, KeyWord Q v) ∧
      (P.steps = .brMs → pack.ring = pack.lwe.map (LweSwitch.convert (Q - 1))) := by
  have C : Config R.w Q R.M := ⟨G.field.even, G.field.conf⟩
  have h2 := C.two_le
  have hPq : P.q = 2 ^ m := G.lwe.q
  have hk : 0 < k := by have := G.two_le; omega
  have hm : 2 ≤ 2 ^ m := by
    have := G.lwe.lt
    calc 2 = 2 ^ 1 := rfl
      _ ≤ 2 ^ m := Nat.pow_le_pow_right (by decide) (by omega)
  obtain ⟨l, el, hl, hw, hb⟩ := C52_lwe_key P (by rw [hPq]; exact hm) d.lwe
  rw [hPq] at hw
  obtain ⟨bin, ter, eb, et, rb, rt, kb, kt⟩ := ring_vec G d.ring
  have key : ∃ ring, KeyPack.ringKey R P l d = some ring ∧ Reduced Q (2 ^ k) ring ∧
      (P.ringKeyType ≠ .gaussian → ∀ v ∈ ring, KeyWord Q v) ∧
      (P.steps = .brMs → ring = l.map (LweSwitch.convert (Q - 1))) := by
    unfold StepsOk at hS
    unfold KeyPack.ringKey
    unfold GaussOk at hd
    cases hst : P.steps with
    | brMsKs =>
      rw [hst] at hS
      cases ht : P.ringKeyType with
      | binary => exact ⟨bin, by rw [eb], rb, fun _ => kb, by simp⟩
      | ternary => exact ⟨ter, et, rt, fun _ => kt, by simp⟩
      | gaussian => exact absurd ht hS.1
    | brKsMs =>
      cases ht : P.ringKeyType with
      | binary => exact ⟨bin, by rw [eb], rb, fun _ => kb, by simp⟩
      | ternary => exact ⟨ter, et, rt, fun _ => kt, by simp⟩
      | gaussian =>
        obtain ⟨g1, g2⟩ := hd ht
        refine ⟨_, rfl, ⟨?_, fun v hv => g2 v (List.mem_of_mem_take hv)⟩, by simp, by simp⟩
        rw [List.length_take, ← G.ring]; omega
    | brMs =>
      rw [hst] at hS
      have ht : P.ringKeyType = .binary ∨ P.ringKeyType = .ternary := by
        have := hS.1
        cases h : P.ringKeyType <;> simp_all
      refine ⟨l.map (LweSwitch.convert (Q - 1)), ?_, ?_, fun _ v hv => ?_, fun _ => rfl⟩
      · simp only []
        rw [if_pos ⟨ht, by rw [hS.2, G.ring]⟩]
        unfold Fp.negOne
        rw [C.value, mbind (subC_eq (by omega))]; rfl
      · have := (convert_keyWords h2 l).1
        rwa [hl, hS.2] at this
      · obtain ⟨x, _, rfl⟩ := List.mem_map.1 hv
        unfold LweSwitch.convert KeyWord
        split_ifs <;> simp
  obtain ⟨ring, er, hr, hrk, hrl⟩ := key
  obtain ⟨rn, ern⟩ : ∃ rn, Poly.toNtt R.w R.M R.tbl ring = some rn := by
    obtain ⟨t, hQ, E⟩ := G.field.env hk
    subst hQ
    obtain ⟨rn, ern, _⟩ := E.toNtt (rep_exists hr)
    exact ⟨rn, ern⟩
  refine ⟨⟨l, ring, rn⟩, ?_, hl, hw, hb, hr, ern, hrk, hrl⟩
  unfold KeyPack.new
  rw [mbind el, mbind er, mbind ern]; rfl

/-- The draws of an evaluation key: enough of them, words of the right moduli, errors of at most `E` for
the rotation key and `E'` for the switching key. -/
structure EvalDrawsOk (R : Ctx) (P : Params) (Q k m E E' : Nat) (d : EvalDraws) : Prop where
  binary : P.lweKeyType = .binary → P.n ≤ d.binary.length ∧
    ∀ x ∈ d.binary, RgswDrawOk Q (2 ^ k) P.basis.decomposeLen E x
  ternary : P.lweKeyType = .ternary → P.n ≤ d.ternary.length ∧
    ∀ x ∈ d.ternary, RgswDrawOk Q (2 ^ k) P.basis.decomposeLen E x.1 ∧
      RgswDrawOk Q (2 ^ k) P.basis.decomposeLen E x.2
  lwe : P.steps = .brMsKs → ∀ j i v, LweDrawOk (2 ^ m) P.n (d.lwe j i v) ∧
    ∃ x : ℤ, |x| ≤ E' ∧ (x : ZMod (2 ^ m)) = ((d.lwe j i v).2 : ZMod (2 ^ m))
  rlwe : P.steps = .brKsMs → ∀ k' B, 2 ^ (k' - 1) < P.n → P.n ≤ 2 ^ k' →
    Basis.new R.w Q P.keySwitchBits = some B → ∀ c, B.decomposeLen ≤ (d.rlwe c).length ∧
      DrawsOk Q (2 ^ k') (d.rlwe c) ∧ ∀ j, (drawErrors Q (2 ^ k') (d.rlwe c) j).Bounded E'

include G in
/-- The evaluation key made from a key pack is valid for any reading `Z` of the ring key. -/
theorem evaluation_key (hS : StepsOk R P Q k m) (bits : Nat)
    (hB : Basis.new R.w Q bits = some P.basis) (dk : KeyDraws) (hg : GaussOk P Q dk) (pack : KeyPack)
    (hp : KeyPack.new R P dk = some pack) (Z : List ℤ) (hZ : KeyWords Q pack.ring Z)
    (hZt : P.ringKeyType ≠ .gaussian → Z = pack.ring.map ternaryDigit) (E E' : Nat)
    (d : EvalDraws) (hd : EvalDrawsOk R P Q k m E E' d) :
    ∃ rot sw, RotationKey.generate R P pack d = some rot ∧ SwitchKey.generate w R P pack d = some sw ∧
      EvalKey.Valid ⟨w, R, P, rot, sw⟩ Q k m pack.lwe pack.ring (pack.lwe.map ternaryDigit) Z E E' := by
  have C : Config R.w Q R.M := ⟨G.field.even, G.field.conf⟩
  have h2 := C.two_le
  have hk : 0 < k := by have := G.two_le; omega
  have hPq : P.q = 2 ^ m := G.lwe.q
  have hm : 2 ≤ 2 ^ m := by
    have := G.lwe.lt
    calc 2 = 2 ^ 1 := rfl
      _ ≤ 2 ^ m := Nat.pow_le_pow_right (by decide) (by omega)
  obtain ⟨pack', ep, hl, hw, hb, hr, hn, hrk, hms⟩ := C52_key_pack G hS dk hg
  obtain rfl := Option.some.inj (ep.symm.trans hp)
  obtain ⟨rot, er, hrot⟩ : ∃ rot, RotationKey.generate R P pack' d = some rot ∧
      rot.Valid R Q (2 ^ k) bits (Rq.ofWords Q (2 ^ k) pack'.ring) E (pack'.lwe.map ternaryDigit) := by
    unfold RotationKey.generate
    cases ht : P.lweKeyType with
    | binary =>
      obtain ⟨d1, d2⟩ := hd.binary ht
      obtain ⟨key, ek, hk'⟩ := C38_binary_generate hk G.field bits P.basis hB pack'.ring pack'.ringNtt hr hn
        E pack'.lwe d.binary (by rw [hl]; exact d1) d2
      refine ⟨.binary key, by rw [mbind ek]; rfl, ?_⟩
      have : pack'.lwe.map ternaryDigit = pack'.lwe.map binaryDigit :=
        List.map_congr_left fun v hv => by
          rcases hb ht v hv with h | h <;> simp [h, ternaryDigit, binaryDigit]
      rw [this]
      exact hk'
    | ternary =>
      obtain ⟨d1, d2⟩ := hd.ternary ht
      obtain ⟨key, ek, hk'⟩ := C38_ternary_generate hk G.field bits P.basis hB pack'.ring pack'.ringNtt hr hn
        E pack'.lwe d.ternary (by rw [hl]; exact d1) d2
      exact ⟨.ternary key, by rw [mbind ek]; rfl, hk'⟩
  have hkS := keyWords_digits hm hw
  obtain ⟨sw, es, hsw⟩ : ∃ sw, SwitchKey.generate w R P pack' d = some sw ∧
      SwitchKey.Valid ⟨w, R, P, rot, sw⟩ Q m P.keySwitchBits pack'.lwe pack'.ring
        (pack'.lwe.map ternaryDigit) Z E' := by
    unfold SwitchKey.generate SwitchKey.Valid
    unfold StepsOk at hS
    cases hst : P.steps with
    | brMsKs =>
      rw [hst] at hS
      obtain ⟨M, hM, eO⟩ := G.lwe.ops
      have hd' := hd.lwe hst
      obtain ⟨B, key, eB, ek, hkey⟩ := C39_generate w m P.keySwitchBits (by have := G.lwe.lt; omega)
        G.lwe.fits M hM hS.2.1 hS.2.2 pack'.lwe pack'.ring d.lwe
        (fun j i v => by rw [hl]; exact (hd' j i v).1)
      refine ⟨.lwe B P.n key, ?_, ?_⟩
      · simp only []
        rw [mbind eO, hPq]
        rw [show (P.lwe w).w = w from rfl, mbind ek]; rfl
      · simp only []
        rw [hst]
        exact ⟨B, key, _, by rw [hl], eB, by rw [hZt hS.1]; exact hkey, fun j i v => (hd' j i v).2⟩
    | brKsMs =>
      rw [hst] at hS
      obtain ⟨k', B, hk', hkk, g1, g2, F', eB⟩ := hS
      have hd' := hd.rlwe hst k' B g1 g2 eB
      obtain ⟨cr, ck⟩ := convert_keyWords h2 pack'.lwe
      have hpow : 2 ^ (k - k') * 2 ^ k' = 2 ^ k := by rw [← pow_add]; congr 1; omega
      obtain ⟨key, ek, hkey⟩ := C40_generate hk' F' P.keySwitchBits B eB pack'.lwe (by rw [hl]; exact g1)
        (by rw [hl]; exact g2) _ cr (by
          unfold KeyWords at ck; rw [ck, List.map_map]; rfl) (2 ^ (k - k')) (Nat.two_pow_pos _) pack'.ring
        pack'.ringNtt (by rw [hpow]; exact hr) (fun _ => hn) d.rlwe (fun c => (hd' c).1)
        (fun c => (hd' c).2.1)
      refine ⟨.rlwe P.n key, by simp only []; rw [mbind ek]; rfl, ?_⟩
      simp only []
      rw [hst]
      exact ⟨B, key, k', _, _, by rw [hl], eB, hk', F',
        by rw [hl]; exact g1, by rw [hl]; exact g2, cr, ck, hkey, fun c j => (hd' c).2.2 j⟩
    | brMs =>
      refine ⟨.none, rfl, ?_⟩
      simp only []
      rw [hst, hms hst]
      exact (convert_keyWords h2 pack'.lwe).2
  exact ⟨rot, sw, er, es, hkS, hZ, hr, ⟨bits, hB, hrot⟩, hsw⟩

include G in
/-- C52: the evaluation key made from a key pack is valid for the two secret keys of the pack. -/
theorem C52_evaluation_key (hS : StepsOk R P Q k m) (bits : Nat)
    (hB : Basis.new R.w Q bits = some P.basis) (dk : KeyDraws) (hg : GaussOk P Q dk) (E E' : Nat)
    (d : EvalDraws) (hd : EvalDrawsOk R P Q k m E E' d) :
    ∃ pack rot sw Z, KeyPack.new R P dk = some pack ∧
      EvalKey.new w R P pack d = some ⟨w, R, P, rot, sw⟩ ∧ pack.lwe.length = P.n ∧
      (P.ringKeyType ≠ .gaussian → Z = pack.ring.map ternaryDigit) ∧
      EvalKey.Valid ⟨w, R, P, rot, sw⟩ Q k m pack.lwe pack.ring (pack.lwe.map ternaryDigit) Z E E' := by
  have C : Config R.w Q R.M := ⟨G.field.even, G.field.conf⟩
  obtain ⟨pack, ep, hl, hw, hb, hr, hn, hrk, hms⟩ := C52_key_pack G hS dk hg
  obtain ⟨Z, hZ, hZt⟩ : ∃ Z, KeyWords Q pack.ring Z ∧
      (P.ringKeyType ≠ .gaussian → Z = pack.ring.map ternaryDigit) := by
    by_cases ht : P.ringKeyType = .gaussian
    · exact ⟨_, keyWords_self pack.ring, fun h => absurd ht h⟩
    · exact ⟨_, keyWords_digits C.two_le (hrk ht), fun _ => rfl⟩
  obtain ⟨rot, sw, er, es, V⟩ := evaluation_key G hS bits hB dk hg pack ep Z hZ hZt E E' d hd
  refine ⟨pack, rot, sw, Z, ep, ?_, hl, hZt, V⟩
  unfold EvalKey.new
  rw [mbind er, mbind es]; rfl

end

end Verif.Props
