import Verif.SpecKeySwitch
import Verif.Model.KeySwitch
import Verif.Props.RGSW

namespace Verif
open Fp Finset Spec Ntt Props

theorem shlC_one_pow {w bits : Nat} (h : bits < w) : shlC w 1 bits = some (2 ^ bits) := by
  unfold shlC
  rw [if_pos h, Nat.one_mul, Nat.mod_eq_of_lt (two_pow_lt h)]

theorem newWord_pow {w k bits : Nat} (hkw : k < w) {B : Basis}
    (h : Basis.newWord w bits (2 ^ k) = some B) :
    1 ≤ bits ∧ bits ≤ k ∧ B = ⟨2 ^ bits, (k + bits - 1) / bits, 2 ^ bits - 1, bits⟩ := by
  have hbl : bitLen (2 ^ k) = k + 1 := by
    simp [bitLen, Nat.log2_two_pow]
  have hlz : w - leadingZeros w (2 ^ k) = k + 1 := by unfold leadingZeros; omega
  unfold Basis.newWord at h
  simp only [hlz, Basis.coverBits, isPow2_iff.2 ⟨k, rfl⟩, if_true] at h
  rw [mbind (subC_eq (show 1 ≤ k + 1 by omega))] at h
  simp only [Nat.add_sub_cancel] at h
  split at h
  · simp at h
  · next h1 =>
    split at h
    · simp at h
    · next h2 =>
      rw [mbind (shlC_one_pow (by omega)), mbind (subC_eq Nat.one_le_two_pow)] at h
      exact ⟨by omega, by omega, (Option.some.inj h).symm⟩

theorem newWord_eq {w k bits : Nat} (hkw : k < w) (h1 : 1 ≤ bits) (h2 : bits ≤ k) :
    Basis.newWord w bits (2 ^ k) = some ⟨2 ^ bits, (k + bits - 1) / bits, 2 ^ bits - 1, bits⟩ := by
  have hbl : bitLen (2 ^ k) = k + 1 := by
    simp [bitLen, Nat.log2_two_pow]
  have hlz : w - leadingZeros w (2 ^ k) = k + 1 := by unfold leadingZeros; omega
  unfold Basis.newWord
  simp only [hlz, Basis.coverBits, isPow2_iff.2 ⟨k, rfl⟩, if_true]
  rw [mbind (subC_eq (show 1 ≤ k + 1 by omega))]
  simp only [Nat.add_sub_cancel]
  rw [if_neg (by omega), if_neg (by omega), mbind (shlC_one_pow (by omega)),
    mbind (subC_eq Nat.one_le_two_pow)]
  rfl

theorem ceil_cover {k bits : Nat} (h1 : 1 ≤ bits) : k ≤ bits * ((k + bits - 1) / bits) := by
  have := Nat.div_add_mod (k + bits - 1) bits
  have := Nat.mod_lt (k + bits - 1) (show 0 < bits by omega)
  omega

theorem zipWith_sum : ∀ (a : List Nat) (S : List ℤ),
    (List.zipWith (fun (x : Nat) z => (x : ℤ) * z) a S).sum =
      ∑ i ∈ range a.length, (a.getD i 0 : ℤ) * S.getD i 0
  | [], S => by simp
  | x :: a, [] => by simp
  | x :: a, z :: S => by
    rw [List.zipWith_cons_cons, List.sum_cons, zipWith_sum a S, List.length_cons, sum_range_succ']
    simp [add_comm]

section
variable {q n : Nat} {O : ModOps} (hO : IsModOps q O)
include hO

theorem addLevel_spec {bits : Nat} (sk : List Nat) :
    ∀ (ds : List Nat) (rs : List (List LWE)) (f : Nat → Nat → ZMod q) (acc : LWE),
    ds.length = rs.length → (∀ d ∈ ds, d < 2 ^ bits) → (∀ r ∈ rs, r.length = 2 ^ bits - 1) →
    (∀ i, f i 0 = 0) → LWEReduced q n acc →
    (∀ i v r c, rs[i]? = some r → r[v]? = some c →
      LWEReduced q n c ∧ lwePhase q sk c.a c.b = f i (v + 1)) →
    ∃ out, LweSwitch.addLevel O ds rs acc = some out ∧ LWEReduced q n out ∧
      lwePhase q sk out.a out.b = lwePhase q sk acc.a acc.b +
        ∑ i ∈ range ds.length, f i (ds.getD i 0)
  | [], rs, f, acc, _, _, _, _, hacc, _ => ⟨acc, by cases rs <;> rfl, hacc, by simp⟩
  | d :: ds, [], f, acc, h, _, _, _, _, _ => by simp at h
  | d :: ds, r :: rs, f, acc, hl, hd, hr, hf, hacc, hel => by
    have ih := fun acc' hacc' => addLevel_spec sk ds rs (fun i => f (i + 1)) acc' (by simpa using hl)
      (fun x hx => hd x (by simp [hx])) (fun x hx => hr x (by simp [hx]))
      (fun i => hf (i + 1)) hacc'
      (fun i v r c h1 h2 => hel (i + 1) v r c (by simpa using h1) h2)
    have hs : ∑ i ∈ range (d :: ds).length, f i ((d :: ds).getD i 0) =
        f 0 d + ∑ i ∈ range ds.length, f (i + 1) (ds.getD i 0) := by
      rw [List.length_cons, sum_range_succ', add_comm]; simp
    rw [hs]
    unfold LweSwitch.addLevel
    by_cases h0 : d = 0
    · obtain ⟨out, e, ho, hp⟩ := ih acc hacc
      refine ⟨out, by rw [if_pos h0, e], ho, ?_⟩
      rw [hp, h0, hf 0, zero_add]
    · have hlt : d - 1 < r.length := by
        rw [hr r (by simp)]
        have := hd d (by simp)
        omega
      obtain ⟨hc, hcp⟩ := hel 0 (d - 1) r r[d - 1] (by simp) (List.getElem?_eq_getElem hlt)
      obtain ⟨acc', _, ea, hacc', hp'⟩ := C33_add q n O hO acc _ hacc hc
      obtain ⟨out, e, ho, hp⟩ := ih acc' hacc'
      refine ⟨out, ?_, ho, ?_⟩
      · rw [if_neg h0, List.getElem?_eq_getElem hlt]
        rw [mbind rfl, mbind ea, e]
      · rw [hp, hp' sk, hcp, show d - 1 + 1 = d by omega, add_assoc]

theorem addLevels_spec {w bits len : Nat} {B : Basis} (hb : B.bits = bits) (hm : B.mask = 2 ^ bits - 1)
    (hw : bits < w) (sk : List Nat) (S : List ℤ) (err : Nat → Nat → Nat → ZMod q) (a : List Nat)
    (ha : a.length = S.length) (hn : n = sk.length) (key0 : List (List (List LWE)))
    (hk : LweSwitchKey q bits len sk S err key0) :
    ∀ (key : List (List (List LWE))) (j0 : Nat) (acc : LWE), key0.drop j0 = key →
    LWEReduced q n acc →
    ∃ out, LweSwitch.addLevels w B O key (a.map (· / 2 ^ (bits * j0))) acc = some out ∧
      LWEReduced q n out ∧
      lwePhase q sk out.a out.b = lwePhase q sk acc.a acc.b +
        ∑ j ∈ range key.length, ∑ i ∈ range a.length,
          (if digit bits (a.getD i 0) (j0 + j) = 0 then 0 else
            (digit bits (a.getD i 0) (j0 + j) : ZMod q) * (S.getD i 0 : ZMod q) *
              (2 ^ (bits * (j0 + j)) : Nat) + err (j0 + j) i (digit bits (a.getD i 0) (j0 + j)))
  | [], j0, acc, _, hacc => ⟨acc, rfl, hacc, by simp⟩
  | l :: key, j0, acc, hkey, hacc => by
    have hj0 : key0[j0]? = some l := by
      have := congrArg (fun x => x[0]?) hkey
      simpa using this
    have hdrop : key0.drop (j0 + 1) = key := by
      rw [← List.drop_drop, hkey]; rfl
    have hmem : l ∈ key0 := List.mem_of_getElem? hj0
    obtain ⟨hrl, hrr⟩ := hk.rows l hmem
    obtain ⟨f, hf⟩ : ∃ f : Nat → Nat → ZMod q, f = fun i (d : Nat) => if d = 0 then 0 else
      (d : ZMod q) * (S.getD i 0 : ZMod q) * (2 ^ (bits * j0) : Nat) + err j0 i d := ⟨_, rfl⟩
    obtain ⟨acc', ea, hacc', hp'⟩ := addLevel_spec (n := n) hO (bits := bits) sk
      ((a.map (· / 2 ^ (bits * j0))).map (· % 2 ^ bits)) l f acc (by simp [ha, hrl])
      (by
        intro d hd
        rw [List.mem_map] at hd
        obtain ⟨x, _, rfl⟩ := hd
        exact Nat.mod_lt _ (Nat.two_pow_pos _)) hrr (fun i => by rw [hf]; simp) hacc
      (by
        intro i v r c h1 h2
        have hi : i < S.length := by
          rw [← hrl]; exact (List.getElem?_eq_some_iff.1 h1).1
        obtain ⟨h3, h4, h5⟩ := hk.elem j0 i v l r c S[i] hj0 h1 h2 (List.getElem?_eq_getElem hi)
        refine ⟨⟨hn ▸ h3, h4⟩, ?_⟩
        rw [h5, hf]
        simp only
        rw [if_neg (by omega), List.getD_eq_getElem _ _ hi])
    obtain ⟨out, e, ho, hp⟩ := addLevels_spec hb hm hw sk S err a ha hn key0 hk key (j0 + 1) acc'
      hdrop hacc'
    refine ⟨out, ?_, ho, ?_⟩
    · unfold LweSwitch.addLevels
      rw [mbind (decomposeLsb_spec hb hm hw _)]
      simp only
      rw [mbind ea]
      rw [show (a.map (· / 2 ^ (bits * j0))).map (· / 2 ^ bits) =
        a.map (· / 2 ^ (bits * (j0 + 1))) by
          rw [List.map_map]
          refine List.map_congr_left fun x _ => ?_
          simp only [Function.comp]
          rw [Nat.div_div_eq_div_mul, ← pow_add, Nat.mul_succ]]
      exact e
    · rw [hp, hp', List.length_cons, sum_range_succ', add_assoc]
      congr 1
      rw [add_comm]
      congr 1
      · refine sum_congr rfl fun j _ => ?_
        rw [show j0 + 1 + j = j0 + (j + 1) by omega]
      · rw [List.length_map, List.length_map]
        refine sum_congr rfl fun i hi => ?_
        have hi' : i < a.length := mem_range.1 hi
        have : ((a.map (· / 2 ^ (bits * j0))).map (· % 2 ^ bits)).getD i 0 =
            digit bits (a.getD i 0) j0 := by
          rw [List.getD_eq_getElem _ _ (by simpa using hi'), List.getElem_map, List.getElem_map,
            List.getD_eq_getElem _ _ hi']
          rfl
        rw [this, hf]
        simp only [Nat.add_zero]

theorem lweKeySwitch_spec {w bits len : Nat} {B : Basis} (hb : B.bits = bits)
    (hm : B.mask = 2 ^ bits - 1) (hw : bits < w) (hlen : q ≤ 2 ^ (bits * len)) (hq : 0 < q)
    (sk : List Nat) (S : List ℤ) (err : Nat → Nat → Nat → ZMod q) (key : List (List (List LWE)))
    (hk : LweSwitchKey q bits len sk S err key) (c : LWE) (hc : LWEReduced q S.length c) :
    ∃ out, LweSwitch.keySwitch w B O sk.length key c = some out ∧ LWEReduced q sk.length out ∧
      lwePhase q sk out.a out.b = (intPhase S c.a c.b : ZMod q) - switchError q bits len err c.a := by
  have hz : LWEReduced q sk.length ⟨List.replicate sk.length 0, 0⟩ :=
    ⟨⟨by simp, fun x hx => by rw [List.eq_of_mem_replicate hx]; exact hq⟩, hq⟩
  have hzd : ∀ (m : Nat) (s : List Nat), dot (List.replicate m 0) s = 0 := by
    intro m
    induction m with
    | zero => intro s; cases s <;> rfl
    | succ m ih => intro s; cases s with
      | nil => rfl
      | cons x s => simp [List.replicate_succ, dot, ih]
  obtain ⟨r, er, hr, hrp⟩ := addLevels_spec hO hb hm hw sk S err c.a hc.1.1 rfl key hk key 0
    ⟨List.replicate sk.length 0, 0⟩ rfl hz
  obtain ⟨r', er', hr', hrp'⟩ := (C33_scalar_neg q sk.length O hO r hr 0 hq).2
  obtain ⟨b, eb, hb', cb⟩ := hO.add r'.b c.b hr'.2 hc.2
  refine ⟨⟨r'.a, b⟩, ?_, ⟨hr'.1, hb'⟩, ?_⟩
  · unfold LweSwitch.keySwitch
    simp only [Nat.mul_zero, pow_zero, Nat.div_one, List.map_id'] at er
    rw [mbind er, mbind er', mbind eb]; rfl
  · have e1 : lwePhase q sk r'.a b = lwePhase q sk r'.a r'.b + c.b := by
      simp only [lwePhase, cb]; ring
    rw [e1, hrp' sk, hrp]
    have e2 : lwePhase q sk (List.replicate sk.length 0) 0 = 0 := by
      simp [lwePhase, hzd]
    rw [e2, zero_add, hk.levels]
    simp only [Nat.zero_add]
    have e3 : ∀ j i, (if digit bits (c.a.getD i 0) j = 0 then 0 else
            (digit bits (c.a.getD i 0) j : ZMod q) * (S.getD i 0 : ZMod q) *
              (2 ^ (bits * j) : Nat) + err j i (digit bits (c.a.getD i 0) j)) =
        (2 ^ (bits * j) * digit bits (c.a.getD i 0) j : Nat) * (S.getD i 0 : ZMod q) +
          (if digit bits (c.a.getD i 0) j = 0 then 0 else err j i (digit bits (c.a.getD i 0) j)) := by
      intro j i
      by_cases h : digit bits (c.a.getD i 0) j = 0
      · rw [if_pos h, if_pos h, h]; simp
      · rw [if_neg h, if_neg h]; push_cast; ring
    simp only [e3, sum_add_distrib]
    rw [sum_comm]
    simp only [← sum_mul]
    have e4 : ∀ i ∈ range c.a.length,
        (∑ j ∈ range len, ((2 ^ (bits * j) * digit bits (c.a.getD i 0) j : Nat) : ZMod q)) =
          (c.a.getD i 0 : Nat) := by
      intro i hi
      have hlt : c.a.getD i 0 < 2 ^ (bits * len) :=
        lt_of_lt_of_le (hc.1.2 _ (getD_mem _ (mem_range.1 hi))) hlen
      have := digits_sum bits len (c.a.getD i 0) hlt
      conv_rhs => rw [← this]
      push_cast
      rfl
    rw [sum_congr rfl fun i hi => by rw [e4 i hi]]
    rw [intPhase, zipWith_sum, switchError]
    push_cast
    ring

end

/-! ## Key generation -/

section
variable {q : Nat} {O : ModOps} (hO : IsModOps q O)
include hO

/-- The draws of one sample: enough words below `q`. -/
def LweDrawOk (q n : Nat) (d : List Nat × Nat) : Prop :=
  n ≤ d.1.length ∧ (∀ x ∈ d.1, x < q) ∧ d.2 < q

theorem element_spec (sk : List Nat)
    (hdot : ∀ a : List Nat, a.length = sk.length → O.dot a sk = some (dot a sk % q))
    (hq : 0 < q) (z v : Nat) (hz : z < q) (hv : v < q) (d : List Nat × Nat)
    (hd : LweDrawOk q sk.length d) :
    ∃ c, LweSwitch.element O sk z v d = some c ∧ LWEReduced q sk.length c ∧
      lwePhase q sk c.a c.b = (v : ZMod q) * z + d.2 := by
  obtain ⟨h1, h2, h3⟩ := hd
  obtain ⟨b, eb, hb, cb⟩ := hO.add (dot (d.1.take sk.length) sk % q) d.2 (Nat.mod_lt _ hq) h3
  obtain ⟨m, em, hm, cm⟩ := hO.mul v z hv hz
  obtain ⟨b', eb', hb', cb'⟩ := hO.add b m hb hm
  refine ⟨⟨d.1.take sk.length, b'⟩, ?_, ⟨⟨by simp [h1], fun x hx => h2 x (List.mem_of_mem_take hx)⟩, hb'⟩,
    ?_⟩
  · unfold LweSwitch.element LWE.zeroSample
    simp only
    rw [hdot _ (by simp [h1])]
    simp only [Option.bind_eq_bind, Option.bind_some, Option.pure_def, eb, em, eb']
  · simp only [lwePhase, cb', cb, cm, ZMod.natCast_mod]; ring

theorem row_spec (sk : List Nat)
    (hdot : ∀ a : List Nat, a.length = sk.length → O.dot a sk = some (dot a sk % q))
    (hq : 0 < q) (z basis : Nat) (hz : z < q) (hb : basis ≤ q) (d : Nat → List Nat × Nat)
    (hd : ∀ v, LweDrawOk q sk.length (d v)) :
    ∃ r, LweSwitch.row O sk basis z d = some r ∧ r.length = basis - 1 ∧
      ∀ v c, r[v]? = some c → LWEReduced q sk.length c ∧
        lwePhase q sk c.a c.b = ((v + 1 : Nat) : ZMod q) * z + (d (v + 1)).2 := by
  obtain ⟨r, er, hr, hp⟩ := mapM_getElem (l := List.range (basis - 1))
    (f := fun v => LweSwitch.element O sk z (v + 1) (d (v + 1)))
    (P := fun v c => LWEReduced q sk.length c ∧
        lwePhase q sk c.a c.b = ((v + 1 : Nat) : ZMod q) * z + (d (v + 1)).2) (by
      intro v hv
      have hv' : v < basis - 1 := by simpa using hv
      simp only [List.getElem_range]
      exact element_spec hO sk hdot hq z (v + 1) hz (by omega) _ (hd _))
  refine ⟨r, er, by simpa using hr, fun v c hc => ?_⟩
  obtain ⟨h1, h2⟩ := List.getElem?_eq_some_iff.1 hc
  exact h2 ▸ hp v h1

theorem level_spec (sk : List Nat)
    (hdot : ∀ a : List Nat, a.length = sk.length → O.dot a sk = some (dot a sk % q))
    (hq : 0 < q) (basis : Nat) (hb : basis ≤ q) (d : Nat → Nat → List Nat × Nat)
    (hd : ∀ i v, LweDrawOk q sk.length (d i v)) :
    ∀ (zs : List Nat) (i0 : Nat), (∀ z ∈ zs, z < q) →
    ∃ l, LweSwitch.level O sk basis d i0 zs = some l ∧ l.length = zs.length ∧
      (∀ r ∈ l, r.length = basis - 1) ∧
      ∀ (i v z : Nat) (r : List LWE) (c : LWE), l[i]? = some r → r[v]? = some c → zs[i]? = some z →
        LWEReduced q sk.length c ∧
        lwePhase q sk c.a c.b = ((v + 1 : Nat) : ZMod q) * z + (d (i0 + i) (v + 1)).2
  | [], i0, _ => ⟨[], rfl, rfl, by simp, by simp⟩
  | z :: zs, i0, hz => by
    obtain ⟨r, er, hr, hp⟩ := row_spec hO sk hdot hq z basis (hz z (by simp)) hb (d i0) (hd i0)
    obtain ⟨l, el, hl, hrl, hpl⟩ := level_spec sk hdot hq basis hb d hd zs (i0 + 1)
      (fun x hx => hz x (by simp [hx]))
    refine ⟨r :: l, by rw [LweSwitch.level, mbind er, mbind el]; rfl, by simp [hl], ?_, ?_⟩
    · intro r' hr'
      rcases List.mem_cons.1 hr' with rfl | h
      · exact hr
      · exact hrl _ h
    · intro i v z' r' c h1 h2 h3
      cases i with
      | zero =>
        simp only [List.getElem?_cons_zero, Option.some.injEq] at h1 h3
        subst h1 h3
        exact hp v c h2
      | succ i =>
        have := hpl i v z' r' c (by simpa using h1) h2 (by simpa using h3)
        rwa [show i0 + 1 + i = i0 + (i + 1) by omega] at this

theorem levels_spec (sk : List Nat)
    (hdot : ∀ a : List Nat, a.length = sk.length → O.dot a sk = some (dot a sk % q))
    (hq : 0 < q) (basis : Nat) (d : Nat → Nat → Nat → List Nat × Nat)
    (hd : ∀ j i v, LweDrawOk q sk.length (d j i v)) :
    ∀ (cnt j0 : Nat) (zs : List Nat), (∀ z ∈ zs, z < q) → (basis < q ∨ basis ≤ q ∧ cnt ≤ 1) →
    ∃ key, LweSwitch.levels O sk basis d cnt j0 zs = some key ∧ key.length = cnt ∧
      (∀ l ∈ key, l.length = zs.length ∧ ∀ r ∈ l, r.length = basis - 1) ∧
      ∀ (j i v z : Nat) (l : List (List LWE)) (r : List LWE) (c : LWE),
        key[j]? = some l → l[i]? = some r → r[v]? = some c → zs[i]? = some z →
        LWEReduced q sk.length c ∧
        lwePhase q sk c.a c.b = ((v + 1 : Nat) : ZMod q) * z * (basis : ZMod q) ^ j +
          (d (j0 + j) i (v + 1)).2
  | 0, j0, zs, _, _ => ⟨[], rfl, rfl, by simp, by simp⟩
  | 1, j0, zs, hz, hb => by
    obtain ⟨l, el, hl, hrl, hpl⟩ := level_spec hO sk hdot hq basis (by omega) (d j0) (hd j0) zs 0 hz
    refine ⟨[l], by rw [LweSwitch.levels, mbind el]; rfl, rfl, ?_, ?_⟩
    · intro l' hl'
      rw [List.mem_singleton.1 hl']
      exact ⟨hl, hrl⟩
    · intro j i v z l' r c h0 h1 h2 h3
      have hj : j = 0 := by
        have := (List.getElem?_eq_some_iff.1 h0).1
        simp only [List.length_cons, List.length_nil] at this
        omega
      subst hj
      simp only [List.getElem?_cons_zero, Option.some.injEq] at h0
      subst h0
      have := hpl i v z r c h1 h2 h3
      rwa [pow_zero, mul_one, Nat.add_zero, ← Nat.zero_add i]
  | cnt + 2, j0, zs, hz, hb => by
    obtain ⟨l, el, hl, hrl, hpl⟩ := level_spec hO sk hdot hq basis (by omega) (d j0) (hd j0) zs 0 hz
    have hbq : basis < q := by omega
    obtain ⟨zs', ez, lz, hzs⟩ := mapM_spec (P := (· < q))
      (R := fun z z' => z' < q ∧ (z' : ZMod q) = z * basis)
      (f := fun v => O.mul v basis) (fun a ha => hO.mul a basis ha hbq) zs hz
    obtain ⟨key, ek, hk, hkr, hkp⟩ := levels_spec sk hdot hq basis d hd (cnt + 1) (j0 + 1) zs'
      (mem_of_getD rfl fun i hi => (hzs i (by omega)).1) (Or.inl hbq)
    refine ⟨l :: key, by rw [LweSwitch.levels, mbind el, mbind ez, mbind ek]; rfl, by simp [hk], ?_, ?_⟩
    · intro l' hl'
      rcases List.mem_cons.1 hl' with rfl | h
      · exact ⟨hl, hrl⟩
      · rw [← lz]; exact hkr _ h
    · intro j i v z l' r c h0 h1 h2 h3
      cases j with
      | zero =>
        simp only [List.getElem?_cons_zero, Option.some.injEq] at h0
        subst h0
        have := hpl i v z r c h1 h2 h3
        rwa [pow_zero, mul_one, Nat.add_zero, ← Nat.zero_add i]
      | succ j =>
        have hi : i < zs.length := (List.getElem?_eq_some_iff.1 h3).1
        have h4 := (hzs i hi).2
        have h5 : zs'[i]? = some (zs'.getD i 0) := by
          rw [List.getD_eq_getElem _ _ (by omega)]
          exact List.getElem?_eq_getElem (by omega)
        obtain ⟨h6, h7⟩ := hkp j i v _ l' r c (by simpa using h0) h1 h2 h5
        refine ⟨h6, ?_⟩
        have h8 : zs.getD i 0 = z := by
          rw [List.getD_eq_getElem _ _ hi]
          exact (List.getElem?_eq_some_iff.1 h3).2
        rw [h7, h4, h8, show j0 + 1 + j = j0 + (j + 1) by omega]
        ring

end
end Verif

namespace Verif.Props
open Fp Finset Spec Ntt

/-- C39: LWE key switching from the integer key `S` to the LWE key `sk` keeps the phase up to the sum
of the errors of the key elements that the digits of the mask select. -/
theorem C39_key_switch (w k bits : Nat) (hkw : k < w) (M : PowOf2)
    (hM : PowOf2.new (2 ^ k) = some M) (B : Basis) (hB : Basis.newWord w bits (2 ^ k) = some B)
    (sk : List Nat) (S : List ℤ) (err : Nat → Nat → Nat → ZMod (2 ^ k))
    (key : List (List (List LWE)))
    (hkey : LweSwitchKey (2 ^ k) bits B.decomposeLen sk S err key) (c : LWE)
    (hc : LWEReduced (2 ^ k) S.length c) :
    ∃ out, LweSwitch.keySwitch w B (PowOf2.ops w M) sk.length key c = some out ∧
      LWEReduced (2 ^ k) sk.length out ∧
      lwePhase (2 ^ k) sk out.a out.b =
        (intPhase S c.a c.b : ZMod (2 ^ k)) - switchError (2 ^ k) bits B.decomposeLen err c.a := by
  obtain ⟨h1, h2, rfl⟩ := newWord_pow hkw hB
  exact lweKeySwitch_spec (powOf2_isModOps hkw hM) rfl rfl (show bits < w by omega)
    (Nat.pow_le_pow_right (by omega) (ceil_cover h1)) (Nat.two_pow_pos k) sk S err key hkey c hc

/-- C39: the generated key is such a key for the ternary digits of the ring key, its errors are the
noise samples. -/
theorem C39_generate (w k bits : Nat) (hk : 0 < k) (hkw : k < w) (M : PowOf2)
    (hM : PowOf2.new (2 ^ k) = some M) (h1 : 1 ≤ bits) (h2 : bits ≤ k) (sk ring : List Nat)
    (d : Nat → Nat → Nat → List Nat × Nat) (hd : ∀ j i v, LweDrawOk (2 ^ k) sk.length (d j i v)) :
    ∃ B key, Basis.newWord w bits (2 ^ k) = some B ∧
      LweSwitch.generate w (2 ^ k) bits (PowOf2.ops w M) sk ring d = some (B, key) ∧
      LweSwitchKey (2 ^ k) bits B.decomposeLen sk (ring.map ternaryDigit)
        (fun j i v => ((d j i v).2 : ZMod (2 ^ k))) key := by
  have hB := newWord_eq hkw h1 h2
  have hq := Nat.two_pow_pos k
  have hq2 : 2 ≤ 2 ^ k := by
    calc 2 = 2 ^ 1 := rfl
      _ ≤ 2 ^ k := Nat.pow_le_pow_right (by omega) hk
  obtain ⟨B, rfl⟩ : ∃ B : Basis, B = ⟨2 ^ bits, (k + bits - 1) / bits, 2 ^ bits - 1, bits⟩ := ⟨_, rfl⟩
  have hb : 2 ^ bits < 2 ^ k ∨ 2 ^ bits ≤ 2 ^ k ∧ (k + bits - 1) / bits ≤ 1 := by
    rcases Nat.lt_or_ge bits k with h | h
    · exact Or.inl (two_pow_lt h)
    · obtain rfl : bits = k := by omega
      refine Or.inr ⟨le_rfl, ?_⟩
      rw [Nat.div_le_iff_le_mul (by omega)]; omega
  obtain ⟨key, ek, hl, hr, hp⟩ := levels_spec (powOf2_isModOps hkw hM) sk
    (fun a ha => by
      change PowOf2.dotProduct w M a sk = _
      rw [C10_powof2_dot w k hkw M hM, if_pos ha]) hq (2 ^ bits) d hd ((k + bits - 1) / bits) 0
    (ring.map (LweSwitch.convert (2 ^ k - 1)))
    (by
      intro z hz
      rw [List.mem_map] at hz
      obtain ⟨x, _, rfl⟩ := hz
      unfold LweSwitch.convert
      split
      · omega
      · split <;> omega) hb
  refine ⟨_, key, hB, ?_, hl, ?_, ?_⟩
  · unfold LweSwitch.generate
    rw [mbind hB, mbind (subC_eq hq), mbind ek]; rfl
  · intro l hl'
    simpa using hr l hl'
  · intro j i v l r c z h0 h1 h2 h3
    rw [List.getElem?_map] at h3
    obtain ⟨x, hx, hxz⟩ := Option.map_eq_some_iff.1 h3
    obtain ⟨h4, h5⟩ := hp j i v _ l r c h0 h1 h2 (by rw [List.getElem?_map, hx]; rfl)
    refine ⟨h4.1, h4.2, ?_⟩
    have hcv : ((LweSwitch.convert (2 ^ k - 1) x : Nat) : ZMod (2 ^ k)) = ((z : ℤ) : ZMod (2 ^ k)) := by
      rw [← hxz]
      unfold LweSwitch.convert ternaryDigit
      by_cases hx0 : x = 0
      · simp [hx0]
      · by_cases hx1 : x = 1
        · simp [hx1]
        · rw [if_neg hx0, if_neg hx1, if_neg hx1, if_neg hx0, Nat.cast_sub hq]
          simp
    rw [h5, hcv, Nat.zero_add, pow_mul]
    push_cast
    ring

/-- C39: with key errors of at most `E` the error of the switch is at most `len * (N * E)`. -/
theorem C39_error_bound (q bits len E : Nat) (err : Nat → Nat → Nat → ZMod q) (a : List Nat)
    (h : ∀ j i v, ∃ z : ℤ, |z| ≤ E ∧ (z : ZMod q) = err j i v) :
    ∃ z : ℤ, |z| ≤ (len * (a.length * E) : Nat) ∧ (z : ZMod q) = switchError q bits len err a := by
  choose Z hZ eZ using h
  refine ⟨∑ j ∈ range len, ∑ i ∈ range a.length, if digit bits (a.getD i 0) j = 0 then 0 else
    Z j i (digit bits (a.getD i 0) j), ?_, ?_⟩
  · refine (abs_sum_le_sum_abs _ _).trans ?_
    push_cast
    rw [← nsmul_eq_mul, ← card_range len, ← sum_const, card_range]
    refine sum_le_sum fun j _ => (abs_sum_le_sum_abs _ _).trans ?_
    rw [← nsmul_eq_mul, ← card_range a.length, ← sum_const, card_range]
    refine sum_le_sum fun i _ => ?_
    split
    · simp
    · exact hZ _ _ _
  · unfold switchError
    push_cast
    refine sum_congr rfl fun j _ => sum_congr rfl fun i _ => ?_
    split
    · rfl
    · exact eZ _ _ _

-- from the ring key (1, -1, 0, 1) to the LWE key (1, 0, 1) modulo 2^6, base 2^2, on 8-bit words,
-- with noise 1 in every sample
example : (do
    let (B, key) ← LweSwitch.generate 8 64 2 (PowOf2.ops 8 ⟨63⟩) [1, 0, 1] [1, 16, 0, 1]
      (fun j i v => ([7 * j % 64, 5 * i % 64, 3 * v % 64], 1))
    let out ← LweSwitch.keySwitch 8 B (PowOf2.ops 8 ⟨63⟩) 3 key ⟨[60, 17, 33, 5], 40⟩
    return (lwePhase 64 [1, 0, 1] out.a out.b)) =
      some ((intPhase [1, -1, 0, 1] [60, 17, 33, 5] 40 - 8 : ℤ) : ZMod 64) := by
  decide +kernel

-- the draws meet the hypothesis
example (j i v : Nat) : LweDrawOk 64 3 ([7 * j % 64, 5 * i % 64, 3 * v % 64], 1) :=
  ⟨le_rfl, by simp [Nat.mod_lt], Nat.one_lt_two_pow (by decide : (6 : Nat) ≠ 0)⟩

end Verif.Props
