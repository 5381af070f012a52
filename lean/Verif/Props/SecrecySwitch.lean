import Verif.Props.SecrecyKeys
import Verif.Props.KeySwitchRLWE
import Verif.Props.KeySwitchLWE

/-!
# C68: switching keys hide the keys they contain as well as learning with errors is hard

Concrete cases that meet the hypotheses are in `Props/SecrecyDefaults.lean`.
-/

namespace Verif
open Spec Props Ntt
open scoped ENNReal

section Rlwe
variable {R : Ctx} {k : Nat} {t : Table} (E : Env R k t) [NeZero R.M.value]
include E

theorem samples_switch_eq {s : Rq (ZMod R.M.value) (2 ^ k)} {sn : List Nat} (hs : NttRep R k t R.M.value sn s) {basis : Nat}
    (hb : basis < R.M.value) : ∀ (cnt : Nat) (z : List Nat) (m : Rq (ZMod R.M.value) (2 ^ k))
      (xs : List (Rq (ZMod R.M.value) (2 ^ k) × List Nat)), NttRep R k t R.M.value z m → xs.length = cnt →
      (∀ y ∈ xs, Reduced R.M.value (2 ^ k) y.2) →
      RlweSwitch.samples R sn basis cnt z (xs.map (ringDraw R)) =
        some (xs.mapIdx fun j x => nttSample R (x.1, (ringValue R s x).2 + m * Rq.const ((basis : ZMod R.M.value) ^ j)))
  | 0, z, m, xs, _, h, _ => by
    rw [List.eq_nil_of_length_eq_zero h]
    rfl
  | cnt + 1, z, m, [], _, h, _ => by simp at h
  | cnt + 1, z, m, x :: xs, hz, hl, ho => by
    have := E.nontrivial
    have h1 : NTTRLWE.zeroSample R sn (ringDraw R x).1 (ringDraw R x).2 =
        some (nttSample R (x.1, x.1 * s + Rq.ofWords R.M.value (2 ^ k) x.2)) :=
      (nttSamples_eq E hs x.1 (ho x (by simp)) E.q_pos).1
    obtain ⟨o, eo, hov⟩ := (nttWords_rep E (x.1 * s + Rq.ofWords R.M.value (2 ^ k) x.2)).add E hz
    have ho' := NttRep.eq_words E hov
    have hc : (Rq.const (1 : ZMod R.M.value) : Rq (ZMod R.M.value) (2 ^ k)) = 1 := rfl
    have hhead : ∀ o', o' = o → (⟨nttWords R x.1, o'⟩ : NTTRLWE) =
        nttSample R (x.1, (ringValue R s x).2 + m * Rq.const ((basis : ZMod R.M.value) ^ 0)) := by
      rintro _ rfl
      rw [pow_zero, hc, mul_one, ho']
      rfl
    cases cnt with
    | zero =>
      have : xs = [] := List.eq_nil_of_length_eq_zero (by simpa using hl)
      subst this
      rw [List.map_cons]
      unfold RlweSwitch.samples
      rw [mbind h1, mbind (show Poly.add R.w R.M
        (nttSample R (x.1, x.1 * s + Rq.ofWords R.M.value (2 ^ k) x.2)).b z = some o from eo), List.mapIdx_cons]
      rw [← hhead o rfl]
      rfl
    | succ cnt =>
      obtain ⟨z', ez, hz'⟩ := mulScalar_ntt E hz hb
      have ih := samples_switch_eq hs hb (cnt + 1) z' _ xs hz' (by simpa using hl) fun y hy => ho y (by simp [hy])
      rw [List.map_cons]
      unfold RlweSwitch.samples
      rw [mbind h1, mbind (show Poly.add R.w R.M
        (nttSample R (x.1, x.1 * s + Rq.ofWords R.M.value (2 ^ k) x.2)).b z = some o from eo), mbind ez, mbind ih,
        List.mapIdx_cons, ← hhead o rfl]
      simp only [mul_assoc, ← Rq.const_mul, ← pow_succ']
      rfl

theorem element_switch_eq {s : Rq (ZMod R.M.value) (2 ^ k)} {sn : List Nat} (hs : NttRep R k t R.M.value sn s) {basis : Nat}
    (hb : basis < R.M.value) {bits : Nat} (hbc : (basis : ZMod R.M.value) = ((2 ^ bits : Nat) : ZMod R.M.value)) {B : Basis}
    (z : List Nat) (m : Rq (ZMod R.M.value) (2 ^ k)) (hz : NttRep R k t R.M.value z m)
    (xs : List (Rq (ZMod R.M.value) (2 ^ k) × List Nat)) (hl : xs.length = B.decomposeLen)
    (ho : ∀ y ∈ xs, Reduced R.M.value (2 ^ k) y.2) :
    RlweSwitch.element R B sn basis z (xs.map (ringDraw R)) =
      some (maskChunk R B bits m (xs.map (ringValue R s))) := by
  have := E.nontrivial
  unfold RlweSwitch.element
  rw [mbind (samples_switch_eq E hs hb B.decomposeLen z m xs hz hl ho), if_pos (by simpa using hl)]
  unfold maskChunk
  congr 2
  refine List.ext_getElem (by simp) fun i _ _ => ?_
  simp [hbc, ringValue, pow_mul]

theorem elements_switch_eq {s : Rq (ZMod R.M.value) (2 ^ k)} {sn : List Nat} (hs : NttRep R k t R.M.value sn s) {basis : Nat}
    (hb : basis < R.M.value) {bits : Nat} (hbc : (basis : ZMod R.M.value) = ((2 ^ bits : Nat) : ZMod R.M.value)) {B : Basis}
    (d : Nat → List Draw) : ∀ (c0 : Nat) (zs : List (List Nat)) (gs : List (List (Rq (ZMod R.M.value) (2 ^ k) × List Nat))),
      gs.length = zs.length → (∀ z ∈ zs, Reduced R.M.value (2 ^ k) z) →
      (∀ c < zs.length, d (c0 + c) = (gs.getD c []).map (ringDraw R)) →
      (∀ g ∈ gs, g.length = B.decomposeLen ∧ ∀ y ∈ g, Reduced R.M.value (2 ^ k) y.2) →
      RlweSwitch.elements R B sn basis d c0 zs =
        some (List.zipWith (fun z g => maskChunk R B bits (Rq.ofWords R.M.value (2 ^ k) z) (g.map (ringValue R s))) zs gs)
  | c0, [], gs, _, _, _, _ => by simp [RlweSwitch.elements]
  | c0, z :: zs, [], h, _, _, _ => by simp at h
  | c0, z :: zs, g :: gs, hl, hz, hd, hg => by
    obtain ⟨v, ev, hv⟩ := E.toNtt (rep_exists (hz z List.mem_cons_self))
    have h0 := hd 0 (by simp)
    simp only [Nat.add_zero, List.getD_cons_zero] at h0
    have e1 := element_switch_eq E hs hb hbc (B := B) v _ hv g (hg g (by simp)).1 (hg g (by simp)).2
    have ih := elements_switch_eq hs hb hbc (B := B) d (c0 + 1) zs gs (by simpa using hl)
      (fun y hy => hz y (by simp [hy])) (fun c hc => by
        have := hd (c + 1) (by simpa using hc)
        rw [List.getD_cons_succ] at this
        rw [← this]
        congr 1
        omega) fun y hy => hg y (by simp [hy])
    unfold RlweSwitch.elements
    rw [mbind ev, h0, mbind e1, mbind ih]
    rfl

theorem rlwe_generates (hk : 0 < k) (hev : R.w % 2 = 0) (hconf : Fp.config R.w R.M.value = some R.M) (bits : Nat) (B : Basis) (hB : Basis.new R.w R.M.value bits = some B)
    (χ : PMF Nat) (hχ : ∀ x ∈ χ.support, x < R.M.value) {A : Type} (keys : PMF (List Nat × A))
    (hkeys : ∀ x ∈ keys.support, 2 ^ (k - 1) < x.1.length ∧ x.1.length ≤ 2 ^ k) (cnt : Nat) (hcnt : 0 < cnt)
    (ring ringNtt : List Nat) (hr : Reduced R.M.value (cnt * 2 ^ k) ring)
    (hrn : cnt = 1 → Poly.toNtt R.w R.M R.tbl ring = some ringNtt) :
    Generates keys (draws (ringLaw R.M.value (2 ^ k) χ) B.decomposeLen) (List.map (ringDraw R))
      (fun sk => List.map (ringValue R (digitRing R.M.value (2 ^ k) sk))) (maskChunk R B bits)
      (fun sk l => RlweSwitch.generate R bits sk ring ringNtt fun c =>
        l.getD c (List.replicate B.decomposeLen (List.replicate (2 ^ k) 0, List.replicate (2 ^ k) 0)))
      (chunkItems R.M.value (2 ^ k) cnt ring) := by
  intro x hx gs hl hm
  obtain ⟨h1, h2⟩ := hkeys x hx
  generalize x.1 = sk at h1 h2
  have := E.nontrivial
  have hn : 0 < 2 ^ k := Nat.two_pow_pos k
  have h2q := E.C.two_le
  have hqw : R.M.value < 2 ^ R.w := by have := E.C.four_mul_lt; omega
  obtain ⟨no, eno, hno, cno⟩ := (E.C.ops E.q_pos E.q_pos E.q_pos).2.2.1
  obtain ⟨_, _, _, _, hbw, hbasis, _⟩ := new_basis hqw hB
  have eb := C49_new R.w R.M.value hev R.M hconf B.basis (by
    rw [hbasis]; exact Nat.pow_lt_pow_right (by omega) hbw)
  have hbq : B.basis % R.M.value < R.M.value := Nat.mod_lt _ E.q_pos
  have hbc : ((B.basis % R.M.value : Nat) : ZMod R.M.value) = ((2 ^ bits : Nat) : ZMod R.M.value) := by
    rw [ZMod.natCast_mod, hbasis]
  have hconv : ∀ v, LweSwitch.convert no v < R.M.value ∧
      ((LweSwitch.convert no v : Nat) : ZMod R.M.value) = (ternaryDigit v : ZMod R.M.value) := by
    intro v
    unfold LweSwitch.convert ternaryDigit
    by_cases h0 : v = 0
    · rw [if_pos h0, if_neg (by omega), if_pos h0]; exact ⟨E.q_pos, by simp⟩
    · rw [if_neg h0]
      by_cases h1 : v = 1
      · rw [if_pos h1, if_pos h1]; exact ⟨by omega, by simp⟩
      · rw [if_neg h1, if_neg h1, if_neg h0]; exact ⟨hno, by rw [cno]; simp⟩
  have hs : Reduced R.M.value (2 ^ k) (sk.map (LweSwitch.convert no) ++ List.replicate (2 ^ k - sk.length) 0) := by
    refine ⟨by simp; omega, fun x hx => ?_⟩
    rcases List.mem_append.1 hx with hx | hx
    · obtain ⟨v, _, rfl⟩ := List.mem_map.1 hx
      exact (hconv v).1
    · rw [(List.mem_replicate.1 hx).2]; exact E.q_pos
  have hdig : Rq.ofWords R.M.value (2 ^ k) (sk.map (LweSwitch.convert no) ++ List.replicate (2 ^ k - sk.length) 0) =
      digitRing R.M.value (2 ^ k) sk := by
    ext i
    show (((sk.map (LweSwitch.convert no) ++ List.replicate (2 ^ k - sk.length) 0).getD i 0 : Nat) : ZMod R.M.value) =
      (ternaryDigit (sk.getD i 0) : ZMod R.M.value)
    by_cases hi : i.val < sk.length
    · rw [List.getD_eq_getElem _ _ (by simp; omega), List.getElem_append_left (by simpa using hi), List.getElem_map,
        (hconv _).2, List.getD_eq_getElem _ _ hi]
    · rw [List.getD_append_right _ _ _ _ (by simpa using hi), List.getD_eq_default sk _ (by omega)]
      simp [ternaryDigit]
  obtain ⟨sn, esn, hsn⟩ := E.toNtt (rep_exists hs)
  rw [hdig] at hsn
  have hrl : 2 ^ k ≤ ring.length := by rw [hr.1]; exact Nat.le_mul_of_pos_left _ hcnt
  have hgl : gs.length = cnt := by rw [hl]; simp [chunkItems]
  have hg : ∀ g ∈ gs, g.length = B.decomposeLen ∧ ∀ y ∈ g, Reduced R.M.value (2 ^ k) y.2 := fun g h => by
    obtain ⟨hl, hm⟩ := mem_support_draws (hm g h)
    refine ⟨hl, fun y hy => ?_⟩
    obtain ⟨-, h2⟩ := mem_support_pair (hm y hy)
    obtain ⟨h3, h4⟩ := mem_support_draws h2
    exact ⟨h3, fun z hz => hχ z (h4 z hz)⟩
  show RlweSwitch.generate R bits sk ring ringNtt _ = _
  unfold RlweSwitch.generate
  simp only [nextPow2_eq hk h1 h2]
  rw [if_pos hrl, mbind hB, mbind eno, mbind (show Poly.toNtt R.w R.M R.tbl
    (sk.map (LweSwitch.convert no) ++ List.replicate (2 ^ k - sk.length) Fp.zero) = some sn from esn), mbind eb]
  unfold RlweSwitch.keyParts
  rw [List.zipWith_map_right]
  by_cases hC : 2 ^ k = ring.length
  · have hC1 : cnt = 1 := by
      rw [hr.1] at hC
      exact Nat.eq_of_mul_eq_mul_right hn (by omega)
    rw [if_pos hC]
    obtain ⟨v, ev, hv⟩ := E.toNtt (rep_exists (l := ring) (by rw [hC1, one_mul] at hr; exact hr))
    rw [hrn hC1] at ev
    cases ev
    obtain ⟨g, rfl⟩ : ∃ g, gs = [g] := List.length_eq_one_iff.1 (by omega)
    have e1 := element_switch_eq E hsn hbq hbc (B := B) ringNtt _ hv g (hg g (by simp)).1 (hg g (by simp)).2
    simp only [List.map_cons, List.getD_cons_zero]
    rw [mbind e1, hC1]
    simp [chunkItems]
  · rw [if_neg hC]
    obtain ⟨hcl, hcv⟩ := chunks_vals hn (vals_self (q := R.M.value) hr)
    rw [elements_switch_eq E hsn hbq hbc (B := B) _ 0 (RlweSwitch.chunks (2 ^ k) ring) gs (by rw [hgl, hcl]) (by
          intro z hz
          obtain ⟨c, hc, rfl⟩ := List.mem_iff_getElem.1 hz
          exact ⟨(hcv c hc).len, (hcv c hc).lt⟩) (fun c hc => by
            rw [hcl] at hc
            rw [zero_add, List.getD_eq_getElem _ _ (by simpa [hgl] using hc), List.getElem_map,
              List.getD_eq_getElem _ _ (by omega)]) hg]
    congr 1
    refine List.ext_getElem (by simp [hcl, hgl, chunkItems]) fun c hc _ => ?_
    have hcc : c < (RlweSwitch.chunks (2 ^ k) ring).length := by simp at hc; omega
    simp only [List.getElem_zipWith]
    congr 1
    simp only [chunkItems, List.getElem_map, List.getElem_range]
    ext i
    show coeff _ _ _ = coeff _ _ _
    refine ((hcv c hcc).val i.val i.isLt).trans ?_
    unfold coeff
    rw [getD_drop]

end Rlwe

section Lwe
variable {q : Nat} [NeZero q] {O : ModOps} (hO : IsModOps q O)
include hO

/-- The draws for a vector. -/
def lweDraw {q n : Nat} (x : (Fin n → ZMod q) × Nat) : List Nat × Nat := (List.ofFn fun i => (x.1 i).val, x.2)

/-- The sample made from a vector and an error word. -/
def lweValue {q n : Nat} (sk : List Nat) (x : (Fin n → ZMod q) × Nat) : Sample q n :=
  (x.1, ∑ i, x.1 i * keyVector q n sk i + (x.2 : ZMod q))

/-- A sample with a number added, as a ciphertext. -/
def shiftSample {q n : Nat} (c : ZMod q) (y : Sample q n) : LWE := ⟨List.ofFn fun l => (y.1 l).val, (y.2 + c).val⟩

theorem element_lwe_eq {n : Nat} {sk : List Nat} (hn : sk.length = n)
    (hdot : ∀ a : List Nat, a.length = sk.length → O.dot a sk = some (dot a sk % q))
    {z v : Nat} (hz : z < q) (hv : v < q) (x : (Fin n → ZMod q) × Nat) (hx : x.2 < q) :
    LweSwitch.element O sk z v (lweDraw x) = some (shiftSample ((v : ZMod q) * (z : ZMod q)) (lweValue sk x)) := by
  have hq : 0 < q := Nat.pos_of_ne_zero (NeZero.ne q)
  have ht : (lweDraw x).1.take sk.length = (lweDraw x).1 := List.take_of_length_le (by simp [lweDraw, hn])
  obtain ⟨b, eb, hb, cb⟩ := hO.add (dot (lweDraw x).1 sk % q) x.2 (Nat.mod_lt _ hq) hx
  obtain ⟨m, em, hm, cm⟩ := hO.mul v z hv hz
  obtain ⟨b', eb', hb', cb'⟩ := hO.add b m hb hm
  unfold LweSwitch.element LWE.zeroSample
  simp only [ht]
  rw [hdot _ (by simp [lweDraw, hn])]
  show (O.add (dot (lweDraw x).1 sk % q) x.2 >>= _) >>= _ = _
  simp only [Option.bind_eq_bind, Option.bind_some, Option.pure_def, eb, em, eb']
  unfold shiftSample
  congr 2
  rw [← ZMod.val_cast_of_lt hb', cb', cb, cm, ZMod.natCast_mod]
  congr 1
  rw [show (lweDraw x).1 = List.ofFn fun i => (x.1 i).val from rfl, dot_ofFn x.1 sk hn]
  rfl

theorem row_lwe_eq {n : Nat} {sk : List Nat} (hn : sk.length = n)
    (hdot : ∀ a : List Nat, a.length = sk.length → O.dot a sk = some (dot a sk % q))
    {z basis : Nat} (hz : z < q) (hb : basis ≤ q) (d : Nat → List Nat × Nat) (xs : List ((Fin n → ZMod q) × Nat))
    (hl : xs.length = basis - 1) (ho : ∀ x ∈ xs, x.2 < q)
    (hd : ∀ v (h : v < xs.length), d (v + 1) = lweDraw xs[v]) :
    LweSwitch.row O sk basis z d =
      some (xs.mapIdx fun v x => shiftSample (((v + 1 : Nat) : ZMod q) * (z : ZMod q)) (lweValue sk x)) := by
  obtain ⟨r, er, hr, hp⟩ := mapM_getElem (l := List.range (basis - 1))
    (f := fun v => LweSwitch.element O sk z (v + 1) (d (v + 1)))
    (P := fun v c => some c = (xs[v]?).map fun x => shiftSample (((v + 1 : Nat) : ZMod q) * (z : ZMod q)) (lweValue sk x)) (by
      intro v hv
      have hv' : v < basis - 1 := by simpa using hv
      simp only [List.getElem_range]
      rw [hd v (by omega), element_lwe_eq hO hn hdot hz (by omega) _ (ho _ (List.getElem_mem _))]
      exact ⟨_, rfl, by rw [List.getElem?_eq_getElem (by omega)]; rfl⟩)
  unfold LweSwitch.row
  rw [er]
  congr 1
  have hr' : r.length = basis - 1 := by simpa using hr
  refine List.ext_getElem (by simp; omega) fun v hv hv' => ?_
  have := hp v hv
  rw [List.getElem?_eq_getElem (by omega)] at this
  simpa using this

theorem level_lwe_eq {n : Nat} {sk : List Nat} (hn : sk.length = n)
    (hdot : ∀ a : List Nat, a.length = sk.length → O.dot a sk = some (dot a sk % q))
    {basis : Nat} (hb : basis ≤ q) (d : Nat → Nat → List Nat × Nat) :
    ∀ (zs : List Nat) (i0 : Nat) (xs : List (List ((Fin n → ZMod q) × Nat))), (∀ z ∈ zs, z < q) →
      xs.length = zs.length → (∀ r ∈ xs, r.length = basis - 1 ∧ ∀ x ∈ r, x.2 < q) →
      (∀ i (h : i < xs.length) v (h' : v < (xs[i]).length), d (i0 + i) (v + 1) = lweDraw (xs[i])[v]) →
      LweSwitch.level O sk basis d i0 zs = some (maskLevel (zs.map fun z : Nat => (z : ZMod q)) (xs.map (List.map (lweValue sk))))
  | [], i0, xs, _, hl, _, _ => by
    rw [List.eq_nil_of_length_eq_zero (l := xs) (by simpa using hl)]
    rfl
  | z :: zs, i0, [], _, hl, _, _ => by simp at hl
  | z :: zs, i0, x :: xs, hz, hl, ho, hd => by
    have e1 := row_lwe_eq hO hn hdot (hz z (by simp)) hb (d i0) x (ho x (by simp)).1 (ho x (by simp)).2
      (fun v hv => hd 0 (by simp) v hv)
    have ih := level_lwe_eq hn hdot hb d zs (i0 + 1) xs (fun y hy => hz y (by simp [hy])) (by simpa using hl)
      (fun y hy => ho y (by simp [hy])) (fun i hi v hv => by
        have := hd (i + 1) (by simpa using hi) v (by simpa using hv)
        rw [show i0 + 1 + i = i0 + (i + 1) by omega, this]
        rfl)
    unfold LweSwitch.level
    rw [mbind e1, mbind ih]
    unfold maskLevel
    simp only [List.map_cons, List.mapIdx_cons, List.getD_cons_zero, List.getD_cons_succ]
    show some _ = some _
    congr 2
    refine List.ext_getElem (by simp) fun v _ _ => ?_
    simp [shiftSample]

theorem levels_lwe_eq {n : Nat} {sk : List Nat} (hn : sk.length = n)
    (hdot : ∀ a : List Nat, a.length = sk.length → O.dot a sk = some (dot a sk % q))
    {basis : Nat} (d : Nat → Nat → Nat → List Nat × Nat) :
    ∀ (cnt j0 : Nat) (zs : List Nat) (xs : List (List (List ((Fin n → ZMod q) × Nat)))), (∀ z ∈ zs, z < q) →
      (basis < q ∨ basis ≤ q ∧ cnt ≤ 1) → xs.length = cnt →
      (∀ l ∈ xs, l.length = zs.length ∧ ∀ r ∈ l, r.length = basis - 1 ∧ ∀ x ∈ r, x.2 < q) →
      (∀ j (h : j < xs.length) i (h : i < (xs[j]).length) v (h' : v < (xs[j][i]).length),
        d (j0 + j) i (v + 1) = lweDraw (xs[j][i])[v]) →
      LweSwitch.levels O sk basis d cnt j0 zs =
        some (List.zipWith maskLevel
          ((List.range cnt).map fun j => zs.map fun z : Nat => (z : ZMod q) * (basis : ZMod q) ^ j)
          (xs.map (List.map (List.map (lweValue sk)))))
  | 0, j0, zs, xs, _, _, hl, _, _ => by
    rfl
  | cnt + 1, j0, zs, [], _, _, hl, _, _ => by simp at hl
  | cnt + 1, j0, zs, x :: xs, hz, hb, hl, ho, hd => by
    have e1 := level_lwe_eq hO hn hdot (by omega) (d j0) zs 0 x hz (ho x (by simp)).1 (ho x (by simp)).2
      (fun i hi v hv => by
        rw [Nat.zero_add]
        exact hd 0 (by simp) i hi v hv)
    cases cnt with
    | zero =>
      obtain rfl : xs = [] := List.eq_nil_of_length_eq_zero (by simpa using hl)
      rw [LweSwitch.levels, mbind e1]
      simp
    | succ cnt =>
      have hbq : basis < q := by omega
      obtain ⟨zs', ez, lz, hzs⟩ := mapM_spec (P := (· < q))
        (R := fun z z' => z' < q ∧ (z' : ZMod q) = z * basis)
        (f := fun v => O.mul v basis) (fun a ha => hO.mul a basis ha hbq) zs hz
      have hzs' : (zs'.map fun z : Nat => (z : ZMod q)) = zs.map fun z : Nat => (z : ZMod q) * basis := by
        refine List.ext_getElem (by simp [lz]) fun i h1 h2 => ?_
        have h1' : i < zs'.length := by simpa using h1
        have h2' : i < zs.length := by simpa using h2
        have := (hzs i (by omega)).2
        rw [List.getD_eq_getElem _ _ h1', List.getD_eq_getElem _ _ h2'] at this
        simpa using this
      have ih := levels_lwe_eq hn hdot d (cnt + 1) (j0 + 1) zs' xs
        (mem_of_getD rfl fun i hi => (hzs i (by omega)).1) (Or.inl hbq) (by simpa using hl)
        (fun y hy => by rw [lz]; exact ho y (by simp [hy])) (fun j hj i hi v hv => by
          have := hd (j + 1) (by simpa using hj) i (by simpa using hi) v (by simpa using hv)
          rw [show j0 + 1 + j = j0 + (j + 1) by omega, this]
          rfl)
      rw [LweSwitch.levels, mbind e1, mbind ez, mbind ih]
      rw [List.range_succ_eq_map (n := cnt + 1), List.map_cons, List.map_cons, List.zipWith_cons_cons, List.map_map]
      show some _ = some _
      congr 2
      · simp
      · congr 1
        refine List.map_congr_left fun j _ => ?_
        have := congrArg (List.map fun z => z * (basis : ZMod q) ^ j) hzs'
        simp only [List.map_map, Function.comp_def] at this ⊢
        rw [this]
        simp [pow_succ', mul_assoc]

end Lwe

/-! ## Laws -/

theorem pair_uniform_eq {q n : Nat} [NeZero q] (χ : PMF Nat) : pair (draws (uniformBelow q) n) χ =
    (pair (PMF.uniformOfFintype (Fin n → ZMod q)) χ).map lweDraw := by
  rw [← uniform_vector]
  conv_lhs => rw [← PMF.map_id χ, pair_map]
  rfl

theorem lweSample_eq {q n : Nat} [NeZero q] (χ : PMF Nat) (sk : List Nat) :
    lweSample q n (keyVector q n sk) (χ.map fun x : Nat => (x : ℤ)) =
      (pair (PMF.uniformOfFintype (Fin n → ZMod q)) χ).map (lweValue sk) := by
  unfold lweSample pair
  rw [PMF.map_bind]
  congr 1
  funext a
  rw [PMF.map_bind, PMF.map_comp, PMF.map]
  congr 1
  funext e
  rw [PMF.pure_map]
  simp [lweValue]

theorem uniform_maskLevel {q n : Nat} [NeZero q] (cnt N : Nat) (zs : List (ZMod q)) :
    (draws (draws (PMF.uniformOfFintype (Sample q n)) cnt) N).map (maskLevel zs) =
      (draws (draws (PMF.uniformOfFintype (Sample q n)) cnt) N).map (maskLevel []) := by
  have h0 := fun c : ZMod q => uniform_equiv ((Equiv.refl (Fin n → ZMod q)).prodCongr (Equiv.addRight c))
  have h1 := fun i => draws_mapIdx (PMF.uniformOfFintype (Sample q n)) cnt
    (fun v y => (y.1, y.2 + ((v + 1 : Nat) : ZMod q) * zs.getD i 0)) fun v _ => h0 _
  have h2 := draws_mapIdx (draws (PMF.uniformOfFintype (Sample q n)) cnt) N (fun i row => row.mapIdx fun v y =>
    (y.1, y.2 + ((v + 1 : Nat) : ZMod q) * zs.getD i 0)) fun i _ => h1 i
  conv_rhs => rw [← h2, PMF.map_comp]
  congr 1
  funext x
  simp [maskLevel, List.mapIdx_mapIdx, Function.comp_def]

theorem uniform_maskChunk {R : Ctx} {k : Nat} {t : Table} (E : Env R k t) [NeZero R.M.value] (B : Basis) (bits len : Nat)
    (m : Rq (ZMod R.M.value) (2 ^ k)) :
    (draws (uniformRing R.M.value (2 ^ k)) len).map (maskChunk R B bits m) =
      (draws (uniformRing R.M.value (2 ^ k)) len).map fun x => ⟨x.map (nttSample R), B⟩ := by
  have := E.nontrivial
  let v (j : Nat) : Rq (ZMod R.M.value) (2 ^ k) := m * Rq.const ((2 ^ (bits * j) : Nat) : ZMod R.M.value)
  have h1 := fun j : Nat => uniform_equiv ((Equiv.refl (Rq (ZMod R.M.value) (2 ^ k))).prodCongr (Equiv.addRight (v j)))
  conv_rhs => rw [← draws_mapIdx (uniformRing R.M.value (2 ^ k)) len (fun j y => (y.1, y.2 + v j)) fun i _ => h1 i,
    PMF.map_comp]
  congr 1
  funext x
  simp only [maskChunk, Function.comp_apply]
  congr 1
  refine List.ext_getElem (by simp) fun i _ _ => ?_
  simp [v]

theorem lwe_generates {w k bits : Nat} (hk : 0 < k) (hkw : k < w) {M : PowOf2} (hM : PowOf2.new (2 ^ k) = some M) {B : Basis}
    (hB : Basis.newWord w bits (2 ^ k) = some B) (n : Nat) (χ : PMF Nat) (hχ : ∀ x ∈ χ.support, x < 2 ^ k) {A : Type}
    (keys : PMF (List Nat × A)) (hkeys : ∀ x ∈ keys.support, x.1.length = n) (ring : List Nat) :
    Generates keys (draws (draws (pair (PMF.uniformOfFintype (Fin n → ZMod (2 ^ k))) χ) (2 ^ bits - 1)) ring.length)
      (List.map (List.map lweDraw)) (fun sk => List.map (List.map (lweValue sk))) maskLevel
      (fun sk l => (LweSwitch.generate w (2 ^ k) bits (PowOf2.ops w M) sk ring fun j i v =>
        ((l.getD j []).getD i []).getD (v - 1) (List.replicate n 0, 0)).map Prod.snd)
      (levelItems (2 ^ k) bits B.decomposeLen ring) := by
  intro x hx gs hl hm
  have hn := hkeys x hx
  obtain ⟨h1, h2, rfl⟩ := newWord_pow hkw hB
  have hq := Nat.two_pow_pos k
  have hq2 : 2 ≤ 2 ^ k := by
    calc 2 = 2 ^ 1 := rfl
      _ ≤ 2 ^ k := Nat.pow_le_pow_right (by omega) hk
  have hb : 2 ^ bits < 2 ^ k ∨ 2 ^ bits ≤ 2 ^ k ∧ (k + bits - 1) / bits ≤ 1 := by
    rcases Nat.lt_or_ge bits k with h | h
    · exact Or.inl (two_pow_lt h)
    · obtain rfl : bits = k := by omega
      refine Or.inr ⟨le_rfl, ?_⟩
      rw [Nat.div_le_iff_le_mul (by omega)]; omega
  have hgs : ∀ l ∈ gs, l.length = ring.length ∧ ∀ r ∈ l, r.length = 2 ^ bits - 1 ∧ ∀ x ∈ r, x.2 < 2 ^ k := by
    intro l h
    obtain ⟨e1, h⟩ := mem_support_draws (hm l h)
    refine ⟨e1, fun r hr => ?_⟩
    obtain ⟨e2, h⟩ := mem_support_draws (h r hr)
    exact ⟨e2, fun x hx => hχ _ (mem_support_pair (h x hx)).2⟩
  have key := levels_lwe_eq (powOf2_isModOps hkw hM) hn
    (fun a ha => by
      change PowOf2.dotProduct w M a x.1 = _
      rw [C10_powof2_dot w k hkw M hM, if_pos ha])
    (basis := 2 ^ bits)
    (fun j i v => (((gs.map (List.map (List.map lweDraw))).getD j []).getD i []).getD (v - 1) (List.replicate n 0, 0))
    ((k + bits - 1) / bits) 0 (ring.map (LweSwitch.convert (2 ^ k - 1))) gs
    (by
      intro z hz
      rw [List.mem_map] at hz
      obtain ⟨x, _, rfl⟩ := hz
      unfold LweSwitch.convert
      split
      · omega
      · split <;> omega) hb (by rw [hl]; simp [levelItems]) (by simpa using hgs) (fun j hj i hi v hv => by
        simp only [Nat.zero_add, Nat.add_sub_cancel]
        rw [List.getD_eq_getElem (gs.map _) _ (by simpa using hj), List.getElem_map, List.getD_eq_getElem (List.map _ _) _ (by simpa using hi),
          List.getElem_map, List.getD_eq_getElem (List.map _ _) _ (by simpa using hv), List.getElem_map])
  show Option.map _ (LweSwitch.generate _ _ _ _ _ _ _) = _
  unfold LweSwitch.generate
  rw [mbind hB, mbind (subC_eq hq), mbind key]
  show some _ = some _
  dsimp only
  congr 2
  unfold levelItems
  refine List.map_congr_left fun j _ => ?_
  rw [List.map_map]
  refine List.map_congr_left fun z _ => ?_
  rw [Function.comp_apply]
  push_cast
  rw [pow_mul]
  congr 1
  unfold LweSwitch.convert ternaryDigit
  by_cases hx0 : z = 0
  · simp [hx0]
  · by_cases hx1 : z = 1
    · simp [hx1]
    · rw [if_neg hx0, if_neg hx1, if_neg hx1, if_neg hx0, Nat.cast_sub hq]
      simp

end Verif

namespace Verif.Props
open Spec

section
variable {R : Ctx} {q k : Nat} [Fact q.Prime] [NeZero q] (hk : 0 < k) (F : TableField R.w q R.M R.tbl k) (bits : Nat)
  (B : Basis) (hB : Basis.new R.w q bits = some B) (χ : PMF Nat) (hχ : ∀ x ∈ χ.support, x < q) {A : Type}
  (keys : PMF (List Nat × A)) (hkeys : ∀ x ∈ keys.support, 2 ^ (k - 1) < x.1.length ∧ x.1.length ≤ 2 ^ k)
include hk F hB hχ hkeys

/-- C68: switching keys for RLWE ciphertexts. If an observer, who may know anything `A` drawn with the LWE key, tells a key
that switches from the ring key `ring` from one that switches from `ring'`, then one of two observers, which use no secret
other than these ring keys, tells samples of ring learning with errors from uniform ones, with at least half of the
advantage. The secret of the samples is the LWE key as a ring element. -/
theorem C68_rlwe_switching_key (cnt : Nat) (hcnt : 0 < cnt) (ring ringNtt ring' ringNtt' : List Nat)
    (hr : Reduced q (cnt * 2 ^ k) ring) (hr' : Reduced q (cnt * 2 ^ k) ring')
    (hrn : cnt = 1 → Poly.toNtt R.w R.M R.tbl ring = some ringNtt)
    (hrn' : cnt = 1 → Poly.toNtt R.w R.M R.tbl ring' = some ringNtt') (D : Set (A × Option (List NTTGadgetRLWE))) :
    let law := rlweSwitchLaw (draws (uniformBelow q) (2 ^ k)) χ (2 ^ k) B.decomposeLen cnt
    let rlwe := keyGame keys (fun sk => draws (rlweSample q (2 ^ k) (digitRing q (2 ^ k) sk) χ) B.decomposeLen) cnt
    let uniform := keyGame keys (fun _ => draws (uniformRing q (2 ^ k)) B.decomposeLen) cnt
    let replay := fun ring => replayItems (A := A) (maskChunk R B bits) (chunkItems q (2 ^ k) cnt ring)
    advantage (outcomeGame keys law fun sk => RlweSwitch.generate R bits sk ring ringNtt)
        (outcomeGame keys law fun sk => RlweSwitch.generate R bits sk ring' ringNtt') D ≤
      advantage rlwe uniform (replay ring ⁻¹' D) + advantage rlwe uniform (replay ring' ⁻¹' D) := by
  obtain ⟨t, rfl, E⟩ := F.env hk
  simp only [rlweSwitchLaw, outcomeGame_map, sampleLaw_eq E, rlweSample_eq, ← draws_map _ (ringDraw R), ← draws_map _ (ringValue R _)]
  exact outcome_advantage (rlwe_generates E hk F.even F.conf bits B hB χ hχ keys hkeys cnt hcnt ring ringNtt hr hrn)
    (rlwe_generates E hk F.even F.conf bits B hB χ hχ keys hkeys cnt hcnt ring' ringNtt' hr' hrn') (by simp [chunkItems])
    (by simp [chunkItems]) (fun m => uniform_maskChunk E B bits B.decomposeLen m) D

end

section
variable (w k bits : Nat) (hk : 0 < k) (hkw : k < w) (M : PowOf2) (hM : PowOf2.new (2 ^ k) = some M) (B : Basis)
  (hB : Basis.newWord w bits (2 ^ k) = some B) (n : Nat) (χ : PMF Nat) (hχ : ∀ x ∈ χ.support, x < 2 ^ k) {A : Type}
  (keys : PMF (List Nat × A)) (hkeys : ∀ x ∈ keys.support, x.1.length = n)
include hk hkw hM hB hχ hkeys

/-- C68: switching keys for LWE ciphertexts. -/
theorem C68_lwe_switching_key (ring ring' : List Nat) (hl : ring'.length = ring.length)
    (D : Set (A × Option (List (List (List LWE))))) :
    let law := lweSwitchLaw (draws (uniformBelow (2 ^ k)) n) χ n (2 ^ bits - 1) ring.length B.decomposeLen
    let gen := fun ring sk d => (LweSwitch.generate w (2 ^ k) bits (PowOf2.ops w M) sk ring d).map Prod.snd
    let samples := fun p : PMF (Sample (2 ^ k) n) => draws (draws p (2 ^ bits - 1)) ring.length
    let lwe := keyGame keys (fun sk => samples
      (lweSample (2 ^ k) n (keyVector (2 ^ k) n sk) (χ.map fun x : Nat => (x : ℤ)))) B.decomposeLen
    let uniform := keyGame keys (fun _ => samples (PMF.uniformOfFintype _)) B.decomposeLen
    let replay := fun ring => replayItems (A := A) maskLevel (levelItems (2 ^ k) bits B.decomposeLen ring)
    advantage (outcomeGame keys law (gen ring)) (outcomeGame keys law (gen ring')) D ≤
      advantage lwe uniform (replay ring ⁻¹' D) + advantage lwe uniform (replay ring' ⁻¹' D) := by
  have e : ∀ {α β : Type} (p : PMF α) (f : α → β) (c N : Nat), draws (draws (p.map f) c) N =
      (draws (draws p c) N).map (List.map (List.map f)) := fun p f c N => by rw [← draws_map, ← draws_map]
  simp only [lweSwitchLaw, outcomeGame_map, pair_uniform_eq, lweSample_eq, e]
  have h := lwe_generates hk hkw hM hB n χ hχ keys hkeys ring'
  rw [hl] at h
  exact outcome_advantage (lwe_generates hk hkw hM hB n χ hχ keys hkeys ring) h (by simp [levelItems])
    (by simp [levelItems]) (fun zs => uniform_maskLevel _ _ zs) D

end
end Verif.Props
