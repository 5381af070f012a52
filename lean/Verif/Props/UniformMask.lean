import Verif.SpecMask
import Verif.Props.KeySwitchRLWE
import Verif.Props.Rounding
import Verif.Props.NoiseSwitch

/-! # C66: the mask of a switched ciphertext is uniform -/

namespace Verif.Props
open Fp Finset Spec Ntt

section Structure
variable {R : Ctx}

theorem nttZeroSample_a {sn a e : List Nat} {x : NTTRLWE} (h : NTTRLWE.zeroSample R sn a e = some x) :
    x.a = a := by
  unfold NTTRLWE.zeroSample at h
  split at h
  · obtain ⟨ve, _, h⟩ := Option.bind_eq_some_iff.1 h
    obtain ⟨vb, _, h⟩ := Option.bind_eq_some_iff.1 h
    cases h; rfl
  · cases h

theorem samples_mask {sn : List Nat} {basis : Nat} : ∀ {cnt : Nat} {z : List Nat} {ds : List Draw}
    {out : List NTTRLWE}, RlweSwitch.samples R sn basis cnt z ds = some out →
    ∀ j (h : j < out.length), out[j].a = (ds.getD j ([], [])).1
  | 0, z, ds, out, h => by
    unfold RlweSwitch.samples at h; cases h; simp
  | cnt + 1, z, [], out, h => by
    unfold RlweSwitch.samples at h; cases h
  | 1, z, (a, e) :: ds, out, h => by
    unfold RlweSwitch.samples at h
    obtain ⟨x, hx, h⟩ := Option.bind_eq_some_iff.1 h
    obtain ⟨b, _, h⟩ := Option.bind_eq_some_iff.1 h
    cases h
    intro j hj
    obtain rfl : j = 0 := by simpa using hj
    simpa using nttZeroSample_a hx
  | cnt + 2, z, (a, e) :: ds, out, h => by
    unfold RlweSwitch.samples at h
    obtain ⟨x, hx, h⟩ := Option.bind_eq_some_iff.1 h
    obtain ⟨b, _, h⟩ := Option.bind_eq_some_iff.1 h
    obtain ⟨z', _, h⟩ := Option.bind_eq_some_iff.1 h
    obtain ⟨xs, hxs, h⟩ := Option.bind_eq_some_iff.1 h
    cases h
    intro j hj
    cases j with
    | zero => simpa using nttZeroSample_a hx
    | succ j => exact samples_mask hxs j (by simpa using hj)

theorem element_mask {B : Basis} {sn : List Nat} {basis : Nat} {z : List Nat} {ds : List Draw}
    {g : NTTGadgetRLWE} (h : RlweSwitch.element R B sn basis z ds = some g) :
    ∀ j (h : j < g.data.length), g.data[j].a = (ds.getD j ([], [])).1 := by
  unfold RlweSwitch.element at h
  obtain ⟨data, hd, h⟩ := Option.bind_eq_some_iff.1 h
  split at h
  · cases h; exact samples_mask hd
  · cases h

theorem elements_mask {B : Basis} {sn : List Nat} {basis : Nat} {d : Nat → List Draw} :
    ∀ {zs : List (List Nat)} {c0 : Nat} {gs : List NTTGadgetRLWE},
    RlweSwitch.elements R B sn basis d c0 zs = some gs →
    ∀ c (hc : c < gs.length) j (h : j < gs[c].data.length),
      gs[c].data[j].a = ((d (c0 + c)).getD j ([], [])).1
  | [], c0, gs, h => by
    unfold RlweSwitch.elements at h; cases h; intro c hc; simp at hc
  | z :: zs, c0, gs, h => by
    unfold RlweSwitch.elements at h
    obtain ⟨v, _, h⟩ := Option.bind_eq_some_iff.1 h
    obtain ⟨g, hg, h⟩ := Option.bind_eq_some_iff.1 h
    obtain ⟨gs', hgs, h⟩ := Option.bind_eq_some_iff.1 h
    cases h
    intro c hc j hj
    cases c with
    | zero => exact element_mask hg j hj
    | succ c =>
      have := elements_mask hgs c (by simpa using hc) j (by simpa using hj)
      rw [show c0 + 1 + c = c0 + (c + 1) by omega] at this
      exact this

/-- The masks of the key elements are the drawn masks. -/
theorem generate_mask {bits : Nat} {sk ring ringNtt : List Nat} {d : Nat → List Draw}
    {key : List NTTGadgetRLWE} (h : RlweSwitch.generate R bits sk ring ringNtt d = some key) :
    ∀ c (hc : c < key.length) j (h : j < key[c].data.length),
      key[c].data[j].a = ((d c).getD j ([], [])).1 := by
  unfold RlweSwitch.generate at h
  dsimp only at h
  split at h
  · obtain ⟨B, _, h⟩ := Option.bind_eq_some_iff.1 h
    obtain ⟨no, _, h⟩ := Option.bind_eq_some_iff.1 h
    obtain ⟨sn, _, h⟩ := Option.bind_eq_some_iff.1 h
    obtain ⟨bs, _, h⟩ := Option.bind_eq_some_iff.1 h
    unfold RlweSwitch.keyParts at h
    split at h
    · obtain ⟨g, hg, h⟩ := Option.bind_eq_some_iff.1 h
      cases h
      intro c hc j hj
      obtain rfl : c = 0 := by simpa using hc
      exact element_mask hg j hj
    · intro c hc j hj
      have := elements_mask h c hc j hj
      rwa [zero_add] at this
  · cases h

end Structure

section Formula
variable {R : Ctx} {k : Nat} {t : Table} (E : Env R k t)
include E

theorem NttRep.unique {l : List Nat} {p r : Rq (ZMod R.M.value) (2 ^ k)}
    (h : NttRep R k t R.M.value l p) (h' : NttRep R k t R.M.value l r) : p = r := by
  obtain ⟨v, ev, hv⟩ := E.ofNtt h.lazy
  obtain ⟨v', ev', hv'⟩ := E.ofNtt h'.lazy
  rw [ev] at ev'
  cases ev'
  exact Rep.unique hv hv'

/-- The words of the key with a single 1 at position `i`. -/
def unitWords (dim i : Nat) : List Nat := (List.range dim).map fun j => if j = i then 1 else 0

omit E in
theorem unitWords_getD {dim i j : Nat} (hj : j < dim) :
    (unitWords dim i).getD j 0 = if j = i then 1 else 0 := by
  rw [List.getD_eq_getElem _ _ (by simpa [unitWords] using hj)]
  simp [unitWords]

/-- The mask of the switched ciphertext. -/
theorem switch_mask [Fact R.M.value.Prime] (F : TableField R.w R.M.value R.M R.tbl k) (bits : Nat) (B : Basis)
    (hB : Basis.new R.w R.M.value bits = some B) (dim : Nat) (h1 : 2 ^ (k - 1) < dim) (h2 : dim ≤ 2 ^ k)
    (s : Rq (ZMod R.M.value) (2 ^ k)) (z : List Nat) (e : Nat → Nat → Rq (ZMod R.M.value) (2 ^ k))
    (key : List NTTGadgetRLWE) (hkey : RlweSwitchKey R R.M.value (2 ^ k) bits s z e key)
    (hz : 0 < z.length) (x : RLWE) (ha : Reduced R.M.value z.length x.a) (hb : Reduced R.M.value z.length x.b)
    (A : Nat → Nat → Rq (ZMod R.M.value) (2 ^ k))
    (hA : ∀ c (hc : c < key.length) j (hj : j < key[c].data.length),
      NttRep R k t R.M.value key[c].data[j].a (A c j)) :
    ∃ out, RlweSwitch.keySwitchRlwe R dim key x = some out ∧ LWEReduced R.M.value dim out ∧
      ∀ i < dim, (out.a.getD i 0 : ZMod R.M.value) =
        letI := E.nontrivial
        ((∑ c ∈ range key.length, ∑ j ∈ range B.decomposeLen,
          switchDigit R.M.value (2 ^ k) z.length bits x.a c j * A c j) *
          Rq.ofWords R.M.value (2 ^ k) (unitWords dim i)).co ⟨0, Nat.two_pow_pos k⟩ := by
  have := E.nontrivial
  have h2q := E.C.two_le
  -- the bodies
  have hG : ∀ c, ∃ GB : Nat → Rq (ZMod R.M.value) (2 ^ k), ∀ (hc : c < key.length) j
      (hj : j < key[c].data.length), NRep R k t R.M.value key[c].data[j] (A c j) (GB j) := by
    intro c
    by_cases hc : c < key.length
    · obtain ⟨GA, GB, hG⟩ := NTTGadgetRLWE.Encrypts.rep E (hkey.elem c hc)
      refine ⟨GB, fun hc j hj => ?_⟩
      have := (hG j hj).1
      rw [List.getD_eq_getElem _ _ hj] at this
      exact ⟨hA c hc j hj, this.b⟩
    · exact ⟨fun _ => 0, fun h => absurd h hc⟩
  choose GB hG using hG
  -- the key as a key for any words
  have hany : ∀ sk : List Nat, RlweSwitchKey R R.M.value (2 ^ k) bits (Rq.ofWords R.M.value (2 ^ k) sk) z
      (fun c j => rlwePhase (Rq.ofWords R.M.value (2 ^ k) sk) (A c j) (GB c j) -
        Rq.ofWords R.M.value (2 ^ k) (z.drop (c * 2 ^ k)) *
          Rq.const ((2 ^ (bits * j) : Nat) : ZMod R.M.value)) key := by
    intro sk
    refine ⟨hkey.len, fun c hc => ⟨(hkey.elem c hc).basis, (hkey.elem c hc).len, fun j hj => ?_⟩⟩
    refine (nttHasPhase_iff E (Or.inl rfl)).2 ⟨A c j, GB c j, hG c hc j hj, ?_⟩
    abel
  have hred : ∀ i, Reduced R.M.value dim (unitWords dim i) := fun i =>
    ⟨by simp [unitWords], fun v hv => by
      obtain ⟨j, _, rfl⟩ := List.mem_map.1 hv
      split <;> omega⟩
  obtain ⟨out, eo, ho, hp⟩ := C40_key_switch_rlwe E.pos F bits B hB dim h1 h2 (unitWords dim dim) (hred _) z _
    key (hany _) hz x ha hb
  refine ⟨out, eo, ho, fun i hi => ?_⟩
  obtain ⟨out', eo', -, hp'⟩ := C40_key_switch_rlwe E.pos F bits B hB dim h1 h2 (unitWords dim i) (hred _) z _
    key (hany _) hz x ha hb
  rw [eo] at eo'
  cases eo'
  rw [lwePhase_eq ho.1.1 (hred _).1] at hp hp'
  have e1 : ∑ j ∈ range dim, coeff R.M.value out.a j * coeff R.M.value (unitWords dim dim) j = 0 :=
    sum_eq_zero fun j hj => by
      unfold coeff
      rw [unitWords_getD (mem_range.1 hj), if_neg (by have := mem_range.1 hj; omega)]; simp
  have e2 : ∑ j ∈ range dim, coeff R.M.value out.a j * coeff R.M.value (unitWords dim i) j =
      (out.a.getD i 0 : ZMod R.M.value) := by
    rw [sum_eq_single_of_mem i (mem_range.2 hi)]
    · unfold coeff; rw [unitWords_getD hi, if_pos rfl]; simp
    · intro j hj hne
      unfold coeff
      rw [unitWords_getD (mem_range.1 hj), if_neg hne]; simp
  have e3 : Rq.ofWords R.M.value (2 ^ k) (unitWords dim dim) = 0 := by
    ext j
    show (((unitWords dim dim).getD j.val 0 : Nat) : ZMod R.M.value) = 0
    by_cases hj : j.val < dim
    · rw [unitWords_getD hj, if_neg (by omega)]; simp
    · rw [List.getD_eq_default _ _ (by rw [(hred dim).1]; omega)]; simp
  rw [e1, sub_zero] at hp
  rw [e2, hp] at hp'
  have herr : ∀ f : Nat → Nat → Rq (ZMod R.M.value) (2 ^ k),
      rlweSwitchError R.M.value (2 ^ k) bits B.decomposeLen f (extractWords R.M.value z.length x.a) key.length =
        (∑ c ∈ range key.length, ∑ j ∈ range B.decomposeLen,
          switchDigit R.M.value (2 ^ k) z.length bits x.a c j * f c j).co ⟨0, Nat.two_pow_pos k⟩ := by
    intro f
    unfold rlweSwitchError gadgetError
    rw [sum_co]
    rfl
  rw [herr, herr, e3] at hp'
  have e4 : ∀ u v w : ZMod R.M.value, ∀ y, u + v - y = u + w → y = v - w := fun u v w y h => by
    linear_combination -h
  rw [e4 _ _ _ _ hp', ← Rq.sub_co, ← sum_sub_distrib, sum_mul]
  refine congrArg (fun p : Rq (ZMod R.M.value) (2 ^ k) => p.co ⟨0, Nat.two_pow_pos k⟩)
    (sum_congr rfl fun c _ => ?_)
  rw [← sum_sub_distrib, sum_mul]
  refine sum_congr rfl fun j _ => ?_
  unfold rlwePhase
  ring

end Formula

section Shift
open scoped ENNReal

/-- Entrywise sum modulo `q`. -/
def addW (q : Nat) (a d : List Nat) : List Nat := a.mapIdx fun i v => (v + d.getD i 0) % q

theorem addW_length (q : Nat) (a d : List Nat) : (addW q a d).length = a.length := by simp [addW]

theorem addW_getD {q : Nat} {a d : List Nat} {i : Nat} (hi : i < a.length) :
    (addW q a d).getD i 0 = (a.getD i 0 + d.getD i 0) % q := by
  rw [List.getD_eq_getElem _ _ (by rw [addW_length]; exact hi), List.getD_eq_getElem _ _ hi]
  simp [addW]

theorem uniform_shift {q : Nat} [NeZero q] (d : List Nat) (n : Nat) (f : List Nat → ℝ≥0∞) :
    (mean (draws (uniformBelow q) n) fun a => f (addW q a d)) = mean (draws (uniformBelow q) n) f :=
  mean_draws_mapIdx _ n _ (fun i _ => uniformBelow_cast _ (fun z : ZMod q => z + ((d.getD i 0 : Nat) : ZMod q))
    (add_left_injective _) (fun x _ => Nat.mod_lt _ (Nat.pos_of_ne_zero (NeZero.ne q)))
    (fun x _ => by rw [ZMod.natCast_mod]; push_cast; rfl)) f

/-- Shift the masks of the draws by `δ`. -/
def shiftDraws (q : Nat) (δ : Nat → Nat → List Nat) (l : List (List Draw)) : List (List Draw) :=
  l.mapIdx fun c ds => ds.mapIdx fun j x => (addW q x.1 (δ c j), x.2)

theorem shiftDraws_mean {q : Nat} [NeZero q] (χ : PMF Nat) (n m len cnt : Nat) (δ : Nat → Nat → List Nat)
    (f : List (List Draw) → ℝ≥0∞) :
    (mean (draws (draws (sampleLaw (draws (uniformBelow q) n) χ m) len) cnt) fun l => f (shiftDraws q δ l)) =
      mean (draws (draws (sampleLaw (draws (uniformBelow q) n) χ m) len) cnt) f := by
  refine mean_draws_mapIdx _ cnt _ (fun c _ => pmf_ext_mean fun F => ?_) f
  rw [mean_map]
  refine mean_draws_mapIdx _ len _ (fun j _ => pmf_ext_mean fun F => ?_) F
  rw [mean_map]
  unfold sampleLaw
  rw [mean_pair, mean_pair]
  exact uniform_shift (δ c j) n fun a => mean (draws χ m) fun e => F (a, e)

theorem shiftDraws_mask {q : Nat} {δ : Nat → Nat → List Nat} {l : List (List Draw)} {c j : Nat} (hc : c < l.length)
    (z z' : List Draw) (hj : j < (l.getD c z).length) :
    (((shiftDraws q δ l).getD c z').getD j ([], [])).1 = addW q (((l.getD c z).getD j ([], [])).1) (δ c j) := by
  rw [List.getD_eq_getElem _ _ hc] at hj ⊢
  rw [List.getD_eq_getElem (n := c) _ _ (by simpa [shiftDraws] using hc),
    List.getD_eq_getElem (n := j) _ _ (by simpa [shiftDraws] using hj), List.getD_eq_getElem _ _ hj]
  simp [shiftDraws]

end Shift

section Cofactors
variable {R : Ctx} {k : Nat} {t : Table} (E : Env R k t)
include E

omit E in
theorem evalAt_sum {q n : Nat} [NeZero n] [Nontrivial (ZMod q)] (x : ZMod q) (p : Nat → Rq (ZMod q) n) : ∀ m : Nat,
    (∑ c ∈ range m, p c).evalAt (RingHom.id _) x = ∑ c ∈ range m, (p c).evalAt (RingHom.id _) x
  | 0 => by simp [Rq.evalAt_zero]
  | m + 1 => by rw [sum_range_succ, sum_range_succ, Rq.evalAt_add, evalAt_sum x p m]

omit E in
/-- The transform words of a ring element. -/
theorem exists_words [NeZero R.M.value] (p : Rq (ZMod R.M.value) (2 ^ k)) :
    ∃ l, NttRep R k t R.M.value l p := by
  refine ⟨(List.range (2 ^ k)).map fun i => (p.evalAt (RingHom.id _) (pt R k t i)).val,
    Vals.of_getD (by simp) fun i hi => ?_⟩
  rw [List.getD_eq_getElem _ _ (by simpa using hi)]
  simp only [List.getElem_map, List.getElem_range]
  exact ⟨ZMod.val_lt _, ZMod.natCast_zmod_val _⟩

theorem exists_cofactors [Fact R.M.value.Prime] (p : Nat → Nat → Rq (ZMod R.M.value) (2 ^ k)) (cnt len : Nat)
    (h : NoCommonRoot p cnt len) :
    letI := E.nontrivial
    ∃ g : Nat → Nat → Rq (ZMod R.M.value) (2 ^ k), ∑ c ∈ range cnt, ∑ j ∈ range len, p c j * g c j = 1 := by
  have := E.nontrivial
  have hq0 := E.q_pos
  have : NeZero R.M.value := ⟨by omega⟩
  choose ci hci ji hji hne using fun i => h (pt R k t i) (E.pt_pow i)
  obtain ⟨V, hV⟩ : ∃ V : Nat → Nat → Nat → ZMod R.M.value, ∀ c j i, V c j i =
      if c = ci i ∧ j = ji i then ((p c j).evalAt (RingHom.id _) (pt R k t i))⁻¹ else 0 := ⟨_, fun _ _ _ => rfl⟩
  have hw : ∀ c j, ∃ g, NttRep R k t R.M.value ((List.range (2 ^ k)).map fun i => (V c j i).val) g := fun c j =>
    E.exists_ntt' ⟨by simp, fun x hx => by
      obtain ⟨i, _, rfl⟩ := List.mem_map.1 hx
      exact ZMod.val_lt _⟩
  choose g hg using hw
  refine ⟨g, ?_⟩
  obtain ⟨l, hl⟩ := exists_words (t := t) (1 : Rq (ZMod R.M.value) (2 ^ k))
  refine NttRep.unique E ?_ hl
  refine hl.congr fun i hi => ?_
  rw [Rq.evalAt_one, evalAt_sum]
  simp only [evalAt_sum, Rq.evalAt_mul _ (E.pt_pow i)]
  have he : ∀ c j, (g c j).evalAt (RingHom.id _) (pt R k t i) = V c j i := fun c j => by
    have := (hg c j).val i hi
    rw [← this, List.getD_eq_getElem _ _ (by simpa using hi)]
    simp only [List.getElem_map, List.getElem_range]
    exact ZMod.natCast_zmod_val _
  simp only [he, hV]
  rw [sum_eq_single_of_mem (ci i) (mem_range.2 (hci i)), sum_eq_single_of_mem (ji i) (mem_range.2 (hji i))]
  · rw [if_pos ⟨rfl, rfl⟩]
    exact (mul_inv_cancel₀ (hne i)).symm
  · intro j _ hj
    rw [if_neg (fun h => hj h.2), mul_zero]
  · intro c _ hc
    exact sum_eq_zero fun j _ => by rw [if_neg (fun h => hc h.1), mul_zero]

end Cofactors

section Law
variable {R : Ctx} {q : Nat} [Fact q.Prime] {k : Nat}

/-- C66: if the masks of an RLWE key switching key are uniform and independent, then the mask of the switched
ciphertext is uniform, whatever the errors of the key, provided that the digits of the switched ciphertext have no
common root. -/
theorem C66_uniform_mask (hk : 0 < k) (F : TableField R.w q R.M R.tbl k) [NeZero q] (bits : Nat) (B : Basis)
    (hB : Basis.new R.w q bits = some B) (sk : List Nat) (h1 : 2 ^ (k - 1) < sk.length)
    (h2 : sk.length ≤ 2 ^ k) (cnt : Nat) (hcnt : 0 < cnt) (ring ringNtt : List Nat)
    (hr : Reduced q (cnt * 2 ^ k) ring)
    (hrn : cnt = 1 → Poly.toNtt R.w R.M R.tbl ring = some ringNtt) (χ : PMF Nat) (hχ : ∀ e ∈ χ.support, e < q)
    (x : RLWE) (ha : Reduced q (cnt * 2 ^ k) x.a) (hb : Reduced q (cnt * 2 ^ k) x.b)
    (hx : NoCommonRoot (switchDigit q (2 ^ k) (cnt * 2 ^ k) bits x.a) cnt B.decomposeLen) :
    (rlweSwitchLaw (draws (uniformBelow q) (2 ^ k)) χ (2 ^ k) B.decomposeLen cnt).map (fun d =>
      (RlweSwitch.generate R bits sk ring ringNtt d).bind fun key =>
        (RlweSwitch.keySwitchRlwe R sk.length key x).map fun y => y.a) =
    (draws (uniformBelow q) sk.length).map some := by
  obtain ⟨t, rfl, E⟩ := F.env hk
  have := E.nontrivial
  have hq := E.q_pos
  obtain ⟨sk', hsk, hcast⟩ : ∃ sk', Reduced R.M.value sk.length sk' ∧
      sk'.map (fun v : Nat => (v : ZMod R.M.value)) = sk.map fun v => (ternaryDigit v : ZMod R.M.value) := by
    refine ⟨sk.map fun v => (ternaryDigit v : ZMod R.M.value).val, ⟨by simp, fun v hv => ?_⟩, ?_⟩
    · obtain ⟨i, _, rfl⟩ := List.mem_map.1 hv
      exact ZMod.val_lt _
    · rw [List.map_map]
      exact List.map_congr_left fun v _ => ZMod.natCast_zmod_val _
  obtain ⟨dflt, hdflt⟩ : ∃ z : List Draw, z =
    List.replicate B.decomposeLen (List.replicate (2 ^ k) 0, List.replicate (2 ^ k) 0) := ⟨_, rfl⟩
  obtain ⟨Out, hOut⟩ : ∃ Out : List (List Draw) → Option (List Nat), ∀ l, Out l =
    (RlweSwitch.generate R bits sk ring ringNtt fun c => l.getD c dflt).bind fun key =>
        (RlweSwitch.keySwitchRlwe R sk.length key x).map fun y => y.a := ⟨_, fun _ => rfl⟩
  obtain ⟨D, hD⟩ : ∃ D, D = draws (draws (sampleLaw (draws (uniformBelow R.M.value) (2 ^ k)) χ (2 ^ k))
    B.decomposeLen) cnt := ⟨_, rfl⟩
  -- draws in the support
  have hok : ∀ l : List (List Draw), l.length = cnt → (∀ ds ∈ l, ds.length = B.decomposeLen ∧
      DrawsOk R.M.value (2 ^ k) ds) → ∀ A : Nat → Nat → Rq (ZMod R.M.value) (2 ^ k),
      (∀ c < cnt, ∀ j < B.decomposeLen, NttRep R k t R.M.value (((l.getD c dflt).getD j ([], [])).1) (A c j)) →
      ∃ o, Out l = some o ∧ Reduced R.M.value sk.length o ∧ ∀ i < sk.length, (o.getD i 0 : ZMod R.M.value) =
        ((∑ c ∈ range cnt, ∑ j ∈ range B.decomposeLen,
          switchDigit R.M.value (2 ^ k) (cnt * 2 ^ k) bits x.a c j * A c j) *
          Rq.ofWords R.M.value (2 ^ k) (unitWords sk.length i)).co ⟨0, Nat.two_pow_pos k⟩ := by
    intro l hl hds A hA
    have hz : Reduced R.M.value (2 ^ k) (List.replicate (2 ^ k) 0) :=
      ⟨List.length_replicate, fun x hx => by rw [List.eq_of_mem_replicate hx]; exact hq⟩
    have hall : ∀ c, B.decomposeLen ≤ (l.getD c dflt).length ∧ DrawsOk R.M.value (2 ^ k) (l.getD c dflt) :=
      getD_of_all (p := fun d : List Draw => B.decomposeLen ≤ d.length ∧ DrawsOk R.M.value (2 ^ k) d)
        (fun d hd => ⟨(hds d hd).1.ge, (hds d hd).2⟩)
        ⟨by simp [hdflt], fun d hd => by rw [hdflt] at hd; rw [List.eq_of_mem_replicate hd]; exact ⟨hz, hz⟩⟩
    obtain ⟨key, ek, hkey⟩ := C40_generate hk F bits B hB sk h1 h2 sk' hsk hcast cnt hcnt ring ringNtt hr hrn
      (fun c => l.getD c dflt) (fun c => (hall c).1) (fun c => (hall c).2)
    have hkl : key.length = cnt := Nat.eq_of_mul_eq_mul_right (Nat.two_pow_pos k) (hkey.len.trans hr.1)
    rw [← hr.1] at ha hb ⊢
    obtain ⟨y, ey, hy, hm⟩ := switch_mask E F bits B hB sk.length h1 h2 _ ring _ key hkey
      (by rw [hr.1]; exact Nat.mul_pos hcnt (Nat.two_pow_pos k)) x ha hb A (fun c hc j hj => by
        rw [generate_mask ek c hc j hj]
        refine hA c (by omega) j ?_
        have e1 := (hkey.elem c hc).len
        have e2 : key[c].basis = B := Option.some_inj.1 ((hkey.elem c hc).basis.symm.trans hB)
        rw [e2] at e1
        omega)
    rw [hkl] at hm
    exact ⟨y.a, by rw [hOut, ek, Option.bind_some, ey]; rfl, hy.1, hm⟩
  have hsup : ∀ l ∈ D.support, l.length = cnt ∧ ∀ ds ∈ l, ds.length = B.decomposeLen ∧
      DrawsOk R.M.value (2 ^ k) ds := by
    intro l hl
    rw [hD] at hl
    obtain ⟨e1, e2⟩ := mem_support_draws hl
    refine ⟨e1, fun ds hds => ?_⟩
    obtain ⟨e3, e4⟩ := mem_support_draws (e2 ds hds)
    refine ⟨e3, fun d hd => ?_⟩
    obtain ⟨e5, e6⟩ := mem_support_pair (e4 d hd)
    obtain ⟨e7, e8⟩ := mem_support_draws e5
    obtain ⟨e9, e10⟩ := mem_support_draws e6
    exact ⟨⟨e7, fun v hv => mem_support_uniformBelow (e8 v hv)⟩, ⟨e9, fun v hv => hχ v (e10 v hv)⟩⟩
  have hel : ∀ l ∈ D.support, ∃ A : Nat → Nat → Rq (ZMod R.M.value) (2 ^ k), ∀ c < cnt, ∀ j < B.decomposeLen,
      NttRep R k t R.M.value (((l.getD c dflt).getD j ([], [])).1) (A c j) := by
    intro l hl
    obtain ⟨e1, e2⟩ := hsup l hl
    have : ∀ c j, ∃ a : Rq (ZMod R.M.value) (2 ^ k), c < cnt → j < B.decomposeLen →
        NttRep R k t R.M.value (((l.getD c dflt).getD j ([], [])).1) a := by
      intro c j
      by_cases h : c < cnt ∧ j < B.decomposeLen
      · have hc : c < l.length := by omega
        obtain ⟨e3, e4⟩ := e2 _ (List.getElem_mem hc)
        have hj : j < l[c].length := by omega
        obtain ⟨a, hA⟩ := E.exists_ntt' (e4 _ (List.getElem_mem hj)).1
        refine ⟨a, fun _ _ => ?_⟩
        rwa [List.getD_eq_getElem _ _ hc, List.getD_eq_getElem _ _ hj]
      · exact ⟨0, fun h1 h2 => absurd ⟨h1, h2⟩ h⟩
    choose A hA using this
    exact ⟨A, fun c hc j hj => hA c j hc hj⟩
  -- translations
  obtain ⟨g, hg⟩ := exists_cofactors E _ _ _ hx
  have htr : ∀ W : List Nat, Reduced R.M.value sk.length W → ∃ δ : Nat → Nat → List Nat, ∀ l ∈ D.support,
      ∃ o, Out l = some o ∧ o.length = sk.length ∧ Out (shiftDraws R.M.value δ l) = some (addW R.M.value W o) := by
    intro W hW
    obtain ⟨h, hh⟩ : ∃ h : Rq (ZMod R.M.value) (2 ^ k), h = ⟨fun i => if i.val = 0 then (W.getD 0 0 : Nat) else
      -((W.getD (2 ^ k - i.val) 0 : Nat) : ZMod R.M.value)⟩ := ⟨_, rfl⟩
    have hcoef : ∀ i < sk.length, (h * Rq.ofWords R.M.value (2 ^ k) (unitWords sk.length i)).co
        ⟨0, Nat.two_pow_pos k⟩ = (W.getD i 0 : Nat) := by
      intro i hi
      rw [Rq.mul_co_zero, sum_eq_single_of_mem i (mem_range.2 (by omega))]
      · rw [ofWords_seq _ _ _ (by omega), coeff, unitWords_getD hi, if_pos rfl, Nat.cast_one, mul_one]
        split
        · rw [Rq.seq_lt _ (Nat.two_pow_pos k), hh]; simp [*]
        · rw [Rq.seq_lt _ (by omega), hh]
          simp only
          rw [if_neg (by omega), neg_neg]
          congr 3; omega
      · intro j hj hne
        rw [ofWords_seq _ _ _ (mem_range.1 hj), coeff]
        by_cases hj' : j < sk.length
        · rw [unitWords_getD hj', if_neg hne]; simp
        · rw [List.getD_eq_default _ _ (by simp [unitWords]; omega)]; simp
    choose δ hδ using fun c j => exists_words (t := t) (h * g c j)
    refine ⟨δ, fun l hl => ?_⟩
    obtain ⟨e1, e2⟩ := hsup l hl
    obtain ⟨A, hA⟩ := hel l hl
    obtain ⟨o, eo, ho, hm⟩ := hok l e1 e2 A hA
    obtain ⟨o', eo', ho', hm'⟩ := hok (shiftDraws R.M.value δ l) (by simp [shiftDraws, e1]) (by
      intro ds hds
      obtain ⟨c, hc, rfl⟩ := List.mem_iff_getElem.1 hds
      simp only [shiftDraws, List.getElem_mapIdx, List.length_mapIdx] at hc ⊢
      obtain ⟨e3, e4⟩ := e2 _ (List.getElem_mem hc)
      refine ⟨e3, fun d hd => ?_⟩
      obtain ⟨j, hj, rfl⟩ := List.mem_iff_getElem.1 hd
      simp only [List.getElem_mapIdx, List.length_mapIdx] at hj ⊢
      obtain ⟨e5, e6⟩ := e4 _ (List.getElem_mem hj)
      refine ⟨⟨by rw [addW_length]; exact e5.1, fun v hv => ?_⟩, e6⟩
      obtain ⟨i, hi, rfl⟩ := List.mem_iff_getElem.1 hv
      simp only [addW, List.getElem_mapIdx]
      exact Nat.mod_lt _ hq) (fun c j => A c j + h * g c j) (by
      intro c hc j hj
      have hc' : c < l.length := by omega
      have hj' : j < (l.getD c dflt).length := by
        rw [List.getD_eq_getElem _ _ hc', (e2 _ (List.getElem_mem hc')).1]; exact hj
      rw [shiftDraws_mask hc' dflt dflt hj']
      have := hA c hc j hj
      refine Vals.of_getD (by rw [addW_length]; exact this.len) fun i hi => ?_
      rw [addW_getD (by rw [this.len]; exact hi)]
      refine ⟨Nat.mod_lt _ hq, ?_⟩
      rw [ZMod.natCast_mod, Nat.cast_add, Rq.evalAt_add, this.val i hi, (hδ c j).val i hi])
    refine ⟨o, eo, ho.1, ?_⟩
    rw [eo']
    congr 1
    refine list_ext_of_cast ho'.1 (by rw [addW_length]; exact hW.1)
      (fun i hi => ho'.2 _ (getD_mem _ (by rw [ho'.1]; exact hi)))
      (fun i hi => by rw [addW_getD (by rw [hW.1]; exact hi)]; exact Nat.mod_lt _ hq) fun i hi => ?_
    rw [addW_getD (by rw [hW.1]; exact hi), ZMod.natCast_mod, Nat.cast_add, hm' i hi, hm i hi, ← hcoef i hi,
      ← Rq.add_co, ← add_mul]
    refine congrArg (fun p : Rq (ZMod R.M.value) (2 ^ k) => (p * _).co ⟨0, Nat.two_pow_pos k⟩) ?_
    have : ∑ c ∈ range cnt, ∑ j ∈ range B.decomposeLen,
        switchDigit R.M.value (2 ^ k) (cnt * 2 ^ k) bits x.a c j * (A c j + h * g c j) = h *
        (∑ c ∈ range cnt, ∑ j ∈ range B.decomposeLen,
          switchDigit R.M.value (2 ^ k) (cnt * 2 ^ k) bits x.a c j * g c j) +
        ∑ c ∈ range cnt, ∑ j ∈ range B.decomposeLen,
          switchDigit R.M.value (2 ^ k) (cnt * 2 ^ k) bits x.a c j * A c j := by
      rw [mul_sum, ← sum_add_distrib]
      refine sum_congr rfl fun c _ => ?_
      rw [mul_sum, ← sum_add_distrib]
      exact sum_congr rfl fun j _ => by ring
    rw [this, hg, mul_one]
  refine pmf_ext_mean fun f => ?_
  have e0 : mean ((rlweSwitchLaw (draws (uniformBelow R.M.value) (2 ^ k)) χ (2 ^ k) B.decomposeLen cnt).map (fun d =>
      (RlweSwitch.generate R bits sk ring ringNtt d).bind fun key =>
        (RlweSwitch.keySwitchRlwe R sk.length key x).map fun y => y.a)) f = mean D fun l => f (Out l) := by
    unfold rlweSwitchLaw
    rw [mean_map, mean_map, ← hdflt, ← hD]
    simp only [hOut]
  rw [e0, mean_map]
  calc (mean D fun l => f (Out l))
      = mean (draws (uniformBelow R.M.value) sk.length) fun _ => mean D fun l => f (Out l) := (mean_const _ _).symm
    _ = mean (draws (uniformBelow R.M.value) sk.length) fun W => mean D fun l =>
          f (some (addW R.M.value W ((Out l).getD []))) := mean_congr fun W hW => by
        obtain ⟨e1, e2⟩ := mem_support_draws hW
        obtain ⟨δ, hδ⟩ := htr W ⟨e1, fun v hv => mem_support_uniformBelow (e2 v hv)⟩
        rw [hD, ← shiftDraws_mean χ (2 ^ k) (2 ^ k) B.decomposeLen cnt δ (fun l => f (Out l)), ← hD]
        refine mean_congr fun l hl => ?_
        obtain ⟨o, eo, _, e⟩ := hδ l hl
        rw [e, eo]; rfl
    _ = mean D fun l => mean (draws (uniformBelow R.M.value) sk.length) fun W =>
          f (some (addW R.M.value W ((Out l).getD []))) := mean_comm _ _ _
    _ = mean D fun _ => mean (draws (uniformBelow R.M.value) sk.length) fun W => f (some W) := by
        refine mean_congr fun l _ => ?_
        exact uniform_shift ((Out l).getD []) sk.length fun W => f (some W)
    _ = _ := mean_const _ _

end Law

-- a condition that is easy to check: one of the digits is a constant other than zero
theorem noCommonRoot_of_const {q n : Nat} [Fact q.Prime] {p : Nat → Nat → Rq (ZMod q) n} {cnt len c j : Nat}
    (hc : c < cnt) (hj : j < len) {i : Nat} (hi : i < n) (h : (p c j).seq i ≠ 0)
    (h0 : ∀ i' < n, i' ≠ i → (p c j).seq i' = 0) (hn : 0 < n) : NoCommonRoot p cnt len := by
  intro r hr
  refine ⟨c, hc, j, hj, ?_⟩
  rw [sum_eq_single i (fun i' hi' hne => by rw [h0 i' (mem_range.1 hi') hne, zero_mul])
    fun hi' => absurd (mem_range.2 hi) hi']
  refine mul_ne_zero h (pow_ne_zero _ ?_)
  rintro rfl
  rw [zero_pow (by omega)] at hr
  exact neg_ne_zero.2 one_ne_zero hr.symm

-- q = 17, n = 4, two chunks; the masks are uniform although the errors are not random at all
example : (rlweSwitchLaw (draws (uniformBelow 17) 4) (PMF.pure 3) 4 2 2).map (fun d =>
      (RlweSwitch.generate ⟨8, barrett17, tbl17⟩ 4 [1, 0, 9] [1, 16, 0, 1, 1, 0, 16, 0] [] d).bind fun key =>
        (RlweSwitch.keySwitchRlwe ⟨8, barrett17, tbl17⟩ 3 key
          ⟨[3, 5, 0, 16, 7, 8, 9, 1], [4, 2, 8, 11, 0, 1, 2, 3]⟩).map fun y => y.a) =
    (draws (uniformBelow 17) 3).map some := by
  have : Fact (Nat.Prime 17) := ⟨by decide⟩
  have hx : NoCommonRoot (switchDigit 17 4 8 4 [3, 5, 0, 16, 7, 8, 9, 1]) 2 2 := by
    unfold NoCommonRoot
    decide +kernel
  exact C66_uniform_mask (R := ⟨8, barrett17, tbl17⟩) (q := 17) (k := 2)
    (by omega) tbl17_field 4 ⟨16, 2, 15, 4⟩ (by decide +kernel) [1, 0, 9] (by decide) (by decide) 2 (by omega)
    [1, 16, 0, 1, 1, 0, 16, 0] [] ⟨rfl, by decide⟩ (by omega) (PMF.pure 3)
    (fun e he => by rw [PMF.mem_support_pure_iff] at he; omega) _ ⟨rfl, by decide⟩ ⟨rfl, by decide⟩ hx

-- without the condition it is false: the digits of a mask of zeros are zero, and so is the mask of the result
example : ¬ NoCommonRoot (switchDigit 17 4 8 4 [0, 0, 0, 0, 0, 0, 0, 0]) 2 2 := by
  unfold NoCommonRoot
  decide +kernel

end Verif.Props
