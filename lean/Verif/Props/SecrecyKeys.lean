import Verif.SpecSecrecyKeys
import Verif.Props.Secrecy
import Verif.Props.UniformMask

/-!
# C68: evaluation keys hide the keys they contain as well as ring learning with errors is hard

Concrete cases that meet the hypotheses are in `Props/SecrecyDefaults.lean`.
-/

namespace Verif
open Spec Props
open scoped ENNReal

section Words
variable {R : Ctx} {k : Nat} {t : Table} (E : Env R k t) [NeZero R.M.value]
include E

theorem nttWords_rep (p : Rq (ZMod R.M.value) (2 ^ k)) : NttRep R k t R.M.value (nttWords R p) p := by
  have hr : Rep R.M.value (2 ^ k) (List.ofFn fun i => (p.co i).val) p := by
    refine Vals.of_getD (by simp) fun i hi => ?_
    rw [List.getD_eq_getElem _ _ (by simpa using hi), List.getElem_ofFn, Rq.seq_lt _ hi]
    exact ⟨ZMod.val_lt _, ZMod.natCast_zmod_val _⟩
  obtain ⟨v, ev, hv⟩ := E.toNtt hr
  unfold nttWords
  rw [ev]
  exact hv

omit E [NeZero R.M.value] in
theorem NttRep.words_eq {l m : List Nat} {p : Rq (ZMod R.M.value) (2 ^ k)} (h : NttRep R k t R.M.value l p)
    (h' : NttRep R k t R.M.value m p) : l = m := Vals.ext h h'

theorem NttRep.eq_words {l : List Nat} {p : Rq (ZMod R.M.value) (2 ^ k)} (h : NttRep R k t R.M.value l p) :
    l = nttWords R p := h.words_eq (nttWords_rep E p)

/-- The transform of a uniform ring element consists of independent uniform words. -/
theorem uniform_nttWords :
    (PMF.uniformOfFintype (Rq (ZMod R.M.value) (2 ^ k))).map (nttWords R) =
      draws (uniformBelow R.M.value) (2 ^ k) := by
  let φ : Rq (ZMod R.M.value) (2 ^ k) → (Fin (2 ^ k) → ZMod R.M.value) := fun p i => ((nttWords R p).getD i 0 : Nat)
  have hφ : Function.Injective φ := by
    intro p r h
    have h1 := nttWords_rep E p
    have h2 := nttWords_rep E r
    refine NttRep.unique E h1 ?_
    have : nttWords R p = nttWords R r := by
      refine list_ext_of_cast h1.len h2.len (fun _ hi => h1.getD_lt hi) (fun _ hi => h2.getD_lt hi) fun i hi => ?_
      exact congrFun h ⟨i, hi⟩
    rw [this]
    exact h2
  have hb : Function.Bijective φ := by
    refine (Fintype.bijective_iff_injective_and_card φ).2 ⟨hφ, ?_⟩
    exact Fintype.card_congr (Rq.equivFun _ _)
  rw [← uniform_vector, ← uniform_equiv (Equiv.ofBijective φ hb), PMF.map_comp]
  congr 1
  funext p
  have h1 := nttWords_rep E p
  refine list_ext_of_cast (n := 2 ^ k) (q := R.M.value) h1.len (by simp) (fun _ hi => h1.getD_lt hi) (fun i hi => ?_) (fun i hi => ?_)
  · simp only [Function.comp_apply]
    rw [List.getD_eq_getElem _ _ (by simpa using hi), List.getElem_ofFn]
    exact ZMod.val_lt _
  · simp only [Function.comp_apply]
    rw [List.getD_eq_getElem (List.ofFn _) _ (by simpa using hi), List.getElem_ofFn, ZMod.natCast_zmod_val]
    rfl

/-- The rows of the generated keys. -/
theorem nttSamples_eq {s : Rq (ZMod R.M.value) (2 ^ k)} {sn : List Nat} (hs : NttRep R k t R.M.value sn s)
    (p : Rq (ZMod R.M.value) (2 ^ k)) {e : List Nat} (he : Reduced R.M.value (2 ^ k) e) {v : Nat} (hv : v < R.M.value) :
    letI := E.nontrivial
    NTTRLWE.zeroSample R sn (nttWords R p) e = some (nttSample R (p, p * s + Rq.ofWords R.M.value (2 ^ k) e)) ∧
    NTTRLWE.valueSample R sn v (nttWords R p) e =
      some (nttSample R (p, p * s + Rq.ofWords R.M.value (2 ^ k) e + Rq.const (v : ZMod R.M.value))) ∧
    NTTGadgetRLWE.negSecretElement R sn v (nttWords R p) e =
      some (nttSample R (p + Rq.const (v : ZMod R.M.value), p * s + Rq.ofWords R.M.value (2 ^ k) e)) := by
  have := E.nontrivial
  have hp := nttWords_rep E p
  have RE := rep_exists he
  have hlen : (nttWords R p).length = sn.length ∧ e.length = sn.length := by
    rw [hp.len, he.1, hs.len]; exact ⟨rfl, rfl⟩
  obtain ⟨ve, ee, hve⟩ := E.toNtt RE
  obtain ⟨vb, evb, hvb⟩ := hve.addMul E hp hs
  have eZ' : NTTRLWE.zeroSample R sn (nttWords R p) e = some ⟨nttWords R p, vb⟩ := by
    unfold NTTRLWE.zeroSample
    rw [if_pos hlen, mbind ee, mbind evb]; rfl
  refine ⟨?_, ?_, ?_⟩
  · rw [eZ', hvb.eq_words E, add_comm]; rfl
  · obtain ⟨e', eh, he'⟩ := RE.addHead E hv
    obtain ⟨ve', ee', hve'⟩ := E.toNtt he'
    obtain ⟨vb', evb', hvb'⟩ := hve'.addMul E hp hs
    unfold NTTRLWE.valueSample
    rw [if_pos hlen, mbind eh, mbind ee', mbind evb', hvb'.eq_words E, add_assoc (p * s), add_comm (p * s)]; rfl
  · obtain ⟨a', ea', ha'⟩ := hp.addConst E hv
    unfold NTTGadgetRLWE.negSecretElement
    rw [mbind eZ', mbind ea', hvb.eq_words E, ha'.eq_words E, add_comm (Rq.ofWords _ _ e)]; rfl

/-- A draw for the ring element `p`. -/
def ringDraw (R : Ctx) {k : Nat} (x : Rq (ZMod R.M.value) (2 ^ k) × List Nat) : Draw := (nttWords R x.1, x.2)

/-- The sample made from `p` and the error words. -/
def ringValue (R : Ctx) {k : Nat} (s : Rq (ZMod R.M.value) (2 ^ k)) (x : Rq (ZMod R.M.value) (2 ^ k) × List Nat) :
    RingSample R.M.value (2 ^ k) := (x.1, x.1 * s + Rq.ofWords R.M.value (2 ^ k) x.2)

omit E [NeZero R.M.value] in
theorem mapM_some {α β : Type} {f : α → Option β} {g : α → β} : ∀ {l : List α}, (∀ x ∈ l, f x = some (g x)) →
    l.mapM f = some (l.map g)
  | [], _ => rfl
  | x :: l, h => by
    rw [List.mapM_cons, h x (by simp), mapM_some fun y hy => h y (by simp [hy])]
    rfl

omit E [NeZero R.M.value] in
theorem generateLoop_eq {α : Type} {sample : Nat → List Nat → List Nat → Option NTTRLWE} {bits q : Nat}
    {ι : α → Draw} {f : Nat → α → NTTRLWE} {ok : α → Prop} (hq : q < 2 ^ R.w)
    (hf : ∀ v x, v < q → ok x → sample v (ι x).1 (ι x).2 = some (f v x)) :
    ∀ (cnt j0 : Nat) (xs : List α), xs.length = cnt + 1 → (∀ x ∈ xs, ok x) → 2 ^ (bits * (j0 + cnt)) < q →
      NTTGadgetRLWE.generateLoop R sample (2 ^ bits) cnt (2 ^ (bits * j0)) (xs.map ι) =
        some (xs.mapIdx fun j x => f (2 ^ (bits * (j0 + j))) x)
  | _, _, [], h, _, _ => by simp at h
  | 0, j0, x :: xs, hl, hd, hlt => by
    have : xs = [] := List.eq_nil_of_length_eq_zero (by simpa using hl)
    subst this
    rw [List.map_cons]
    unfold NTTGadgetRLWE.generateLoop
    rw [mbind (hf (2 ^ (bits * j0)) x (by simpa using hlt) (hd _ List.mem_cons_self))]
    rfl
  | cnt + 1, j0, x :: xs, hl, hd, hlt => by
    have hmono : ∀ i, i ≤ cnt + 1 → 2 ^ (bits * (j0 + i)) < q := fun i hi =>
      lt_of_le_of_lt (Nat.pow_le_pow_right (by omega) (Nat.mul_le_mul_left _ (by omega))) hlt
    have hm : mulC R.w (2 ^ (bits * j0)) (2 ^ bits) = some (2 ^ (bits * (j0 + 1))) := by
      rw [Nat.mul_succ, pow_add]
      exact mulC_eq (by
        have := hmono 1 (by omega)
        rw [Nat.mul_succ, pow_add] at this
        omega)
    have ih := generateLoop_eq hq hf cnt (j0 + 1) xs (by simpa using hl)
      (fun d h => hd d (List.mem_cons_of_mem _ h)) (by
        rw [show j0 + 1 + cnt = j0 + (cnt + 1) by omega]; exact hlt)
    rw [List.map_cons]
    unfold NTTGadgetRLWE.generateLoop
    rw [mbind (hf (2 ^ (bits * j0)) x (by simpa using hmono 0 (by omega)) (hd _ List.mem_cons_self)), mbind hm, mbind ih,
      List.mapIdx_cons]
    simp only [Nat.add_zero, show ∀ j, j0 + 1 + j = j0 + (j + 1) by omega]
    rfl

/-- The draws of one RGSW ciphertext are fit for use. -/
def GroupOk (R : Ctx) {k : Nat} (len : Nat) (x : List (Rq (ZMod R.M.value) (2 ^ k) × List Nat) ×
    List (Rq (ZMod R.M.value) (2 ^ k) × List Nat)) : Prop :=
  (x.1.length = len ∧ ∀ y ∈ x.1, Reduced R.M.value (2 ^ k) y.2) ∧
  (x.2.length = len ∧ ∀ y ∈ x.2, Reduced R.M.value (2 ^ k) y.2)

theorem samples_eq {bits : Nat} {B : Basis} (hB : Basis.new R.w R.M.value bits = some B)
    {s : Rq (ZMod R.M.value) (2 ^ k)} {sn : List Nat} (hs : NttRep R k t R.M.value sn s)
    (x : List (Rq (ZMod R.M.value) (2 ^ k) × List Nat) × List (Rq (ZMod R.M.value) (2 ^ k) × List Nat))
    (hx : GroupOk R B.decomposeLen x) :
    NTTRGSW.zeroSample R sn B (x.1.map (ringDraw R)) (x.2.map (ringDraw R)) =
      some (maskDigit R B bits false (x.1.map (ringValue R s), x.2.map (ringValue R s))) ∧
    NTTRGSW.oneSample R sn B (x.1.map (ringDraw R)) (x.2.map (ringDraw R)) =
      some (maskDigit R B bits true (x.1.map (ringValue R s), x.2.map (ringValue R s))) := by
  have := E.nontrivial
  have h4 := E.C.four_mul_lt
  have h2 := E.C.two_le
  have hqw : R.M.value < 2 ^ R.w := by omega
  obtain ⟨_, _, _, _, _, hbasis, _⟩ := new_basis hqw hB
  obtain ⟨_, hl1, hlt⟩ := len_bounds hqw h2 hB
  have hsub : subC B.decomposeLen 1 = some (B.decomposeLen - 1) := subC_eq hl1
  obtain ⟨⟨l0, o0⟩, l1, o1⟩ := hx
  constructor
  · have key : ∀ xs : List (Rq (ZMod R.M.value) (2 ^ k) × List Nat), xs.length = B.decomposeLen →
        (∀ y ∈ xs, Reduced R.M.value (2 ^ k) y.2) → NTTGadgetRLWE.zeroSample R sn B (xs.map (ringDraw R)) =
          some ⟨xs.map fun x => nttSample R (ringValue R s x), B⟩ := by
      intro xs hl ho
      have hm : (xs.map (ringDraw R)).mapM (fun d => NTTRLWE.zeroSample R sn d.1 d.2) =
          some (xs.map fun x => nttSample R (ringValue R s x)) := by
        rw [List.mapM_map]
        exact mapM_some fun x hx => (nttSamples_eq E hs x.1 (ho x hx) E.q_pos).1
      unfold NTTGadgetRLWE.zeroSample
      rw [if_pos (by simp [hl]), List.take_of_length_le (by simp [hl]), mbind hm]
      rfl
    unfold NTTRGSW.zeroSample
    rw [mbind (key x.1 l0 o0), mbind (key x.2 l1 o1)]
    have hc : ∀ p : Rq (ZMod R.M.value) (2 ^ k), p + Rq.const ((0 : Nat) : ZMod R.M.value) = p := fun p => by
      rw [Nat.cast_zero, Rq.const_zero, add_zero]
    rw [Nat.cast_zero] at hc
    simp only [maskDigit, Bool.false_eq_true, if_false, hc]
    congr 3
    · exact List.ext_getElem (by simp) fun i _ _ => by simp
    · exact List.ext_getElem (by simp) fun i _ _ => by simp
  · have e1 := generateLoop_eq (R := R) (bits := bits) (ι := ringDraw R)
      (ok := fun x : Rq (ZMod R.M.value) (2 ^ k) × List Nat => Reduced R.M.value (2 ^ k) x.2) hqw
      (fun v x hv hx => (nttSamples_eq E hs x.1 hx hv).2.2) (B.decomposeLen - 1) 0 x.1 (by omega) o0
      (by simpa using hlt)
    have e2 := generateLoop_eq (R := R) (bits := bits) (ι := ringDraw R)
      (ok := fun x : Rq (ZMod R.M.value) (2 ^ k) × List Nat => Reduced R.M.value (2 ^ k) x.2) hqw
      (fun v x hv hx => (nttSamples_eq E hs x.1 hx hv).2.1) (B.decomposeLen - 1) 0 x.2 (by omega) o1
      (by simpa using hlt)
    have e1' : ∀ d, NTTGadgetRLWE.generateLoop R (NTTGadgetRLWE.negSecretElement R sn) (2 ^ bits) (B.decomposeLen - 1)
        (2 ^ (bits * 0)) (List.map (ringDraw R) x.1) = some d →
        NTTGadgetRLWE.negSecretSample R sn B (x.1.map (ringDraw R)) = some ⟨d, B⟩ := fun d e1 => by
      unfold NTTGadgetRLWE.negSecretSample
      rw [mbind hsub, hbasis]
      simp only [Nat.mul_zero, pow_zero] at e1
      rw [show Fp.one = 1 from rfl, mbind e1]
      rfl
    have e2' : ∀ d, NTTGadgetRLWE.generateLoop R (NTTRLWE.valueSample R sn) (2 ^ bits) (B.decomposeLen - 1)
        (2 ^ (bits * 0)) (List.map (ringDraw R) x.2) = some d →
        NTTGadgetRLWE.oneSample R sn B (x.2.map (ringDraw R)) = some ⟨d, B⟩ := fun d e2 => by
      unfold NTTGadgetRLWE.oneSample
      rw [mbind hsub, hbasis]
      simp only [Nat.mul_zero, pow_zero] at e2
      rw [show Fp.one = 1 from rfl, mbind e2]
      rfl
    unfold NTTRGSW.oneSample
    rw [mbind (e1' _ e1), mbind (e2' _ e2)]
    simp only [maskDigit, if_true, Nat.zero_add]
    congr 3
    · exact List.ext_getElem (by simp) fun i _ _ => by simp [ringValue]
    · exact List.ext_getElem (by simp) fun i _ _ => by simp [ringValue]

/-- The key element of one bit, from the draws for ring elements. -/
theorem binaryKey_eq {bits : Nat} {B : Basis} (hB : Basis.new R.w R.M.value bits = some B)
    {s : Rq (ZMod R.M.value) (2 ^ k)} {sn : List Nat} (hs : NttRep R k t R.M.value sn s) (m : Nat)
    (x : List (Rq (ZMod R.M.value) (2 ^ k) × List Nat) × List (Rq (ZMod R.M.value) (2 ^ k) × List Nat))
    (hx : GroupOk R B.decomposeLen x) :
    BlindRotation.binaryKey R sn B m (x.1.map (ringDraw R), x.2.map (ringDraw R)) =
      some (maskDigit R B bits (m != 0) (x.1.map (ringValue R s), x.2.map (ringValue R s))) := by
  have h := samples_eq E hB hs x hx
  unfold BlindRotation.binaryKey
  by_cases hm : m = 0
  · rw [if_pos hm, h.1, hm]; rfl
  · rw [if_neg hm, h.2, show (m != 0) = true by simp [hm]]

/-- The key element of one ternary digit, from the draws for ring elements. -/
theorem ternaryKey_eq {bits : Nat} {B : Basis} (hB : Basis.new R.w R.M.value bits = some B)
    {s : Rq (ZMod R.M.value) (2 ^ k)} {sn : List Nat} (hs : NttRep R k t R.M.value sn s) (m : Nat)
    (x y : List (Rq (ZMod R.M.value) (2 ^ k) × List Nat) × List (Rq (ZMod R.M.value) (2 ^ k) × List Nat))
    (hx : GroupOk R B.decomposeLen x) (hy : GroupOk R B.decomposeLen y) :
    BlindRotation.ternaryKey R sn B m
        ((x.1.map (ringDraw R), x.2.map (ringDraw R)), (y.1.map (ringDraw R), y.2.map (ringDraw R))) =
      some (maskTernary R B bits m ((x.1.map (ringValue R s), x.2.map (ringValue R s)),
        (y.1.map (ringValue R s), y.2.map (ringValue R s)))) := by
  have h := samples_eq E hB hs x hx
  have h' := samples_eq E hB hs y hy
  unfold BlindRotation.ternaryKey maskTernary
  by_cases hm : m = 1
  · subst hm
    rw [if_pos rfl, mbind h.2, mbind h'.1]; rfl
  · rw [if_neg hm]
    by_cases h0 : m = 0
    · subst h0
      rw [if_pos rfl, mbind h.1, mbind h'.1]; rfl
    · rw [if_neg h0, mbind h.1, mbind h'.2, show (m == 1) = false by simp [hm],
        show (m != 0 && m != 1) = true by simp [hm, h0]]
      rfl

omit E [NeZero R.M.value] in
theorem binaryGenerate_eq {α : Type} {sn : List Nat} {B : Basis} {ι : α → BlindRotation.RgswDraw}
    {f : Nat → α → NTTRGSW} {ok : α → Prop} (h : ∀ m x, ok x → BlindRotation.binaryKey R sn B m (ι x) = some (f m x)) :
    ∀ (ss : List Nat) (xs : List α), xs.length = ss.length → (∀ x ∈ xs, ok x) →
      BlindRotation.binaryGenerate R sn B ss (xs.map ι) = some (List.zipWith f ss xs)
  | [], xs, hl, _ => by simp [BlindRotation.binaryGenerate]
  | m :: ss, [], hl, _ => by simp at hl
  | m :: ss, x :: xs, hl, ho => by
    rw [List.map_cons]
    unfold BlindRotation.binaryGenerate
    rw [mbind (h m x (ho x (by simp))), mbind (binaryGenerate_eq h ss xs (by simpa using hl) fun y hy => ho y (by simp [hy]))]
    rfl

omit E [NeZero R.M.value] in
theorem ternaryGenerate_eq {α : Type} {sn : List Nat} {B : Basis}
    {ι : α → BlindRotation.RgswDraw × BlindRotation.RgswDraw}
    {f : Nat → α → NTTRGSW × NTTRGSW} {ok : α → Prop}
    (h : ∀ m x, ok x → BlindRotation.ternaryKey R sn B m (ι x) = some (f m x)) :
    ∀ (ss : List Nat) (xs : List α), xs.length = ss.length → (∀ x ∈ xs, ok x) →
      BlindRotation.ternaryGenerate R sn B ss (xs.map ι) = some (List.zipWith f ss xs)
  | [], xs, hl, _ => by simp [BlindRotation.ternaryGenerate]
  | m :: ss, [], hl, _ => by simp at hl
  | m :: ss, x :: xs, hl, ho => by
    rw [List.map_cons]
    unfold BlindRotation.ternaryGenerate
    rw [mbind (h m x (ho x (by simp))), mbind (ternaryGenerate_eq h ss xs (by simpa using hl) fun y hy => ho y (by simp [hy]))]
    rfl

/-! ## Laws -/

omit E [NeZero R.M.value] in
theorem pair_map {α β γ δ : Type} (p : PMF α) (r : PMF β) (f : α → γ) (g : β → δ) :
    pair (p.map f) (r.map g) = (pair p r).map (Prod.map f g) := by
  unfold pair
  rw [PMF.bind_map, PMF.map_bind]
  congr 1
  funext x
  show ((r.map g).bind fun y => PMF.pure (f x, y)) = _
  rw [PMF.bind_map, PMF.map_bind]
  congr 1
  funext y
  rw [PMF.pure_map]
  rfl

omit E [NeZero R.M.value] in
theorem draws_mapIdx {α : Type} (p : PMF α) (k : Nat) (f : Nat → α → α) (h : ∀ i < k, p.map (f i) = p) :
    (draws p k).map (List.mapIdx f) = draws p k :=
  pmf_ext_mean fun F => by rw [mean_map]; exact mean_draws_mapIdx p k f h F

/-- The draws of one sample, for ring elements. -/
noncomputable def ringLaw (q n : Nat) [NeZero q] (χ : PMF Nat) : PMF (Rq (ZMod q) n × List Nat) :=
  pair (PMF.uniformOfFintype (Rq (ZMod q) n)) (draws χ n)

/-- The draws of one RGSW ciphertext, for ring elements. -/
noncomputable def groupLaw (q n : Nat) [NeZero q] (χ : PMF Nat) (len : Nat) :
    PMF (List (Rq (ZMod q) n × List Nat) × List (Rq (ZMod q) n × List Nat)) :=
  pair (draws (ringLaw q n χ) len) (draws (ringLaw q n χ) len)

theorem sampleLaw_eq (χ : PMF Nat) : sampleLaw (draws (uniformBelow R.M.value) (2 ^ k)) χ (2 ^ k) =
    (ringLaw R.M.value (2 ^ k) χ).map (ringDraw R) := by
  unfold sampleLaw ringLaw
  rw [← uniform_nttWords E]
  conv_lhs => rw [← PMF.map_id (draws χ (2 ^ k)), pair_map]
  rfl

theorem rgswLaw_eq (χ : PMF Nat) (len : Nat) : rgswLaw (draws (uniformBelow R.M.value) (2 ^ k)) χ (2 ^ k) len =
    (groupLaw R.M.value (2 ^ k) χ len).map (Prod.map (List.map (ringDraw R)) (List.map (ringDraw R))) := by
  unfold rgswLaw groupLaw
  rw [sampleLaw_eq E, ← draws_map, pair_map]

omit E in
theorem rlweSample_eq (χ : PMF Nat) (s : Rq (ZMod R.M.value) (2 ^ k)) :
    rlweSample R.M.value (2 ^ k) s χ = (ringLaw R.M.value (2 ^ k) χ).map (ringValue R s) := by
  unfold rlweSample ringLaw pair
  rw [PMF.map_bind]
  congr 1
  funext a
  rw [PMF.map_bind, PMF.map]
  congr 1
  funext e
  rw [PMF.pure_map]
  rfl

omit E in
theorem rgswSamples_eq (χ : PMF Nat) (s : Rq (ZMod R.M.value) (2 ^ k)) (len : Nat) :
    rgswSamples (rlweSample R.M.value (2 ^ k) s χ) len =
      (groupLaw R.M.value (2 ^ k) χ len).map (Prod.map (List.map (ringValue R s)) (List.map (ringValue R s))) := by
  unfold rgswSamples groupLaw
  rw [rlweSample_eq, ← draws_map, pair_map]

omit E in
theorem groupOk_of_mem {χ : PMF Nat} (hχ : ∀ x ∈ χ.support, x < R.M.value) {len : Nat}
    {x : List (Rq (ZMod R.M.value) (2 ^ k) × List Nat) × List (Rq (ZMod R.M.value) (2 ^ k) × List Nat)}
    (hx : x ∈ (groupLaw R.M.value (2 ^ k) χ len).support) : GroupOk R len x := by
  unfold groupLaw at hx
  obtain ⟨h0, h1⟩ := mem_support_pair hx
  have key : ∀ l, l ∈ (draws (ringLaw R.M.value (2 ^ k) χ) len).support →
      l.length = len ∧ ∀ y ∈ l, Reduced R.M.value (2 ^ k) y.2 := fun l hl => by
    obtain ⟨hl, hm⟩ := mem_support_draws hl
    refine ⟨hl, fun y hy => ?_⟩
    obtain ⟨-, h2⟩ := mem_support_pair (hm y hy)
    obtain ⟨h3, h4⟩ := mem_support_draws h2
    exact ⟨h3, fun z hz => hχ z (h4 z hz)⟩
  exact ⟨key _ h0, key _ h1⟩

/-- Adding multiples of the powers to uniform samples gives uniform samples. -/
theorem uniform_maskDigit (B : Basis) (bits len : Nat) (m : Bool) :
    (rgswSamples (uniformRing R.M.value (2 ^ k)) len).map (maskDigit R B bits m) =
      (rgswSamples (uniformRing R.M.value (2 ^ k)) len).map (maskDigit R B bits false) := by
  have := E.nontrivial
  let v (j : Nat) : Rq (ZMod R.M.value) (2 ^ k) := Rq.const (if m then (2 ^ (bits * j) : Nat) else 0)
  have h0 := fun j : Nat => uniform_equiv ((Equiv.addRight (v j)).prodCongr (Equiv.refl (Rq (ZMod R.M.value) (2 ^ k))))
  have h1 := fun j : Nat => uniform_equiv ((Equiv.refl (Rq (ZMod R.M.value) (2 ^ k))).prodCongr (Equiv.addRight (v j)))
  unfold rgswSamples
  conv_rhs => rw [← draws_mapIdx (uniformRing R.M.value (2 ^ k)) len (fun j y => (y.1 + v j, y.2)) fun i _ => h0 i]
  conv_rhs =>
    arg 2
    arg 2
    rw [draws_mapIdx (uniformRing R.M.value (2 ^ k)) len (fun j y => (y.1 + v j, y.2)) fun i _ => h0 i,
      ← draws_mapIdx (uniformRing R.M.value (2 ^ k)) len (fun j y => (y.1, y.2 + v j)) fun i _ => h1 i]
  rw [pair_map, PMF.map_comp]
  congr 1
  funext x
  simp [maskDigit, v, Rq.const_zero, List.mapIdx_mapIdx, Function.comp_def]

end Words

section Games

theorem draws_zipWith {I Y K : Type} {U : PMF Y} {V : PMF K} {mask : I → Y → K} (h : ∀ s, U.map (mask s) = V) :
    ∀ ss : List I, (draws U ss.length).map (List.zipWith mask ss) = draws V ss.length
  | [] => by rw [List.length_nil, draws, draws, PMF.pure_map]; rfl
  | s :: ss => by
    rw [List.length_cons, draws, draws, PMF.map_bind, ← h s, PMF.bind_map]
    congr 1
    funext x
    show _ = (draws _ ss.length).bind fun l => PMF.pure (mask s x :: l)
    rw [h s, ← draws_zipWith h ss, PMF.map_bind, PMF.bind_map]
    congr 1
    funext l
    rw [PMF.pure_map]
    rfl

variable {A G Dr Y K I : Type} (keys : PMF (List Nat × A)) (core : PMF G) (ι : G → Dr) (σ : List Nat → G → Y)
  (mask : I → Y → K)

theorem outcomeGame_map {D E : Type} (law : PMF D) (f : D → E) (gen : List Nat → E → Option K) :
    outcomeGame keys (law.map f) gen = outcomeGame keys law fun s d => gen s (f d) := by
  unfold outcomeGame
  congr 1
  funext x
  rw [PMF.map_comp]
  rfl

/-- `gen` makes the key elements of the items `ss` from the samples of the draws. -/
def Generates (gen : List Nat → List Dr → Option (List K)) (ss : List I) : Prop :=
  ∀ x ∈ keys.support, ∀ gs : List G, gs.length = ss.length → (∀ g ∈ gs, g ∈ core.support) →
    gen x.1 (gs.map ι) = some (List.zipWith mask ss (gs.map (σ x.1)))

variable {keys core ι σ mask}

theorem outcome_eq {gen : List Nat → List Dr → Option (List K)} {ss : List I}
    (hgen : Generates keys core ι σ mask gen ss) {cnt : Nat} (hc : ss.length = cnt) :
    outcomeGame keys (draws (core.map ι) cnt) gen =
      (keyGame keys (fun s => core.map (σ s)) cnt).map (replayItems mask ss) := by
  subst hc
  unfold outcomeGame keyGame
  rw [PMF.map_bind]
  refine bind_congr_support fun x hx => ?_
  rw [← draws_map, ← draws_map, PMF.map_comp, PMF.map_comp, PMF.map_comp]
  refine map_congr_support fun gs hgs => ?_
  obtain ⟨hl, hm⟩ := mem_support_draws hgs
  show (x.2, gen x.1 (gs.map ι)) = _
  rw [hgen x hx gs hl hm]
  rfl

theorem outcome_advantage {gen gen' : List Nat → List Dr → Option (List K)} {ss ss' : List I}
    (hgen : Generates keys core ι σ mask gen ss) (hgen' : Generates keys core ι σ mask gen' ss') {cnt : Nat}
    (hc : ss.length = cnt) (hc' : ss'.length = cnt) {U : PMF Y} {V : PMF K} (hU : ∀ s, U.map (mask s) = V)
    (D : Set (A × Option (List K))) :
    advantage (outcomeGame keys (draws (core.map ι) cnt) gen) (outcomeGame keys (draws (core.map ι) cnt) gen') D ≤
      advantage (keyGame keys (fun s => core.map (σ s)) cnt) (keyGame keys (fun _ => U) cnt) (replayItems mask ss ⁻¹' D) +
      advantage (keyGame keys (fun s => core.map (σ s)) cnt) (keyGame keys (fun _ => U) cnt)
        (replayItems mask ss' ⁻¹' D) := by
  have hu : ∀ ss : List I, ss.length = cnt → (keyGame keys (fun _ => U) cnt).map (replayItems mask ss) =
      keys.bind fun x => (draws V cnt).map fun l => (x.2, some l) := fun ss h => by
    unfold keyGame
    rw [PMF.map_bind]
    congr 1
    funext x
    rw [← h, ← draws_zipWith hU ss, PMF.map_comp, PMF.map_comp]
    rfl
  rw [outcome_eq hgen hc, outcome_eq hgen' hc']
  have hu' := congrArg (fun p => p.toOuterMeasure D) ((hu ss hc).trans (hu ss' hc').symm)
  rw [PMF.toOuterMeasure_map_apply, PMF.toOuterMeasure_map_apply] at hu'
  unfold advantage
  rw [PMF.toOuterMeasure_map_apply, PMF.toOuterMeasure_map_apply, hu', abs_sub_comm
    (ENNReal.toReal ((keyGame keys (fun s => core.map (σ s)) cnt).toOuterMeasure (replayItems mask ss' ⁻¹' D)))]
  exact abs_sub_le _ _ _

end Games
end Verif

namespace Verif.Props
open Spec

section Bootstrapping
variable {R : Ctx} {k : Nat} {t : Table} (E : Env R k t) [NeZero R.M.value] (bits : Nat)
  (B : Basis) (hB : Basis.new R.w R.M.value bits = some B) (χ : PMF Nat) (hχ : ∀ x ∈ χ.support, x < R.M.value) {A : Type}
  (keys : PMF (List Nat × A)) (hkeys : ∀ x ∈ keys.support, Reduced R.M.value (2 ^ k) x.1)
include E hB hχ hkeys

theorem binary_generates (ss : List Nat) :
    Generates keys (groupLaw R.M.value (2 ^ k) χ B.decomposeLen)
      (Prod.map (List.map (ringDraw R)) (List.map (ringDraw R)))
      (fun s => Prod.map (List.map (ringValue R (Rq.ofWords R.M.value (2 ^ k) s)))
        (List.map (ringValue R (Rq.ofWords R.M.value (2 ^ k) s))))
      (fun s x => maskDigit R B bits (s != 0) x) (binaryGen R B ss) ss := by
  intro x hx gs hl hm
  obtain ⟨sn, esn, hsn⟩ := E.toNtt (rep_exists (hkeys x hx))
  unfold binaryGen
  rw [mbind esn, List.zipWith_map_right]
  exact binaryGenerate_eq (fun m y hy => binaryKey_eq E hB hsn m y hy) ss gs hl fun g hg => groupOk_of_mem hχ (hm g hg)

theorem ternary_generates (ss : List Nat) :
    Generates keys (pair (groupLaw R.M.value (2 ^ k) χ B.decomposeLen) (groupLaw R.M.value (2 ^ k) χ B.decomposeLen))
      (Prod.map (Prod.map (List.map (ringDraw R)) (List.map (ringDraw R)))
        (Prod.map (List.map (ringDraw R)) (List.map (ringDraw R))))
      (fun s => Prod.map (Prod.map (List.map (ringValue R (Rq.ofWords R.M.value (2 ^ k) s)))
        (List.map (ringValue R (Rq.ofWords R.M.value (2 ^ k) s))))
        (Prod.map (List.map (ringValue R (Rq.ofWords R.M.value (2 ^ k) s)))
        (List.map (ringValue R (Rq.ofWords R.M.value (2 ^ k) s)))))
      (maskTernary R B bits) (ternaryGen R B ss) ss := by
  intro x hx gs hl hm
  obtain ⟨sn, esn, hsn⟩ := E.toNtt (rep_exists (hkeys x hx))
  unfold ternaryGen
  rw [mbind esn, List.zipWith_map_right]
  exact ternaryGenerate_eq (ok := fun y => GroupOk R B.decomposeLen y.1 ∧ GroupOk R B.decomposeLen y.2)
    (fun m y hy => by
      obtain ⟨⟨y1, y2⟩, y3, y4⟩ := y
      exact ternaryKey_eq E hB hsn m (y1, y2) (y3, y4) hy.1 hy.2) ss gs hl fun g hg =>
      ⟨groupOk_of_mem hχ (mem_support_pair (hm g hg)).1, groupOk_of_mem hχ (mem_support_pair (hm g hg)).2⟩

end Bootstrapping

section
variable {R : Ctx} {q k : Nat} [Fact q.Prime] [NeZero q] (hk : 0 < k) (F : TableField R.w q R.M R.tbl k) (bits : Nat)
  (B : Basis) (hB : Basis.new R.w q bits = some B) (χ : PMF Nat) (hχ : ∀ x ∈ χ.support, x < q) {A : Type}
  (keys : PMF (List Nat × A)) (hkeys : ∀ x ∈ keys.support, Reduced q (2 ^ k) x.1)
include hk F hB hχ hkeys

/-- C68: the elements of a bootstrapping key for the bits `ss` are computed, without the ring key, from samples of ring
learning with errors. Generation does not panic. -/
theorem C68_binary_simulation (ss : List Nat) :
    outcomeGame keys (draws (rgswLaw (draws (uniformBelow q) (2 ^ k)) χ (2 ^ k) B.decomposeLen) ss.length)
        (binaryGen R B ss) =
      (keyGame keys (fun s => rgswSamples (rlweSample q (2 ^ k) (Rq.ofWords q (2 ^ k) s) χ) B.decomposeLen)
        ss.length).map (replayItems (fun s x => maskDigit R B bits (s != 0) x) ss) := by
  obtain ⟨t, rfl, E⟩ := F.env hk
  simp only [rgswLaw_eq E, rgswSamples_eq]
  exact outcome_eq (binary_generates E bits B hB χ hχ keys hkeys ss) rfl

/-- C68: bootstrapping keys of binary digits. If an observer, who may know anything `A` drawn with the ring key, tells a
bootstrapping key for the digits `ss` from one for the digits `ss'`, then one of two observers, which use no secret other
than these digits, tells samples of ring learning with errors from uniform ones, with at least half of the advantage. -/
theorem C68_binary_key (ss ss' : List Nat) (hl : ss'.length = ss.length) (D : Set (A × Option (List NTTRGSW))) :
    let law := draws (rgswLaw (draws (uniformBelow q) (2 ^ k)) χ (2 ^ k) B.decomposeLen) ss.length
    let rlwe := keyGame keys (fun s => rgswSamples (rlweSample q (2 ^ k) (Rq.ofWords q (2 ^ k) s) χ) B.decomposeLen) ss.length
    let uniform := keyGame keys (fun _ => rgswSamples (uniformRing q (2 ^ k)) B.decomposeLen) ss.length
    let replay := fun ss => replayItems (A := A) (fun (s : Nat) (x : List (RingSample q (2 ^ k)) × _) => maskDigit R B bits (s != 0) x) ss
    advantage (outcomeGame keys law (binaryGen R B ss)) (outcomeGame keys law (binaryGen R B ss')) D ≤
      advantage rlwe uniform (replay ss ⁻¹' D) + advantage rlwe uniform (replay ss' ⁻¹' D) := by
  obtain ⟨t, rfl, E⟩ := F.env hk
  simp only [rgswLaw_eq E, rgswSamples_eq]
  exact outcome_advantage (binary_generates E bits B hB χ hχ keys hkeys ss)
    (binary_generates E bits B hB χ hχ keys hkeys ss') rfl hl (fun s => uniform_maskDigit E B bits B.decomposeLen (s != 0)) D

/-- C68: the elements of a bootstrapping key for the ternary digits `ss` are computed, without the ring key, from samples
of ring learning with errors. Generation does not panic. -/
theorem C68_ternary_simulation (ss : List Nat) :
    let group := rgswLaw (draws (uniformBelow q) (2 ^ k)) χ (2 ^ k) B.decomposeLen
    let samples := fun s => rgswSamples (rlweSample q (2 ^ k) (Rq.ofWords q (2 ^ k) s) χ) B.decomposeLen
    outcomeGame keys (draws (pair group group) ss.length) (ternaryGen R B ss) =
      (keyGame keys (fun s => pair (samples s) (samples s)) ss.length).map (replayItems (maskTernary R B bits) ss) := by
  obtain ⟨t, rfl, E⟩ := F.env hk
  simp only [rgswLaw_eq E, rgswSamples_eq, pair_map]
  exact outcome_eq (ternary_generates E bits B hB χ hχ keys hkeys ss) rfl

/-- C68: bootstrapping keys of ternary digits. -/
theorem C68_ternary_key (ss ss' : List Nat) (hl : ss'.length = ss.length) (D : Set (A × Option (List (NTTRGSW × NTTRGSW)))) :
    let group := rgswLaw (draws (uniformBelow q) (2 ^ k)) χ (2 ^ k) B.decomposeLen
    let samples := fun s => rgswSamples (rlweSample q (2 ^ k) (Rq.ofWords q (2 ^ k) s) χ) B.decomposeLen
    let uniforms := rgswSamples (uniformRing q (2 ^ k)) B.decomposeLen
    let law := draws (pair group group) ss.length
    let rlwe := keyGame keys (fun s => pair (samples s) (samples s)) ss.length
    let uniform := keyGame keys (fun _ => pair uniforms uniforms) ss.length
    advantage (outcomeGame keys law (ternaryGen R B ss)) (outcomeGame keys law (ternaryGen R B ss')) D ≤
      advantage rlwe uniform (replayItems (maskTernary R B bits) ss ⁻¹' D) +
      advantage rlwe uniform (replayItems (maskTernary R B bits) ss' ⁻¹' D) := by
  obtain ⟨t, rfl, E⟩ := F.env hk
  simp only [rgswLaw_eq E, rgswSamples_eq, pair_map]
  refine outcome_advantage (ternary_generates E bits B hB χ hχ keys hkeys ss)
    (ternary_generates E bits B hB χ hχ keys hkeys ss') rfl hl (V := pair
      ((rgswSamples (uniformRing R.M.value (2 ^ k)) B.decomposeLen).map (maskDigit R B bits false))
      ((rgswSamples (uniformRing R.M.value (2 ^ k)) B.decomposeLen).map (maskDigit R B bits false))) (fun s => ?_) D
  have e : maskTernary (q := R.M.value) (n := 2 ^ k) R B bits s =
    Prod.map (maskDigit R B bits (s == 1)) (maskDigit R B bits (s != 0 && s != 1)) := rfl
  rw [e, ← pair_map, uniform_maskDigit E, uniform_maskDigit E B bits B.decomposeLen (s != 0 && s != 1)]

end
end Verif.Props
