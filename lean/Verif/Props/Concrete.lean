import Verif.Props.EndToEnd

/-! # C76: the two transform back ends -/

namespace Verif
open Fp Finset Spec Ntt Props

namespace Evaluates
variable {w : Nat} {M : Barrett} {t : Table} {pt : Nat → ZMod M.value} {k : Nat} (T : Evaluates w M t pt k)

/-- The points are distinct. -/
theorem inj [Fact M.value.Prime] (T : Evaluates w M t pt k) (hk : 0 < k) {c c' : Nat} (hc : c < 2 ^ k)
    (hc' : c' < 2 ^ k) (h : pt c = pt c') : c = c' := by
  by_contra hne
  have h1 := (Fact.out : M.value.Prime).one_lt
  obtain ⟨a, -, -, ha⟩ := T.inv hk ((List.range (2 ^ k)).map fun i => if i = c then 1 else 0)
    ⟨by simp, fun x hx => by
      obtain ⟨i, -, rfl⟩ := List.mem_map.1 hx
      split <;> omega⟩
  have hv : ∀ i, i < 2 ^ k → coeff M.value ((List.range (2 ^ k)).map fun i => if i = c then 1 else 0) i =
      if i = c then 1 else 0 := by
    intro i hi
    unfold coeff
    rw [List.getD_eq_getElem _ _ (by simpa using hi)]
    simp
  have e1 := ha c hc
  have e2 := ha c' hc'
  rw [hv c hc, if_pos rfl, h] at e1
  rw [hv c' hc', if_neg (Ne.symm hne)] at e2
  exact one_ne_zero (e1.trans e2.symm)

/-- Two tables have the same points, in some other order. -/
theorem same_points [Fact M.value.Prime] {t' : Table} {pt' : Nat → ZMod M.value} (hk : 0 < k)
    (T : Evaluates w M t pt k) (T' : Evaluates w M t' pt' k) (c : Nat) :
    ∃ c', c' < 2 ^ k ∧ pt c = pt' c' := by
  classical
  let S : Finset (ZMod M.value) := (Polynomial.nthRoots (2 ^ k) (-1)).toFinset
  have hS : S.card ≤ 2 ^ k := (Multiset.toFinset_card_le _).trans (Polynomial.card_nthRoots _ _)
  have hmem : ∀ x, x ^ 2 ^ k = -1 → x ∈ S := fun x hx => by
    rw [Multiset.mem_toFinset, Polynomial.mem_nthRoots (Nat.two_pow_pos k)]; exact hx
  have him : (range (2 ^ k)).image pt' = S := by
    apply eq_of_subset_of_card_le
    · intro x hx
      obtain ⟨i, -, rfl⟩ := mem_image.1 hx
      exact hmem _ (T'.pow i)
    · rw [card_image_of_injOn (fun i hi j hj e => T'.inj hk (by simpa using hi) (by simpa using hj) e), card_range]
      exact hS
  have := hmem _ (T.pow c)
  rw [← him] at this
  obtain ⟨c', hc', e⟩ := mem_image.1 this
  exact ⟨c', mem_range.1 hc', e.symm⟩

end Evaluates
end Verif

namespace Verif.Props
open Fp Finset Spec Ntt

/-- C76: what `generate_ntt_table` does with the feature on. A 32 or 64 bit field asks the library for a plan of
size `2^k` and its modulus: without one it reports an error, else it keeps the plan and its root, reduced. It
never panics, unless `1 << log_n` overflows. A field of width 8 or 16 ignores the library. Without the library the
table is the native one, with its root. -/
theorem C76_generate (w q : Nat) (hw : w % 2 = 0) (M : Barrett) (h : Fp.config w q = some M) (lib : PlanLibrary)
    (hl : LibraryOk w q lib) (k : Nat) (draws : List Nat) :
    (w = 32 ∨ w = 64 → k < 64 →
      (lib (2 ^ k) q = none → Table.generate w M (some lib) k draws = some none) ∧
      ∀ p, lib (2 ^ k) q = some p →
        Table.generate w M (some lib) k draws = some (some (.concrete ⟨p.root % q, p⟩)) ∧
        (Table.concrete ⟨p.root % q, p⟩).root = p.root % q) ∧
    (w = 32 ∨ w = 64 → 64 ≤ k → Table.generate w M (some lib) k draws = none) ∧
    (w = 8 ∨ w = 16 → Table.generate w M (some lib) k draws = Table.generate w M none k draws) ∧
    ∀ t, Ntt.generate w M k draws = some (some t) →
      ∃ T, Table.generate w M none k draws = some (some T) ∧ T.root = t.root := by
  have C : Config w q M := ⟨hw, h⟩
  refine ⟨fun h3 hk => ⟨fun hn => ?_, fun p hp => ?_⟩, fun h3 hk => ?_, fun h3 => ?_, fun t ht => ?_⟩
  · unfold Table.generate Concrete.new
    simp only [if_pos h3, Option.bind_eq_bind, shlC_one hk, Option.bind_some, C.value, hn]
    rfl
  · have hr := C49_new w q hw M h p.root (hl _ _ hp).1
    unfold Table.generate Concrete.new
    simp only [if_pos h3, Option.bind_eq_bind, shlC_one hk, Option.bind_some, C.value, hp, hr]
    exact ⟨rfl, rfl⟩
  · unfold Table.generate Concrete.new shlC
    simp only [if_pos h3, if_neg (show ¬ k < 64 by omega)]
    rfl
  · unfold Table.generate
    simp only [if_neg (show ¬ (w = 32 ∨ w = 64) by omega)]
  · unfold Table.generate
    rw [ht]
    exact ⟨_, rfl, rfl⟩

section
variable {w q : Nat} [Fact q.Prime] {M : Barrett} {k : Nat}

/-- C76: in either build, for `n = 2^k ≥ 2`, transforming and transforming back are inverse to each other, and an
evaluation form with lazy words gives the same polynomial as its canonical form. -/
theorem C76_round_trip (hk : 0 < k) (tbl : Nat → Option Table) (F : TableField w q M tbl k) :
    (∀ a, Reduced q (2 ^ k) a → ∃ v, Poly.toNtt w M tbl a = some v ∧ Reduced q (2 ^ k) v ∧
      Poly.ofNtt w M tbl v = some a) ∧
    ∀ v, Reduced (2 * q) (2 ^ k) v → ∃ a, Poly.ofNtt w M tbl v = some a ∧ Reduced q (2 ^ k) a ∧
      Poly.toNtt w M tbl a = some (v.map (· % q)) := by
  obtain ⟨t, pt, ht, T⟩ := F.evaluates
  have C : Config w q M := ⟨F.even, F.conf⟩
  have hval := C.value
  subst hval
  have hk63 := T.k_lt
  have htf := tableFor_eq (by omega) ht
  have h2 := C.two_le
  refine ⟨fun a ha => ?_, fun v hv => ?_⟩
  · obtain ⟨v, e, rv, hv⟩ := T.fwd a ha
    obtain ⟨a', e', ra', ha'⟩ := T.inv_eq hk (v := v) ⟨rv.1, fun x hx => by have := rv.2 x hx; omega⟩ _ hv
    have : a' = a := list_ext_of_cast (q := M.value) ra'.1 ha.1
      (fun i hi => ra'.2 _ (getD_mem _ (by rw [ra'.1]; exact hi)))
      (fun i hi => ha.2 _ (getD_mem _ (by rw [ha.1]; exact hi))) ha'
    subst this
    refine ⟨v, ?_, rv, ?_⟩
    · unfold Poly.toNtt; rw [ha.1, mbind htf, e]
    · unfold Poly.ofNtt; rw [rv.1, mbind htf, e']
  · obtain ⟨a, e, ra, ha⟩ := T.inv hk v hv
    obtain ⟨v', e', rv', hv'⟩ := T.fwd a ra
    have hl : (v.map (· % M.value)).length = 2 ^ k := by rw [List.length_map, hv.1]
    have hg : ∀ i, i < 2 ^ k → (v.map (· % M.value)).getD i 0 = v.getD i 0 % M.value := by
      intro i hi
      rw [List.getD_eq_getElem _ _ (by rw [hl]; exact hi), List.getElem_map,
        List.getD_eq_getElem _ _ (by rw [hv.1]; exact hi)]
    have : v' = v.map (· % M.value) := list_ext_of_cast (q := M.value) rv'.1 hl
      (fun i hi => rv'.2 _ (getD_mem _ (by rw [rv'.1]; exact hi)))
      (fun i hi => by rw [hg i hi]; exact Nat.mod_lt _ (by omega))
      (fun i hi => by
        rw [hg i hi, ZMod.natCast_mod]
        exact (hv' i hi).trans (ha i hi).symm)
    subst this
    refine ⟨a, ?_, ra, ?_⟩
    · unfold Poly.ofNtt; rw [hv.1, mbind htf, e]
    · unfold Poly.toNtt; rw [ra.1, mbind htf, e']

/-- C76: the results of the two builds. The evaluation forms are the same up to one order of the entries, which does
not depend on the polynomial; products and inverses of polynomials are the same words. -/
theorem C76_same_results (hk : 0 < k) (tbl tbl' : Nat → Option Table) (F : TableField w q M tbl k)
    (F' : TableField w q M tbl' k) :
    (∃ σ : Nat → Nat, (∀ c, c < 2 ^ k → σ c < 2 ^ k) ∧ (∀ c c', c < 2 ^ k → c' < 2 ^ k → σ c = σ c' → c = c') ∧
      ∀ a, Reduced q (2 ^ k) a → ∃ v v', Poly.toNtt w M tbl a = some v ∧ Poly.toNtt w M tbl' a = some v' ∧
        ∀ c, c < 2 ^ k → v.getD c 0 = v'.getD (σ c) 0) ∧
    (∀ a b, Reduced q (2 ^ k) a → Reduced q (2 ^ k) b → Poly.mul w M tbl a b = Poly.mul w M tbl' a b) ∧
    ∀ a, Reduced q (2 ^ k) a → Poly.inv w M tbl a = Poly.inv w M tbl' a := by
  obtain ⟨t, pt, ht, T⟩ := F.evaluates
  obtain ⟨t', pt', ht', T'⟩ := F'.evaluates
  have C : Config w q M := ⟨F.even, F.conf⟩
  have hval := C.value
  subst hval
  have hk63 := T.k_lt
  have htf := tableFor_eq (by omega) ht
  have htf' := tableFor_eq (by omega) ht'
  choose σ hσ hpt using fun c => T.same_points hk T' c
  have hval : ∀ a, Reduced M.value (2 ^ k) a → ∃ v v', Poly.toNtt w M tbl a = some v ∧
      Reduced M.value (2 ^ k) v ∧ ValuesAt M.value (2 ^ k) pt a v ∧
      Poly.toNtt w M tbl' a = some v' ∧ Reduced M.value (2 ^ k) v' ∧ ValuesAt M.value (2 ^ k) pt' a v' := by
    intro a ha
    obtain ⟨v, e, rv, hv⟩ := T.fwd a ha
    obtain ⟨v', e', rv', hv'⟩ := T'.fwd a ha
    exact ⟨v, v', by unfold Poly.toNtt; rw [ha.1, mbind htf, e], rv, hv,
      by unfold Poly.toNtt; rw [ha.1, mbind htf', e'], rv', hv'⟩
  have hlt : ∀ {l : List Nat}, Reduced M.value (2 ^ k) l → ∀ i, i < 2 ^ k → l.getD i 0 < M.value :=
    fun hl i hi => hl.2 _ (getD_mem _ (by rw [hl.1]; exact hi))
  refine ⟨⟨σ, fun c _ => hσ c, fun c c' hc hc' e => T.inj hk hc hc' (by rw [hpt c, hpt c', e]), fun a ha => ?_⟩,
    fun a b ha hb => ?_, fun a ha => ?_⟩
  · obtain ⟨v, v', e, rv, hv, e', rv', hv'⟩ := hval a ha
    refine ⟨v, v', e, e', fun c hc => eq_of_cast (hlt rv c hc) (hlt rv' _ (hσ c)) ?_⟩
    refine (hv c hc).trans (Eq.trans ?_ (hv' _ (hσ c)).symm)
    rw [hpt c]
  · obtain ⟨r, e, rr, hr, -⟩ := C25_mul_partial w M.value M tbl k hk F a b ha hb
    obtain ⟨r', e', rr', hr', -⟩ := C25_mul_partial w M.value M tbl' k hk F' a b ha hb
    rw [e, e', list_ext_of_cast (q := M.value) rr.1 rr'.1 (hlt rr) (hlt rr')
      (fun i hi => (hr i hi).trans (hr' i hi).symm)]
  · obtain ⟨v, v', e, rv, hv, e', rv', hv'⟩ := hval a ha
    have hinv : ∀ {v}, Reduced M.value (2 ^ k) v → ∃ i, Poly.nttInv w M v = some i ∧
        Reduced M.value (2 ^ k) i ∧ ∀ c, coeff M.value i c = (coeff M.value v c)⁻¹ := fun rv =>
      pointwise1 rv (f := Fp.inv w M) (g := (·⁻¹)) (fun x hx => by
        obtain ⟨r, h1, h2, h3⟩ := inv_spec F.even F.conf x hx
        exact ⟨r, h1, h2, h3 (T.ne_two hk)⟩) (by simp)
    obtain ⟨i, ei, ri, ci⟩ := hinv rv
    obtain ⟨i', ei', ri', ci'⟩ := hinv rv'
    obtain ⟨r', er', rr', hr'⟩ := T'.inv hk i' ⟨ri'.1, fun x hx => by have := ri'.2 x hx; omega⟩
    obtain ⟨r, er, rr, hr⟩ := T.inv_eq hk (v := i) ⟨ri.1, fun x hx => by have := ri.2 x hx; omega⟩
      (coeff M.value r') (fun c hc => by
        rw [hpt c, ← hr' _ (hσ c), ci, ci', hv c hc, hv' _ (hσ c), hpt c])
    have : r = r' := list_ext_of_cast (q := M.value) rr.1 rr'.1 (hlt rr) (hlt rr') hr
    subst this
    unfold Poly.inv
    rw [mbind e, mbind ei, mbind e', mbind ei']
    unfold Poly.ofNtt
    rw [ri.1, ri'.1, mbind htf, mbind htf', er, er']

/-- C76: in either build the monomial functions give the transform of the monomial, for every degree below `2n`
(and, without the library, no overflow in `2n * degree`). -/
theorem C76_monomials (hk : 0 < k) (tbl : Nat → Option Table) (F : TableField w q M tbl k) (t : Table)
    (ht : tbl k = some t) (d : Nat) (hd : d < 2 * 2 ^ k) (hov : 2 * 2 ^ k * d < 2 ^ 64) :
    (∀ c, c < q → ∃ v, t.monomial w M c d (2 ^ k) = some v ∧
      Poly.toNtt w M tbl (monomialCoeffs q (2 ^ k) c d) = some v) ∧
    t.oneMonomial d (2 ^ k) = t.monomial w M 1 d (2 ^ k) ∧
    t.negOneMonomial M d (2 ^ k) = t.monomial w M (q - 1) d (2 ^ k) := by
  obtain ⟨t', pt, ht', T⟩ := F.evaluates
  rw [ht] at ht'
  cases ht'
  have C : Config w q M := ⟨F.even, F.conf⟩
  have hval := C.value
  subst hval
  have h2 := C.two_le
  have hk63 := T.k_lt
  have htf := tableFor_eq (by omega) ht
  have hlt : ∀ {l : List Nat}, Reduced M.value (2 ^ k) l → ∀ i, i < 2 ^ k → l.getD i 0 < M.value :=
    fun hl i hi => hl.2 _ (getD_mem _ (by rw [hl.1]; exact hi))
  obtain ⟨hc, ⟨v1, e1, r1, c1⟩, v2, e2, r2, c2⟩ := T.mono d hd hov
  refine ⟨fun c hcq => ?_, ?_, ?_⟩
  · obtain ⟨v, e, rv, cv⟩ := hc c hcq
    have hm : Reduced M.value (2 ^ k) (monomialCoeffs M.value (2 ^ k) c d) := by
      refine ⟨by simp [monomialCoeffs], fun x hx => ?_⟩
      obtain ⟨i, _, rfl⟩ := List.mem_map.1 hx
      have := Nat.mod_lt (M.value - c) (show 0 < M.value by omega)
      split
      · split <;> omega
      · omega
    obtain ⟨v', e', rv', hv'⟩ := T.fwd _ hm
    have : v = v' := list_ext_of_cast (q := M.value) rv.1 rv'.1 (hlt rv) (hlt rv') (fun i hi => by
      refine (cv i hi).trans (Eq.trans ?_ (hv' i hi).symm)
      refine Eq.trans ?_ (evalPoly_eq hm.1 _)
      rw [evalPoly_monomial hcq (Nat.two_pow_pos k) (T.pow i)])
    subst this
    exact ⟨v, e, by unfold Poly.toNtt; rw [hm.1, mbind htf, e']⟩
  · obtain ⟨v, e, rv, cv⟩ := hc 1 (by omega)
    rw [e1, e, list_ext_of_cast (q := M.value) r1.1 rv.1 (hlt r1) (hlt rv) (fun i hi => by
      refine (c1 i hi).trans (Eq.trans ?_ (cv i hi).symm)
      rw [Nat.cast_one, one_mul])]
  · obtain ⟨v, e, rv, cv⟩ := hc (M.value - 1) (by omega)
    rw [e2, e, list_ext_of_cast (q := M.value) r2.1 rv.1 (hlt r2) (hlt rv) (fun i hi => by
      refine (c2 i hi).trans (Eq.trans ?_ (cv i hi).symm)
      rw [Nat.cast_sub (by omega), ZMod.natCast_self, zero_sub, Nat.cast_one, neg_one_mul])]

end

/-- C76: multiplying by a root is the product in both builds, and the root read back is the root. -/
theorem C76_roots (w q : Nat) (hw : w % 2 = 0) (M : Barrett) (h : Fp.config w q = some M) (a r : Nat) (ha : a < q)
    (hr : r < q) :
    Concrete.mulRoot w M a (Concrete.toRoot r) = some (a * r % q) ∧ Concrete.fromRoot (Concrete.toRoot r) = r ∧
    ∃ s, Fp.toRoot w M r = some s ∧ Fp.mulRoot w M a s = some (a * r % q) ∧ Fp.fromRoot s = r := by
  have C : Config w q M := ⟨hw, h⟩
  have h4 := C.four_mul_lt
  have hval := C.value
  subst hval
  obtain ⟨-, -, -, -, -, -, -, ⟨p, ep, lp, cp⟩, -, -⟩ :=
    C49_field_ops w M.value hw M h a r 0 0 ha hr (by omega) (by positivity)
  have hp : p = a * r % M.value := eq_of_cast lp (Nat.mod_lt _ (by omega)) (by
    rw [cp, ZMod.natCast_mod, Nat.cast_mul])
  obtain ⟨s, es⟩ := exists_fac (w := w) hr
  have hs : s.value = r := by
    have := es
    unfold Shoup.new at this
    rw [if_pos hr] at this
    cases this
    rfl
  refine ⟨by unfold Concrete.mulRoot Concrete.toRoot; rw [ep, hp], rfl, s, es, ?_, hs⟩
  have := C09_shoup_mul w s.value M.value a (by omega) (by omega) s (IsFac.of_new es).new
  rw [hs, Nat.mul_comm] at this
  exact this

/-! ## A library that meets the contract -/

/-- The native table seen as a plan, with the entries of the transforms in the opposite order. -/
def reversedPlan (w : Nat) (M : Barrett) (t : NTTTable) : Plan where
  root := t.root
  fwd a := (Ntt.transform w M t a).map List.reverse
  inv v := Ntt.inverse w M t v.reverse
  normalize := some
  fwdMonomial c d n := (Ntt.monomial w M t c d n).map List.reverse
  fwdCoeffOneMonomial d n := (Ntt.oneMonomial t d n).map List.reverse
  fwdCoeffNegOneMonomial d n := (Ntt.negOneMonomial M t d n).map List.reverse

theorem coeff_reverse {q n : Nat} {v : List Nat} (hv : v.length = n) {c : Nat} (hc : c < n) :
    coeff q v.reverse c = coeff q v (n - 1 - c) := by
  subst hv
  unfold coeff
  rw [List.getD_eq_getElem _ _ (by simpa using hc), List.getD_eq_getElem _ _ (by omega), List.getElem_reverse]

theorem reduced_reverse {q n : Nat} {v : List Nat} (hv : Reduced q n v) : Reduced q n v.reverse :=
  ⟨by rw [List.length_reverse, hv.1], fun x hx => hv.2 x (List.mem_reverse.1 hx)⟩

theorem reversedPlan_ok {w q : Nat} [Fact q.Prime] {M : Barrett} (C : Config w q M) {k : Nat} {draws : List Nat}
    {t : NTTTable} (hk : 0 < k) (hk' : k ≤ 30) (hd : ∀ x ∈ draws, 2 ≤ x ∧ x < q)
    (ht : Ntt.generate w M k draws = some (some t)) :
    PlanOk q (2 ^ k) (reversedPlan w M t) := by
  have T := native_evaluates C hd ht
  have h4 := C.four_mul_lt
  have hval := C.value
  subst hval
  have hlt : ∀ {c}, c < 2 ^ k → 2 ^ k - 1 - c < 2 ^ k := fun h => by omega
  have hrev : ∀ {o : Option (List Nat)} {f : Nat → ZMod M.value}, (∃ v, o = some v ∧ Reduced M.value (2 ^ k) v ∧
      ∀ i, i < 2 ^ k → coeff M.value v i = f i) →
      ∃ v, o.map List.reverse = some v ∧ Reduced M.value (2 ^ k) v ∧
        ∀ i, i < 2 ^ k → coeff M.value v i = f (2 ^ k - 1 - i) := by
    rintro o f ⟨v, rfl, rv, hv⟩
    exact ⟨v.reverse, rfl, reduced_reverse rv, fun i hi => by rw [coeff_reverse rv.1 hi, hv _ (hlt hi)]⟩
  refine ⟨fun c => (t.root : ZMod M.value) ^ (2 * reverseBits k (2 ^ k - 1 - c) + 1),
    fun c _ => T.pow _, fun c c' hc hc' e => ?_, fun a ha => hrev (T.fwd a ha), fun v hv => ?_, fun d hd => ?_⟩
  · have := T.inj hk (hlt hc) (hlt hc') e
    omega
  · obtain ⟨a, e, ra, h⟩ := T.inv hk _ (reduced_reverse hv)
    refine ⟨a, a, e, rfl, ra, fun c hc => ?_⟩
    rw [← h _ (hlt hc), coeff_reverse hv.1 (hlt hc), show 2 ^ k - 1 - (2 ^ k - 1 - c) = c by omega]
  · have hov : 2 * 2 ^ k * d < 2 ^ 64 := by
      have h1 : 2 ^ k ≤ 2 ^ 30 := Nat.pow_le_pow_right (by omega) hk'
      generalize 2 ^ k = n at *
      have : 2 * n * d ≤ (2 * 2 ^ 30) * (2 * 2 ^ 30) := Nat.mul_le_mul (by omega) (by omega)
      omega
    obtain ⟨h1, h2, h3⟩ := T.mono d hd hov
    exact ⟨fun c hc => hrev (h1 c hc), hrev h2, hrev h3⟩

/-- A build with the feature on, and a library that keeps the contract and has a plan for the ring of the default
parameters: every theorem about the default parameters holds in it. -/
@[reducible] def libraryBuild (lib : PlanLibrary) (hl : LibraryOk 32 132120577 lib) (p : Plan)
    (hp : lib 1024 132120577 = some p) : DefaultBuild where
  tbl k := (Table.generate 32 defaultBarrett (some lib) k []).join
  table := ⟨by decide, by decide +kernel, some lib, [], .concrete ⟨p.root % 132120577, p⟩,
    fun l e => by cases e; exact hl, by simp,
    (((C76_generate 32 132120577 (by decide) defaultBarrett (by decide +kernel) lib hl 10 []).1 (Or.inl rfl)
      (by decide)).2 p hp).1,
    by rw [(((C76_generate 32 132120577 (by decide) defaultBarrett (by decide +kernel) lib hl 10 []).1 (Or.inl rfl)
      (by decide)).2 p hp).1]; rfl⟩

/-- A library with one plan, that keeps the contract. -/
theorem library_exists : ∃ lib p, LibraryOk 32 132120577 lib ∧ lib 1024 132120577 = some p := by
  have hd : ∀ x ∈ [5], 2 ≤ x ∧ x < 132120577 := by decide
  obtain ⟨t, e, hl⟩ := (C23_generate 32 132120577 (by decide) defaultBarrett default_config 10 (by omega)
    (Nat.pow_lt_pow_right (by decide) (by omega)) [5] hd).1 ⟨by norm_num, 5, by simp, default_nonsquare⟩
  refine ⟨fun n q => if n = 1024 ∧ q = 132120577 then some (reversedPlan 32 defaultBarrett t) else none, _,
    fun n p h => ?_, if_pos ⟨rfl, rfl⟩⟩
  dsimp only at h
  split at h
  · next hn =>
    obtain ⟨rfl, -⟩ := hn
    cases h
    exact ⟨hl.1.1.trans (by decide), reversedPlan_ok ⟨by decide, default_config⟩ (k := 10) (by decide) (by decide)
      hd e⟩
  · cases h

/-- The build without the feature and one with it, whose library orders the transforms the other way round, compute
the same products in the ring of the default parameters. -/
example : ∃ lib p, LibraryOk 32 132120577 lib ∧ lib 1024 132120577 = some p ∧
    ∀ (hl : LibraryOk 32 132120577 lib) (hp : lib 1024 132120577 = some p) (a b : List Nat),
      Reduced 132120577 1024 a → Reduced 132120577 1024 b →
      Poly.mul 32 defaultBarrett (libraryBuild lib hl p hp).tbl a b =
        Poly.mul 32 defaultBarrett nativeBuild.tbl a b := by
  obtain ⟨lib, p, hl, hp⟩ := library_exists
  exact ⟨lib, p, hl, hp, fun hl hp a b ha hb =>
    (C76_same_results (k := 10) (by decide) _ _ (libraryBuild lib hl p hp).table nativeBuild.table).2.1 a b ha hb⟩

end Verif.Props
