import Verif.Lemmas.NTTMath
import Verif.Props.Root

/-! # Construction of the transform tables -/

namespace Verif.Ntt
open Props Fp

theorem reverseLsbs_eq {k i : Nat} (hk : k < 64) :
    reverseLsbs 64 i k = some (reverseBits k i) := by
  obtain ⟨y, e, _, ht⟩ := C17_reverse_bits 64 i k hk
  rw [e]
  congr 1
  apply Nat.eq_of_testBit_eq
  intro j
  rw [ht, reverseBits_testBit]

theorem reverseBits_invol {k i : Nat} (hi : i < 2 ^ k) : reverseBits k (reverseBits k i) = i := by
  apply Nat.eq_of_testBit_eq
  intro j
  rw [reverseBits_testBit, reverseBits_testBit]
  by_cases hj : j < k
  · simp only [hj, show k - 1 - j < k by omega, decide_true, Bool.true_and]
    congr 1; omega
  · simp only [hj, decide_false, Bool.false_and]
    exact (Nat.testBit_lt_two_pow (Nat.lt_of_lt_of_le hi
      (Nat.pow_le_pow_right (by decide) (by omega)))).symm

theorem mapM_some {α β : Type} (f : α → Option β) (g : α → β) :
    ∀ l : List α, (∀ a ∈ l, f a = some (g a)) → l.mapM f = some (l.map g)
  | [], _ => rfl
  | a :: l, h => by
    rw [List.mapM_cons, h a (by simp), mapM_some f g l (fun x hx => h x (by simp [hx]))]
    rfl

theorem revTable_eq {k : Nat} (hk : k < 64) :
    revTable k (2 ^ k) = some ((List.range (2 ^ k)).map (reverseBits k)) :=
  mapM_some _ _ _ fun _ _ => reverseLsbs_eq hk

theorem scatter_spec (d : Shoup) : ∀ (ps : List (Shoup × Nat)) (dest : List Shoup),
    (∀ p ∈ ps, p.2 < dest.length) → (ps.map Prod.snd).Nodup →
    ∃ out, scatter dest ps = some out ∧ out.length = dest.length ∧
      (∀ p ∈ ps, out.getD p.2 d = p.1) ∧
      ∀ i, i ∉ ps.map Prod.snd → out.getD i d = dest.getD i d
  | [], dest, _, _ => ⟨dest, rfl, rfl, by simp, by simp⟩
  | (x, i) :: ps, dest, hb, hn => by
    have hi : i < dest.length := hb (x, i) (by simp)
    rw [List.map_cons, List.nodup_cons] at hn
    obtain ⟨out, e, l, h1, h2⟩ := scatter_spec d ps (dest.set i x)
      (fun p hp => by rw [List.length_set]; exact hb p (by simp [hp])) hn.2
    refine ⟨out, ?_, by rw [l, List.length_set], ?_, ?_⟩
    · unfold scatter; rw [if_pos hi]; exact e
    · intro p hp
      rcases List.mem_cons.1 hp with rfl | hp
      · rw [h2 i hn.1, List.getD_eq_getElem _ _ (by simpa using hi), List.getElem_set_self]
      · exact h1 p hp
    · intro j hj
      rw [List.map_cons, List.mem_cons, not_or] at hj
      rw [h2 j hj.2, List.getD_eq_getElem?_getD, List.getD_eq_getElem?_getD,
        List.getElem?_set_ne (by omega)]

theorem powersLoop_spec {w q : Nat} {M : Barrett} (C : Config w q M) {f : Shoup} {x : ZMod q}
    (hf : IsFac w q f x) : ∀ (k p : Nat), p < q →
      ∃ l, powersLoop w M f k p = some l ∧ l.length = k ∧
        ∀ i, i < k → IsFac w q (l.getD i defaultRoot) (p * x ^ (i + 1))
  | 0, p, _ => ⟨[], rfl, rfl, by simp⟩
  | k + 1, p, hp => by
    have hv := C.value
    have h4 := C.four_mul_lt
    subst hv
    obtain ⟨p', e, lp, cp⟩ := mulRoot_spec (a := p) (by omega) hf (by omega)
    obtain ⟨s, es⟩ := exists_fac (w := w) lp
    obtain ⟨l, el, ll, hl⟩ := powersLoop_spec C hf k p' lp
    refine ⟨s :: l, ?_, by simp [ll], ?_⟩
    · unfold powersLoop
      rw [mbind e]
      unfold toRoot
      rw [mbind es, mbind el]; rfl
    · intro i hi
      cases i with
      | zero =>
        have := IsFac.of_new es
        rw [cp, mul_comm] at this
        simpa using this
      | succ i =>
        have := hl i (by omega)
        rw [cp] at this
        rw [List.getD_cons_succ]
        convert this using 1
        ring

theorem ordinalPowers_spec {w q : Nat} {M : Barrett} (C : Config w q M) {r k : Nat} (hr : r < q)
    (hk : k < 63) :
    ∃ l, ordinalPowers w M r (2 ^ k) = some l ∧ l.length = 2 * 2 ^ k ∧
      ∀ i, i < 2 * 2 ^ k → IsFac w q (l.getD i defaultRoot) ((r : ZMod q) ^ i) := by
  have h2 := C.two_le
  obtain ⟨s1, e1⟩ := exists_fac (w := w) (show 1 < q by omega)
  obtain ⟨s2, e2⟩ := exists_fac (w := w) hr
  obtain ⟨l, el, ll, hl⟩ := powersLoop_spec C (IsFac.of_new e2) (2 * 2 ^ k - 2) r hr
  have hp := Nat.two_pow_pos k
  have hlt : 2 ^ k * 2 < 2 ^ 64 := by
    rw [← pow_succ]; exact Nat.pow_lt_pow_right (by omega) (by omega)
  refine ⟨s1 :: s2 :: l, ?_, by simp [ll]; omega, ?_⟩
  · unfold ordinalPowers toRoot
    rw [C.value, mbind e1, mbind e2, mbind (mulC_eq hlt), mbind (subC_eq (by omega)),
      Nat.mul_comm (2 ^ k) 2, mbind el]
    rfl
  · intro i hi
    match i with
    | 0 => simpa using IsFac.of_new e1
    | 1 => simpa using IsFac.of_new e2
    | i + 2 =>
      have := hl i (by omega)
      rw [List.getD_cons_succ, List.getD_cons_succ]
      convert this using 1
      ring

theorem getD_zip {α β : Type} {l : List α} {m : List β} {i : Nat} (d : α) (e : β) (h1 : i < l.length)
    (h2 : i < m.length) : (l.getD i d, m.getD i e) ∈ l.zip m := by
  rw [List.getD_eq_getElem _ _ h1, List.getD_eq_getElem _ _ h2]
  have : i < (l.zip m).length := by simp [h1, h2]
  rw [← List.getElem_zip (h := this)]
  exact List.getElem_mem _

theorem zip_snd_sublist {α β : Type} : ∀ (l : List α) (m : List β),
    ((l.zip m).map Prod.snd).Sublist m
  | [], m => by simp
  | _ :: _, [] => by simp
  | a :: l, b :: m => by simpa using zip_snd_sublist l m

theorem zip_snd_nodup {α β : Type} (l : List α) (m : List β) (h : m.Nodup) :
    ((l.zip m).map Prod.snd).Nodup := (zip_snd_sublist l m).nodup h

theorem reverseBits_inj {k i j : Nat} (hi : i < 2 ^ k) (hj : j < 2 ^ k)
    (h : reverseBits k i = reverseBits k j) : i = j := by
  rw [← reverseBits_invol hi, ← reverseBits_invol hj, h]

theorem rev_nodup (k : Nat) : ((List.range (2 ^ k)).map (reverseBits k)).Nodup := by
  rw [List.nodup_map_iff_inj_on List.nodup_range]
  intro a ha b hb h
  exact reverseBits_inj (List.mem_range.1 ha) (List.mem_range.1 hb) h

theorem rev_getD {k i : Nat} (hi : i < 2 ^ k) :
    ((List.range (2 ^ k)).map (reverseBits k)).getD i 0 = reverseBits k i := by
  rw [List.getD_eq_getElem _ _ (by simpa using hi)]
  simp

theorem getD_reverse {α : Type} (l : List α) {i : Nat} (d : α) (h : i < l.length) :
    l.reverse.getD i d = l.getD (l.length - 1 - i) d := by
  rw [List.getD_eq_getElem _ _ (by simpa using h), List.getD_eq_getElem _ _ (by omega),
    List.getElem_reverse]

theorem mem_zip_snd {α β : Type} {l : List α} {m : List β} (d : β) {p : α × β} (h : p ∈ l.zip m) :
    ∃ i, i < l.length ∧ i < m.length ∧ p.2 = m.getD i d := by
  obtain ⟨i, hi, e⟩ := List.mem_iff_getElem.1 h
  have hi' : i < l.length ∧ i < m.length := by simpa using hi
  refine ⟨i, hi'.1, hi'.2, ?_⟩
  rw [List.getD_eq_getElem _ _ hi'.2, ← e, List.getElem_zip]

/-- `NTTTable::new` builds a prepared table from the powers of a root with `root^n = -1`. -/
theorem new_spec {w q : Nat} {M : Barrett} [Fact q.Prime] (C : Config w q M) {r k : Nat} (hr : r < q)
    (hk : k < 63) (hψ : (r : ZMod q) ^ 2 ^ k = -1) (hn : 2 ^ k < q) (ord : List Shoup)
    (hlen : ord.length = 2 * 2 ^ k)
    (ho : ∀ i, i < 2 * 2 ^ k → IsFac w q (ord.getD i defaultRoot) ((r : ZMod q) ^ i)) :
    ∃ t, new w M r k ord = some t ∧ t.root = r ∧ IsTable w M t (r : ZMod M.value) k := by
  have h2 := C.two_le
  have hv := C.value
  have hpos := Nat.two_pow_pos k
  have hlast : ord.getLast? = some (ord.getD (2 * 2 ^ k - 1) defaultRoot) := by
    rw [List.getLast?_eq_getElem?, hlen, List.getD_eq_getElem _ _ (by omega),
      List.getElem?_eq_getElem]
  have hlastF := ho (2 * 2 ^ k - 1) (by omega)
  obtain ⟨-, -, -, -, -, -, -, ⟨p, ep, lp, cp⟩, -, -⟩ :=
      C49_field_ops w q C.even M C.conf r (ord.getD (2 * 2 ^ k - 1) defaultRoot).value 0 0 hr
        hlastF.lt (by omega) (by positivity)
  have hp1 : p = 1 := by
    apply eq_of_cast lp (by omega)
    rw [cp, hlastF.cast, ← pow_succ', show 2 * 2 ^ k - 1 + 1 = 2 ^ k * 2 by omega, pow_mul, hψ]
    simp
  have h0 : ord[0]? = some (ord.getD 0 defaultRoot) := by
    rw [List.getD_eq_getElem _ _ (by omega), List.getElem?_eq_getElem]
  obtain ⟨R, hR⟩ : ∃ R, R = (List.range (2 ^ k)).map (reverseBits k) := ⟨_, rfl⟩
  have hRlen : R.length = 2 ^ k := by rw [hR]; simp
  have hRget : ∀ i, i < 2 ^ k → R.getD i 0 = reverseBits k i := by
    intro i hi; rw [hR]; exact rev_getD hi
  have hRnd : R.Nodup := by rw [hR]; exact rev_nodup k
  have hmapget : ∀ i, i < 2 ^ k → (R.map (· + 1)).getD i 0 = reverseBits k i + 1 := by
    intro i hi
    rw [List.getD_eq_getElem _ _ (by simpa [hRlen] using hi), List.getElem_map, ← hRget i hi,
      List.getD_eq_getElem]
  obtain ⟨rp, erp, lrp, hrp, -⟩ := scatter_spec defaultRoot ((ord.take (2 ^ k)).zip R)
    ((List.replicate (2 ^ k) defaultRoot).set 0 (ord.getD 0 defaultRoot))
    (by
      intro x hx
      obtain ⟨i, _, hi, e⟩ := mem_zip_snd 0 hx
      rw [hRlen] at hi
      rw [e, hRget i hi, List.length_set, List.length_replicate]
      exact reverseBits_lt k i)
    (zip_snd_nodup _ _ hRnd)
  have hpredone : ∀ i, i + 1 < 2 ^ k → reverseBits k i + 1 < 2 ^ k := by
    intro i hi
    have h1 := reverseBits_lt k i
    have h3 : reverseBits k i ≠ 2 ^ k - 1 := by
      intro h
      have := reverseBits_inj (k := k) (i := i) (j := 2 ^ k - 1) (by omega) (by omega)
        (by rw [h, reverseBits_ones])
      omega
    omega
  have hdl : (ord.drop (2 ^ k + 1)).length = 2 ^ k - 1 := by
    rw [List.length_drop, hlen]; omega
  obtain ⟨irp, eirp, lirp, hirp, -⟩ := scatter_spec defaultRoot
    ((ord.drop (2 ^ k + 1)).reverse.zip (R.map (· + 1)))
    ((List.replicate (2 ^ k) defaultRoot).set 0 (ord.getD 0 defaultRoot))
    (by
      intro x hx
      obtain ⟨i, hi', hi, e⟩ := mem_zip_snd 0 hx
      rw [List.length_map, hRlen] at hi
      rw [List.length_reverse, hdl] at hi'
      rw [e, hmapget i hi, List.length_set, List.length_replicate]
      exact hpredone i (by omega))
    (zip_snd_nodup _ _ (hRnd.map (fun a b h => by simpa using h)))
  have hfu : fromUsize M (2 ^ k) = 2 ^ k := by unfold fromUsize; rw [hv, if_pos hn]
  obtain ⟨⟨iv, eiv, liv, civ⟩, -⟩ := C49_field_division w q C.even M C.conf 0 (2 ^ k) (by omega) hn
    (by omega)
  obtain ⟨dg, edg⟩ := exists_fac (w := w) liv
  have hdg := IsFac.of_new edg
  refine ⟨{ root := r, invRoot := (ord.getD (2 * 2 ^ k - 1) defaultRoot).value, logN := k,
            n := 2 ^ k, invDegree := dg, rootPowers := rp, invRootPowers := irp, ordinal := ord,
            rev := R }, ?_, rfl, ?_⟩
  · unfold new
    rw [mbind (shlC_one (by omega)), mbind hlast]
    dsimp only [fromRoot]
    rw [mbind ep, hp1]
    simp only [Fp.one, ne_eq, not_true_eq_false, if_false]
    rw [mbind h0, mbind (revTable_eq (by omega)), ← hR, if_pos (by omega), mbind erp, mbind eirp, hfu,
      mbind eiv]
    unfold toRoot
    rw [hv, mbind edg]
    rfl
  · subst hv
    refine ⟨rfl, rfl, hk, hR, hlen, ho, ?_, ?_, ?_, ?_, ⟨_, hdg, ?_⟩, hψ⟩
    · rw [lrp]; simp
    · intro c hc
      have hrc := reverseBits_lt k c
      have := hrp _ (getD_zip (i := reverseBits k c) defaultRoot 0
        (by rw [List.length_take]; omega) (by omega))
      rw [hRget _ hrc, reverseBits_invol hc] at this
      dsimp only at this ⊢
      rw [this, getD_take _ _ hrc]
      exact ho _ (by omega)
    · rw [lirp]; simp
    · intro x hx
      have hrc := hpredone x hx
      have := hirp _ (getD_zip (i := reverseBits k x) defaultRoot 0
        (by rw [List.length_reverse, hdl]; omega) (by rw [List.length_map]; omega))
      rw [hmapget _ (by omega), reverseBits_invol (by omega)] at this
      dsimp only at this ⊢
      rw [this, getD_reverse _ _ (by omega), getD_drop, hdl,
        show 2 ^ k + 1 + (2 ^ k - 1 - 1 - reverseBits k x) = 2 * 2 ^ k - (reverseBits k x + 1) by omega]
      exact ho _ (by omega)
    · rw [civ]
      apply inv_mul_cancel₀
      rw [Ne, ZMod.natCast_eq_zero_iff]
      intro hd
      have := Nat.le_of_dvd hpos hd
      omega

/-- `generate_ntt_table`: the error value exactly when no root was found; otherwise the table of the
smallest primitive `2n`-th root. -/
theorem generate_spec {w q : Nat} {M : Barrett} [Fact q.Prime] (C : Config w q M) {k : Nat}
    (hk : k < 63) (hkw : 2 ^ (k + 1) < 2 ^ w) (draws : List Nat)
    (hd : ∀ x ∈ draws, 2 ≤ x ∧ x < q) :
    ((2 ^ (k + 1) ∣ q - 1 ∧ ∃ x ∈ draws.take 100, ¬ IsSquare (x : ZMod q)) →
      ∃ t, generate w M k draws = some (some t) ∧
        IsLeast {y : Nat | y < q ∧ orderOf (y : ZMod q) = 2 ^ (k + 1)} t.root ∧
        IsTable w M t (t.root : ZMod M.value) k) ∧
    (¬ (2 ^ (k + 1) ∣ q - 1 ∧ ∃ x ∈ draws.take 100, ¬ IsSquare (x : ZMod q)) →
      generate w M k draws = some none) := by
  obtain ⟨t1, t2⟩ := C27_minimal_root w q C.even M C.conf k hkw draws hd
  have hmul : mulC 64 (2 ^ k) 2 = some (2 ^ (k + 1)) := by
    rw [mulC_eq (by rw [← pow_succ]; exact Nat.pow_lt_pow_right (by omega) (by omega)), pow_succ]
  constructor
  · intro hc
    obtain ⟨r, er, hl⟩ := t1 hc
    have hr : r < q := hl.1.1
    have hlt := pow2_dvd_lt C.two_le hc.1
    have hq2 : 2 < q := by have := Nat.one_lt_two_pow (n := k + 1) (by omega); omega
    obtain ⟨ord, eo, lo, ho⟩ := ordinalPowers_spec C hr hk
    obtain ⟨t, et, tr, T⟩ := new_spec C hr hk ((order_iff hq2 _).2 hl.1.2)
      (by rw [pow_succ] at hlt; omega) ord lo ho
    refine ⟨t, ?_, by rw [tr]; exact hl, by rw [tr]; exact T⟩
    unfold generate
    rw [mbind (shlC_one (by omega)), mbind hmul, if_pos hkw, mbind er]
    dsimp only
    rw [mbind eo, mbind et]
    rfl
  · intro hc
    unfold generate
    rw [mbind (shlC_one (by omega)), mbind hmul, if_pos hkw, mbind (t2 hc)]
    rfl

end Verif.Ntt
