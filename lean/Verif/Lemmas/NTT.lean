import Verif.Model.NTT
import Verif.Props.Shoup
import Verif.Props.Field
import Verif.Props.Reverse

/-! # Word level lemmas about the transform -/

namespace Verif

theorem mbind {α β : Type} {x : Option α} {a : α} (h : x = some a) (f : α → Option β) :
    (x >>= f) = f a := by
  rw [h]; rfl

end Verif

namespace Verif.Ntt
open Props

/-- `s` is the precomputed factor of the residue `x`. -/
structure IsFac (w q : Nat) (s : Shoup) (x : ZMod q) : Prop where
  lt : s.value < q
  new : Shoup.new w s.value q = some s
  cast : (s.value : ZMod q) = x

theorem IsFac.of_new {w q v : Nat} {s : Shoup} (h : Shoup.new w v q = some s) :
    IsFac w q s (v : ZMod q) := by
  have hv : v < q := ((C09_shoup_new w v q s).1).1 (by simp [h])
  have e : s.value = v := by
    unfold Shoup.new at h; rw [if_pos hv] at h; cases h; rfl
  exact ⟨by omega, by rw [e]; exact h, by rw [e]⟩

theorem exists_fac {w q v : Nat} (hv : v < q) : ∃ s, Shoup.new w v q = some s :=
  Option.ne_none_iff_exists'.1 ((C09_shoup_new w v q ⟨0, 0⟩).1.2 hv)

theorem IsFac.quotient_lt {w q : Nat} {s : Shoup} {x : ZMod q} (h : IsFac w q s x) :
    s.quotient < 2 ^ w := by
  have := h.new
  unfold Shoup.new at this
  rw [if_pos h.lt] at this
  injection this with e
  rw [← e]
  exact Nat.mod_lt _ (Nat.two_pow_pos w)

theorem natCast_eq_of_mod {q a b : Nat} (h : a % q = b % q) : (a : ZMod q) = b := by
  rw [ZMod.natCast_eq_natCast_iff']; exact h

theorem mulRootFast_spec {w q a : Nat} {s : Shoup} {x : ZMod q} (hq : 2 * q ≤ 2 ^ w)
    (h : IsFac w q s x) (ha : a < 2 ^ w) :
    ∃ r, mulRootFast w q a s = some r ∧ r < 2 * q ∧ (r : ZMod q) = x * a := by
  obtain ⟨r, e, hr, hm⟩ := C09_shoup_mul_lazy w s.value q a hq ha s h.new
  refine ⟨r, ?_, hr, ?_⟩
  · unfold Shoup.mulReduceLazy at e
    rw [wideningMulHwC_eq h.quotient_lt ha] at e
    unfold mulRootFast
    rw [wideningMulC_eq ha h.quotient_lt, Nat.mul_comm a]
    exact e
  · rw [natCast_eq_of_mod hm, Nat.cast_mul, h.cast]

theorem mulRoot_spec {w a : Nat} {M : Barrett} {s : Shoup} {x : ZMod M.value}
    (hq : 2 * M.value ≤ 2 ^ w) (h : IsFac w M.value s x) (ha : a < 2 ^ w) :
    ∃ r, Fp.mulRoot w M a s = some r ∧ r < M.value ∧ (r : ZMod M.value) = x * a := by
  have := C09_shoup_mul w s.value M.value a hq ha s h.new
  refine ⟨_, this, Nat.mod_lt _ (by have := h.lt; omega), ?_⟩
  rw [ZMod.natCast_mod, Nat.cast_mul, h.cast]

theorem shl1 {w q : Nat} (hw : 1 < w) (hq : 2 * q < 2 ^ w) : shlC w q 1 = some (2 * q) := by
  unfold shlC
  rw [if_pos hw, pow_one, Nat.mul_comm, Nat.mod_eq_of_lt hq]

theorem one_lt_of {w q : Nat} (h0 : 0 < q) (hq : 4 * q < 2 ^ w) : 1 < w := by
  by_contra hc
  interval_cases w <;> simp at hq <;> omega

theorem condSub_spec {q t a b : Nat} (ht : (t : ZMod q) = 0) (ha : a < t + b) (hb : t ≤ b) :
    ∃ r, condSub t a = some r ∧ r < b ∧ (r : ZMod q) = a := by
  unfold condSub
  split
  · next h =>
    refine ⟨_, subC_eq h, by omega, ?_⟩
    rw [Nat.cast_sub h, ht, sub_zero]
  · next h => exact ⟨a, rfl, by omega, rfl⟩

theorem cast_two_mul (q : Nat) : ((2 * q : Nat) : ZMod q) = 0 := by
  rw [Nat.cast_mul, ZMod.natCast_self, mul_zero]

theorem guard_spec {w q a : Nat} (h0 : 0 < q) (hq : 4 * q < 2 ^ w) (ha : a < 4 * q) :
    ∃ r, guard w q a = some r ∧ r < 2 * q ∧ (r : ZMod q) = a := by
  have h1 := one_lt_of h0 hq
  unfold guard
  rw [mbind (shl1 h1 (by omega))]
  exact condSub_spec (cast_two_mul q) (by omega) (by omega)

theorem normalize_spec {w q a : Nat} (h0 : 0 < q) (hq : 4 * q < 2 ^ w) (ha : a < 4 * q) :
    ∃ r, normalize w q a = some r ∧ r < q ∧ (r : ZMod q) = a := by
  have h1 := one_lt_of h0 hq
  unfold normalize
  rw [mbind (shl1 h1 (by omega))]
  obtain ⟨r, e, hr, hc⟩ := condSub_spec (q := q) (t := 2 * q) (a := a) (b := 2 * q) (cast_two_mul q)
    (by omega) (by omega)
  rw [mbind e, ← hc]
  exact condSub_spec (ZMod.natCast_self q) (by omega) (by omega)

theorem invNormalize_spec {q a : Nat} (ha : a < 2 * q) :
    ∃ r, invNormalize q a = some r ∧ r < q ∧ (r : ZMod q) = a :=
  condSub_spec (ZMod.natCast_self q) (by omega) (by omega)

theorem addFast_spec {w q a b : Nat} (h0 : 0 < q) (hq : 4 * q < 2 ^ w) (ha : a < 2 * q)
    (hb : b < 2 * q) :
    ∃ r, addFast w q a b = some r ∧ r < 2 * q ∧ (r : ZMod q) = a + b := by
  have h1 := one_lt_of h0 hq
  unfold addFast
  rw [mbind (addC_eq (w := w) (a := a) (b := b) (by omega)), mbind (shl1 h1 (by omega)),
    ← Nat.cast_add]
  exact condSub_spec (cast_two_mul q) (by omega) (by omega)

theorem subFast_spec {w q a b : Nat} (h0 : 0 < q) (hq : 4 * q < 2 ^ w) (ha : a < 2 * q)
    (hb : b < 2 * q) :
    ∃ r, subFast w q a b = some r ∧ r < 4 * q ∧ (r : ZMod q) = a - b := by
  have h1 := one_lt_of h0 hq
  unfold subFast
  rw [mbind (shl1 h1 (by omega)), mbind (addC_eq (w := w) (a := a) (b := 2 * q) (by omega))]
  refine ⟨_, subC_eq (by omega), by omega, ?_⟩
  rw [Nat.cast_sub (by omega), Nat.cast_add, cast_two_mul, add_zero]

theorem fwdButterfly_spec {w q : Nat} (h0 : 0 < q) (hq : 4 * q < 2 ^ w) (s : Shoup) (x : ZMod q)
    (i j : Nat) (hs : IsFac w q s x) (hi : i < 4 * q) (hj : j < 4 * q) :
    ∃ a b, fwdButterfly w q s i j = some (a, b) ∧ a < 4 * q ∧ b < 4 * q ∧
      ((a : ZMod q) = i + x * j ∧ (b : ZMod q) = i - x * j) := by
  obtain ⟨u, eu, hu, cu⟩ := guard_spec h0 hq hi
  obtain ⟨v, ev, hv, cv⟩ := mulRootFast_spec (a := j) (by omega) hs (by omega)
  obtain ⟨b, eb, hb, cb⟩ := subFast_spec (w := w) h0 hq hu hv
  refine ⟨u + v, b, ?_, by omega, hb, ?_, ?_⟩
  · unfold fwdButterfly addNoReduce
    rw [mbind eu, mbind ev, mbind (addC_eq (by omega)), mbind eb]
    rfl
  · rw [Nat.cast_add, cu, cv]
  · rw [cb, cu, cv]

theorem invButterfly_spec {w q : Nat} (h0 : 0 < q) (hq : 4 * q < 2 ^ w) (s : Shoup) (x : ZMod q)
    (i j : Nat) (hs : IsFac w q s x) (hi : i < 2 * q) (hj : j < 2 * q) :
    ∃ a b, invButterfly w q s i j = some (a, b) ∧ a < 2 * q ∧ b < 2 * q ∧
      ((a : ZMod q) = i + j ∧ (b : ZMod q) = x * (i - j)) := by
  obtain ⟨a, ea, ha, ca⟩ := addFast_spec (w := w) h0 hq hi hj
  obtain ⟨d, ed, hd, cd⟩ := subFast_spec (w := w) h0 hq hi hj
  obtain ⟨v, ev, hv, cv⟩ := mulRootFast_spec (a := d) (by omega) hs (by omega)
  refine ⟨a, v, ?_, ha, hv, ca, by rw [cv, cd]⟩
  unfold invButterfly
  rw [mbind ea, mbind ed, mbind ev]
  rfl

theorem lastButterfly_spec {w q : Nat} (h0 : 0 < q) (hq : 4 * q < 2 ^ w) (s t : Shoup)
    (x y : ZMod q) (hs : IsFac w q s x) (ht : IsFac w q t y)
    (i j : Nat) (hi : i < 2 * q) (hj : j < 2 * q) :
    ∃ a b, lastButterfly w q s t i j = some (a, b) ∧ a < 2 * q ∧ b < 2 * q ∧
      ((a : ZMod q) = x * (i + j) ∧ (b : ZMod q) = y * (i - j)) := by
  obtain ⟨a, ea, ha, ca⟩ := mulRootFast_spec (a := i + j) (by omega) hs (by omega)
  obtain ⟨d, ed, hd, cd⟩ := subFast_spec (w := w) h0 hq hi hj
  obtain ⟨v, ev, hv, cv⟩ := mulRootFast_spec (a := d) (by omega) ht (by omega)
  refine ⟨a, v, ?_, ha, hv, by rw [ca, Nat.cast_add], by rw [cv, cd]⟩
  unfold lastButterfly addNoReduce
  rw [mbind (addC_eq (by omega)), mbind ea, mbind ed, mbind ev]
  rfl

theorem zipButterfly_spec {f : Nat → Nat → Option (Nat × Nat)} {In Out : Nat → Prop}
    {R : Nat → Nat → Nat → Nat → Prop}
    (hf : ∀ i j, In i → In j → ∃ a b, f i j = some (a, b) ∧ Out a ∧ Out b ∧ R i j a b) :
    ∀ (is js : List Nat), is.length = js.length → (∀ x ∈ is, In x) → (∀ x ∈ js, In x) →
      ∃ as bs, zipButterfly f is js = some (as, bs) ∧ as.length = is.length ∧
        bs.length = is.length ∧ (∀ x ∈ as, Out x) ∧ (∀ x ∈ bs, Out x) ∧
        ∀ k, k < is.length → R (is.getD k 0) (js.getD k 0) (as.getD k 0) (bs.getD k 0)
  | [], [], _, _, _ => ⟨[], [], rfl, by simp⟩
  | i :: is, j :: js, hl, hi, hj => by
    obtain ⟨a, b, e, oa, ob, r⟩ := hf i j (hi i (by simp)) (hj j (by simp))
    obtain ⟨as, bs, e', l1, l2, o1, o2, r'⟩ := zipButterfly_spec hf is js (by simpa using hl)
      (fun x hx => hi x (by simp [hx])) (fun x hx => hj x (by simp [hx]))
    refine ⟨a :: as, b :: bs, ?_, by simp [l1], by simp [l2], by simpa using ⟨oa, o1⟩,
      by simpa using ⟨ob, o2⟩, ?_⟩
    · simp only [zipButterfly, e, e', Option.bind_eq_bind, Option.bind_some]; rfl
    · intro k hk
      cases k with
      | zero => simpa using r
      | succ k => simpa using r' k (by simpa using hk)

theorem getD_mem {α : Type} {l : List α} {k : Nat} (d : α) (h : k < l.length) : l.getD k d ∈ l := by
  rw [List.getD_eq_getElem _ _ h]; exact List.getElem_mem h

theorem getD_drop {α : Type} (l : List α) (m k : Nat) (d : α) :
    (l.drop m).getD k d = l.getD (m + k) d := by
  simp [List.getD_eq_getElem?_getD, List.getElem?_drop]

theorem getD_take {α : Type} (l : List α) {m k : Nat} (d : α) (h : k < m) :
    (l.take m).getD k d = l.getD k d := by
  simp [List.getD_eq_getElem?_getD, h]

theorem layer_spec {w q : Nat} {f : Shoup → Nat → Nat → Option (Nat × Nat)} {In Out : Nat → Prop}
    {R : ZMod q → Nat → Nat → Nat → Nat → Prop}
    (hf : ∀ s x i j, IsFac w q s x → In i → In j →
      ∃ a b, f s i j = some (a, b) ∧ Out a ∧ Out b ∧ R x i j a b) (gap : Nat) :
    ∀ (cnt : Nat) (roots : List Shoup) (vals : List Nat) (ρ : Nat → ZMod q),
      cnt ≤ roots.length → (∀ c, c < cnt → IsFac w q (roots.getD c defaultRoot) (ρ c)) →
      vals.length = cnt * (2 * gap) → (∀ x ∈ vals, In x) →
      ∃ out, layer f gap cnt roots vals = some (roots.drop cnt, out) ∧
        out.length = vals.length ∧ (∀ x ∈ out, Out x) ∧
        ∀ c i, c < cnt → i < gap →
          R (ρ c) (vals.getD (c * (2 * gap) + i) 0) (vals.getD (c * (2 * gap) + gap + i) 0)
            (out.getD (c * (2 * gap) + i) 0) (out.getD (c * (2 * gap) + gap + i) 0) := by
  intro cnt
  induction cnt with
  | zero =>
    intro roots vals ρ _ _ hl _
    have : vals = [] := by
      apply List.eq_nil_of_length_eq_zero; simpa using hl
    subst this
    exact ⟨[], rfl, rfl, by simp, by simp⟩
  | succ cnt ih =>
    intro roots vals ρ hr hρ hl hin
    match roots, hr with
    | r :: rs, hr =>
      have hlen : 2 * gap ≤ vals.length := by rw [hl]; nlinarith
      obtain ⟨as, bs, e, l1, l2, o1, o2, hR⟩ := zipButterfly_spec (f := f r) (R := R (ρ 0))
        (fun i j hi hj => hf r (ρ 0) i j (by simpa using hρ 0 (by omega)) hi hj)
        (vals.take gap) ((vals.drop gap).take gap) (by simp; omega)
        (fun x hx => hin x (List.mem_of_mem_take hx))
        (fun x hx => hin x (List.mem_of_mem_drop (List.mem_of_mem_take hx)))
      obtain ⟨out, e', l3, o3, hR'⟩ := ih rs (vals.drop (2 * gap)) (fun c => ρ (c + 1))
        (by simpa using hr) (fun c hc => by simpa using hρ (c + 1) (by omega))
        (by simp [hl]; rw [Nat.succ_mul]; omega) (fun x hx => hin x (List.mem_of_mem_drop hx))
      have la : as.length = gap := by rw [l1]; simp; omega
      have lb : bs.length = gap := by rw [l2]; simp; omega
      refine ⟨as ++ bs ++ out, ?_, ?_, ?_, ?_⟩
      · simp only [layer, e, e', Option.bind_eq_bind, Option.bind_some, List.drop_succ_cons]; rfl
      · simp [la, lb, l3]; omega
      · intro x hx
        simp only [List.mem_append] at hx
        rcases hx with (h | h) | h
        exacts [o1 x h, o2 x h, o3 x h]
      · intro c i hc hi
        cases c with
        | zero =>
          have h := hR i (by simp; omega)
          rw [getD_take _ _ hi, getD_take _ _ hi, getD_drop] at h
          have e1 : (as ++ bs ++ out).getD (0 * (2 * gap) + i) 0 = as.getD i 0 := by
            rw [List.append_assoc, List.getD_append _ _ _ _ (by omega)]; simp
          have e2 : (as ++ bs ++ out).getD (0 * (2 * gap) + gap + i) 0 = bs.getD i 0 := by
            rw [List.append_assoc, List.getD_append_right _ _ _ _ (by omega),
              List.getD_append _ _ _ _ (by omega)]
            congr 1; omega
          rw [e1, e2]
          simpa using h
        | succ c =>
          have h := hR' c i (by omega) hi
          rw [getD_drop, getD_drop] at h
          have e0 : (as ++ bs).length = 2 * gap := by simp [la, lb]; omega
          have k1 : 2 * gap + (c * (2 * gap) + i) = (c + 1) * (2 * gap) + i := by ring
          have k2 : 2 * gap + (c * (2 * gap) + gap + i) = (c + 1) * (2 * gap) + gap + i := by ring
          have e1 : ∀ j, (as ++ bs ++ out).getD (2 * gap + j) 0 = out.getD j 0 := by
            intro j
            rw [List.getD_append_right _ _ _ _ (by omega), e0]
            congr 1; omega
          rw [← k1, ← k2, e1, e1]
          exact h

end Verif.Ntt
