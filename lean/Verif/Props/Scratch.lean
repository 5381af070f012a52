import Verif.SpecScratch
import Verif.Props.Elementwise
import Verif.Props.BlindRotation

/-! # C80: work spaces never influence results -/

namespace Verif.Props
open Spec Scratch

theorem bind_some_iff {α β : Type} {o : Option α} {f : α → Option β} {b : β} :
    (o >>= f) = some b ↔ ∃ a, o = some a ∧ f a = some b := Option.bind_eq_some_iff

theorem mapM_keeps_length {α β : Type} {f : α → Option β} : ∀ {l : List α} {out : List β},
    l.mapM f = some out → out.length = l.length
  | [], out, h => by simp only [List.mapM_nil, Option.pure_def, Option.some.injEq] at h; simp [← h]
  | a :: l, out, h => by
    rw [List.mapM_cons] at h
    obtain ⟨b, _, h⟩ := bind_some_iff.1 h
    obtain ⟨bs, e, h⟩ := bind_some_iff.1 h
    simp only [Option.pure_def, Option.some.injEq] at h
    subst h
    simp [mapM_keeps_length e]

theorem zipButterfly_length {f : Nat → Nat → Option (Nat × Nat)} : ∀ {u v : List Nat} {o : List Nat × List Nat},
    Ntt.zipButterfly f u v = some o → o.1.length = u.length ∧ o.2.length = v.length
  | [], v, o, h => by simp only [Ntt.zipButterfly, Option.some.injEq] at h; simp [← h]
  | _ :: _, [], o, h => by simp only [Ntt.zipButterfly, Option.some.injEq] at h; simp [← h]
  | i :: is, j :: js, o, h => by
    rw [Ntt.zipButterfly] at h
    obtain ⟨⟨a, b⟩, _, h⟩ := bind_some_iff.1 h
    obtain ⟨⟨as, bs⟩, e, h⟩ := bind_some_iff.1 h
    simp only [Option.pure_def, Option.some.injEq] at h
    have := zipButterfly_length e
    simp [← h, this.1, this.2]

theorem layer_length {f : Shoup → Nat → Nat → Option (Nat × Nat)} {gap : Nat} :
    ∀ {cnt : Nat} {roots : List Shoup} {v : List Nat} {o : List Shoup × List Nat},
    2 * gap * cnt ≤ v.length → Ntt.layer f gap cnt roots v = some o → o.2.length = v.length
  | 0, _, _, o, _, h => by simp only [Ntt.layer, Option.some.injEq] at h; simp [← h]
  | cnt + 1, [], v, o, _, h => by simp [Ntt.layer] at h
  | cnt + 1, r :: rs, v, o, hl, h => by
    rw [Ntt.layer] at h
    obtain ⟨⟨a, b⟩, e, h⟩ := bind_some_iff.1 h
    obtain ⟨⟨rs', rest⟩, e', h⟩ := bind_some_iff.1 h
    simp only [Option.pure_def, Option.some.injEq] at h
    have h1 := zipButterfly_length e
    rw [Nat.mul_succ] at hl
    have h2 := layer_length (f := f) (by rw [List.length_drop]; omega) e'
    subst h
    simp only [List.length_append, h1.1, h1.2, h2, List.length_take, List.length_drop]
    omega

theorem fwdLoop_length {w q : Nat} : ∀ {x : Nat} {roots : List Shoup} {v : List Nat} {o : List Shoup × List Nat},
    Ntt.fwdLoop w q x roots v = some o → o.2.length = v.length
  | 0, _, _, o, h => by simp only [Ntt.fwdLoop, Option.some.injEq] at h; simp [← h]
  | x + 1, roots, v, o, h => by
    rw [Ntt.fwdLoop] at h
    obtain ⟨gap, _, h⟩ := bind_some_iff.1 h
    obtain ⟨⟨roots', v'⟩, e, h⟩ := bind_some_iff.1 h
    have hd : 2 * gap * (v.length / (gap * 2)) ≤ v.length := by
      rw [Nat.mul_comm 2 gap]; exact Nat.mul_div_le _ _
    rw [fwdLoop_length h, layer_length hd e]

theorem invLoop_length {w q : Nat} : ∀ {k x : Nat} {roots : List Shoup} {v : List Nat} {o : List Shoup × List Nat},
    Ntt.invLoop w q x k roots v = some o → o.2.length = v.length
  | 0, _, _, _, o, h => by simp only [Ntt.invLoop, Option.some.injEq] at h; simp [← h]
  | k + 1, x, roots, v, o, h => by
    rw [Ntt.invLoop] at h
    obtain ⟨gap, _, h⟩ := bind_some_iff.1 h
    obtain ⟨⟨roots', v'⟩, e, h⟩ := bind_some_iff.1 h
    have hd : 2 * gap * (v.length / (gap * 2)) ≤ v.length := by
      rw [Nat.mul_comm 2 gap]; exact Nat.mul_div_le _ _
    rw [invLoop_length h, layer_length hd e]

/-- C80: the tables of this code base transform slices in place. -/
theorem C80_native_tables (R : Ctx) (h : ∀ j t, R.tbl j = some t → ∃ t', t = .native t') : SliceTables R := by
  intro j t ht
  obtain ⟨t, rfl⟩ := h j t ht
  refine ⟨fun v out e => ?_, fun v out e => ?_, fun d len out e => ?_⟩
  · simp only [Table.transform, Ntt.transform] at e
    obtain ⟨n, _, e⟩ := bind_some_iff.1 e
    split at e
    · simp at e
    · obtain ⟨⟨rs, u⟩, e1, e⟩ := bind_some_iff.1 e
      rw [mapM_keeps_length e, fwdLoop_length e1]
  · simp only [Table.inverse, Ntt.inverse] at e
    obtain ⟨n, _, e⟩ := bind_some_iff.1 e
    split at e
    · simp at e
    · obtain ⟨k, _, e⟩ := bind_some_iff.1 e
      obtain ⟨⟨rs, u⟩, e1, e⟩ := bind_some_iff.1 e
      obtain ⟨gap, _, e⟩ := bind_some_iff.1 e
      obtain ⟨r, _, e⟩ := bind_some_iff.1 e
      obtain ⟨sr, _, e⟩ := bind_some_iff.1 e
      obtain ⟨s, _, e⟩ := bind_some_iff.1 e
      obtain ⟨⟨a, b⟩, e2, e⟩ := bind_some_iff.1 e
      have h2 := zipButterfly_length e2
      have h1 := invLoop_length e1
      rw [mapM_keeps_length e, List.length_append, h2.1, h2.2, ← List.length_append, List.take_append_drop, h1]
  · simp only [Table.negOneMonomial, Ntt.negOneMonomial, Ntt.negOneMonomialWith] at e
    split at e
    · obtain ⟨m, _, e⟩ := bind_some_iff.1 e
      simp only [Option.pure_def, Option.some.injEq] at e
      simp [← e]
    · split at e
      · simp at e
      · rename_i hl
        rw [mapM_keeps_length e]
        omega

theorem digitsInto_eq {w : Nat} {B : Basis} : ∀ {dec p : List Nat}, dec.length = p.length →
    digitsInto w B dec p = Poly.decomposeLsb w B p
  | [], [], _ => rfl
  | _ :: _, [], h => by simp at h
  | [], _ :: _, h => by simp at h
  | _ :: ds, x :: xs, h => by
    rw [digitsInto, Poly.decomposeLsb, digitsInto_eq (by simpa using h)]

theorem decomposeLsb_length {w : Nat} {B : Basis} : ∀ {p : List Nat} {o : List Nat × List Nat},
    Poly.decomposeLsb w B p = some o → o.1.length = p.length ∧ o.2.length = p.length
  | [], o, h => by simp only [Poly.decomposeLsb, Option.some.injEq] at h; simp [← h]
  | x :: xs, o, h => by
    rw [Poly.decomposeLsb] at h
    obtain ⟨⟨d, x'⟩, _, h⟩ := bind_some_iff.1 h
    obtain ⟨⟨ds, xs'⟩, e, h⟩ := bind_some_iff.1 h
    simp only [Option.pure_def, Option.some.injEq] at h
    have := decomposeLsb_length e
    simp [← h, this.1, this.2]

theorem slice_table {R : Ctx} (hR : SliceTables R) {n : Nat} {t : Table} (ht : Poly.tableFor R.tbl n = some t) :
    (∀ v out, Table.transform R.w R.M t v = some out → out.length = v.length) ∧
    (∀ v out, Table.inverse R.w R.M t v = some out → out.length = v.length) ∧
    ∀ d len out, Table.negOneMonomial R.M t d len = some out → out.length = len := by
  unfold Poly.tableFor at ht
  split at ht
  · exact hR _ _ ht
  · simp at ht

/-- The loop without spaces, for any accumulator. -/
def pureLoop {G S : Type} (R : Ctx) (B : Basis) (t : Table) (acc : S → G → List Nat → Option S) :
    List G → List Nat → S → Option S
  | [], _, x => some x
  | g :: gs, p, x => do
    let (d, p) ← Poly.decomposeLsb R.w B p
    let d ← Table.transform R.w R.M t d
    let x ← acc x g d
    pureLoop R B t acc gs p x

theorem loop_spec {G S : Type} {R : Ctx} (hR : SliceTables R) {B : Basis} {n : Nat} {t : Table}
    (ht : Poly.tableFor R.tbl n = some t) {acc : S → G → List Nat → Option S} :
    ∀ (gs : List G) (s : Spaces) (x : S), Spaces.Sized n s →
      (gadgetLoop R B t acc gs s x).map Prod.snd = pureLoop R B t acc gs s.poly x ∧
      ∀ o, gadgetLoop R B t acc gs s x = some o → Spaces.Sized n o.1
  | [], s, x, hs => ⟨rfl, fun o e => by simp only [gadgetLoop, Option.some.injEq] at e; simpa [← e] using hs⟩
  | g :: gs, s, x, hs => by
    have hl : s.dec.length = s.poly.length := hs.1.trans hs.2.symm
    simp only [gadgetLoop, pureLoop, decomposeInto, hl, if_true, digitsInto_eq hl]
    cases e1 : Poly.decomposeLsb R.w B s.poly with
    | none => simp
    | some o =>
      obtain ⟨d, p⟩ := o
      have h1 := decomposeLsb_length e1
      simp only [Option.bind_eq_bind, Option.bind_some]
      cases e2 : Table.transform R.w R.M t d with
      | none => simp
      | some d' =>
        have h2 := (slice_table hR ht).1 _ _ e2
        simp only [Option.bind_some]
        cases e3 : acc x g d' with
        | none => simp
        | some x' =>
          simp only [Option.bind_some]
          exact loop_spec hR ht gs ⟨d', p⟩ x' ⟨by rw [h2, h1.1, hs.2], by rw [h1.2, hs.2]⟩

theorem pureLoop_eq {G : Type} {R : Ctx} {B : Basis} {n : Nat} {t : Table}
    (ht : Poly.tableFor R.tbl n = some t) {acc : NTTRLWE → G → List Nat → Option NTTRLWE} :
    ∀ (gs : List G) (p : List Nat) (x : NTTRLWE), p.length = n →
      pureLoop R B t acc gs p x = NTTRLWE.gadgetLoop R B acc gs p x
  | [], _, _, _ => rfl
  | g :: gs, p, x, hp => by
    simp only [pureLoop, NTTRLWE.gadgetLoop]
    cases e1 : Poly.decomposeLsb R.w B p with
    | none => rfl
    | some o =>
      obtain ⟨d, p'⟩ := o
      have h1 := decomposeLsb_length e1
      simp only [Option.bind_eq_bind, Option.bind_some, Poly.toNtt, h1.1, hp, ht]
      cases Table.transform R.w R.M t d with
      | none => rfl
      | some d' =>
        simp only [Option.bind_some]
        cases acc x g d' with
        | none => rfl
        | some x' => exact pureLoop_eq ht gs p' x' (by rw [h1.2, hp])

/-- A run with spaces and a run without: both panic, or both give the same result. -/
def Runs {S : Type} (n : Nat) (o : Option (Spaces × S)) (o' : Option S) : Prop :=
  (o = none ∧ o' = none) ∨ ∃ s x, o = some (s, x) ∧ o' = some x ∧ Spaces.Sized n s

theorem loop_runs {G S : Type} {R : Ctx} (hR : SliceTables R) {B : Basis} {n : Nat} {t : Table}
    (ht : Poly.tableFor R.tbl n = some t) {acc : S → G → List Nat → Option S} (gs : List G) (s : Spaces) (x : S)
    (hs : Spaces.Sized n s) : Runs n (gadgetLoop R B t acc gs s x) (pureLoop R B t acc gs s.poly x) := by
  obtain ⟨h1, h2⟩ := loop_spec hR (B := B) ht (acc := acc) gs s x hs
  cases e : gadgetLoop R B t acc gs s x with
  | none => rw [e] at h1; exact Or.inl ⟨rfl, h1.symm⟩
  | some o => rw [e] at h1; exact Or.inr ⟨o.1, o.2, rfl, h1.symm, h2 o e⟩

theorem fma_length {f : Nat → Nat → Nat → Option Nat} : ∀ {a b c o : List Nat},
    Poly.fmaAssign f a b c = some o → o.length = a.length
  | [], _, _, o, h => by simp only [Poly.fmaAssign, Option.some.injEq] at h; simp [← h]
  | _ :: _, [], _, o, h => by simp only [Poly.fmaAssign, Option.some.injEq] at h; simp [← h]
  | _ :: _, _ :: _, [], o, h => by simp only [Poly.fmaAssign, Option.some.injEq] at h; simp [← h]
  | a :: as, b :: bs, c :: cs, o, h => by
    rw [Poly.fmaAssign] at h
    obtain ⟨d, _, h⟩ := bind_some_iff.1 h
    obtain ⟨ds, e, h⟩ := bind_some_iff.1 h
    simp only [Option.pure_def, Option.some.injEq] at h
    simp [← h, fma_length e]

theorem zipAssign_length {f : Nat → Nat → Option Nat} : ∀ {a b o : List Nat},
    Poly.zipAssign f a b = some o → o.length = a.length
  | [], _, o, h => by simp only [Poly.zipAssign, Option.some.injEq] at h; simp [← h]
  | _ :: _, [], o, h => by simp only [Poly.zipAssign, Option.some.injEq] at h; simp [← h]
  | a :: as, b :: bs, o, h => by
    rw [Poly.zipAssign] at h
    obtain ⟨d, _, h⟩ := bind_some_iff.1 h
    obtain ⟨ds, e, h⟩ := bind_some_iff.1 h
    simp only [Option.pure_def, Option.some.injEq] at h
    simp [← h, zipAssign_length e]

theorem addMul_sized {R : Ctx} {n : Nat} {x g y : NTTRLWE} {d : List Nat} (hx : SizedNTT n x)
    (h : NTTRLWE.addMul R x g d = some y) : SizedNTT n y := by
  obtain ⟨a, e1, h⟩ := bind_some_iff.1 h
  obtain ⟨b, e2, h⟩ := bind_some_iff.1 h
  simp only [Option.pure_def, Option.some.injEq] at h
  subst h
  exact ⟨(fma_length e1).trans hx.1, (fma_length e2).trans hx.2⟩

theorem addMulFast_sized {R : Ctx} {n : Nat} {x g y : NTTRLWE} {d : List Nat} (hx : SizedNTT n x)
    (h : NTTRLWE.addMulFast R x g d = some y) : SizedNTT n y := by
  obtain ⟨a, e1, h⟩ := bind_some_iff.1 h
  obtain ⟨b, e2, h⟩ := bind_some_iff.1 h
  simp only [Option.pure_def, Option.some.injEq] at h
  subst h
  exact ⟨(fma_length e1).trans hx.1, (fma_length e2).trans hx.2⟩

theorem gadgetLoop_sized {G : Type} {R : Ctx} {B : Basis} {n : Nat} {acc : NTTRLWE → G → List Nat → Option NTTRLWE}
    (ha : ∀ x g d y, SizedNTT n x → acc x g d = some y → SizedNTT n y) :
    ∀ {gs : List G} {p : List Nat} {x y : NTTRLWE}, SizedNTT n x →
      NTTRLWE.gadgetLoop R B acc gs p x = some y → SizedNTT n y
  | [], _, _, _, hx, h => by simp only [NTTRLWE.gadgetLoop, Option.some.injEq] at h; simpa [← h] using hx
  | g :: gs, p, x, y, hx, h => by
    rw [NTTRLWE.gadgetLoop] at h
    obtain ⟨⟨d, p'⟩, _, h⟩ := bind_some_iff.1 h
    obtain ⟨d', _, h⟩ := bind_some_iff.1 h
    obtain ⟨x', e, h⟩ := bind_some_iff.1 h
    exact gadgetLoop_sized ha (ha _ _ _ _ hx e) h

theorem setZero_sized {n : Nat} {x : NTTRLWE} (hx : SizedNTT n x) : x.setZero = NTTRLWE.zero n :=
  NTTRLWE.setZero_eq hx.1 hx.2

theorem zero_sized (n : Nat) : SizedNTT n (NTTRLWE.zero n) := by simp [SizedNTT, NTTRLWE.zero, Poly.zero]

/-- A product without spaces; the operand must have length `n`. -/
def pureProduct (R : Ctx) (n : Nat) (acc : NTTRLWE → NTTRLWE → List Nat → Option NTTRLWE) (g : NTTGadgetRLWE)
    (p : List Nat) (x : NTTRLWE) : Option NTTRLWE :=
  if p.length = n then (Poly.tableFor R.tbl n).bind fun _ => NTTRLWE.gadgetLoop R g.basis acc g.data p x
  else none

theorem product_runs {R : Ctx} (hR : SliceTables R) {n : Nat}
    {acc : NTTRLWE → NTTRLWE → List Nat → Option NTTRLWE} (g : NTTGadgetRLWE) (p dec : List Nat) (x : NTTRLWE)
    (hd : dec.length = n) (hp : p.length = n) :
    Runs n ((Poly.tableFor R.tbl p.length).bind fun t => gadgetLoop R g.basis t acc g.data ⟨dec, p⟩ x)
      (pureProduct R n acc g p x) := by
  rw [pureProduct, if_pos hp, hp]
  cases ht : Poly.tableFor R.tbl n with
  | none => exact Or.inl ⟨rfl, rfl⟩
  | some t =>
    simp only [Option.bind_some]
    rw [← pureLoop_eq ht g.data p x hp]
    exact loop_runs hR ht g.data ⟨dec, p⟩ x ⟨hd, hp⟩

theorem copied_runs {R : Ctx} (hR : SliceTables R) {n : Nat}
    {acc : NTTRLWE → NTTRLWE → List Nat → Option NTTRLWE} (g : NTTGadgetRLWE) (p : List Nat) (s : Spaces)
    (x : NTTRLWE) (hs : Spaces.Sized n s) :
    Runs n ((Poly.tableFor R.tbl p.length).bind fun t => (copyFrom s.poly p).bind fun poly =>
        gadgetLoop R g.basis t acc g.data ⟨s.dec, poly⟩ x)
      (pureProduct R n acc g p x) := by
  by_cases hp : p.length = n
  · have := product_runs hR (acc := acc) g p s.dec x hs.1 hp
    simpa only [copyFrom, hs.2, hp, if_true, Option.bind_some] using this
  · have h0 : copyFrom s.poly p = none := by rw [copyFrom, if_neg (by rw [hs.2]; exact fun h => hp h.symm)]
    refine Or.inl ⟨?_, by rw [pureProduct, if_neg hp]⟩
    cases Poly.tableFor R.tbl p.length <;> simp [h0]

theorem pureProduct_sized {R : Ctx} {n : Nat} {acc : NTTRLWE → NTTRLWE → List Nat → Option NTTRLWE}
    (ha : ∀ x g d y, SizedNTT n x → acc x g d = some y → SizedNTT n y) {g : NTTGadgetRLWE} {p : List Nat}
    {x y : NTTRLWE} (hx : SizedNTT n x) (h : pureProduct R n acc g p x = some y) : SizedNTT n y := by
  unfold pureProduct at h
  split at h
  · obtain ⟨_, _, h⟩ := Option.bind_eq_some_iff.1 h
    exact gadgetLoop_sized ha hx h
  · simp at h

section Calls
variable {R : Ctx} (hR : SliceTables R) {n : Nat} {s : Spaces} (hs : Spaces.Sized n s)
include hR hs

theorem mulPolynomialInplace_runs (g : NTTGadgetRLWE) (p : List Nat) {dest : NTTRLWE} (hd : SizedNTT n dest) :
    Runs n (mulPolynomialInplace R g p s dest) (pureProduct R n (NTTRLWE.addMul R) g p (NTTRLWE.zero n)) := by
  rw [← setZero_sized hd]
  exact copied_runs hR g p s _ hs

theorem mulPolynomialInplaceFast_runs (g : NTTGadgetRLWE) (p : List Nat) {dest : NTTRLWE} (hd : SizedNTT n dest) :
    Runs n (mulPolynomialInplaceFast R g p s dest)
      (pureProduct R n (NTTRLWE.addMulFast R) g p (NTTRLWE.zero n)) := by
  rw [← setZero_sized hd]
  exact copied_runs hR g p s _ hs

theorem addAssignGadget_runs (x : NTTRLWE) (g : NTTGadgetRLWE) (p : List Nat) :
    Runs n (addAssignGadget R x g p s) (pureProduct R n (NTTRLWE.addMul R) g p x) := by
  unfold addAssignGadget
  split
  · exact copied_runs hR g p s _ hs
  · rename_i h
    exact Or.inl ⟨rfl, by rw [pureProduct, if_neg (by rw [← hs.2]; exact h)]⟩

theorem addAssignGadgetFast_runs (x : NTTRLWE) (g : NTTGadgetRLWE) (p : List Nat) :
    Runs n (addAssignGadgetFast R x g p s) (pureProduct R n (NTTRLWE.addMulFast R) g p x) := by
  unfold addAssignGadgetFast
  split
  · exact copied_runs hR g p s _ hs
  · rename_i h
    exact Or.inl ⟨rfl, by rw [pureProduct, if_neg (by rw [← hs.2]; exact h)]⟩

/-- The external product without spaces, into `dest`. -/
def pureExternal (R : Ctx) (n : Nat) (x : RLWE) (g : NTTRGSW) (dest : RLWE) : Option (RLWE × NTTRLWE) := do
  let m ← pureProduct R n (NTTRLWE.addMulFast R) g.cNegSM x.a (NTTRLWE.zero n)
  let m ← pureProduct R n (NTTRLWE.addMulFast R) g.cM x.b m
  let r ← inverseInto R m dest
  return (r, m)

theorem mulNttRgswInplace_runs (x : RLWE) (g : NTTRGSW) {median : NTTRLWE} (hm : SizedNTT n median) (dest : RLWE) :
    (mulNttRgswInplace R x g s median dest = none ∧ pureExternal R n x g dest = none) ∨
    ∃ r s' m, mulNttRgswInplace R x g s median dest = some (r, s', m) ∧ pureExternal R n x g dest = some (r, m) ∧
      Spaces.Sized n s' ∧ SizedNTT n m := by
  unfold mulNttRgswInplace pureExternal
  rcases mulPolynomialInplaceFast_runs hR hs g.cNegSM x.a hm with ⟨e, e'⟩ | ⟨s1, m1, e, e', h1⟩
  · exact Or.inl (by simp [e, e'])
  have hm1 := pureProduct_sized (fun _ _ _ _ => addMulFast_sized) (zero_sized n) e'
  rcases addAssignGadgetFast_runs hR h1 m1 g.cM x.b with ⟨e2, e2'⟩ | ⟨s2, m2, e2, e2', h2⟩
  · exact Or.inl (by simp [e, e', e2, e2'])
  have hm2 := pureProduct_sized (fun _ _ _ _ => addMulFast_sized) hm1 e2'
  cases e3 : inverseInto R m2 dest with
  | none => exact Or.inl (by simp [e, e', e2, e2', e3])
  | some r => exact Or.inr ⟨r, s2, m2, by simp [e, e2, e3], by simp [e', e2', e3], h2, hm2⟩

theorem mulAssignNttRgsw_runs (x : RLWE) (g : NTTRGSW) {median : NTTRLWE} (hm : SizedNTT n median) :
    (mulAssignNttRgsw R x g s median = none ∧ pureExternal R n x g x = none) ∨
    ∃ r s' m, mulAssignNttRgsw R x g s median = some (r, s', m) ∧ pureExternal R n x g x = some (r, m) ∧
      Spaces.Sized n s' ∧ SizedNTT n m := mulNttRgswInplace_runs hR hs x g hm x

end Calls

/-- What a call computes, without spaces. -/
def pureCall (R : Ctx) (n : Nat) : Call → Option Reply
  | .product x g => (pureExternal R n x g x).map fun o => .coefficients o.1
  | .productInto x g dest => (pureExternal R n x g dest).map fun o => .coefficients o.1
  | .gadget g p => (pureProduct R n (NTTRLWE.addMul R) g p (NTTRLWE.zero n)).map .values
  | .gadgetFast g p => (pureProduct R n (NTTRLWE.addMulFast R) g p (NTTRLWE.zero n)).map .values
  | .add x g p => (pureProduct R n (NTTRLWE.addMul R) g p x).map .values
  | .addFast x g p => (pureProduct R n (NTTRLWE.addMulFast R) g p x).map .values

theorem perform_runs {R : Ctx} (hR : SliceTables R) {n : Nat} {W : Work} (hW : Work.Sized n W) (c : Call) :
    (perform R W c = none ∧ pureCall R n c = none) ∨
    ∃ W' r, perform R W c = some (W', r) ∧ pureCall R n c = some r ∧ Work.Sized n W' := by
  cases c with
  | product x g =>
    rcases mulAssignNttRgsw_runs hR hW.1 x g hW.2 with ⟨e, e'⟩ | ⟨r, s, m, e, e', h1, h2⟩
    · exact Or.inl (by simp [perform, pureCall, e, e'])
    · exact Or.inr ⟨⟨s, m⟩, .coefficients r, by simp [perform, e], by simp [pureCall, e'], h1, h2⟩
  | productInto x g dest =>
    rcases mulNttRgswInplace_runs hR hW.1 x g hW.2 dest with ⟨e, e'⟩ | ⟨r, s, m, e, e', h1, h2⟩
    · exact Or.inl (by simp [perform, pureCall, e, e'])
    · exact Or.inr ⟨⟨s, m⟩, .coefficients r, by simp [perform, e], by simp [pureCall, e'], h1, h2⟩
  | gadget g p =>
    rcases mulPolynomialInplace_runs hR hW.1 g p hW.2 with ⟨e, e'⟩ | ⟨s, m, e, e', h1⟩
    · exact Or.inl (by simp [perform, pureCall, e, e'])
    · exact Or.inr ⟨⟨s, m⟩, .values m, by simp [perform, e], by simp [pureCall, e'], h1,
        pureProduct_sized (fun _ _ _ _ => addMul_sized) (zero_sized n) e'⟩
  | gadgetFast g p =>
    rcases mulPolynomialInplaceFast_runs hR hW.1 g p hW.2 with ⟨e, e'⟩ | ⟨s, m, e, e', h1⟩
    · exact Or.inl (by simp [perform, pureCall, e, e'])
    · exact Or.inr ⟨⟨s, m⟩, .values m, by simp [perform, e], by simp [pureCall, e'], h1,
        pureProduct_sized (fun _ _ _ _ => addMulFast_sized) (zero_sized n) e'⟩
  | add x g p =>
    rcases addAssignGadget_runs hR hW.1 x g p with ⟨e, e'⟩ | ⟨s, m, e, e', h1⟩
    · exact Or.inl (by simp [perform, pureCall, e, e'])
    · exact Or.inr ⟨⟨s, W.median⟩, .values m, by simp [perform, e], by simp [pureCall, e'], h1, hW.2⟩
  | addFast x g p =>
    rcases addAssignGadgetFast_runs hR hW.1 x g p with ⟨e, e'⟩ | ⟨s, m, e, e', h1⟩
    · exact Or.inl (by simp [perform, pureCall, e, e'])
    · exact Or.inr ⟨⟨s, W.median⟩, .values m, by simp [perform, e], by simp [pureCall, e'], h1, hW.2⟩

theorem fresh_sized (n : Nat) : Work.Sized n (Work.fresh n) := by
  simp [Work.Sized, Work.fresh, Spaces.Sized, Spaces.new, Poly.zero, SizedNTT, NTTRLWE.zero]

/-- C80: one call. Whatever the spaces hold, the reply, or the panic, is that of a call with new spaces. -/
theorem C80_call {R : Ctx} (hR : SliceTables R) {n : Nat} {W : Work} (hW : Work.Sized n W) (c : Call) :
    (perform R W c).map Prod.snd = (perform R (Work.fresh n) c).map Prod.snd := by
  rcases perform_runs hR hW c with ⟨e, e'⟩ | ⟨W1, r, e, e', _⟩ <;>
    rcases perform_runs hR (fresh_sized n) c with ⟨f, f'⟩ | ⟨W2, r', f, f', _⟩
  · simp [e, f]
  · rw [e'] at f'; simp at f'
  · rw [e'] at f'; simp at f'
  · rw [e'] at f'; simp only [Option.some.injEq] at f'; simp [e, f, f']

/-- C80: any number of calls with the same spaces give the replies that each call gives alone with new spaces. -/
theorem C80_history {R : Ctx} (hR : SliceTables R) {n : Nat} : ∀ (calls : List Call) {W : Work}, Work.Sized n W →
    performAll R W calls = calls.mapM fun c => (perform R (Work.fresh n) c).map Prod.snd
  | [], _, _ => rfl
  | c :: cs, W, hW => by
    rw [performAll, List.mapM_cons, ← C80_call hR hW c]
    rcases perform_runs hR hW c with ⟨e, _⟩ | ⟨W', r, e, _, hW'⟩
    · simp [e]
    · simp only [e, Option.bind_eq_bind, Option.bind_some, Option.map_some, C80_history hR cs hW']

theorem inverseInto_eq {R : Ctx} {n : Nat} {x : NTTRLWE} {dest : RLWE} (hx : SizedNTT n x) (hd : SizedRLWE n dest) :
    inverseInto R x dest = NTTRLWE.toCoeff R x := by
  simp only [inverseInto, NTTRLWE.toCoeff, Poly.ofNtt, copyFrom, hd.1, hd.2, hx.1, hx.2, if_true]
  cases Poly.tableFor R.tbl n <;> rfl

theorem toCoeff_sized {R : Ctx} (hR : SliceTables R) {n : Nat} {x : NTTRLWE} {r : RLWE} (hx : SizedNTT n x)
    (h : NTTRLWE.toCoeff R x = some r) : SizedRLWE n r := by
  simp only [NTTRLWE.toCoeff, Poly.ofNtt, hx.1, hx.2] at h
  cases ht : Poly.tableFor R.tbl n with
  | none => simp [ht] at h
  | some t =>
    rw [ht] at h
    obtain ⟨a, e1, h⟩ := bind_some_iff.1 h
    obtain ⟨b, e2, h⟩ := bind_some_iff.1 h
    simp only [Option.pure_def, Option.some.injEq] at h
    subst h
    exact ⟨((slice_table hR ht).2.1 _ _ e1).trans hx.1, ((slice_table hR ht).2.1 _ _ e2).trans hx.2⟩

theorem toCoeff_none {R : Ctx} {n : Nat} {x : NTTRLWE} (hx : SizedNTT n x) (ht : Poly.tableFor R.tbl n = none) :
    NTTRLWE.toCoeff R x = none := by
  simp [NTTRLWE.toCoeff, Poly.ofNtt, hx.1, ht]

theorem pureExternal_eq {R : Ctx} {n : Nat} {x dest : RLWE} (g : NTTRGSW) {median : NTTRLWE}
    (hx : SizedRLWE n x) (hd : SizedRLWE n dest) (hm : SizedNTT n median) :
    pureExternal R n x g dest = RLWE.mulAssignNttRgsw R x g median := by
  have hz := setZero_sized hm
  simp only [pureExternal, pureProduct, hx.1, hx.2, if_true, RLWE.mulAssignNttRgsw, NTTGadgetRLWE.mulPolynomialFast,
    NTTRLWE.addGadgetMulFast, hz]
  cases ht : Poly.tableFor R.tbl n with
  | none =>
    simp only [Option.bind_none, Option.bind_eq_bind]
    cases e1 : NTTRLWE.gadgetLoop R g.cNegSM.basis (NTTRLWE.addMulFast R) g.cNegSM.data x.a (NTTRLWE.zero n) with
    | none => rfl
    | some m1 =>
      have h1 := gadgetLoop_sized (fun _ _ _ _ => addMulFast_sized) (zero_sized n) e1
      simp only [Option.bind_some]
      cases e2 : NTTRLWE.gadgetLoop R g.cM.basis (NTTRLWE.addMulFast R) g.cM.data x.b m1 with
      | none => rfl
      | some m2 =>
        have h2 := gadgetLoop_sized (fun _ _ _ _ => addMulFast_sized) h1 e2
        simp [toCoeff_none h2 ht]
  | some t =>
    simp only [Option.bind_some, Option.bind_eq_bind]
    cases e1 : NTTRLWE.gadgetLoop R g.cNegSM.basis (NTTRLWE.addMulFast R) g.cNegSM.data x.a (NTTRLWE.zero n) with
    | none => rfl
    | some m1 =>
      have h1 := gadgetLoop_sized (fun _ _ _ _ => addMulFast_sized) (zero_sized n) e1
      simp only [Option.bind_some]
      cases e2 : NTTRLWE.gadgetLoop R g.cM.basis (NTTRLWE.addMulFast R) g.cM.data x.b m1 with
      | none => rfl
      | some m2 =>
        have h2 := gadgetLoop_sized (fun _ _ _ _ => addMulFast_sized) h1 e2
        simp only [Option.bind_some, inverseInto_eq h2 hd]

theorem pureExternal_sized {R : Ctx} (hR : SliceTables R) {n : Nat} {x dest : RLWE} {g : NTTRGSW}
    {o : RLWE × NTTRLWE} (hd : SizedRLWE n dest) (h : pureExternal R n x g dest = some o) : SizedRLWE n o.1 := by
  obtain ⟨m1, e1, h⟩ := bind_some_iff.1 h
  obtain ⟨m2, e2, h⟩ := bind_some_iff.1 h
  obtain ⟨r, e3, h⟩ := bind_some_iff.1 h
  simp only [Option.pure_def, Option.some.injEq] at h
  subst h
  have h1 := pureProduct_sized (fun _ _ _ _ => addMulFast_sized) (zero_sized n) e1
  have h2 := pureProduct_sized (fun _ _ _ _ => addMulFast_sized) h1 e2
  rw [inverseInto_eq h2 hd] at e3
  exact toCoeff_sized hR h2 e3

/-- C80: the external product that the theorems on phases (C37) speak about is the one with spaces, whatever they
hold; the same goes for the product with a separate destination, whatever that holds. -/
theorem C80_external_product {R : Ctx} (hR : SliceTables R) {n : Nat} {s : Spaces} (hs : Spaces.Sized n s)
    {x dest : RLWE} (hx : SizedRLWE n x) (hd : SizedRLWE n dest) (g : NTTRGSW) {median median' : NTTRLWE}
    (hm : SizedNTT n median) (hm' : SizedNTT n median') :
    (mulAssignNttRgsw R x g s median).map (fun o => (o.1, o.2.2)) = RLWE.mulAssignNttRgsw R x g median' ∧
    (mulNttRgswInplace R x g s median dest).map Prod.fst = RLWE.mulNttRgswInplace R x g median' := by
  constructor
  · rw [← pureExternal_eq g hx hx hm']
    rcases mulAssignNttRgsw_runs hR hs x g hm with ⟨e, e'⟩ | ⟨r, s', m, e, e', _, _⟩ <;> simp [e, e']
  · rw [RLWE.mulNttRgswInplace, ← pureExternal_eq g hx hd hm']
    rcases mulNttRgswInplace_runs hR hs x g hm dest with ⟨e, e'⟩ | ⟨r, s', m, e, e', _, _⟩ <;> simp [e, e']

/-- C80: the gadget products of the theorems on phases (C36) are the ones with spaces, whatever these hold. The length
`n` is one the field has a transform table for. -/
theorem C80_gadget_products {R : Ctx} (hR : SliceTables R) {n : Nat} {t : Table}
    (ht : Poly.tableFor R.tbl n = some t) {s : Spaces} (hs : Spaces.Sized n s) {p : List Nat} (hp : p.length = n)
    (g : NTTGadgetRLWE) (x : NTTRLWE) {dest : NTTRLWE} (hd : SizedNTT n dest) :
    (mulPolynomialInplace R g p s dest).map Prod.snd = NTTGadgetRLWE.mulPolynomialInplace R g p (NTTRLWE.zero n) ∧
    (mulPolynomialInplaceFast R g p s dest).map Prod.snd = NTTGadgetRLWE.mulPolynomialFast R g p (NTTRLWE.zero n) ∧
    (addAssignGadget R x g p s).map Prod.snd = NTTRLWE.addGadgetMul R x g p ∧
    (addAssignGadgetFast R x g p s).map Prod.snd = NTTRLWE.addGadgetMulFast R x g p ∧
    (addAssignGadgetInplaceFast R x g p s.dec).map Prod.snd = NTTRLWE.addGadgetMulFast R x g p ∧
    (subAssignGadget R x g p s.dec).map Prod.snd = NTTRLWE.subGadgetMul R x g p ∧
    (subAssignGadgetFast R x g p s.dec).map Prod.snd = NTTRLWE.subGadgetMulFast R x g p := by
  have hz := setZero_sized (zero_sized n)
  have key : ∀ {o : Option (Spaces × NTTRLWE)} {o' : Option NTTRLWE}, Runs n o o' → o.map Prod.snd = o' := by
    rintro o o' (⟨rfl, rfl⟩ | ⟨s, x, rfl, rfl, _⟩) <;> rfl
  have pp : ∀ acc x, pureProduct R n acc g p x = NTTRLWE.gadgetLoop R g.basis acc g.data p x := by
    intro acc x; rw [pureProduct, if_pos hp, ht]; rfl
  have neg : ∀ acc, Option.map Prod.snd ((Poly.tableFor R.tbl p.length).bind fun t => (Poly.neg R.M p).bind fun p =>
      gadgetLoop R g.basis t acc g.data ⟨s.dec, p⟩ x) =
      (Poly.neg R.M p).bind fun p => NTTRLWE.gadgetLoop R g.basis acc g.data p x := by
    intro acc
    rw [hp, ht, Option.bind_some]
    cases e : Poly.neg R.M p with
    | none => rfl
    | some p' =>
      have hl : p'.length = n := (mapM_keeps_length e).trans hp
      have := key (product_runs hR (acc := acc) g p' s.dec x hs.1 hl)
      rw [pureProduct, if_pos hl, hl, ht] at this
      exact this
  refine ⟨?_, ?_, ?_, ?_, ?_, neg _, neg _⟩
  · rw [key (mulPolynomialInplace_runs hR hs g p hd), pp, NTTGadgetRLWE.mulPolynomialInplace, hz]
  · rw [key (mulPolynomialInplaceFast_runs hR hs g p hd), pp, NTTGadgetRLWE.mulPolynomialFast, hz]
  · rw [key (addAssignGadget_runs hR hs x g p), pp, NTTRLWE.addGadgetMul]
  · rw [key (addAssignGadgetFast_runs hR hs x g p), pp, NTTRLWE.addGadgetMulFast]
  · have := key (product_runs hR (acc := NTTRLWE.addMulFast R) g p s.dec x hs.1 hp)
    rw [pp] at this
    exact this

theorem mulNttInto_eq {R : Ctx} (hR : SliceTables R) {n : Nat} {t : Table} (ht : Poly.tableFor R.tbl n = some t)
    (x : RLWE) {p : List Nat} (hp : p.length = n) {dest : NTTRLWE} (hd : SizedNTT n dest) :
    mulNttInto R x p dest = RLWE.mulNtt R x p ∧ ∀ y, RLWE.mulNtt R x p = some y → SizedNTT n y := by
  unfold RLWE.mulNtt
  by_cases hx : x.a.length = n ∧ x.b.length = n
  · simp only [mulNttInto, copyFrom, hd.1, hd.2, hp, hx.1, hx.2, ht, if_true, true_and, Poly.toNtt,
      Option.bind_eq_bind, Option.bind_some, and_self]
    intro y h
    obtain ⟨a, e1, h⟩ := bind_some_iff.1 h
    obtain ⟨b, e2, h⟩ := bind_some_iff.1 h
    obtain ⟨a', e3, h⟩ := bind_some_iff.1 h
    obtain ⟨b', e4, h⟩ := bind_some_iff.1 h
    simp only [Option.pure_def, Option.some.injEq] at h
    subst h
    have la := ((slice_table hR ht).1 _ _ e1).trans hx.1
    have lb := ((slice_table hR ht).1 _ _ e2).trans hx.2
    unfold Poly.nttMul at e3 e4
    rw [if_pos (by rw [la, hp])] at e3
    rw [if_pos (by rw [lb, hp])] at e4
    exact ⟨(zipAssign_length e3).trans la, (zipAssign_length e4).trans lb⟩
  · rw [if_neg (by rw [hp]; exact hx)]
    refine ⟨?_, by simp⟩
    simp only [mulNttInto, hp, ht, Option.bind_eq_bind, Option.bind_some, copyFrom, hd.1, hd.2]
    by_cases ha : x.a.length = n
    · have hb : ¬ n = x.b.length := fun h => hx ⟨ha, h.symm⟩
      simp [ha, hb]
    · have ha' : ¬ n = x.a.length := fun h => ha h.symm
      simp [ha']

theorem accumulate_loop {R : Ctx} (hR : SliceTables R) {B : Basis} {n : Nat} {t : Table}
    (ht : Poly.tableFor R.tbl n = some t) : ∀ (gs : List RLWE) (p : List Nat) (x temp : NTTRLWE), p.length = n →
    SizedNTT n temp → (pureLoop R B t (accumulate R) gs p (x, temp)).map Prod.fst =
      NTTRLWE.gadgetLoop R B (GadgetRLWE.accumulate R) gs p x
  | [], _, _, _, _, _ => rfl
  | g :: gs, p, x, temp, hp, htemp => by
    simp only [pureLoop, NTTRLWE.gadgetLoop]
    cases e1 : Poly.decomposeLsb R.w B p with
    | none => rfl
    | some o =>
      obtain ⟨d, p'⟩ := o
      have h1 := decomposeLsb_length e1
      simp only [Option.bind_eq_bind, Option.bind_some, Poly.toNtt, h1.1, hp, ht]
      cases e2 : Table.transform R.w R.M t d with
      | none => rfl
      | some d' =>
        have h2 := (slice_table hR ht).1 _ _ e2
        obtain ⟨e3, h3⟩ := mulNttInto_eq hR ht g (p := d') (by rw [h2, h1.1, hp]) htemp
        simp only [Option.bind_some, accumulate, GadgetRLWE.accumulate, e3, Option.bind_eq_bind]
        cases e4 : RLWE.mulNtt R g d' with
        | none => rfl
        | some y =>
          simp only [Option.bind_some]
          cases NTTRLWE.add R x y with
          | none => rfl
          | some x' => exact accumulate_loop hR ht gs p' x' y (by rw [h1.2, hp]) (h3 y e4)

/-- C80: the products of gadget ciphertexts in coefficient form, whose loops reuse a decomposition space and a
temporary ciphertext, are the ones of the theorems on phases (C36). -/
theorem C80_coefficient_products {R : Ctx} (hR : SliceTables R) {p : List Nat} {t : Table}
    (ht : Poly.tableFor R.tbl p.length = some t) (g : GadgetRLWE) (x : RLWE) :
    gadgetMul R g p = GadgetRLWE.mulPolynomial R g p ∧ gadgetMulAdd R g p x = GadgetRLWE.mulPolynomialAdd R g p x := by
  have key : ∀ y, ((gadgetLoop R g.basis t (accumulate R) g.data ⟨Poly.zero p.length, p⟩
      (y, NTTRLWE.zero p.length)).bind fun o => NTTRLWE.toCoeff R o.2.1) =
      (NTTRLWE.gadgetLoop R g.basis (GadgetRLWE.accumulate R) g.data p y).bind (NTTRLWE.toCoeff R) := by
    intro y
    rw [← accumulate_loop hR ht g.data p y (NTTRLWE.zero p.length) rfl (zero_sized _)]
    rcases loop_runs hR (B := g.basis) ht (acc := accumulate R) g.data ⟨Poly.zero p.length, p⟩
      (y, NTTRLWE.zero p.length) ⟨by simp [Poly.zero], rfl⟩ with ⟨e, e'⟩ | ⟨s, x, e, e', _⟩ <;>
      simp only at e' <;> simp [e, e']
  constructor
  · simp only [gadgetMul, GadgetRLWE.mulPolynomial, ht, Option.bind_eq_bind, Option.bind_some]
    exact key _
  · simp only [gadgetMulAdd, GadgetRLWE.mulPolynomialAdd, ht, Option.bind_eq_bind, Option.bind_some]
    cases RLWE.toNtt R x with
    | none => rfl
    | some y => exact key y

theorem rotate_sized {f g : Nat → Nat → Option Nat} {x y o : List Nat} {r s : Nat}
    (h : RLWE.rotate f g x y r s = some o) : o.length = x.length := by
  unfold RLWE.rotate at h
  split at h
  · obtain ⟨lo, e1, h⟩ := bind_some_iff.1 h
    obtain ⟨hi, e2, h⟩ := bind_some_iff.1 h
    simp only [Option.pure_def, Option.some.injEq] at h
    rw [← h, List.length_append, zipAssign_length e1, zipAssign_length e2, ← List.length_append,
      List.take_append_drop]
  · simp at h

theorem subAssign_sized {w : Nat} {M : Barrett} {a b o : List Nat} (h : Poly.subAssign w M a b = some o) :
    o.length = a.length := by
  unfold Poly.subAssign at h
  split at h
  · exact zipAssign_length h
  · simp at h

theorem polyAdd_sized {w : Nat} {M : Barrett} {a b o : List Nat} (h : Poly.add w M a b = some o) :
    o.length = a.length := by
  unfold Poly.add at h
  split at h
  · exact zipAssign_length h
  · simp at h

theorem rotateSub_sized {R : Ctx} {x y o : List Nat} {r s : Nat} (h : RLWE.rotateSub R x y r s = some o) :
    o.length = x.length := by
  obtain ⟨z, e, h⟩ := bind_some_iff.1 h
  rw [subAssign_sized h, rotate_sized e]

theorem rotateSub'_sized {R : Ctx} {x y o : List Nat} {r s : Nat} (h : RLWE.rotateSub' R x y r s = some o) :
    o.length = x.length := by
  obtain ⟨z, e, h⟩ := bind_some_iff.1 h
  rw [subAssign_sized h, rotate_sized e]

theorem monomial_sized {R : Ctx} {n m r : Nat} {x dest o : RLWE} (hd : SizedRLWE m dest)
    (h : RLWE.mulMonomialSubOne R x n r dest = some o) : SizedRLWE m o := by
  unfold RLWE.mulMonomialSubOne at h
  split at h
  · obtain ⟨a, e1, h⟩ := bind_some_iff.1 h
    obtain ⟨b, e2, h⟩ := bind_some_iff.1 h
    simp only [Option.pure_def, Option.some.injEq] at h
    subst h
    exact ⟨(rotateSub_sized e1).trans hd.1, (rotateSub_sized e2).trans hd.2⟩
  · obtain ⟨s, _, h⟩ := bind_some_iff.1 h
    obtain ⟨a, e1, h⟩ := bind_some_iff.1 h
    obtain ⟨b, e2, h⟩ := bind_some_iff.1 h
    simp only [Option.pure_def, Option.some.injEq] at h
    subst h
    exact ⟨(rotateSub'_sized e1).trans hd.1, (rotateSub'_sized e2).trans hd.2⟩

theorem rlweAdd_sized {R : Ctx} {n : Nat} {x y o : RLWE} (hx : SizedRLWE n x) (h : RLWE.add R x y = some o) :
    SizedRLWE n o := by
  obtain ⟨a, e1, h⟩ := bind_some_iff.1 h
  obtain ⟨b, e2, h⟩ := bind_some_iff.1 h
  simp only [Option.pure_def, Option.some.injEq] at h
  subst h
  exact ⟨(polyAdd_sized e1).trans hx.1, (polyAdd_sized e2).trans hx.2⟩

theorem zipAssign_overwrites {f : Nat → Option Nat} : ∀ {d d' y : List Nat}, d.length = y.length →
    d'.length = y.length → Poly.zipAssign (fun _ v => f v) d y = Poly.zipAssign (fun _ v => f v) d' y
  | [], [], [], _, _ => rfl
  | [], _ :: _, [], _, h => by simp at h
  | _ :: _, _, [], h, _ => by simp at h
  | [], _, _ :: _, h, _ => by simp at h
  | _ :: _, [], _ :: _, _, h => by simp at h
  | _ :: d, _ :: d', y :: ys, h, h' => by
    rw [Poly.zipAssign, Poly.zipAssign, zipAssign_overwrites (d := d) (d' := d') (by simpa using h) (by simpa using h')]

theorem rotate_overwrites {f g : Nat → Option Nat} {d d' y : List Nat} {n r : Nat} (hd : d.length = n)
    (hd' : d'.length = n) (hy : y.length = n) (hr : r ≤ n) :
    RLWE.rotate (fun _ v => f v) (fun _ v => g v) d y r (n - r) =
      RLWE.rotate (fun _ v => f v) (fun _ v => g v) d' y r (n - r) := by
  unfold RLWE.rotate
  rw [hd, hd', zipAssign_overwrites (d := d.take r) (d' := d'.take r), zipAssign_overwrites (d := d.drop r)
    (d' := d'.drop r)]
  all_goals simp only [List.length_take, List.length_drop]; omega

/-- C80: the product with a monomial minus one overwrites its destination. -/
theorem C80_monomial_destination {R : Ctx} {n : Nat} {x dest dest' : RLWE} (hx : SizedRLWE n x)
    (hd : SizedRLWE n dest) (hd' : SizedRLWE n dest') (r : Nat) :
    RLWE.mulMonomialSubOne R x n r dest = RLWE.mulMonomialSubOne R x n r dest' := by
  unfold RLWE.mulMonomialSubOne
  split
  · rename_i hr
    simp only [RLWE.rotateSub, rotate_overwrites (d := dest.a) (d' := dest'.a) hd.1 hd'.1 hx.1 hr,
      rotate_overwrites (d := dest.b) (d' := dest'.b) hd.2 hd'.2 hx.2 hr]
  · unfold subC
    split
    · rename_i hr
      simp only [RLWE.rotateSub', Option.bind_eq_bind, Option.bind_some, rotate_overwrites (d := dest.a) (d' := dest'.a) hd.1 hd'.1 hx.1 hr,
        rotate_overwrites (d := dest.b) (d' := dest'.b) hd.2 hd'.2 hx.2 hr]
    · rfl

/-- The states of the loop with all spaces and of the loop of `BlindRotation`. -/
def Agree (n : Nat) (st : State) (st' : BlindRotation.State) : Prop :=
  st.acc = st'.acc ∧ st.ext = st'.ext ∧ st.median = st'.median ∧ SizedRLWE n st.acc ∧ SizedRLWE n st.ext ∧
    SizedNTT n st.median ∧ Spaces.Sized n st.spaces

theorem update_agree {R : Ctx} (hR : SliceTables R) {n : Nat} {st : State} {st' : BlindRotation.State}
    (h : Agree n st st') (key : NTTRGSW) (m a : Nat) :
    (update R m st key a = none ∧ BlindRotation.update R m st' key a = none) ∨
    ∃ o o', update R m st key a = some o ∧ BlindRotation.update R m st' key a = some o' ∧ Agree n o o' := by
  obtain ⟨h1, h2, h3, h4, h5, h6, h7⟩ := h
  obtain ⟨acc, ext, median⟩ := st'
  simp only at h1 h2 h3
  subst h1 h2 h3
  simp only [update, BlindRotation.update]
  cases e1 : RLWE.mulMonomialSubOne R st.acc m a st.ext with
  | none => exact Or.inl ⟨rfl, rfl⟩
  | some x =>
    have hx := monomial_sized h5 e1
    simp only [Option.bind_eq_bind, Option.bind_some]
    rw [← pureExternal_eq key hx hx h6]
    rcases mulAssignNttRgsw_runs hR h7 x key h6 with ⟨e, e'⟩ | ⟨r, s, md, e, e', hs, hmd⟩
    · exact Or.inl (by simp [e, e'])
    · have hr := pureExternal_sized hR hx e'
      simp only [e, e', Option.bind_some]
      cases e2 : RLWE.add R st.acc r with
      | none => exact Or.inl ⟨rfl, rfl⟩
      | some y => exact Or.inr ⟨_, _, rfl, rfl, rfl, rfl, rfl, rlweAdd_sized h4 e2, hr, hmd, hs⟩

theorem binary_loop_agree {R : Ctx} (hR : SliceTables R) {n m : Nat} : ∀ (key : List NTTRGSW) (as : List Nat)
    {st : State} {st' : BlindRotation.State}, Agree n st st' →
    (loop (binaryStep R m) key as st = none ∧ BlindRotation.loop (BlindRotation.binaryStep R m) key as st' = none) ∨
    ∃ o o', loop (binaryStep R m) key as st = some o ∧
      BlindRotation.loop (BlindRotation.binaryStep R m) key as st' = some o' ∧ Agree n o o'
  | [], _, st, st', h => Or.inr ⟨st, st', by simp [loop], by simp [BlindRotation.loop], h⟩
  | _ :: _, [], st, st', h => Or.inr ⟨st, st', by simp [loop], by simp [BlindRotation.loop], h⟩
  | k :: ks, a :: as, st, st', h => by
    rw [loop, BlindRotation.loop]
    simp only [binaryStep, BlindRotation.binaryStep]
    by_cases ha : a = 0
    · simp only [ha, if_true, Option.bind_eq_bind, Option.bind_some]
      exact binary_loop_agree hR ks as h
    · simp only [ha, if_false]
      rcases update_agree hR h k m a with ⟨e, e'⟩ | ⟨o, o', e, e', h'⟩
      · exact Or.inl (by simp [e, e'])
      · simp only [e, e', Option.bind_eq_bind, Option.bind_some]
        exact binary_loop_agree hR ks as h'

theorem init_agree (lut : List Nat) : Agree lut.length (init lut) (BlindRotation.init lut) := by
  refine ⟨rfl, rfl, rfl, ?_, ?_, ?_, ?_⟩ <;>
    simp [init, SizedRLWE, SizedNTT, Spaces.Sized, Poly.zero, NTTRLWE.zero, Spaces.new]

/-- C80: the rotation with a binary key, which reuses all its spaces in every step, is the one of the theorems on
blind rotation (C38). -/
theorem C80_binary_rotation {R : Ctx} (hR : SliceTables R) (key : List NTTRGSW) (lut : List Nat) (lwe : LWE) :
    Scratch.binary R key lut lwe = BlindRotation.binary R key lut lwe := by
  unfold Scratch.binary BlindRotation.binary
  cases BlindRotation.rotateLut R lut lwe.b with
  | none => rfl
  | some l =>
    simp only [Option.bind_eq_bind, Option.bind_some]
    rcases binary_loop_agree hR (m := l.length) key lwe.a (init_agree l) with ⟨e, e'⟩ | ⟨o, o', e, e', h⟩
    · simp [e, e']
    · simp [e, e', h.1]

theorem zipInto_mapM {α β : Type} {f : α → α → β → Option β} {g : α × α → Option β} : ∀ {xs ys : List α} {ds : List β},
    xs.length = ds.length → ys.length = ds.length →
    (∀ x ∈ xs, ∀ y ∈ ys, ∀ d ∈ ds, f x y d = g (x, y)) → zipInto f xs ys ds = (xs.zip ys).mapM g
  | [], [], [], _, _, _ => rfl
  | _ :: _, _, [], h, _, _ => by simp at h
  | _, _ :: _, [], _, h, _ => by simp at h
  | [], _, _ :: _, h, _, _ => by simp at h
  | _, [], _ :: _, _, h, _ => by simp at h
  | x :: xs, y :: ys, d :: ds, h1, h2, hf => by
    rw [zipInto, List.zip_cons_cons, List.mapM_cons, hf x (by simp) y (by simp) d (by simp),
      zipInto_mapM (by simpa using h1) (by simpa using h2)
        (fun x hx y hy d hd => hf x (by simp [hx]) y (by simp [hy]) d (by simp [hd]))]

theorem gadget_into {R : Ctx} {n : Nat} {B : Basis} {g h dest : NTTGadgetRLWE} (hg : SizedGadget n B g)
    (hh : SizedGadget n B h) (hd : SizedGadget n B dest) {p : List Nat} (hp : p.length = n) :
    NTTGadgetRLWE.addMulNttInplace R g h p dest = NTTGadgetRLWE.addMulNtt R g h p ∧
    ∀ o, NTTGadgetRLWE.addMulNtt R g h p = some o → SizedGadget n B o := by
  constructor
  · rw [NTTGadgetRLWE.addMulNttInplace, NTTGadgetRLWE.addMulNtt, hg.1, hd.1,
      zipInto_mapM (g := fun x => NTTRLWE.addMul R x.1 x.2 p) (by rw [hg.2.1, hd.2.1]) (by rw [hh.2.1, hd.2.1])]
    intro x hx y hy d hd'
    have h1 := hg.2.2 x hx
    have h2 := hh.2.2 y hy
    have h3 := hd.2.2 d hd'
    rw [NTTRLWE.addMulInplace, NTTRLWE.addMul,
      nttAddMulInplace_eq _ _ _ _ (by rw [h1.1, h2.1]) (by rw [h1.1, hp]) (by rw [h1.1, h3.1]),
      nttAddMulInplace_eq _ _ _ _ (by rw [h1.2, h2.2]) (by rw [h1.2, hp]) (by rw [h1.2, h3.2])]
  · intro o e
    obtain ⟨data, e1, e2⟩ := bind_some_iff.1 e
    simp only [Option.pure_def, Option.some.injEq] at e2
    subst e2
    refine ⟨hg.1, ?_, ?_⟩
    · rw [mapM_keeps_length e1, List.length_zip, hg.2.1, hh.2.1, Nat.min_self]
    · have : ∀ (l : List (NTTRLWE × NTTRLWE)) (out : List NTTRLWE), (∀ z ∈ l, SizedNTT n z.1) →
          l.mapM (fun x => NTTRLWE.addMul R x.1 x.2 p) = some out → ∀ x ∈ out, SizedNTT n x := by
        intro l
        induction l with
        | nil => intro out _ e x hx; simp only [List.mapM_nil, Option.pure_def, Option.some.injEq] at e; subst e; simp at hx
        | cons z l ih =>
          intro out hl e
          rw [List.mapM_cons] at e
          obtain ⟨y, e1, e⟩ := bind_some_iff.1 e
          obtain ⟨ys, e2, e⟩ := bind_some_iff.1 e
          simp only [Option.pure_def, Option.some.injEq] at e
          subst e
          intro x hx
          rcases List.mem_cons.1 hx with rfl | hx
          · exact addMul_sized (hl z (by simp)) e1
          · exact ih ys (fun z hz => hl z (by simp [hz])) e2 x hx
      exact this _ _ (fun z hz => hg.2.2 _ (List.of_mem_zip hz).1) e1

theorem rgsw_into {R : Ctx} {n : Nat} {B : Basis} {g h dest : NTTRGSW} (hg : SizedRgsw n B g) (hh : SizedRgsw n B h)
    (hd : SizedRgsw n B dest) {p : List Nat} (hp : p.length = n) :
    NTTRGSW.addMulNttInplace R g h p dest = NTTRGSW.addMulNtt R g h p ∧
    ∀ o, NTTRGSW.addMulNtt R g h p = some o → SizedRgsw n B o := by
  obtain ⟨e1, s1⟩ := gadget_into (R := R) hg.1 hh.1 hd.1 hp
  obtain ⟨e2, s2⟩ := gadget_into (R := R) hg.2 hh.2 hd.2 hp
  refine ⟨by rw [NTTRGSW.addMulNttInplace, NTTRGSW.addMulNtt, e1, e2], fun o e => ?_⟩
  obtain ⟨c0, f0, e⟩ := bind_some_iff.1 e
  obtain ⟨c1, f1, e⟩ := bind_some_iff.1 e
  simp only [Option.pure_def, Option.some.injEq] at e
  subst e
  exact ⟨s1 _ f0, s2 _ f1⟩

theorem ternary_loop_agree {R : Ctx} (hR : SliceTables R) {n : Nat} {B : Basis} {t : Table}
    (ht : Poly.tableFor R.tbl n = some t) : ∀ (key : List (NTTRGSW × NTTRGSW)) (as : List Nat),
    (∀ k ∈ key, SizedRgsw n B k.1 ∧ SizedRgsw n B k.2) →
    ∀ {st : State × NTTRGSW} {st' : BlindRotation.State}, Agree n st.1 st' → SizedRgsw n B st.2 →
    (loop (ternaryStep R t n) key as st = none ∧
      BlindRotation.loop (BlindRotation.ternaryStep R t n) key as st' = none) ∨
    ∃ o o', loop (ternaryStep R t n) key as st = some o ∧
      BlindRotation.loop (BlindRotation.ternaryStep R t n) key as st' = some o' ∧ Agree n o.1 o'
  | [], _, _, st, st', h, _ => Or.inr ⟨st, st', by simp [loop], by simp [BlindRotation.loop], h⟩
  | _ :: _, [], _, st, st', h, _ => Or.inr ⟨st, st', by simp [loop], by simp [BlindRotation.loop], h⟩
  | k :: ks, a :: as, hk, st, st', h, hek => by
    rw [loop, BlindRotation.loop]
    simp only [ternaryStep, BlindRotation.ternaryStep]
    have hks : ∀ k ∈ ks, SizedRgsw n B k.1 ∧ SizedRgsw n B k.2 := fun k hk' => hk k (by simp [hk'])
    by_cases ha : a = 0
    · simp only [ha, if_true, Option.bind_eq_bind, Option.bind_some]
      exact ternary_loop_agree hR ht ks as hks h hek
    · simp only [ha, if_false]
      cases subC (2 * n) a with
      | none => exact Or.inl (by simp)
      | some negA =>
        simp only [Option.bind_eq_bind, Option.bind_some, h.2.2.2.2.2.2.1]
        cases e1 : Table.negOneMonomial R.M t negA n with
        | none => exact Or.inl (by simp)
        | some dec =>
          have hdec := (slice_table hR ht).2.2 _ _ _ e1
          obtain ⟨hk1, hk2⟩ := hk k (by simp)
          obtain ⟨f1, f2⟩ := rgsw_into (R := R) hk1 hk2 hek hdec
          simp only [Option.bind_some, f1]
          cases e2 : NTTRGSW.addMulNtt R k.1 k.2 dec with
          | none => exact Or.inl (by simp)
          | some ek =>
            simp only [Option.bind_some]
            have h' : Agree n { st.1 with spaces := ⟨dec, st.1.spaces.poly⟩ } st' :=
              ⟨h.1, h.2.1, h.2.2.1, h.2.2.2.1, h.2.2.2.2.1, h.2.2.2.2.2.1, hdec, h.2.2.2.2.2.2.2⟩
            rcases update_agree hR h' ek n a with ⟨e, e'⟩ | ⟨o, o', e, e', h''⟩
            · exact Or.inl (by simp [e, e'])
            · simp only [e, e', Option.bind_some, Option.pure_def]
              exact ternary_loop_agree hR ht ks as hks (st := (o, ek)) h'' (f2 ek e2)

theorem rotateLut_length {R : Ctx} {lut o : List Nat} {b : Nat} (h : BlindRotation.rotateLut R lut b = some o) :
    o.length = lut.length := by
  unfold BlindRotation.rotateLut at h
  split at h
  · simp only [Option.some.injEq] at h; rw [h]
  · obtain ⟨nb, _, h⟩ := bind_some_iff.1 h
    split at h
    · obtain ⟨s, _, h⟩ := bind_some_iff.1 h
      obtain ⟨hd, e, h⟩ := bind_some_iff.1 h
      simp only [Option.pure_def, Option.some.injEq] at h
      rw [← h, List.length_append, mapM_keeps_length e, Nat.add_comm, ← List.length_append, List.take_append_drop]
    · obtain ⟨s, _, h⟩ := bind_some_iff.1 h
      obtain ⟨tl, e, h⟩ := bind_some_iff.1 h
      simp only [Option.pure_def, Option.some.injEq] at h
      rw [← h, List.length_append, mapM_keeps_length e, Nat.add_comm, ← List.length_append, List.take_append_drop]

/-- C80: the rotation with a ternary key made for basis `B`, which also reuses the space of the combined key element,
is the one of the theorems on blind rotation (C38). -/
theorem C80_ternary_rotation {R : Ctx} (hR : SliceTables R) (B : Basis) (key : List (NTTRGSW × NTTRGSW))
    (lut : List Nat) (lwe : LWE)
    (hk : ∀ k ∈ key, SizedRgsw lut.length B k.1 ∧ SizedRgsw lut.length B k.2) :
    Scratch.ternary R B key lut lwe = BlindRotation.ternary R key lut lwe := by
  unfold Scratch.ternary BlindRotation.ternary
  cases ht : Poly.tableFor R.tbl lut.length with
  | none => rfl
  | some t =>
    simp only [Option.bind_eq_bind, Option.bind_some]
    cases e0 : BlindRotation.rotateLut R lut lwe.b with
    | none => rfl
    | some l =>
      have hl := rotateLut_length e0
      simp only [Option.bind_some]
      have hz : SizedGadget l.length B (NTTGadgetRLWE.zero l.length B) := by
        refine ⟨rfl, by simp [NTTGadgetRLWE.zero], fun x hx => ?_⟩
        simp only [NTTGadgetRLWE.zero, List.mem_map] at hx
        obtain ⟨_, _, rfl⟩ := hx
        exact zero_sized _
      rw [← hl] at hk ht
      rcases ternary_loop_agree hR ht key lwe.a hk (st := (init l, NTTRGSW.zero l.length B)) (init_agree l)
        ⟨hz, hz⟩ with ⟨e, e'⟩ | ⟨o, o', e, e', h⟩
      · simp [e, e']
      · simp [e, e', h.1]

theorem chunks_length {n : Nat} {l p : List Nat} (hp : p ∈ RlweSwitch.chunks n l) : p.length = n := by
  simp only [RlweSwitch.chunks, List.mem_map, List.mem_range] at hp
  obtain ⟨c, hc, rfl⟩ := hp
  have h1 : (c + 1) * n ≤ l.length := le_trans (Nat.mul_le_mul_right n hc) (Nat.div_mul_le_self _ _)
  rw [Nat.add_mul] at h1
  simp only [List.length_take, List.length_drop]
  omega

theorem switch_loop_runs {R : Ctx} (hR : SliceTables R) {n : Nat} {t : Table} (ht : Poly.tableFor R.tbl n = some t) :
    ∀ (key : List NTTGadgetRLWE) (ps : List (List Nat)) (s : Spaces) (x : NTTRLWE), (∀ p ∈ ps, p.length = n) →
      Spaces.Sized n s → Runs n (switchLoop R key ps s x) (RlweSwitch.loop R key ps x)
  | [], _, s, x, _, hs => Or.inr ⟨s, x, by simp [switchLoop], by simp [RlweSwitch.loop], hs⟩
  | _ :: _, [], s, x, _, hs => Or.inr ⟨s, x, by simp [switchLoop], by simp [RlweSwitch.loop], hs⟩
  | g :: gs, p :: ps, s, x, hps, hs => by
    have hp := hps p (by simp)
    rw [switchLoop, RlweSwitch.loop]
    simp only [copyFrom, hs.2, hp, if_true, Option.bind_eq_bind, Option.bind_some, subAssignGadgetFast, ht,
      NTTRLWE.subGadgetMulFast]
    cases e : Poly.neg R.M p with
    | none => exact Or.inl (by simp)
    | some p' =>
      have hl : p'.length = n := (mapM_keeps_length e).trans hp
      simp only [Option.bind_some]
      have := product_runs hR (acc := NTTRLWE.addMulFast R) g p' s.dec x hs.1 hl
      rw [pureProduct, if_pos hl, hl, ht, Option.bind_some, Option.bind_some] at this
      rcases this with ⟨e1, e2⟩ | ⟨s', x', e1, e2, hs'⟩
      · exact Or.inl (by simp [e1, e2])
      · simp only [e1, e2, Option.bind_some]
        exact switch_loop_runs hR ht gs ps s' x' (fun p hp => hps p (by simp [hp])) hs'

theorem switch_loop_sized {R : Ctx} {n : Nat} : ∀ {key : List NTTGadgetRLWE} {ps : List (List Nat)} {x y : NTTRLWE},
    SizedNTT n x → RlweSwitch.loop R key ps x = some y → SizedNTT n y
  | [], _, x, y, hx, h => by simp only [RlweSwitch.loop, Option.some.injEq] at h; rwa [← h]
  | _ :: _, [], x, y, hx, h => by simp only [RlweSwitch.loop, Option.some.injEq] at h; rwa [← h]
  | g :: gs, p :: ps, x, y, hx, h => by
    rw [RlweSwitch.loop] at h
    obtain ⟨x', e, h⟩ := bind_some_iff.1 h
    obtain ⟨p', _, e⟩ := bind_some_iff.1 e
    exact switch_loop_sized (gadgetLoop_sized (fun _ _ _ _ => addMulFast_sized) hx e) h

theorem switchLoop_none {R : Ctx} {n : Nat} (ht : Poly.tableFor R.tbl n = none) :
    ∀ {key : List NTTGadgetRLWE} {ps : List (List Nat)} {s : Spaces} {x y : NTTRLWE} {s' : Spaces},
      (∀ p ∈ ps, p.length = n) → switchLoop R key ps s x = some (s', y) → y = x
  | [], _, s, x, y, s', _, h => by simp only [switchLoop, Option.some.injEq, Prod.mk.injEq] at h; exact h.2.symm
  | _ :: _, [], s, x, y, s', _, h => by simp only [switchLoop, Option.some.injEq, Prod.mk.injEq] at h; exact h.2.symm
  | g :: gs, p :: ps, s, x, y, s', hps, h => by
    rw [switchLoop] at h
    obtain ⟨poly, e, h⟩ := bind_some_iff.1 h
    have : poly = p := by
      unfold copyFrom at e
      split at e
      · simpa using e.symm
      · simp at e
    obtain ⟨o, e', _⟩ := bind_some_iff.1 h
    rw [this, subAssignGadgetFast, hps p (by simp), ht] at e'
    simp at e'

theorem inner_eq {R : Ctx} (hR : SliceTables R) (dim : Nat) (key : List NTTGadgetRLWE) (b : Nat)
    (ps : List (List Nat)) (hps : ∀ p ∈ ps, p.length = RlweSwitch.nextPow2 dim) :
    switchInner R dim key b ps = RlweSwitch.inner R dim key b ps := by
  simp only [switchInner, RlweSwitch.inner]
  have hx : SizedNTT (RlweSwitch.nextPow2 dim) ⟨Poly.zero (RlweSwitch.nextPow2 dim),
      List.replicate (RlweSwitch.nextPow2 dim) b⟩ := by simp [SizedNTT, Poly.zero]
  generalize hn : RlweSwitch.nextPow2 dim = n at hps hx ⊢
  cases ht : Poly.tableFor R.tbl n with
  | none =>
    have l1 : ((RlweSwitch.loop R key ps ⟨Poly.zero n, List.replicate n b⟩).bind fun x =>
        (NTTRLWE.toCoeff R x).bind fun x => RLWE.extractPartial R x dim) = none := by
      cases e : RlweSwitch.loop R key ps ⟨Poly.zero n, List.replicate n b⟩ with
      | none => rfl
      | some y => rw [Option.bind_some, toCoeff_none (switch_loop_sized hx e) ht]; rfl
    have l2 : ((switchLoop R key ps (Spaces.new n) ⟨Poly.zero n, List.replicate n b⟩).bind fun o =>
        (NTTRLWE.toCoeff R o.2).bind fun x => RLWE.extractPartial R x dim) = none := by
      cases e : switchLoop R key ps (Spaces.new n) ⟨Poly.zero n, List.replicate n b⟩ with
      | none => rfl
      | some o =>
        obtain ⟨s', y⟩ := o
        rw [Option.bind_some, switchLoop_none ht hps e, toCoeff_none hx ht]
        rfl
    exact l2.trans l1.symm
  | some t =>
    rcases switch_loop_runs hR ht key ps (Spaces.new n) ⟨Poly.zero n, List.replicate n b⟩ hps
      (by simp [Spaces.Sized, Spaces.new, Poly.zero]) with ⟨e, e'⟩ | ⟨s, x, e, e', _⟩
    · simp [e, e']
    · simp [e, e']

theorem mapM_chunks {n : Nat} {f : List Nat → Option (List Nat)} (hf : ∀ p q, f p = some q → q.length = p.length) :
    ∀ {l o : List (List Nat)}, (∀ p ∈ l, p.length = n) → l.mapM f = some o → ∀ p ∈ o, p.length = n
  | [], o, _, h => by simp only [List.mapM_nil, Option.pure_def, Option.some.injEq] at h; subst h; simp
  | p :: l, o, hl, h => by
    rw [List.mapM_cons] at h
    obtain ⟨q, e, h⟩ := bind_some_iff.1 h
    obtain ⟨qs, e', h⟩ := bind_some_iff.1 h
    simp only [Option.pure_def, Option.some.injEq] at h
    subst h
    intro r hr
    rcases List.mem_cons.1 hr with rfl | hr
    · rw [hf p r e]; exact hl p (by simp)
    · exact mapM_chunks hf (fun p hp => hl p (by simp [hp])) e' r hr

theorem reverseTail_length {l o : List Nat} (h : RLWE.reverseTail l = some o) : o.length = l.length := by
  cases l with
  | nil => simp [RLWE.reverseTail] at h
  | cons x l => simp only [RLWE.reverseTail, Option.some.injEq] at h; simp [← h]

theorem negHeadReverse_length {R : Ctx} {l o : List Nat} (h : RlweSwitch.negHeadReverse R l = some o) :
    o.length = l.length := by
  obtain ⟨l', e, h⟩ := bind_some_iff.1 h
  rw [reverseTail_length h]
  cases l with
  | nil => simp [RlweSwitch.negHead] at e
  | cons x l =>
    obtain ⟨y, _, e⟩ := bind_some_iff.1 e
    simp only [Option.pure_def, Option.some.injEq] at e
    simp [← e]

theorem reverseNegTail_length {R : Ctx} {l o : List Nat} (h : RlweSwitch.reverseNegTail R l = some o) :
    o.length = l.length := by
  obtain ⟨l', e, h⟩ := bind_some_iff.1 h
  obtain ⟨t, e', h⟩ := bind_some_iff.1 h
  simp only [Option.pure_def, Option.some.injEq] at h
  rw [← h, List.length_append, mapM_keeps_length e', ← List.length_append, List.take_append_drop, reverseTail_length e]

/-- C80: the key switchings, which reuse a polynomial and a decomposition space for every key element, are the ones of
the theorems on key switching (C40). -/
theorem C80_key_switching {R : Ctx} (hR : SliceTables R) (dim : Nat) (key : List NTTGadgetRLWE) (x : RLWE) (c : LWE) :
    switchRlwe R dim key x = RlweSwitch.keySwitchRlwe R dim key x ∧
    switchLwe R dim key c = RlweSwitch.keySwitchLwe R dim key c := by
  constructor
  · simp only [switchRlwe, RlweSwitch.keySwitchRlwe]
    cases x.b[0]? with
    | none => rfl
    | some b =>
      simp only [Option.bind_eq_bind, Option.bind_some]
      cases e : RlweSwitch.rlweChunks R (RlweSwitch.nextPow2 dim) x.a with
      | none => rfl
      | some ps =>
        rw [Option.bind_some, Option.bind_some]
        refine inner_eq hR dim key b ps ?_
        unfold RlweSwitch.rlweChunks at e
        split at e
        · obtain ⟨a, _, e⟩ := bind_some_iff.1 e
          exact mapM_chunks (fun _ _ => negHeadReverse_length) (fun p => chunks_length) e
        · simp only [Option.some.injEq] at e
          subst e
          exact fun p => chunks_length
  · simp only [switchLwe, RlweSwitch.keySwitchLwe]
    cases e : RlweSwitch.lweChunks R (RlweSwitch.nextPow2 dim) c.a with
    | none => rfl
    | some ps =>
      simp only [Option.bind_eq_bind, Option.bind_some]
      refine inner_eq hR dim key c.b ps ?_
      unfold RlweSwitch.lweChunks at e
      split at e
      · exact mapM_chunks (fun _ _ => reverseNegTail_length) (fun p => chunks_length) e
      · obtain ⟨a, _, e⟩ := bind_some_iff.1 e
        simp only [Option.pure_def, Option.some.injEq] at e
        subst e
        exact fun p => chunks_length

theorem encrypts_sized {R : Ctx} {q n bits : Nat} {B : Basis} (hB : Basis.new R.w q bits = some B)
    {s m : Rq (ZMod q) n} {E : Nat} {g : NTTRGSW} (hg : g.EncryptsWithin R q n bits s m E) : SizedRgsw n B g := by
  have key : ∀ {s m : Rq (ZMod q) n} {e : Nat → Rq (ZMod q) n} {g : NTTGadgetRLWE},
      g.Encrypts R q n bits s m e → SizedGadget n B g := by
    intro s m e g h
    have hb : g.basis = B := by
      have := h.basis
      rw [hB, Option.some.injEq] at this
      exact this.symm
    refine ⟨hb, hb ▸ h.len, fun x hx => ?_⟩
    obtain ⟨j, hj, rfl⟩ := List.mem_iff_getElem.1 hx
    exact ⟨(h.elem j hj).a.1, (h.elem j hj).b.1⟩
  obtain ⟨_, _, _, _, h⟩ := hg
  exact ⟨key h.negSM, key h.m⟩

/-- C80: with the spaces of the code, a rotation with a key of the secret (a generated one is, by C38) rotates the
table by the phase of the sample. -/
theorem C80_rotation {R : Ctx} (hR : SliceTables R) {q k : Nat} [Fact q.Prime] (hk : 0 < k) (hk' : k ≤ 31)
    (F : TableField R.w q R.M R.tbl k) (bits : Nat) (B : Basis) (hB : Basis.new R.w q bits = some B)
    (s : Rq (ZMod q) (2 ^ k)) (N : Nat) (S : List ℤ) (lut : List Nat) (hl : Reduced q (2 ^ k) lut) (c : LWE)
    (hlen : c.a.length = S.length) (ha : ∀ x ∈ c.a, x < 2 * 2 ^ k) (hb : c.b < 2 * 2 ^ k) :
    (∀ key, BinaryKey R q (2 ^ k) bits s N S key → ∃ r, Scratch.binary R key lut c = some r ∧
      r.RotatedBy q (2 ^ k) s lut (intPhase S c.a c.b)
        (c.a.length * (2 * (B.decomposeLen * (2 ^ k * ((2 ^ bits - 1) * N)))))) ∧
    (∀ key, TernaryKey R q (2 ^ k) bits s N S key → ∃ r, Scratch.ternary R B key lut c = some r ∧
      r.RotatedBy q (2 ^ k) s lut (intPhase S c.a c.b)
        (c.a.length * (2 * (B.decomposeLen * (2 ^ k * ((2 ^ bits - 1) * (2 * N))))))) := by
  constructor
  · intro key hkey
    obtain ⟨r, e, h⟩ := C38_binary hk F bits B hB s N S key hkey lut hl c hlen ha hb
    exact ⟨r, by rw [C80_binary_rotation hR, e], h⟩
  · intro key hkey
    obtain ⟨r, e, h⟩ := C38_ternary hk hk' F bits B hB s N S key hkey lut hl c hlen ha hb
    refine ⟨r, ?_, h⟩
    rw [C80_ternary_rotation hR B key lut c, e]
    intro g hg
    rw [hl.1]
    obtain ⟨i, hi, rfl⟩ := List.mem_iff_getElem.1 hg
    have := List.forall₂_iff_get.1 hkey
    have h := this.2 i hi (by rw [← this.1]; exact hi)
    exact ⟨encrypts_sized hB h.2.1, encrypts_sized hB h.2.2⟩

-- the hypotheses are met: the tables of the field with 17 elements, spaces with old content
theorem tbl17_slices : SliceTables ⟨8, barrett17, tbl17⟩ := by
  refine C80_native_tables _ fun j t h => ?_
  simp only [tbl17, Table.generate] at h
  cases e : Ntt.generate 8 barrett17 j [3] with
  | none => simp [e] at h
  | some x =>
    cases x with
    | none => simp [e] at h
    | some t' => exact ⟨t', by simpa [e] using h.symm⟩

/-- Work spaces with old content. -/
def oldWork : Work := ⟨⟨[9, 9, 9, 9], [1, 2, 3, 4]⟩, ⟨[5, 5, 5, 5], [16, 0, 16, 0]⟩⟩

example : Work.Sized 4 oldWork := ⟨⟨rfl, rfl⟩, rfl, rfl⟩

/-- A gadget ciphertext for basis 16 on the field with 17 elements. -/
def gadget17 : NTTGadgetRLWE := ⟨[⟨[1, 2, 3, 4], [5, 6, 7, 8]⟩, ⟨[9, 10, 11, 12], [13, 14, 15, 16]⟩], ⟨16, 2, 15, 4⟩⟩

example : SizedGadget 4 ⟨16, 2, 15, 4⟩ gadget17 :=
  ⟨rfl, rfl, fun x hx => by simp [gadget17] at hx; rcases hx with rfl | rfl <;> exact ⟨rfl, rfl⟩⟩

-- three calls one after the other, with old content and with new spaces
example :
    let calls : List Call := [.product ⟨[3, 1, 4, 1], [5, 9, 2, 6]⟩ ⟨gadget17, gadget17⟩,
      .add ⟨[1, 1, 1, 1], [2, 2, 2, 2]⟩ gadget17 [16, 0, 7, 3],
      .product ⟨[2, 7, 1, 8], [2, 8, 1, 8]⟩ ⟨gadget17, gadget17⟩]
    performAll ⟨8, barrett17, tbl17⟩ oldWork calls = performAll ⟨8, barrett17, tbl17⟩ (Work.fresh 4) calls ∧
    (performAll ⟨8, barrett17, tbl17⟩ oldWork calls).isSome := by decide +kernel

-- the ternary rotation of C38 with all spaces
example : ∃ key r, BlindRotation.ternaryGenerate ⟨8, barrett17, tbl17⟩ [5, 5, 14, 14] ⟨16, 2, 15, 4⟩
      [1, 16, 0] (List.replicate 3 ((draw17, draw17), (draw17, draw17))) = some key ∧
    Scratch.ternary ⟨8, barrett17, tbl17⟩ ⟨16, 2, 15, 4⟩ key [1, 2, 3, 4] ⟨[3, 5, 6], 7⟩ = some r ∧
    ∃ β, r.RotatedBy 17 (2 ^ 2) (Rq.ofWords 17 (2 ^ 2) [1, 0, 1, 0]) [1, 2, 3, 4] 9 β := by
  have : Fact (Nat.Prime 17) := ⟨by decide⟩
  obtain ⟨key, ek, hkey⟩ := C38_ternary_generate (R := ⟨8, barrett17, tbl17⟩) (q := 17) (k := 2)
    (by omega) tbl17_field 4 ⟨16, 2, 15, 4⟩ (by decide +kernel) [1, 0, 1, 0] [5, 5, 14, 14]
    ⟨rfl, by decide⟩ (by decide +kernel) 1 [1, 16, 0]
    (List.replicate 3 ((draw17, draw17), (draw17, draw17))) (by decide)
    (fun d hd => by rw [List.eq_of_mem_replicate hd]; exact ⟨draw17_ok, draw17_ok⟩)
  obtain ⟨r, er, hr⟩ := (C80_rotation tbl17_slices (by omega) (by omega) tbl17_field 4 ⟨16, 2, 15, 4⟩
    (by decide +kernel) _ 1 _ [1, 2, 3, 4] ⟨rfl, by decide⟩ ⟨[3, 5, 6], 7⟩ rfl (by decide)
    (by decide)).2 key hkey
  exact ⟨key, r, ek, er, _, hr⟩

end Verif.Props
