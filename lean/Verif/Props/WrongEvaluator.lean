import Verif.Props.WrongKey
import Verif.Props.Programmable
import Verif.Props.Dimension
import Verif.SpecWrongEvaluator

/-!
# C94: gates with the evaluation key of another secret key
-/

namespace Verif.Props
open Fp Finset Spec Ntt

/-! ## Ciphertexts that differ in one word of the mask -/

/-- The second list arises from the first by adding `t` at position `i`. -/
def ShiftAt (q : Nat) (t : ZMod q) : Nat → List Nat → List Nat → Prop
  | 0, a :: as, b :: bs => (b : ZMod q) = a + t ∧ as = bs
  | i + 1, a :: as, b :: bs => a = b ∧ ShiftAt q t i as bs
  | _, _, _ => False

theorem ShiftAt.zip {q : Nat} {α β t : ZMod q} {f : Nat → Nat → Option Nat}
    (hf : ∀ a b, a < q → b < q → ∃ r, f a b = some r ∧ r < q ∧ (r : ZMod q) = α * a + β * b) :
    ∀ (i : Nat) (x x' y z z' : List Nat), ShiftAt q t i x x' → x.length = y.length → (∀ v ∈ x, v < q) →
    (∀ v ∈ x', v < q) → (∀ v ∈ y, v < q) → LWE.zipCollect f x y = some z → LWE.zipCollect f x' y = some z' →
    ShiftAt q (α * t) i z z'
  | i, [], _, _, _, _, h, _, _, _, _, _, _ => by cases i <;> simp [ShiftAt] at h
  | i, a :: as, [], _, _, _, h, _, _, _, _, _, _ => by cases i <;> simp [ShiftAt] at h
  | i, a :: as, b :: bs, [], _, _, _, hl, _, _, _, _, _ => by simp at hl
  | i, a :: as, b :: bs, c :: cs, z, z', h, hl, h1, h2, h3, e1, e2 => by
    simp only [LWE.zipCollect] at e1 e2
    obtain ⟨r, er, e1⟩ := Option.bind_eq_some_iff.1 e1
    obtain ⟨rs, ers, e1⟩ := Option.bind_eq_some_iff.1 e1
    obtain rfl := Option.some.inj e1
    obtain ⟨s, es, e2⟩ := Option.bind_eq_some_iff.1 e2
    obtain ⟨ss, ess, e2⟩ := Option.bind_eq_some_iff.1 e2
    obtain rfl := Option.some.inj e2
    obtain ⟨r', er', -, hr⟩ := hf a c (h1 a List.mem_cons_self) (h3 c List.mem_cons_self)
    obtain ⟨s', es', -, hs⟩ := hf b c (h2 b List.mem_cons_self) (h3 c List.mem_cons_self)
    obtain rfl := Option.some.inj (er'.symm.trans er)
    obtain rfl := Option.some.inj (es'.symm.trans es)
    cases i with
    | zero =>
      obtain ⟨h, rfl⟩ := h
      refine ⟨?_, Option.some.inj (ers.symm.trans ess)⟩
      rw [hr, hs, h]; ring
    | succ i =>
      obtain ⟨rfl, h⟩ := h
      exact ⟨Option.some.inj (er.symm.trans es), ShiftAt.zip hf i as bs cs rs ss h (by simpa using hl)
        (fun v hv => h1 v (List.mem_cons_of_mem _ hv)) (fun v hv => h2 v (List.mem_cons_of_mem _ hv))
        (fun v hv => h3 v (List.mem_cons_of_mem _ hv)) ers ess⟩

theorem zipCollect_comm (f : Nat → Nat → Option Nat) : ∀ x y : List Nat,
    LWE.zipCollect f x y = LWE.zipCollect (fun a b => f b a) y x
  | [], y => by cases y <;> rfl
  | _ :: _, [] => rfl
  | a :: x, b :: y => by
    simp only [LWE.zipCollect]
    rw [zipCollect_comm f x y]

theorem ShiftAt.map {q q' : Nat} {t : ZMod q} {t' : ZMod q'} {f : Nat → Nat}
    (hf : ∀ a b, a < q → b < q → (b : ZMod q) = a + t → (f b : ZMod q') = f a + t') :
    ∀ (i : Nat) (x x' : List Nat), ShiftAt q t i x x' → (∀ v ∈ x, v < q) → (∀ v ∈ x', v < q) →
    ShiftAt q' t' i (x.map f) (x'.map f)
  | i, [], _, h, _, _ => by cases i <;> simp [ShiftAt] at h
  | i, a :: as, [], h, _, _ => by cases i <;> simp [ShiftAt] at h
  | 0, a :: as, b :: bs, ⟨h, e⟩, h1, h2 =>
    ⟨hf a b (h1 a List.mem_cons_self) (h2 b List.mem_cons_self) h, by rw [e]⟩
  | i + 1, a :: as, b :: bs, ⟨e, h⟩, h1, h2 =>
    ⟨by rw [e], ShiftAt.map hf i as bs h (fun v hv => h1 v (List.mem_cons_of_mem _ hv))
      (fun v hv => h2 v (List.mem_cons_of_mem _ hv))⟩

theorem ShiftAt.dot {q : Nat} {t : ZMod q} {s : ℤ} : ∀ (i : Nat) (x x' : List Nat) (S : List ℤ), ShiftAt q t i x x' →
    S[i]? = some s →
    (((List.zipWith (fun (x : Nat) z => (x : ℤ) * z) x' S).sum : ℤ) : ZMod q) =
      ((List.zipWith (fun (x : Nat) z => (x : ℤ) * z) x S).sum : ℤ) + t * s
  | i, [], _, _, h, _ => by cases i <;> simp [ShiftAt] at h
  | i, a :: as, [], _, h, _ => by cases i <;> simp [ShiftAt] at h
  | i, a :: as, b :: bs, [], _, e => by simp at e
  | 0, a :: as, b :: bs, z :: S, ⟨h, e⟩, es => by
    obtain rfl : z = s := by simpa using es
    subst e
    simp only [List.zipWith_cons_cons, List.sum_cons]
    push_cast
    rw [h]; ring
  | i + 1, a :: as, b :: bs, z :: S, ⟨e, h⟩, es => by
    subst e
    simp only [List.zipWith_cons_cons, List.sum_cons]
    have := ShiftAt.dot i as bs S h (by simpa using es)
    push_cast at this ⊢
    rw [this]; ring

theorem shiftAt_ofFn {q : Nat} [NeZero q] (t : ZMod q) : ∀ {n : Nat} (j : Fin n) (a : Fin n → ZMod q),
    ShiftAt q t j (List.ofFn fun i => (a i).val) (List.ofFn fun i => ((a + (Pi.single j t : Fin n → ZMod q)) i).val)
  | n + 1, ⟨0, h⟩, a => by
    rw [List.ofFn_succ, List.ofFn_succ]
    refine ⟨?_, ?_⟩
    · rw [ZMod.natCast_zmod_val, ZMod.natCast_zmod_val]
      show a 0 + (Pi.single (0 : Fin (n + 1)) t : Fin (n + 1) → ZMod q) 0 = _
      rw [Pi.single_eq_same]
    · congr 1
      funext i
      show _ = (a i.succ + (Pi.single (0 : Fin (n + 1)) t : Fin (n + 1) → ZMod q) i.succ).val
      rw [Pi.single_eq_of_ne (Fin.succ_ne_zero i), add_zero]
  | n + 1, ⟨j + 1, h⟩, a => by
    have hj : j < n := by omega
    rw [List.ofFn_succ, List.ofFn_succ]
    refine ⟨?_, ?_⟩
    · show _ = (a 0 + (Pi.single (⟨j + 1, h⟩ : Fin (n + 1)) t : Fin (n + 1) → ZMod q) 0).val
      rw [Pi.single_eq_of_ne (by simp [Fin.ext_iff]), add_zero]
    · convert shiftAt_ofFn t ⟨j, hj⟩ (fun i => a i.succ) using 3 with i
      show (a i.succ + (Pi.single (⟨j + 1, h⟩ : Fin (n + 1)) t : Fin (n + 1) → ZMod q) i.succ).val =
        (a i.succ + (Pi.single (⟨j, hj⟩ : Fin n) t : Fin n → ZMod q) i).val
      congr 2
      by_cases hi : i = ⟨j, hj⟩
      · subst hi
        rw [Pi.single_eq_same]
        exact Pi.single_eq_same (M := fun _ => ZMod q) (⟨j + 1, h⟩ : Fin (n + 1)) t
      · rw [Pi.single_eq_of_ne hi, Pi.single_eq_of_ne]
        intro hc
        exact hi (Fin.ext (by have := congrArg Fin.val hc; simpa using this))

/-- The ciphertexts differ by `t` in word `i` of the mask and by `u` in the body. -/
def ShiftedBy (q i : Nat) (t u : ZMod q) (c c' : LWE) : Prop :=
  ShiftAt q t i c.a c'.a ∧ (c'.b : ZMod q) = c.b + u

section
variable {q n i : Nat} {O : ModOps} (hO : IsModOps q O) {t u : ZMod q} {x x' y z z' : LWE} (hs : ShiftedBy q i t u x x')
  (hx : LWEReduced q n x) (hx' : LWEReduced q n x') (hy : LWEReduced q n y)
include hO hs hx hx' hy

theorem shifted_add (e : LWE.addRef O x y = some z) (e' : LWE.addRef O x' y = some z') : ShiftedBy q i t u z z' := by
  have hl : x.a.length = y.a.length := hx.1.1.trans hy.1.1.symm
  have hl' : x'.a.length = y.a.length := hx'.1.1.trans hy.1.1.symm
  unfold LWE.addRef at e e'
  rw [if_pos hl] at e
  rw [if_pos hl'] at e'
  obtain ⟨a, ea, e⟩ := Option.bind_eq_some_iff.1 e
  obtain ⟨b, eb, e⟩ := Option.bind_eq_some_iff.1 e
  obtain rfl := Option.some.inj e
  obtain ⟨a', ea', e'⟩ := Option.bind_eq_some_iff.1 e'
  obtain ⟨b', eb', e'⟩ := Option.bind_eq_some_iff.1 e'
  obtain rfl := Option.some.inj e'
  have h := ShiftAt.zip (α := 1) (β := 1) (by simpa using hO.add) i _ _ _ _ _ hs.1 hl hx.1.2 hx'.1.2 hy.1.2 ea ea'
  rw [one_mul] at h
  refine ⟨h, ?_⟩
  obtain ⟨r, er, -, hr⟩ := hO.add x.b y.b hx.2 hy.2
  obtain ⟨r', er', -, hr'⟩ := hO.add x'.b y.b hx'.2 hy.2
  obtain rfl := Option.some.inj (er.symm.trans eb)
  obtain rfl := Option.some.inj (er'.symm.trans eb')
  show (r' : ZMod q) = r + u
  rw [hr, hr', hs.2]; ring

theorem shifted_add_right (e : LWE.addRef O y x = some z) (e' : LWE.addRef O y x' = some z') :
    ShiftedBy q i t u z z' := by
  have hl : x.a.length = y.a.length := hx.1.1.trans hy.1.1.symm
  have hl' : x'.a.length = y.a.length := hx'.1.1.trans hy.1.1.symm
  unfold LWE.addRef at e e'
  rw [if_pos hl.symm, zipCollect_comm] at e
  rw [if_pos hl'.symm, zipCollect_comm] at e'
  obtain ⟨a, ea, e⟩ := Option.bind_eq_some_iff.1 e
  obtain ⟨b, eb, e⟩ := Option.bind_eq_some_iff.1 e
  obtain rfl := Option.some.inj e
  obtain ⟨a', ea', e'⟩ := Option.bind_eq_some_iff.1 e'
  obtain ⟨b', eb', e'⟩ := Option.bind_eq_some_iff.1 e'
  obtain rfl := Option.some.inj e'
  have h := ShiftAt.zip (α := 1) (β := 1) (f := fun a b => O.add b a) (fun a b ha hb => by
    obtain ⟨r, er, h1, h2⟩ := hO.add b a hb ha
    exact ⟨r, er, h1, by rw [h2]; ring⟩) i _ _ _ _ _ hs.1 hl hx.1.2 hx'.1.2 hy.1.2 ea ea'
  rw [one_mul] at h
  refine ⟨h, ?_⟩
  obtain ⟨r, er, -, hr⟩ := hO.add y.b x.b hy.2 hx.2
  obtain ⟨r', er', -, hr'⟩ := hO.add y.b x'.b hy.2 hx'.2
  obtain rfl := Option.some.inj (er.symm.trans eb)
  obtain rfl := Option.some.inj (er'.symm.trans eb')
  show (r' : ZMod q) = r + u
  rw [hr, hr', hs.2]; ring

theorem shifted_sub (e : LWE.subRef O x y = some z) (e' : LWE.subRef O x' y = some z') : ShiftedBy q i t u z z' := by
  have hl : x.a.length = y.a.length := hx.1.1.trans hy.1.1.symm
  have hl' : x'.a.length = y.a.length := hx'.1.1.trans hy.1.1.symm
  unfold LWE.subRef at e e'
  rw [if_pos hl] at e
  rw [if_pos hl'] at e'
  obtain ⟨a, ea, e⟩ := Option.bind_eq_some_iff.1 e
  obtain ⟨b, eb, e⟩ := Option.bind_eq_some_iff.1 e
  obtain rfl := Option.some.inj e
  obtain ⟨a', ea', e'⟩ := Option.bind_eq_some_iff.1 e'
  obtain ⟨b', eb', e'⟩ := Option.bind_eq_some_iff.1 e'
  obtain rfl := Option.some.inj e'
  have h := ShiftAt.zip (α := 1) (β := -1) (by simpa [← sub_eq_add_neg] using hO.sub) i _ _ _ _ _ hs.1 hl hx.1.2
    hx'.1.2 hy.1.2 ea ea'
  rw [one_mul] at h
  refine ⟨h, ?_⟩
  obtain ⟨r, er, -, hr⟩ := hO.sub x.b y.b hx.2 hy.2
  obtain ⟨r', er', -, hr'⟩ := hO.sub x'.b y.b hx'.2 hy.2
  obtain rfl := Option.some.inj (er.symm.trans eb)
  obtain rfl := Option.some.inj (er'.symm.trans eb')
  show (r' : ZMod q) = r + u
  rw [hr, hr', hs.2]; ring

theorem shifted_sub_right (e : LWE.subRef O y x = some z) (e' : LWE.subRef O y x' = some z') :
    ShiftedBy q i (-t) (-u) z z' := by
  have hl : x.a.length = y.a.length := hx.1.1.trans hy.1.1.symm
  have hl' : x'.a.length = y.a.length := hx'.1.1.trans hy.1.1.symm
  unfold LWE.subRef at e e'
  rw [if_pos hl.symm, zipCollect_comm] at e
  rw [if_pos hl'.symm, zipCollect_comm] at e'
  obtain ⟨a, ea, e⟩ := Option.bind_eq_some_iff.1 e
  obtain ⟨b, eb, e⟩ := Option.bind_eq_some_iff.1 e
  obtain rfl := Option.some.inj e
  obtain ⟨a', ea', e'⟩ := Option.bind_eq_some_iff.1 e'
  obtain ⟨b', eb', e'⟩ := Option.bind_eq_some_iff.1 e'
  obtain rfl := Option.some.inj e'
  have h := ShiftAt.zip (α := -1) (β := 1) (f := fun a b => O.sub b a) (fun a b ha hb => by
    obtain ⟨r, er, h1, h2⟩ := hO.sub b a hb ha
    exact ⟨r, er, h1, by rw [h2]; ring⟩) i _ _ _ _ _ hs.1 hl hx.1.2 hx'.1.2 hy.1.2 ea ea'
  rw [neg_one_mul] at h
  refine ⟨h, ?_⟩
  obtain ⟨r, er, -, hr⟩ := hO.sub y.b x.b hy.2 hx.2
  obtain ⟨r', er', -, hr'⟩ := hO.sub y.b x'.b hy.2 hx'.2
  obtain rfl := Option.some.inj (er.symm.trans eb)
  obtain rfl := Option.some.inj (er'.symm.trans eb')
  show (r' : ZMod q) = r + -u
  rw [hr, hr', hs.2]; ring

end

theorem mapM_eq_map {q : Nat} {f : Nat → Option Nat} {g : Nat → Nat} (h : ∀ v < q, f v = some (g v)) : ∀ l : List Nat,
    (∀ v ∈ l, v < q) → l.mapM f = some (l.map g)
  | [], _ => rfl
  | v :: l, hl => by
    rw [List.mapM_cons, mbind (h v (hl v List.mem_cons_self)),
      mbind (mapM_eq_map h l fun x hx => hl x (List.mem_cons_of_mem _ hx))]; rfl

theorem shifted_double {q n i : Nat} {O : ModOps} (hO : IsModOps q O) {t u : ZMod q} {x x' z z' : LWE}
    (hs : ShiftedBy q i t u x x') (hx : LWEReduced q n x) (hx' : LWEReduced q n x') (h2 : 2 < q)
    (e : LWE.scalarMul O x 2 = some z) (e' : LWE.scalarMul O x' 2 = some z') :
    ShiftedBy q i (2 * t) (2 * u) z z' := by
  classical
  choose! g hg using fun v (hv : v < q) => hO.mul v 2 hv h2
  have hm : ∀ l : List Nat, (∀ v ∈ l, v < q) → (l.mapM fun v => O.mul v 2) = some (l.map g) :=
    mapM_eq_map fun v hv => (hg v hv).1
  unfold LWE.scalarMul at e e'
  rw [mbind (hm _ hx.1.2), mbind (hg _ hx.2).1] at e
  rw [mbind (hm _ hx'.1.2), mbind (hg _ hx'.2).1] at e'
  obtain rfl := Option.some.inj e
  obtain rfl := Option.some.inj e'
  refine ⟨ShiftAt.map (fun a b ha hb h => ?_) i _ _ hs.1 hx.1.2 hx'.1.2, ?_⟩
  · rw [(hg a ha).2.2, (hg b hb).2.2, h]; push_cast; ring
  · show (g x'.b : ZMod q) = g x.b + 2 * u
    rw [(hg _ hx.2).2.2, (hg _ hx'.2).2.2, hs.2]; push_cast; ring

/-- Rounding commutes with shifts that become integers. -/
theorem nearest_shift {q N2 : Nat} (hq : 0 < q) {T τ : ℤ} (h : T * N2 = τ * q) {v v' : Nat}
    (hv : (v' : ZMod q) = v + (T : ℤ)) :
    ((nearest (v' * N2) q : Nat) : ZMod N2) = (nearest (v * N2) q : Nat) + (τ : ℤ) := by
  have h1 : (((v' : ℤ) - (v + T) : ℤ) : ZMod q) = 0 := by push_cast; rw [hv]; ring
  obtain ⟨c, hc⟩ := (ZMod.intCast_zmod_eq_zero_iff_dvd _ _).1 h1
  have hn : ∀ x : Nat, ((nearest x q : Nat) : ℤ) = (2 * (x : ℤ) + q) / (2 * q) := fun x => by
    unfold nearest; push_cast; rfl
  have e : (2 * ((v' * N2 : Nat) : ℤ) + q) = (2 * ((v * N2 : Nat) : ℤ) + q) + (τ + N2 * c) * (2 * q) := by
    have : (v' : ℤ) = v + T + q * c := by linarith
    push_cast
    rw [this]
    linear_combination 2 * h
  have h2 : ((nearest (v' * N2) q : Nat) : ℤ) = (nearest (v * N2) q : Nat) + (τ + N2 * c) := by
    rw [hn, hn, e, Int.add_mul_ediv_right _ _ (by omega)]
  have h3 := congrArg (fun z : ℤ => (z : ZMod N2)) h2
  push_cast at h3
  rw [h3, ZMod.natCast_self]
  ring

/-! ## Bootstrapping flips the bit -/

section
variable {K : EvalKey} {Q k m : Nat} [Fact Q.Prime] (G : GateParams K.w K.R K.P Q k m) {sk z : List Nat}
  {S Z : List ℤ} {E E' : Nat} (V : K.Valid Q k m sk z S Z E E')
include G

omit [Fact Q.Prime] in
theorem switchIn_eq {n : Nat} {c : LWE} (hc : LWEReduced (2 ^ m) n c) :
    K.switchIn c = some ⟨c.a.map fun v => nearest (v * (2 * 2 ^ k)) (2 ^ m) % (2 * 2 ^ k),
      nearest (c.b * (2 * 2 ^ k)) (2 ^ m) % (2 * 2 ^ k)⟩ := by
  have hPq : K.P.q = 2 ^ m := G.lwe.q
  have hin := G.switchIn
  have hk31 := G.le
  have hNpos := Nat.two_pow_pos k
  have hq53 : 2 ^ m < 2 ^ 53 := by
    have : 2 ^ m - 1 ≤ (2 ^ m - 1) * (2 * 2 ^ k) := Nat.le_mul_of_pos_right _ (by omega)
    omega
  obtain ⟨out, eo, -, rfl, -⟩ := C41_lwe K.w (2 ^ m) (2 * 2 ^ k) hq53 (by omega) G.twice hin n c hc
  have h64 : shlC 64 (2 ^ k) 1 = some (2 * 2 ^ k) := by
    have hlt : 2 ^ (k + 1) < 2 ^ 64 := Nat.pow_lt_pow_right (by omega) (by omega)
    unfold shlC
    rw [if_pos (by omega), pow_one, Nat.mul_comm, Nat.mod_eq_of_lt (by rw [← pow_succ']; exact hlt)]
  unfold EvalKey.switchIn
  rw [G.ring, mbind h64, if_pos G.twice, hPq, eo]

omit [Fact Q.Prime] in
/-- The switched phases are half a turn apart. -/
theorem switched_half {n i : Nat} {c c' d d' : LWE} (hc : LWEReduced (2 ^ m) n c) (hc' : LWEReduced (2 ^ m) n c')
    {T τ s s' o : ℤ} (hT : T * (2 * 2 ^ k : Nat) = τ * (2 ^ m : Nat))
    (hs : ShiftedBy (2 ^ m) i (T : ℤ) ((s' * T : ℤ) : ZMod (2 ^ m)) c c') (hS : S[i]? = some s)
    (ho : τ * (s' - s) = 2 ^ k * (2 * o + 1)) (e : K.switchIn c = some d) (e' : K.switchIn c' = some d') :
    intPhase S d'.a d'.b ≡ intPhase S d.a d.b + (2 ^ k : Nat) [ZMOD (2 * 2 ^ k : Nat)] := by
  rw [switchIn_eq G hc] at e
  rw [switchIn_eq G hc'] at e'
  obtain rfl := Option.some.inj e
  obtain rfl := Option.some.inj e'
  have hq := Nat.two_pow_pos m
  have h1 := ShiftAt.map (q' := 2 * 2 ^ k) (t' := (τ : ℤ))
    (f := fun v => nearest (v * (2 * 2 ^ k)) (2 ^ m) % (2 * 2 ^ k)) (fun a b _ _ h => by
      rw [ZMod.natCast_mod, ZMod.natCast_mod]
      exact nearest_shift hq hT h) i _ _ hs.1 hc.1.2 hc'.1.2
  have h2 := ShiftAt.dot i _ _ S h1 hS
  have h3 := nearest_shift (T := s' * T) (τ := s' * τ) (N2 := 2 * 2 ^ k) hq
    (by rw [mul_assoc, hT]; ring) (v := c.b) (v' := c'.b) hs.2
  refine (ZMod.intCast_eq_intCast_iff _ _ _).1 ?_
  unfold intPhase
  rw [Int.cast_sub, h2, Int.cast_natCast, ZMod.natCast_mod, h3, Int.cast_add, Int.cast_sub, Int.cast_natCast,
    ZMod.natCast_mod]
  have h4 := congrArg (fun z : ℤ => (z : ZMod (2 * 2 ^ k))) ho
  have h5 : ((2 * 2 ^ k : Nat) : ZMod (2 * 2 ^ k)) = 0 := ZMod.natCast_self _
  push_cast at h4 h5 ⊢
  linear_combination h4 + (o : ZMod (2 * 2 ^ k)) * h5

include V

/-- A table of two opposite values. -/
def SignTable (Q n step : Nat) (lut : List Nat) : Prop :=
  Reduced Q n lut ∧ ∀ φ : ℤ, (step : ℤ) ∣ φ → ∃ x : Bool, tableAt Q n lut φ = signedEighth Q x

/-- Bootstrapping of two ciphertexts whose switched phases are half a turn apart gives opposite bits. -/
theorem bootstrap_flip {Λ : Level} (hΛ : 2 * outError K.P.steps Q m Λ < Q * 2 ^ m)
    (hrun : ∀ c lut, LWEReduced (2 ^ m) S.length c → Reduced Q (2 ^ k) lut → K.RunNoise Q k m sk z S Z Λ c lut)
    {i : Nat} {c c' : LWE} (hc : LWEReduced (2 ^ m) S.length c) (hc' : LWEReduced (2 ^ m) S.length c')
    {T τ s s' o : ℤ} (hT : T * (2 * 2 ^ k : Nat) = τ * (2 ^ m : Nat))
    (hs : ShiftedBy (2 ^ m) i (T : ℤ) ((s' * T : ℤ) : ZMod (2 ^ m)) c c') (hS : S[i]? = some s)
    (ho : τ * (s' - s) = 2 ^ k * (2 * o + 1)) {step : Nat} {lut : List Nat} (es : K.P.lutStep = some step)
    (hl : SignTable Q (2 ^ k) step lut) :
    ∃ x : Bool, (K.bootstrap c lut).bind ((K.P.lwe K.w).decrypt .bool sk) = some x.toNat ∧
      (K.bootstrap c' lut).bind ((K.P.lwe K.w).decrypt .bool sk) = some (!x).toNat := by
  obtain ⟨d, st, _, ed, hr, est, _, _, hd, -⟩ := switchIn_spec G S hc (Int.ModEq.refl _)
  obtain ⟨d', _, _, ed', hr', _, _, _, _, -⟩ := switchIn_spec G S hc' (Int.ModEq.refl _)
  obtain rfl := Option.some.inj (es.symm.trans est)
  have hhalf := switched_half G hc hc' hT hs hS ho ed ed'
  obtain ⟨x, hx⟩ := hl.2 _ hd
  have hx' : tableAt Q (2 ^ k) lut (intPhase S d'.a d'.b) = signedEighth Q (!x) := by
    have h1 : tableAt Q (2 ^ k) lut (intPhase S d'.a d'.b) =
        tableAt Q (2 ^ k) lut (intPhase S d.a d.b + (2 ^ k : Nat)) := by
      unfold tableAt
      rw [hhalf]
    rw [h1, C90_half_turn Q (2 ^ k) (Nat.two_pow_pos k), hx]
    cases x <;> simp [signedEighth]
  obtain ⟨out, e1, h1, h2, h3, h4⟩ := bootstrap_spec G V (hrun c lut hc hl.1) ed hr hl.1 x hx
  obtain ⟨out', e1', h1', h2', h3', h4'⟩ := bootstrap_spec G V (hrun c' lut hc' hl.1) ed' hr' hl.1 (!x) hx'
  rw [← keyWords_length V.keyS] at h2 h2'
  refine ⟨x, ?_, ?_⟩
  · rw [h1]; exact decrypt_bit G (Fact.out : Q.Prime).pos h2 h3 h4 hΛ
  · rw [h1']; exact decrypt_bit G (Fact.out : Q.Prime).pos h2' h3' h4' hΛ

end

theorem signed_neg (Q : Nat) (x : Bool) : -signedEighth Q x = signedEighth Q (!x) := by cases x <;> simp [signedEighth]

theorem split_sign {Q n step mid v0 v1 : Nat} (hn : 0 < n) (hs : 0 < step) (hm : mid ≤ n) (hsm : step ∣ mid)
    (hsn : step ∣ n) (h0 : v0 < Q) (h1 : v1 < Q) {x0 x1 : Bool} (c0 : (v0 : ZMod Q) = signedEighth Q x0)
    (c1 : (v1 : ZMod Q) = signedEighth Q x1) :
    ∃ lut, Lut.split n step mid v0 v1 = some lut ∧ SignTable Q n step lut := by
  obtain ⟨lut, e, hr, h⟩ := split_spec hs hm hsm hsn h0 h1
  refine ⟨lut, e, hr, fun φ hφ => ?_⟩
  have hpos : (0 : ℤ) < (2 * n : Nat) := by omega
  have hnn := Int.emod_nonneg φ hpos.ne'
  have hlt := Int.emod_lt_of_pos φ hpos
  rw [h φ hφ (φ % (2 * n : Nat)).toNat (by omega) (by omega), c0, c1, signed_neg, signed_neg]
  split_ifs
  exacts [⟨_, rfl⟩, ⟨_, rfl⟩, ⟨_, rfl⟩, ⟨_, rfl⟩]

section
variable {K : EvalKey} {Q k m : Nat} (G : GateParams K.w K.R K.P Q k m)
include G

theorem tables_sign : ∀ L ∈ [Lut.nand, Lut.andMajority, Lut.or, Lut.nor, Lut.xor, Lut.xnor],
    ∀ step, 0 < step → step ∣ 2 ^ k / 4 → ∃ lut, L K.R (2 ^ k) step = some lut ∧ SignTable Q (2 ^ k) step lut := by
  have C : Config K.R.w Q K.R.M := ⟨G.field.even, G.field.conf⟩
  obtain ⟨d1, d2⟩ := gate_dim G
  intro L hL step hs hd
  obtain ⟨v, v', ev, ev', hv, hv', cv, cv'⟩ := eighth_spec C
  obtain ⟨p, hp⟩ := d2
  rw [hp] at d1 hd ⊢
  rw [Nat.mul_div_cancel_left _ (by omega)] at hd
  have e2 : 4 * p / 2 = 2 * p := by omega
  have e4 : 4 * p / 4 = p := by omega
  have h4 : step ∣ 4 * p := Dvd.dvd.mul_left hd 4
  have h3 : step ∣ 2 * p + p := by rw [show 2 * p + p = 3 * p by ring]; exact Dvd.dvd.mul_left hd 3
  have h2 : step ∣ 2 * p := Dvd.dvd.mul_left hd 2
  simp only [List.mem_cons, List.not_mem_nil, or_false] at hL
  rcases hL with rfl | rfl | rfl | rfl | rfl | rfl
  · unfold Lut.nand Lut.nandAndMajority
    rw [mbind ev, mbind ev', e2, e4]
    exact split_sign d1 hs (by omega) h3 h4 hv hv' cv cv'
  · unfold Lut.andMajority Lut.nandAndMajority
    rw [mbind ev', mbind ev, e2, e4]
    exact split_sign d1 hs (by omega) h3 h4 hv' hv cv' cv
  · unfold Lut.or Lut.orNor
    rw [mbind ev, mbind ev', e4]
    exact split_sign d1 hs (by omega) hd h4 hv' hv cv' cv
  · unfold Lut.nor Lut.orNor
    rw [mbind ev', mbind ev, e4]
    exact split_sign d1 hs (by omega) hd h4 hv hv' cv cv'
  · unfold Lut.xor Lut.xorXnor
    rw [mbind ev, mbind ev', e2]
    exact split_sign d1 hs (by omega) h2 h4 hv' hv cv' cv
  · unfold Lut.xnor Lut.xorXnor
    rw [mbind ev', mbind ev, e2]
    exact split_sign d1 hs (by omega) h2 h4 hv hv' cv cv'

end

/-! ## The gates flip -/

/-- A shift of word `i` by `T`, with the body shifted as the digit `s'` demands, flips the bit `F` computes. -/
def Flips (q n i : Nat) (s' T : ℤ) (F : LWE → Option Nat) : Prop :=
  ∀ c c', LWEReduced q n c → LWEReduced q n c' → ShiftedBy q i (T : ℤ) ((s' * T : ℤ) : ZMod q) c c' →
    ∃ x : Bool, F c = some x.toNat ∧ F c' = some (!x).toNat

section
variable {K : EvalKey} {Q k m : Nat} [Fact Q.Prime] (G : GateParams K.w K.R K.P Q k m) {sk z : List Nat}
  {S Z : List ℤ} {E E' : Nat} (V : K.Valid Q k m sk z S Z E E')
  {Λ : Level} (hΛ : 2 * outError K.P.steps Q m Λ < Q * 2 ^ m)
  (hrun : ∀ c lut, LWEReduced (2 ^ m) S.length c → Reduced Q (2 ^ k) lut → K.RunNoise Q k m sk z S Z Λ c lut)
  {i : Nat} {s s' : ℤ} (hS : S[i]? = some s)
include G V hΛ hrun hS

theorem table_flips {L : Ctx → Nat → Nat → Option (List Nat)}
    (hL : L ∈ [Lut.nand, Lut.andMajority, Lut.or, Lut.nor, Lut.xor, Lut.xnor]) {T τ o : ℤ}
    (hT : T * (2 * 2 ^ k : Nat) = τ * (2 ^ m : Nat)) (ho : τ * (s' - s) = 2 ^ k * (2 * o + 1)) :
    Flips (2 ^ m) S.length i s' T fun c => (do
      let step ← K.P.lutStep
      let l ← L K.R K.P.ringDimension step
      K.bootstrap c l).bind ((K.P.lwe K.w).decrypt .bool sk) := by
  intro c c' hc hc' hs
  have hm3 : 3 ≤ m := by have := G.lwe.lt; omega
  have := G.le
  obtain ⟨step, es, hs0, hsd, -, -⟩ := C42_step K.P k m G.two_le (by omega) hm3 G.ring G.lwe.q
  obtain ⟨lut, el, hl⟩ := tables_sign G L hL step hs0 hsd
  obtain ⟨x, h1, h2⟩ := bootstrap_flip G V hΛ hrun hc hc' hT hs hS ho es hl
  refine ⟨x, ?_, ?_⟩ <;> dsimp only <;> rw [mbind es, G.ring, mbind el] <;> assumption

theorem sum_flips {L : Ctx → Nat → Nat → Option (List Nat)}
    (hL : L ∈ [Lut.nand, Lut.andMajority, Lut.or, Lut.nor, Lut.xor, Lut.xnor]) {T τ o : ℤ}
    (hT : T * (2 * 2 ^ k : Nat) = τ * (2 ^ m : Nat)) (ho : τ * (s' - s) = 2 ^ k * (2 * o + 1)) {x : LWE}
    (hx : LWEReduced (2 ^ m) S.length x) :
    Flips (2 ^ m) S.length i s' T (fun c => (K.sumGate L c x).bind ((K.P.lwe K.w).decrypt .bool sk)) ∧
    Flips (2 ^ m) S.length i s' T (fun c => (K.sumGate L x c).bind ((K.P.lwe K.w).decrypt .bool sk)) := by
  obtain ⟨M, hM, eO⟩ := G.lwe.ops
  rw [show (K.P.lwe K.w).w = K.w from rfl] at eO
  have hO := powOf2_isModOps (w := K.w) G.lwe.fits hM
  have F := table_flips G V hΛ hrun hS hL hT ho
  constructor
  · intro c c' hc hc' hs
    obtain ⟨r, er, -, hr, -⟩ := C33_add (2 ^ m) S.length _ hO c x hc hx
    obtain ⟨r', er', -, hr', -⟩ := C33_add (2 ^ m) S.length _ hO c' x hc' hx
    obtain ⟨b, h1, h2⟩ := F r r' hr hr' (shifted_add hO hs hc hc' hx er er')
    refine ⟨b, ?_, ?_⟩ <;> dsimp only <;> unfold EvalKey.sumGate <;> rw [mbind eO]
    · rw [mbind er]; exact h1
    · rw [mbind er']; exact h2
  · intro c c' hc hc' hs
    obtain ⟨r, er, -, hr, -⟩ := C33_add (2 ^ m) S.length _ hO x c hx hc
    obtain ⟨r', er', -, hr', -⟩ := C33_add (2 ^ m) S.length _ hO x c' hx hc'
    obtain ⟨b, h1, h2⟩ := F r r' hr hr' (shifted_add_right hO hs hc hc' hx er er')
    refine ⟨b, ?_, ?_⟩ <;> dsimp only <;> unfold EvalKey.sumGate <;> rw [mbind eO]
    · rw [mbind er]; exact h1
    · rw [mbind er']; exact h2

theorem diff_flips {L : Ctx → Nat → Nat → Option (List Nat)}
    (hL : L ∈ [Lut.nand, Lut.andMajority, Lut.or, Lut.nor, Lut.xor, Lut.xnor]) {T τ o : ℤ}
    (hT : 2 * T * (2 * 2 ^ k : Nat) = τ * (2 ^ m : Nat)) (ho : τ * (s' - s) = 2 ^ k * (2 * o + 1)) {x : LWE}
    (hx : LWEReduced (2 ^ m) S.length x) :
    Flips (2 ^ m) S.length i s' T (fun c => (K.diffGate L c x).bind ((K.P.lwe K.w).decrypt .bool sk)) ∧
    Flips (2 ^ m) S.length i s' T (fun c => (K.diffGate L x c).bind ((K.P.lwe K.w).decrypt .bool sk)) := by
  obtain ⟨M, hM, eO⟩ := G.lwe.ops
  rw [show (K.P.lwe K.w).w = K.w from rfl] at eO
  have hO := powOf2_isModOps (w := K.w) G.lwe.fits hM
  have hm3 : 3 ≤ m := by have := G.lwe.lt; omega
  have h2q : 2 < 2 ^ m := lt_of_lt_of_le (by norm_num : 2 < 2 ^ 3) (Nat.pow_le_pow_right (by decide) hm3)
  have F := table_flips G V hΛ hrun hS hL hT ho
  have F' := table_flips (T := -(2 * T)) (τ := -τ) (o := -o - 1) (s' := s') G V hΛ hrun hS hL (by linear_combination -hT)
    (by linear_combination -ho)
  constructor
  · intro c c' hc hc' hs
    obtain ⟨r, er, -, hr, -⟩ := C33_sub (2 ^ m) S.length _ hO c x hc hx
    obtain ⟨r', er', -, hr', -⟩ := C33_sub (2 ^ m) S.length _ hO c' x hc' hx
    obtain ⟨d, ed, hd, -⟩ := (C33_scalar_neg (2 ^ m) S.length _ hO r hr 2 h2q).1
    obtain ⟨d', ed', hd', -⟩ := (C33_scalar_neg (2 ^ m) S.length _ hO r' hr' 2 h2q).1
    have hs2 := shifted_double hO (shifted_sub hO hs hc hc' hx er er') hr hr' h2q ed ed'
    obtain ⟨b, h1, h2⟩ := F d d' hd hd' (by convert hs2 using 1 <;> push_cast <;> ring)
    refine ⟨b, ?_, ?_⟩ <;> dsimp only <;> unfold EvalKey.diffGate <;> rw [mbind eO]
    · rw [mbind er, mbind ed]; exact h1
    · rw [mbind er', mbind ed']; exact h2
  · intro c c' hc hc' hs
    obtain ⟨r, er, -, hr, -⟩ := C33_sub (2 ^ m) S.length _ hO x c hx hc
    obtain ⟨r', er', -, hr', -⟩ := C33_sub (2 ^ m) S.length _ hO x c' hx hc'
    obtain ⟨d, ed, hd, -⟩ := (C33_scalar_neg (2 ^ m) S.length _ hO r hr 2 h2q).1
    obtain ⟨d', ed', hd', -⟩ := (C33_scalar_neg (2 ^ m) S.length _ hO r' hr' 2 h2q).1
    have hs2 := shifted_double hO (shifted_sub_right hO hs hc hc' hx er er') hr hr' h2q ed ed'
    obtain ⟨b, h1, h2⟩ := F' d d' hd hd' (by convert hs2 using 1 <;> push_cast <;> ring)
    refine ⟨b, ?_, ?_⟩ <;> dsimp only <;> unfold EvalKey.diffGate <;> rw [mbind eO]
    · rw [mbind er, mbind ed]; exact h1
    · rw [mbind er', mbind ed']; exact h2

theorem majority_flips {T τ o : ℤ}
    (hT : T * (2 * 2 ^ k : Nat) = τ * (2 ^ m : Nat)) (ho : τ * (s' - s) = 2 ^ k * (2 * o + 1)) {x y : LWE}
    (hx : LWEReduced (2 ^ m) S.length x) (hy : LWEReduced (2 ^ m) S.length y) :
    Flips (2 ^ m) S.length i s' T (fun c => (K.majority c x y).bind ((K.P.lwe K.w).decrypt .bool sk)) ∧
    Flips (2 ^ m) S.length i s' T (fun c => (K.majority x c y).bind ((K.P.lwe K.w).decrypt .bool sk)) ∧
    Flips (2 ^ m) S.length i s' T (fun c => (K.majority x y c).bind ((K.P.lwe K.w).decrypt .bool sk)) := by
  obtain ⟨M, hM, eO⟩ := G.lwe.ops
  rw [show (K.P.lwe K.w).w = K.w from rfl] at eO
  have hO := powOf2_isModOps (w := K.w) G.lwe.fits hM
  have F := table_flips (L := Lut.andMajority) G V hΛ hrun hS (by simp) hT ho
  refine ⟨?_, ?_, ?_⟩
  · intro c c' hc hc' hs
    obtain ⟨r, er, -, hr, -⟩ := C33_add (2 ^ m) S.length _ hO c x hc hx
    obtain ⟨r', er', -, hr', -⟩ := C33_add (2 ^ m) S.length _ hO c' x hc' hx
    obtain ⟨d, ed, ed2, hd, -⟩ := C33_add (2 ^ m) S.length _ hO r y hr hy
    obtain ⟨d', ed', ed2', hd', -⟩ := C33_add (2 ^ m) S.length _ hO r' y hr' hy
    obtain ⟨b, h1, h2⟩ := F d d' hd hd'
      (shifted_add hO (shifted_add hO hs hc hc' hx er er') hr hr' hy ed ed')
    refine ⟨b, ?_, ?_⟩ <;> dsimp only <;> unfold EvalKey.majority <;> rw [mbind eO]
    · rw [mbind er, mbind ed2]; exact h1
    · rw [mbind er', mbind ed2']; exact h2
  · intro c c' hc hc' hs
    obtain ⟨r, er, -, hr, -⟩ := C33_add (2 ^ m) S.length _ hO x c hx hc
    obtain ⟨r', er', -, hr', -⟩ := C33_add (2 ^ m) S.length _ hO x c' hx hc'
    obtain ⟨d, ed, ed2, hd, -⟩ := C33_add (2 ^ m) S.length _ hO r y hr hy
    obtain ⟨d', ed', ed2', hd', -⟩ := C33_add (2 ^ m) S.length _ hO r' y hr' hy
    obtain ⟨b, h1, h2⟩ := F d d' hd hd'
      (shifted_add hO (shifted_add_right hO hs hc hc' hx er er') hr hr' hy ed ed')
    refine ⟨b, ?_, ?_⟩ <;> dsimp only <;> unfold EvalKey.majority <;> rw [mbind eO]
    · rw [mbind er, mbind ed2]; exact h1
    · rw [mbind er', mbind ed2']; exact h2
  · intro c c' hc hc' hs
    obtain ⟨r, er, -, hr, -⟩ := C33_add (2 ^ m) S.length _ hO x y hx hy
    obtain ⟨d, ed, ed2, hd, -⟩ := C33_add (2 ^ m) S.length _ hO r c hr hc
    obtain ⟨d', ed', ed2', hd', -⟩ := C33_add (2 ^ m) S.length _ hO r c' hr hc'
    obtain ⟨b, h1, h2⟩ := F d d' hd hd' (shifted_add_right hO hs hc hc' hr ed ed')
    refine ⟨b, ?_, ?_⟩ <;> dsimp only <;> unfold EvalKey.majority <;> rw [mbind eO, mbind er]
    · rw [mbind ed2]; exact h1
    · rw [mbind ed2']; exact h2

end

/-! ## A fair coin -/

/-- The bit of an encryption that a shift flips is a fair coin. -/
theorem coin_of_flips (P : LWEParams) (i m n : Nat) [NeZero P.q] (h : LWEParamsOk P i m) (χ : PMF ℤ)
    (hχ : ∀ z ∈ χ.support, NoiseInRange (2 ^ i) (2 ^ m) z) (sk' : List Nat) (hs : sk'.length = n) (j : Fin n) {s' T : ℤ}
    (hk : keyVector (2 ^ m) n sk' j = (s' : ZMod (2 ^ m))) {F : LWE → Option Nat} (hF : Flips (2 ^ m) n j s' T F)
    (v : Nat) (hv : v < 2 ^ i) : ((encryptLaw P n χ sk' v).map fun c => c.bind F) = coin := by
  classical
  obtain ⟨w, t, q⟩ := P
  obtain rfl : t = 2 ^ i := h.t
  obtain rfl : q = 2 ^ m := h.q
  rw [C67_ciphertext_law ⟨w, 2 ^ i, 2 ^ m⟩ i m n h χ hχ sk' hs v hv, PMF.map_comp]
  unfold lweSample
  rw [PMF.map_bind]
  have e1 : ∀ a : Fin n → ZMod (2 ^ m), PMF.map ((fun c : Option LWE => c.bind F) ∘
      fun x => some (maskMessage (2 ^ m) n (2 ^ i) v x))
        (χ.map fun e : ℤ => (a, ∑ i, a i * keyVector (2 ^ m) n sk' i + (e : ZMod (2 ^ m)))) =
      χ.bind fun e : ℤ => PMF.pure (F (maskMessage (2 ^ m) n (2 ^ i) v
        (a, ∑ i, a i * keyVector (2 ^ m) n sk' i + (e : ZMod (2 ^ m))))) := by
    intro a
    rw [PMF.map_comp]
    rfl
  rw [show (fun a => PMF.map _ _) = _ from funext e1, PMF.bind_comm]
  have e2 : ∀ e : ℤ, ((PMF.uniformOfFintype (Fin n → ZMod (2 ^ m))).bind fun a =>
      PMF.pure (F (maskMessage (2 ^ m) n (2 ^ i) v
        (a, ∑ i, a i * keyVector (2 ^ m) n sk' i + (e : ZMod (2 ^ m)))))) = coin := by
    intro e
    set c : (Fin n → ZMod (2 ^ m)) → LWE := fun a => maskMessage (2 ^ m) n (2 ^ i) v
        (a, ∑ i, a i * keyVector (2 ^ m) n sk' i + (e : ZMod (2 ^ m))) with hc
    have hred : ∀ a, LWEReduced (2 ^ m) n (c a) := fun a => ⟨⟨by simp [hc, maskMessage], fun x hx => by
      obtain ⟨j, rfl⟩ := (List.mem_ofFn' _ _).1 hx
      exact ZMod.val_lt _⟩, ZMod.val_lt _⟩
    have hsh : ∀ a, ShiftedBy (2 ^ m) j (T : ℤ) ((s' * T : ℤ) : ZMod (2 ^ m)) (c a)
        (c (a + Pi.single j ((T : ℤ) : ZMod (2 ^ m)))) := fun a => by
      refine ⟨shiftAt_ofFn _ j a, ?_⟩
      simp only [hc, maskMessage, ZMod.natCast_zmod_val]
      have e3 : ∑ x, (Pi.single j ((T : ℤ) : ZMod (2 ^ m)) : Fin n → ZMod (2 ^ m)) x * keyVector (2 ^ m) n sk' x =
          T * keyVector (2 ^ m) n sk' j := by
        rw [Finset.sum_eq_single j (fun b _ hb => by rw [Pi.single_eq_of_ne hb, zero_mul])
          (fun hj => absurd (Finset.mem_univ j) hj), Pi.single_eq_same]
      simp only [Pi.add_apply, add_mul, Finset.sum_add_distrib]
      rw [e3, hk]
      push_cast
      ring
    have hval : ∀ a, ∃ x : ZMod 2, F (c a) = some x.val ∧
        F (c (a + Pi.single j ((T : ℤ) : ZMod (2 ^ m)))) = some (x + 1).val := fun a => by
      obtain ⟨x, h1, h2⟩ := hF _ _ (hred _) (hred _) (hsh a)
      refine ⟨x.toNat, ?_, ?_⟩
      · rw [h1]; cases x <;> rfl
      · rw [h2]; cases x <;> rfl
    choose f hf using hval
    have hstep : ∀ a, f (a + Pi.single j ((T : ℤ) : ZMod (2 ^ m))) = f a + 1 := fun a => by
      have h1 := (hf (a + Pi.single j ((T : ℤ) : ZMod (2 ^ m)))).1
      rw [(hf a).2] at h1
      exact (ZMod.val_injective 2 (Option.some.inj h1)).symm
    show (PMF.uniformOfFintype (Fin n → ZMod (2 ^ m))).bind (fun a => PMF.pure (F (c a))) = _
    rw [show (fun a => PMF.pure (F (c a))) = fun a => PMF.pure ((fun x : ZMod 2 => some x.val) (f a)) from
      funext fun a => by rw [(hf a).1]]
    have hu := uniform_of_shift (N := 2) (Equiv.addRight (Pi.single j ((T : ℤ) : ZMod (2 ^ m)) : Fin n → ZMod (2 ^ m))) f
      hstep
    show (PMF.uniformOfFintype (Fin n → ZMod (2 ^ m))).map ((fun x : ZMod 2 => some x.val) ∘ f) = _
    rw [← PMF.map_comp, hu]
    unfold coin
    rw [uniformBelow_zmod, PMF.map_comp]
    rfl
  rw [show (fun e : ℤ => PMF.bind _ _) = _ from funext e2]
  exact PMF.bind_const _ _

section
variable {K : EvalKey} {Q k m : Nat} [Fact Q.Prime] (G : GateParams K.w K.R K.P Q k m) {sk z : List Nat}
  {S Z : List ℤ} {E E' : Nat} (V : K.Valid Q k m sk z S Z E E')
  {Λ : Level} (hΛ : 2 * outError K.P.steps Q m Λ < Q * 2 ^ m)
  (hrun : ∀ c lut, LWEReduced (2 ^ m) S.length c → Reduced Q (2 ^ k) lut → K.RunNoise Q k m sk z S Z Λ c lut)
include G V hΛ hrun

/-- C94: one operand of a gate is encrypted with another key than the one the evaluation key belongs to. The gate returns
without panic, and the bit it computed is a fair coin, whatever the message, the other operands and the law of the
noise are. -/
theorem C94_coin [NeZero (K.P.lwe K.w).q] (hS : SmallDigits S) {sk' : List Nat} {S' : List ℤ}
    (hk' : KeyWords (2 ^ m) sk' S') (hS' : SmallDigits S') (hl : S'.length = S.length) (hne : S ≠ S')
    {x y : LWE} (hx : LWEReduced (2 ^ m) S.length x) (hy : LWEReduced (2 ^ m) S.length y) (χ : PMF ℤ)
    (hχ : ∀ z ∈ χ.support, NoiseInRange 4 (2 ^ m) z) (v : Nat) (hv : v < 4) :
    ∀ g ∈ openGates K x y, gateWrong K S.length χ sk sk' g v = coin := by
  obtain ⟨j, hj, hd⟩ : ∃ j, ∃ h : j < S.length, S[j] ≠ S'[j] := by
    by_contra hall
    push Not at hall
    exact hne (List.ext_getElem hl.symm fun j h1 h2 => hall j h1)
  have hj' : j < S'.length := by omega
  have hSj : S[j]? = some S[j] := List.getElem?_eq_getElem hj
  have hlen := keyWords_length hk'
  have hkey : keyVector (2 ^ m) S.length sk' ⟨j, hj⟩ = ((S'[j] : ℤ) : ZMod (2 ^ m)) := by
    have h1 := congrArg (fun l => l[j]?) hk'
    simp only [List.getElem?_map, List.getElem?_eq_getElem hj', List.getElem?_eq_getElem (hlen ▸ hj' : j < sk'.length),
      Option.map_some, Option.some.injEq] at h1
    unfold keyVector
    rw [List.getD_eq_getElem _ _ (by rw [hlen]; exact hj')]
    exact h1
  have hm3 : 3 ≤ m := by have := G.lwe.lt; omega
  have hk2 := G.two_le
  obtain ⟨A, hA⟩ : ∃ A : ℤ, (2 ^ m : ℤ) = 8 * A := ⟨2 ^ (m - 3), by
    rw [show (8 : ℤ) = 2 ^ 3 by norm_num, ← pow_add]; congr 1; omega⟩
  obtain ⟨B, hB⟩ : ∃ B : ℤ, (2 ^ k : ℤ) = 2 * B := ⟨2 ^ (k - 1), by
    rw [← pow_succ']; congr 1; omega⟩
  obtain ⟨T, τ, o, hT, ho⟩ : ∃ T τ o : ℤ, 2 * T * (2 * 2 ^ k : Nat) = τ * (2 ^ m : Nat) ∧
      τ * (S'[j] - S[j]) = 2 ^ k * (2 * o + 1) := by
    have a1 := hS _ (List.getElem_mem hj)
    have a2 := hS' _ (List.getElem_mem hj')
    have hdd : S'[j] - S[j] = 1 ∨ S'[j] - S[j] = -1 ∨ S'[j] - S[j] = 2 ∨ S'[j] - S[j] = -2 := by omega
    rcases hdd with h | h | h | h
    · exact ⟨2 * A, 2 * B, 0, by push_cast; rw [hA, hB]; ring, by rw [h, hB]; ring⟩
    · exact ⟨2 * A, 2 * B, -1, by push_cast; rw [hA, hB]; ring, by rw [h, hB]; ring⟩
    · exact ⟨A, B, 0, by push_cast; rw [hA, hB]; ring, by rw [h, hB]; ring⟩
    · exact ⟨A, B, -1, by push_cast; rw [hA, hB]; ring, by rw [h, hB]; ring⟩
  have fin : ∀ {T : ℤ} {g : LWE → Option LWE},
      Flips (2 ^ m) S.length j S'[j] T (fun c => (g c).bind ((K.P.lwe K.w).decrypt .bool sk)) →
      gateWrong K S.length χ sk sk' g v = coin := fun hF =>
    coin_of_flips _ 2 m S.length G.lwe χ hχ sk' (hlen.trans hl) ⟨j, hj⟩ hkey hF v hv
  intro g hg
  simp only [openGates, List.mem_cons, List.not_mem_nil, or_false] at hg
  have hsum : ∀ L ∈ [Lut.nand, Lut.andMajority, Lut.or, Lut.nor, Lut.xor, Lut.xnor], _ :=
    fun L hL => sum_flips (L := L) G V hΛ hrun hSj hL hT ho hx
  have hdiff : ∀ L ∈ [Lut.nand, Lut.andMajority, Lut.or, Lut.nor, Lut.xor, Lut.xnor], _ :=
    fun L hL => diff_flips (L := L) G V hΛ hrun hSj hL hT ho hx
  have hmaj := majority_flips G V hΛ hrun hSj hT ho hx hy
  rcases hg with rfl | rfl | rfl | rfl | rfl | rfl | rfl | rfl | rfl | rfl | rfl | rfl | rfl | rfl | rfl
  exacts [fin (hsum _ (by simp)).1, fin (hsum _ (by simp)).2, fin (hsum _ (by simp)).1, fin (hsum _ (by simp)).2,
    fin (hsum _ (by simp)).1, fin (hsum _ (by simp)).2, fin (hsum _ (by simp)).1, fin (hsum _ (by simp)).2,
    fin (hdiff _ (by simp)).1, fin (hdiff _ (by simp)).2, fin (hdiff _ (by simp)).1, fin (hdiff _ (by simp)).2,
    fin hmaj.1, fin hmaj.2.1, fin hmaj.2.2]

end

theorem ternaryDigit_small (l : List Nat) : SmallDigits (l.map ternaryDigit) := fun s hs => by
  obtain ⟨v, -, rfl⟩ := List.mem_map.1 hs
  unfold ternaryDigit
  split_ifs <;> simp

theorem digits_injective {q : Nat} (hq : 2 < q) : ∀ l l' : List Nat, (∀ v ∈ l, KeyWord q v) → (∀ v ∈ l', KeyWord q v) →
    l.map ternaryDigit = l'.map ternaryDigit → l = l'
  | [], [], _, _, _ => rfl
  | [], _ :: _, _, _, h => by simp at h
  | _ :: _, [], _, _, h => by simp at h
  | a :: l, b :: l', h1, h2, h => by
    simp only [List.map_cons, List.cons.injEq] at h
    rw [digits_injective hq l l' (fun v hv => h1 v (List.mem_cons_of_mem _ hv)) (fun v hv => h2 v (List.mem_cons_of_mem _ hv))
      h.2]
    congr 1
    have ha := h1 a List.mem_cons_self
    have hb := h2 b List.mem_cons_self
    have h3 := h.1
    unfold ternaryDigit at h3
    unfold KeyWord at ha hb
    split_ifs at h3 <;> omega

/-- C94: two users generate keys with the same parameters, for which the worst-case noise is small enough. If the secret
keys differ, then a gate which the first user's evaluation key computes on a ciphertext of the second user and any other
ciphertexts gives the first user a fair coin. -/
theorem C94_application {w : Nat} {R : Ctx} {P : Params} {Q k m : Nat} [Fact Q.Prime] [NeZero (P.lwe w).q]
    (G : GateParams w R P Q k m) (hS : StepsOk R P Q k m) (bits : Nat) (hB : Basis.new R.w Q bits = some P.basis)
    (dk dk' : KeyDraws) (hg : GaussOk P Q dk) (hg' : GaussOk P Q dk') (E E' : Nat) (d : EvalDraws)
    (hd : EvalDrawsOk R P Q k m E E' d) (η : ℤ)
    (hη : WorstStable P Q k m (worstRotation P k E) (worstSwitch w R P Q k m E') η) :
    ∃ pack pack' rot sw, KeyPack.new R P dk = some pack ∧ KeyPack.new R P dk' = some pack' ∧
      EvalKey.new w R P pack d = some ⟨w, R, P, rot, sw⟩ ∧ (pack.lwe ≠ pack'.lwe →
        ∀ x y : LWE, LWEReduced (2 ^ m) P.n x → LWEReduced (2 ^ m) P.n y →
        ∀ χ : PMF ℤ, (∀ z ∈ χ.support, NoiseInRange 4 (2 ^ m) z) → ∀ v < 4,
        ∀ g ∈ openGates ⟨w, R, P, rot, sw⟩ x y,
          gateWrong ⟨w, R, P, rot, sw⟩ P.n χ pack.lwe pack'.lwe g v = coin) := by
  obtain ⟨pack, rot, sw, Z, ep, eK, hlen, hZ, V⟩ := C52_evaluation_key G hS bits hB dk hg E E' d hd
  obtain ⟨pack₁, ep₁, -, hw, -⟩ := C52_key_pack G hS dk hg
  obtain rfl := Option.some.inj (ep₁.symm.trans ep)
  obtain ⟨pack', ep', hlen', hw', -⟩ := C52_key_pack G hS dk' hg'
  refine ⟨pack₁, pack', rot, sw, ep, ep', eK, fun hne x y hx hy χ hχ v hv => ?_⟩
  have hZn : P.steps = .brMsKs → norm1 Z ≤ 2 ^ k := fun hst => by
    have hng : P.ringKeyType ≠ .gaussian := by
      unfold StepsOk at hS; rw [hst] at hS; exact hS.1
    rw [hZ hng]
    refine (norm1_digits _).trans ?_
    have := V.red.1
    rw [this]; push_cast; exact le_rfl
  have hst := worst_stable (K := ⟨w, R, P, rot, sw⟩) rfl rfl rfl hlen hZn hη
  have hm3 : 3 ≤ m := by have := G.lwe.lt; omega
  have h2q : 2 < 2 ^ m := lt_of_lt_of_le (by norm_num : 2 < 2 ^ 3) (Nat.pow_le_pow_right (by decide) hm3)
  have hLen : (pack₁.lwe.map ternaryDigit).length = P.n := by rw [List.length_map, hlen]
  have hQ : (0 : ℤ) < Q := by exact_mod_cast (Fact.out : Q.Prime).pos
  have hΛ : 2 * outError P.steps Q m (worstLevel ⟨w, R, P, rot, sw⟩ Q k m (pack₁.lwe.map ternaryDigit) Z E E') <
      Q * 2 ^ m := by
    have h1 := hst.fresh
    have h2 := hst.gate
    have h3 : (0 : ℤ) ≤ 2 * 2 ^ m * (worstLevel ⟨w, R, P, rot, sw⟩ Q k m (pack₁.lwe.map ternaryDigit) Z E E').inp :=
      mul_nonneg (by positivity) hst.nonneg
    have h4 : (24 * η) * 2 ^ k < 2 ^ m * 2 ^ k := by linarith
    have h5 : 24 * η < 2 ^ m := lt_of_mul_lt_mul_right h4 (by positivity)
    have h6 : (Q : ℤ) * (8 * η) < Q * 2 ^ m := by
      have hpos : (0 : ℤ) < 2 ^ m := by positivity
      exact mul_lt_mul_of_pos_left (by omega) hQ
    linarith
  have hc := C94_coin (K := ⟨w, R, P, rot, sw⟩) G V hΛ (fun c lut hc hl => runNoise_of_valid G V hc hl)
    (ternaryDigit_small _) (keyWords_digits (by omega) hw') (ternaryDigit_small _)
    (by rw [hLen, List.length_map, hlen']) (fun h => hne (digits_injective h2q _ _ hw hw' h))
    (by rw [hLen]; exact hx) (by rw [hLen]; exact hy) χ hχ v hv
  rw [hLen] at hc
  exact hc

-- the keys of the small instance: (1, -1) for the first user, another one for the second
theorem small_keys : KeyPack.lweKey smallParams (fun _ => 14) = some [1, 63] ∧
    KeyPack.lweKey smallParams (fun _ => 0) = some [0, 0] := by decide +kernel

-- so its conditions can be met: the worst-case noise is small enough and the keys differ
example [NeZero (smallParams.lwe 16).q] : ∃ pack pack' rot sw,
    KeyPack.new nativeCtx smallParams ⟨fun _ => 14, fun _ => 0x2d2d2d2d, []⟩ = some pack ∧
    KeyPack.new nativeCtx smallParams ⟨fun _ => 0, fun _ => 0x2d2d2d2d, []⟩ = some pack' ∧
    EvalKey.new 16 nativeCtx smallParams pack smallEvalDraws = some ⟨16, nativeCtx, smallParams, rot, sw⟩ ∧
    gateWrong ⟨16, nativeCtx, smallParams, rot, sw⟩ 2 (PMF.pure (-3)) pack.lwe pack'.lwe
      (fun c => (EvalKey.mk 16 nativeCtx smallParams rot sw).xor ⟨[5, 60], 9⟩ c) 1 = coin := by
  obtain ⟨pack, pack', rot, sw, ep, ep', eK, h⟩ := C94_application small_gateParams small_stepsOk 7 (by decide +kernel)
    ⟨fun _ => 14, fun _ => 0x2d2d2d2d, []⟩ ⟨fun _ => 0, fun _ => 0x2d2d2d2d, []⟩ (fun h => by cases h)
    (fun h => by cases h) 1 1 _ smallEvalDraws_ok 2 ⟨by decide +kernel, by decide +kernel⟩
  have key : ∀ {dk : KeyDraws} {p : KeyPack} {l : List Nat}, KeyPack.new nativeCtx smallParams dk = some p →
      KeyPack.lweKey smallParams dk.lwe = some l → p.lwe = l := fun e el => by
    unfold KeyPack.new at e
    rw [mbind el] at e
    obtain ⟨r, er, e⟩ := Option.bind_eq_some_iff.1 e
    obtain ⟨t, et, e⟩ := Option.bind_eq_some_iff.1 e
    obtain rfl := Option.some.inj e
    rfl
  refine ⟨pack, pack', rot, sw, ep, ep', eK, h ?_ ⟨[5, 60], 9⟩ ⟨[5, 60], 9⟩ ?_ ?_ (PMF.pure (-3)) ?_ 1 (by decide) _
    (by simp [openGates])⟩
  · rw [key ep small_keys.1, key ep' small_keys.2]; decide
  · exact ⟨⟨rfl, by decide⟩, by decide⟩
  · exact ⟨⟨rfl, by decide⟩, by decide⟩
  · intro z hz
    rw [PMF.support_pure, Set.mem_singleton_iff] at hz
    subst hz
    constructor <;> decide

end Verif.Props
