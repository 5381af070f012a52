import Verif.SpecReleaseLWE
import Verif.Props.Dimension
import Verif.Props.WrongKey

/-! # C98: ciphertexts of different dimensions in builds without debug assertions -/

namespace Verif.Props
open Spec

/-! ## Lists of different lengths -/

theorem zipCollect_min (f : Nat → Nat → Option Nat) : ∀ x y : List Nat,
    LWE.zipCollect f x y = LWE.zipCollect f (resizeWords (min x.length y.length) x) (resizeWords (min x.length y.length) y)
  | [], y => by simp [LWE.zipCollect, resizeWords]
  | x :: l, [] => by simp [LWE.zipCollect, resizeWords]
  | x :: l, y :: l' => by
    rw [List.length_cons, List.length_cons, Nat.add_min_add_right, resizeWords_cons, resizeWords_cons, LWE.zipCollect,
      LWE.zipCollect, zipCollect_min f l l']

theorem zipAssign_resize {f : Nat → Nat → Option Nat} : ∀ x y : List Nat, (∀ v ∈ x, f v 0 = some v) →
    Poly.zipAssign f x y = Poly.zipAssign f x (resizeWords x.length y)
  | [], y, _ => by simp [Poly.zipAssign]
  | x :: l, [], h => by
    rw [List.length_cons, resizeWords_nil, List.replicate_succ, Poly.zipAssign, Poly.zipAssign, mbind (h x (by simp)),
      ← resizeWords_nil, ← zipAssign_resize l [] fun v hv => h v (by simp [hv])]
    · cases l <;> rfl
    · simp
  | x :: l, y :: l', h => by
    rw [List.length_cons, resizeWords_cons, Poly.zipAssign, Poly.zipAssign,
      zipAssign_resize l l' fun v hv => h v (by simp [hv])]

theorem addRef_min (O : ModOps) (x y : LWE) : Release.addRef O x y =
    LWE.addRef O (resize (min x.a.length y.a.length) x) (resize (min x.a.length y.a.length) y) := by
  unfold Release.addRef LWE.addRef
  rw [if_pos (by rw [resize_length, resize_length]), zipCollect_min]
  rfl

theorem subRef_min (O : ModOps) (x y : LWE) : Release.subRef O x y =
    LWE.subRef O (resize (min x.a.length y.a.length) x) (resize (min x.a.length y.a.length) y) := by
  unfold Release.subRef LWE.subRef
  rw [if_pos (by rw [resize_length, resize_length]), zipCollect_min]
  rfl

theorem addInplace_resize {q : Nat} {O : ModOps} (hO : IsModOps q O) {n : Nat} {x : LWE} (hx : LWEReduced q n x) (y : LWE)
    (hq : 0 < q) : Release.addInplace O x y = LWE.addInplace O x (resize n y) := by
  unfold Release.addInplace LWE.addInplace
  rw [if_pos (by rw [resize_length, hx.1.1]), zipAssign_resize, hx.1.1]
  · rfl
  · intro v hv
    obtain ⟨r, e, hr, hc⟩ := hO.add v 0 (hx.1.2 v hv) hq
    rw [e, natCast_inj hr (hx.1.2 v hv) (by rw [hc]; simp)]

theorem resize_words {w d n : Nat} {c : LWE} (h : CipherWords w d c) : CipherWords w n (resize n c) :=
  ⟨⟨resizeWords_length _ _, fun x hx => by
    rcases mem_resizeWords hx with h' | rfl
    · exact h.1.2 x h'
    · exact Nat.two_pow_pos w⟩, h.2⟩

theorem resize_self {c : LWE} {n : Nat} (h : c.a.length = n) : resize n c = c := by
  subst h
  unfold resize
  rw [resizeWords_self]

/-! ## Gates -/

/-- C98: the gates of two operands of any dimensions are the checked gates of the operands cut to the smaller
dimension. For operands of one dimension the builds agree. No condition on the key. -/
theorem C98_binary (K : EvalKey) {g g' : LWE → LWE → Option LWE} (hg : (g, g') ∈ gatePairs K) (c0 c1 : LWE) :
    g' c0 c1 = g (resize (min c0.a.length c1.a.length) c0) (resize (min c0.a.length c1.a.length) c1) ∧
    (c0.a.length = c1.a.length → g' c0 c1 = g c0 c1) := by
  have hs : ∀ L, Release.sumGate K L c0 c1 =
      K.sumGate L (resize (min c0.a.length c1.a.length) c0) (resize (min c0.a.length c1.a.length) c1) := fun L => by
    unfold Release.sumGate EvalKey.sumGate
    simp only [addRef_min]
  have hd : ∀ L, Release.diffGate K L c0 c1 =
      K.diffGate L (resize (min c0.a.length c1.a.length) c0) (resize (min c0.a.length c1.a.length) c1) := fun L => by
    unfold Release.diffGate EvalKey.diffGate
    simp only [subRef_min]
  have h1 : g' c0 c1 = g (resize (min c0.a.length c1.a.length) c0) (resize (min c0.a.length c1.a.length) c1) := by
    simp only [gatePairs, List.mem_cons, List.not_mem_nil, or_false, Prod.mk.injEq] at hg
    rcases hg with ⟨rfl, rfl⟩ | ⟨rfl, rfl⟩ | ⟨rfl, rfl⟩ | ⟨rfl, rfl⟩ | ⟨rfl, rfl⟩ | ⟨rfl, rfl⟩
    exacts [hs _, hs _, hs _, hs _, hd _, hd _]
  refine ⟨h1, fun h => ?_⟩
  rw [h1, ← h, min_self, resize_self rfl, resize_self h.symm]

section
variable {K : EvalKey} {Q k m : Nat} [Fact Q.Prime] (G : GateParams K.w K.R K.P Q k m) {sk z : List Nat}
  {S Z : List ℤ} {E E' : Nat} (V : K.Valid Q k m sk z S Z E E')
include G V

/-- C98: with a valid key no gate of two operands panics, whatever the dimensions of the operands are. If the smaller
one is not above that of the key, or the last step is the LWE key switching, all words of the result are residues. -/
theorem C98_binary_total {g g' : LWE → LWE → Option LWE} (hg : (g, g') ∈ gatePairs K) {d0 d1 : Nat} {c0 c1 : LWE}
    (h0 : CipherWords K.w d0 c0) (h1 : CipherWords K.w d1 c1) :
    ∃ out, g' c0 c1 = some out ∧ CipherWords K.w (resultDim K sk.length (min d0 d1)) out ∧
      (K.P.steps = .brMsKs ∨ min d0 d1 ≤ sk.length → LWEReduced (2 ^ m) (resultDim K sk.length (min d0 d1)) out) := by
  have hg' : g ∈ binaryGates K := by
    simp only [gatePairs, List.mem_cons, List.not_mem_nil, or_false, Prod.mk.injEq] at hg
    simp only [binaryGates, List.mem_cons, List.not_mem_nil, or_false]
    rcases hg with ⟨rfl, -⟩ | ⟨rfl, -⟩ | ⟨rfl, -⟩ | ⟨rfl, -⟩ | ⟨rfl, -⟩ | ⟨rfl, -⟩ <;> simp
  obtain ⟨o, out, -, ho, e, hw, h3, h4, h5⟩ := (C93_binary G V hg' (resize_words (n := min d0 d1) h0)
    (resize_words (n := min d0 d1) h1)).2 rfl
  refine ⟨out, by rw [(C98_binary K hg c0 c1).1, h0.1.1, h1.1.1, e], hw, fun hd => ?_⟩
  unfold resultDim
  by_cases hs : K.P.steps = .brMsKs
  · rw [if_pos hs, h4 hs]
    exact ho
  · rw [if_neg hs]
    have hd := hd.resolve_left hs
    obtain ⟨h6, h7⟩ := h5 hs
    refine ⟨⟨h6, fun x hx => ?_⟩, by rw [h3]; exact ho.2⟩
    obtain ⟨i, hi⟩ := List.mem_iff_getElem?.1 hx
    have hi' := (List.getElem?_eq_some_iff.1 hi).1
    rw [h7 i (by omega)] at hi
    exact ho.1.2 x (List.mem_of_getElem? hi)

/-- C98: the majority gate: the first two operands are cut to the smaller dimension `d` of the two, and the third is cut
or filled with zeros to `d`. It does not panic. -/
theorem C98_majority {d0 d1 d2 : Nat} {c0 c1 c2 : LWE} (h0 : CipherWords K.w d0 c0) (h1 : CipherWords K.w d1 c1)
    (h2 : CipherWords K.w d2 c2) : ∃ out, Release.majority K c0 c1 c2 = some out ∧
    K.majority (resize (min d0 d1) c0) (resize (min d0 d1) c1) (resize (min d0 d1) c2) = some out := by
  obtain ⟨M, hM, eO⟩ := G.lwe.ops
  have hO := powOf2_isModOps (w := K.w) G.lwe.fits hM
  have hlwe : (K.P.lwe K.w).w = K.w := rfl
  rw [hlwe] at eO
  have r0 := resize_words (n := min d0 d1) h0
  have r1 := resize_words (n := min d0 d1) h1
  have r2 := resize_words (n := min d0 d1) h2
  obtain ⟨-, out, -, -, e, -, -⟩ := (C93_majority G V r0 r1 r2).2 ⟨rfl, rfl⟩
  refine ⟨out, ?_, e⟩
  obtain ⟨x, ex, -, hx, -⟩ := C33_add (2 ^ m) _ _ hO _ _ (residues_reduced (m := m) r0) (residues_reduced (m := m) r1)
  have ex' := (linear_mod G.lwe.fits hM r0 r1).1.trans ex
  rw [hlwe] at ex'
  have ex2 := addRef_min (PowOf2.ops K.w M) c0 c1
  rw [h0.1.1, h1.1.1, ex'] at ex2
  rw [← e]
  unfold Release.majority EvalKey.majority
  rw [mbind eO, mbind eO, mbind ex2, mbind ex', addInplace_resize hO hx c2 (Nat.two_pow_pos m)]

/-- C98: the multiplexer does not panic if the first two operands are cut to at most the dimension of the key, or the
last step is the LWE key switching. The dimension of the third operand does not matter. -/
theorem C98_mux {d0 d1 d2 : Nat} (hd : K.P.steps = .brMsKs ∨ min d0 d1 ≤ sk.length) {c0 c1 c2 : LWE}
    (h0 : CipherWords K.w d0 c0) (h1 : CipherWords K.w d1 c1) (h2 : CipherWords K.w d2 c2) :
    ∃ out, Release.mux K c0 c1 c2 = some out ∧ CipherWords K.w (resultDim K sk.length (min d0 d1)) out ∧
      (d0 = d1 → d1 = d2 → K.mux c0 c1 c2 = some out) := by
  obtain ⟨M, hM, eO⟩ := G.lwe.ops
  have hO := powOf2_isModOps (w := K.w) G.lwe.fits hM
  have hlwe : (K.P.lwe K.w).w = K.w := rfl
  rw [hlwe] at eO
  have hand : (K.and, Release.and K) ∈ gatePairs K := by simp [gatePairs]
  obtain ⟨n0, en, hn, -⟩ := C93_not G h0 0
  have hn' := words_of_reduced G.lwe.fits hn
  obtain ⟨x, ex, -, hx⟩ := C98_binary_total G V hand h0 h1
  obtain ⟨y, ey, hy, -⟩ := C98_binary_total G V hand hn' h2
  set D := resultDim K sk.length (min d0 d1) with hD
  have hx := hx hd
  have hyr := resize_words (n := D) hy
  obtain ⟨u, -, eu, hu, -⟩ := C33_add (2 ^ m) D _ hO _ _ hx (residues_reduced (m := m) hyr)
  have eu' := (linear_mod G.lwe.fits hM (words_of_reduced G.lwe.fits hx) hyr).2.1
  rw [residues_of_reduced hx, hlwe] at eu'
  have eu2 := (addInplace_resize hO hx y (Nat.two_pow_pos m)).trans (eu'.trans eu)
  obtain ⟨-, out, -, -, eo, hw, -⟩ := table_misfit G V hu Lut.or (tables_exist G _ (by simp))
  have hdim : resultDim K sk.length D = D := by
    rw [hD]; unfold resultDim; split <;> rfl
  refine ⟨out, ?_, by rw [← hdim]; exact hw, fun h01 h12 => ?_⟩
  · unfold Release.mux
    rw [mbind eO, mbind en, mbind ex, mbind ey, mbind eu2, eo]
  · have hl : y.a.length = D := by rw [hy.1.1, hD, ← h12, ← h01]
    have ex2 := (C98_binary K hand c0 c1).2 (by rw [h0.1.1, h1.1.1, h01])
    have ey2 := (C98_binary K hand n0 c2).2 (by rw [hn.1.1, h2.1.1, h01, h12])
    rw [ex] at ex2
    rw [ey] at ey2
    rw [resize_self hl] at eu'
    unfold EvalKey.mux
    rw [mbind eO, mbind en, mbind ex2.symm, mbind ey2.symm, mbind (eu'.trans (by rw [resize_self hl] at eu; exact eu)), eo]

end

/-! ## Decryption -/

theorem dot_resize : ∀ a s : List Nat, dot (resizeWords s.length a) s = dot a s
  | a, [] => by rw [List.length_nil, resizeWords_zero]; cases a <;> rfl
  | [], s :: l => by
    rw [List.length_cons, resizeWords_nil, List.replicate_succ, dot, ← resizeWords_nil, dot_resize [] l]
    cases l <;> simp [dot]
  | a :: l, s :: l' => by rw [List.length_cons, resizeWords_cons, dot, dot, dot_resize l l']

theorem dot_take : ∀ (d : Nat) (a s : List Nat), a.length = s.length → dot (a.take d) s = dot a (resizeWords s.length (s.take d))
  | d, [], s, h => by cases s <;> simp [dot]
  | d, a :: l, [], h => by simp at h
  | 0, a :: l, s :: l', h => by
    have := dot_take 0 l l' (by simpa using h)
    simp only [List.take_zero] at this ⊢
    rw [List.length_cons, resizeWords_nil, List.replicate_succ, dot, ← resizeWords_nil, ← this]
    cases l' <;> simp [dot]
  | d + 1, a :: l, s :: l', h => by
    rw [List.take_succ_cons, List.take_succ_cons, List.length_cons, resizeWords_cons, dot, dot,
      dot_take d l l' (by simpa using h)]

theorem release_dot {w k : Nat} (hkw : k < w) {M : PowOf2} (h : PowOf2.new (2 ^ k) = some M) (a b : List Nat) :
    Release.dotProduct w M a b = dot a b % 2 ^ k := by
  have e : a.zip b = (a.take (min a.length b.length)).zip (b.take (min a.length b.length)) :=
    List.zip_eq_zip_take_min
  have e1 := C10_powof2_dot w k hkw M h (a.take (min a.length b.length)) (b.take (min a.length b.length))
  have hl : (a.take (min a.length b.length)).length = (b.take (min a.length b.length)).length := by
    simp only [List.length_take]; omega
  unfold PowOf2.dotProduct at e1
  rw [if_pos hl, if_pos hl] at e1
  unfold Release.dotProduct
  rw [e, Option.some.inj e1]
  congr 1
  clear e e1 hl
  induction a generalizing b with
  | nil => cases b <;> simp [dot]
  | cons x a ih =>
    cases b with
    | nil => simp [dot]
    | cons y b =>
      rw [List.length_cons, List.length_cons, Nat.add_min_add_right, List.take_succ_cons, List.take_succ_cons, dot, dot, ih b]

theorem release_decrypt {P : LWEParams} {i k : Nat} (h : LWEParamsOk P i k) (msg : Plain.Msg) {sk c : _}
    {a' sk' : List Nat} (hl : a'.length = sk'.length) (hdot : dot a' sk' = dot (LWE.a c) sk) :
    Release.decrypt P msg sk c = P.decrypt msg sk' ⟨a', c.b⟩ := by
  obtain ⟨M, hM, eO⟩ := h.ops
  have e1 : (PowOf2.ops P.w M).dot a' sk' = some (dot c.a sk % 2 ^ k) := by
    show PowOf2.dotProduct P.w M a' sk' = _
    rw [C10_powof2_dot P.w k h.fits M hM, if_pos hl, hdot]
  have hM' : PowOf2.new P.q = some M := by rw [h.q]; exact hM
  unfold Release.decrypt LWEParams.decrypt LWEParams.phase
  rw [mbind hM', mbind eO, mbind e1, release_dot h.fits hM]
  rfl

/-- C98: decryption never fails because of the dimension: it is decryption of the ciphertext cut or filled with zeros to
the dimension of the key. For the dimension of the key the builds agree. -/
theorem C98_decrypt {P : LWEParams} {i k : Nat} (h : LWEParamsOk P i k) (msg : Plain.Msg) (sk : List Nat) (c : LWE) :
    Release.decrypt P msg sk c = P.decrypt msg sk (resize sk.length c) ∧
    (c.a.length = sk.length → Release.decrypt P msg sk c = P.decrypt msg sk c) := by
  have e : Release.decrypt P msg sk c = P.decrypt msg sk (resize sk.length c) :=
    release_decrypt h msg (resizeWords_length _ _) (dot_resize c.a sk)
  exact ⟨e, fun hl => by rw [e, resize_self hl]⟩

section
variable (P : LWEParams) (i k n : Nat) (h : LWEParamsOk P i k) (χ : PMF ℤ)
  (hχ : ∀ z ∈ χ.support, NoiseInRange (2 ^ i) (2 ^ k) z) [NeZero P.q] [NeZero (2 ^ i)]
include h hχ

/-- C98: a ciphertext that has lost words: if all words of the key for the lost words are zero, nothing changes, and
otherwise decryption returns a uniform guess, whatever the message is. -/
theorem C98_lost_words (sk : List Nat) (hs : SmallKey (2 ^ k) n sk) (d : Nat) (msg : Plain.Msg) (m : Nat) (hm : m < 2 ^ i) :
    (sk.drop d ≠ List.replicate (n - d) 0 → decryptCut P n χ msg d sk m = guess (2 ^ i) msg) ∧
    (sk.drop d = List.replicate (n - d) 0 → decryptCut P n χ msg d sk m = decryptWrong P n χ msg sk sk m) := by
  have hlen : (resizeWords sk.length (sk.take d)).length = n := by rw [resizeWords_length, hs.1]
  have hkey : resizeWords sk.length (sk.take d) = sk.take d ++ List.replicate (n - d) 0 := by
    have hn := hs.1
    by_cases hd : d ≤ n
    · unfold resizeWords
      rw [List.take_append, List.take_replicate, List.take_of_length_le (by simp), List.length_take, hn,
        Nat.min_eq_left hd, Nat.min_eq_left (by omega)]
    · rw [List.take_of_length_le (by omega), resizeWords_self, show n - d = 0 by omega, List.replicate_zero,
        List.append_nil]
  have e : decryptCut P n χ msg d sk m = decryptWrong P n χ msg sk (resizeWords sk.length (sk.take d)) m := by
    obtain ⟨w, T, q⟩ := P
    obtain rfl : T = 2 ^ i := h.t
    obtain rfl : q = 2 ^ k := h.q
    unfold decryptCut decryptWrong
    rw [C67_ciphertext_law ⟨w, 2 ^ i, 2 ^ k⟩ i k n h χ hχ sk hs.1 m hm, PMF.map_comp, PMF.map_comp]
    congr 1
    funext x
    show Release.decrypt _ msg sk ⟨(maskMessage (2 ^ k) n (2 ^ i) m x).a.take d, _⟩ = _
    have hl : (maskMessage (2 ^ k) n (2 ^ i) m x).a.length = sk.length := by simp [maskMessage, hs.1]
    exact release_decrypt h msg (hl.trans (resizeWords_length _ _).symm) (dot_take d _ sk hl).symm
  have hsk : sk = sk.take d ++ sk.drop d := (List.take_append_drop d sk).symm
  rw [e]
  constructor
  · intro hne
    refine C91_wrong_key P i k n h χ hχ sk _ hs ⟨hlen, fun s hs' => ?_⟩ (fun he => hne ?_) msg m hm
    · rcases mem_resizeWords hs' with h' | rfl
      · exact hs.2 s (List.mem_of_mem_take h')
      · exact Or.inl rfl
    · rw [hkey] at he
      exact List.append_cancel_left (hsk.symm.trans he)
  · intro he
    rw [hkey, ← he, ← hsk]

end

-- the small instance has dimension 2: operands of different dimensions panic in the checked build only
example : ∃ (K : EvalKey) (sk : List Nat), sk.length = 2 ∧
    ∀ c0 ∈ [LWE.mk [5, 60, 7] 9, ⟨[5], 9⟩, ⟨[], 9⟩], K.xor c0 ⟨[1, 2], 3⟩ = none ∧ K.mux c0 ⟨[1, 2], 3⟩ ⟨[4], 6⟩ = none ∧
      K.majority c0 ⟨[1, 2], 3⟩ ⟨[4], 6⟩ = none ∧ (∃ out, Release.xor K c0 ⟨[1, 2], 3⟩ = some out) ∧
      (∃ out, Release.mux K c0 ⟨[1, 2], 3⟩ ⟨[4], 6⟩ = some out) ∧
      ∃ out, Release.majority K c0 ⟨[1, 2], 3⟩ ⟨[4], 6⟩ = some out := by
  obtain ⟨pack, rot, sw, Z, ep, eK, hlen, hZ, V⟩ := C52_evaluation_key small_gateParams small_stepsOk 7 (by decide +kernel)
    ⟨fun _ => 14, fun _ => 0x2d2d2d2d, []⟩ (fun h => by cases h) 1 1 _ smallEvalDraws_ok
  refine ⟨⟨16, nativeCtx, smallParams, rot, sw⟩, _, hlen, fun c0 hc => ?_⟩
  set K : EvalKey := ⟨16, nativeCtx, smallParams, rot, sw⟩
  have hw : CipherWords 16 c0.a.length c0 ∧ c0.a.length ≠ 2 := by
    simp only [List.mem_cons, List.not_mem_nil, or_false] at hc
    rcases hc with rfl | rfl | rfl <;> simp [CipherWords]
  have h1 : CipherWords 16 2 ⟨[1, 2], 3⟩ := by simp [CipherWords]
  have h2 : CipherWords 16 1 ⟨[4], 6⟩ := by simp [CipherWords]
  have hg : K.xor ∈ binaryGates K := by simp [binaryGates]
  have hp : (K.xor, Release.xor K) ∈ gatePairs K := by simp [gatePairs]
  obtain ⟨o1, e1, -⟩ := C98_binary_total (K := K) small_gateParams V hp hw.1 h1
  obtain ⟨o2, e2, -⟩ := C98_mux (K := K) small_gateParams V (Or.inr (by rw [hlen]; exact Nat.min_le_right _ _)) hw.1 h1 h2
  obtain ⟨o3, e3, -⟩ := C98_majority (K := K) small_gateParams V hw.1 h1 h2
  exact ⟨(C93_binary (K := K) small_gateParams V hg hw.1 h1).1 hw.2,
    (C93_mux (K := K) small_gateParams V hw.1 h1 h2).1 (fun h => hw.2 h.1),
    (C93_majority (K := K) small_gateParams V hw.1 h1 h2).1 (fun h => hw.2 h.1), ⟨o1, e1⟩, ⟨o2, e2⟩, o3, e3⟩

-- a binary key of dimension 512 with last word 1: after the loss of the last word decryption is a fair choice between
-- the four values, of which the type of bits holds two
example (l : List Nat) (hl : l.length = 511) (hb : ∀ s ∈ l, s < 2) (b : Nat) (hb2 : b < 2) :
    decryptCut ⟨16, 4, 1024⟩ 512 smallError .bool 511 (l ++ [1]) b none = 1 / 2 := by
  rw [(C98_lost_words ⟨16, 4, 1024⟩ 2 10 512 (by constructor <;> norm_num) smallError smallError_range (l ++ [1])
    ⟨by simp [hl], fun s hs => by
      rcases List.mem_append.1 hs with h | h
      · have := hb s h; omega
      · simp at h; omega⟩ 511 .bool b (by omega)).1 (by rw [← hl, List.drop_left]; simp [hl])]
  exact C91_boolean.2.2

end Verif.Props
