import Verif.SpecSecrecy
import Verif.Lemmas.Uniform
import Verif.Props.LWE

/-! # C67: ciphertexts are as hard to tell apart as learning with errors is hard -/

namespace Verif.Props
open Spec
open scoped ENNReal

theorem uniform_unique {α : Type} [Fintype α] [Nonempty α] {p : PMF α} (h : ∀ a b, p a = p b) :
    p = PMF.uniformOfFintype α := by
  ext a
  have h1 := p.tsum_coe
  rw [tsum_fintype, Finset.sum_congr rfl (fun b _ => h b a), Finset.sum_const, Finset.card_univ, nsmul_eq_mul] at h1
  rw [PMF.uniformOfFintype_apply]
  exact ENNReal.eq_inv_of_mul_eq_one_left (by rw [mul_comm]; exact h1)

theorem uniform_equiv {α β : Type} [Fintype α] [Nonempty α] [Fintype β] [Nonempty β] (e : α ≃ β) :
    (PMF.uniformOfFintype α).map e = PMF.uniformOfFintype β := by
  classical
  refine uniform_unique fun a b => ?_
  have key : ∀ a, ((PMF.uniformOfFintype α).map e) a = (Fintype.card α : ℝ≥0∞)⁻¹ := fun a => by
    rw [PMF.map_apply, tsum_eq_single (e.symm a)]
    · simp [PMF.uniformOfFintype_apply]
    · intro b hb
      rw [if_neg]
      rintro rfl
      simp at hb
  rw [key, key]

theorem uniform_pair (α β : Type) [Fintype α] [Nonempty α] [Fintype β] [Nonempty β] :
    pair (PMF.uniformOfFintype α) (PMF.uniformOfFintype β) = PMF.uniformOfFintype (α × β) := by
  classical
  refine uniform_unique fun x y => ?_
  have key : ∀ x : α × β, (pair (PMF.uniformOfFintype α) (PMF.uniformOfFintype β)) x =
      (Fintype.card α : ℝ≥0∞)⁻¹ * (Fintype.card β : ℝ≥0∞)⁻¹ := fun x => by
    unfold pair
    rw [PMF.bind_apply, tsum_eq_single x.1]
    · rw [PMF.bind_apply, tsum_eq_single x.2]
      · simp [PMF.uniformOfFintype_apply]
      · intro b hb
        rw [PMF.pure_apply, if_neg]
        · simp
        · intro e; exact hb (by rw [e])
    · intro a ha
      rw [PMF.bind_apply]
      simp only [PMF.pure_apply]
      rw [ENNReal.tsum_eq_zero.2]
      · simp
      · intro b
        rw [if_neg]
        · simp
        · intro e; exact ha (by rw [e])
  rw [key, key]

/-- The words of a uniform vector are independent uniform words. -/
theorem uniform_vector (q : Nat) [NeZero q] : ∀ n : Nat,
    (PMF.uniformOfFintype (Fin n → ZMod q)).map (fun a => List.ofFn fun i => (a i).val) = draws (uniformBelow q) n
  | 0 => by
    rw [draws]
    have : (fun a : Fin 0 → ZMod q => List.ofFn fun i => (a i).val) = Function.const _ [] := by
      funext a; simp
    rw [this, PMF.map_const]
  | n + 1 => by
    have e1 : uniformBelow q = (PMF.uniformOfFintype (ZMod q)).map ZMod.val := by
      unfold uniformBelow
      rw [← uniform_equiv (ZMod.finEquiv q).toEquiv, PMF.map_comp]
      congr 1
      funext i
      obtain ⟨m, rfl⟩ : ∃ m, q = m + 1 := ⟨q - 1, by have := NeZero.ne q; omega⟩
      rfl
    have e2 := uniform_equiv (Fin.consEquiv fun _ : Fin (n + 1) => ZMod q)
    rw [← e2, ← uniform_pair, PMF.map_comp, draws, e1, PMF.bind_map]
    unfold pair
    rw [PMF.map_bind]
    congr 1
    funext x
    rw [← e1, PMF.map_bind]
    show _ = (draws (uniformBelow q) n).bind _
    rw [← uniform_vector q n, PMF.bind_map]
    congr 1
    funext y
    rw [PMF.pure_map]
    simp [Fin.consEquiv, List.ofFn_succ]

theorem dot_ofFn {q n : Nat} (a : Fin n → ZMod q) [NeZero q] (sk : List Nat) (h : sk.length = n) :
    ((dot (List.ofFn fun i => (a i).val) sk : Nat) : ZMod q) = ∑ i, a i * keyVector q n sk i := by
  induction n generalizing sk with
  | zero => simp [dot]
  | succ n ih =>
    obtain _ | ⟨c, sk⟩ := sk
    · simp at h
    · rw [List.ofFn_succ, dot, Fin.sum_univ_succ]
      push_cast
      rw [ih (fun i => a i.succ) sk (by simpa using h)]
      simp [keyVector]

section
variable (P : LWEParams) (i k n : Nat) (h : LWEParamsOk P i k) (χ : PMF ℤ)
  (hχ : ∀ z ∈ χ.support, NoiseInRange (2 ^ i) (2 ^ k) z)
include h hχ

/-- C67: with a uniform mask, the ciphertext of a message has exactly the law of a sample of learning with errors whose
second part is shifted by the encoded message; no run panics. -/
theorem C67_ciphertext_law [NeZero P.q] (sk : List Nat) (hs : sk.length = n) (m : Nat) (hm : m < P.t) :
    encryptLaw P n χ sk m =
      (lweSample P.q n (keyVector P.q n sk) χ).map fun x => some (maskMessage P.q n P.t m x) := by
  unfold encryptLaw lweSample
  rw [← uniform_vector, PMF.bind_map, PMF.map_bind]
  congr 1
  funext a
  rw [PMF.map_comp]
  refine pmf_ext_mean fun F => ?_
  show mean (χ.map fun z => P.encrypt sk (List.ofFn fun i => (a i).val) z m) F = _
  rw [mean_map, mean_map]
  refine mean_congr fun z hz => ?_
  congr 1
  have hq := h.q
  have ht := h.t
  obtain ⟨c, e, hc, ha, hp, -⟩ := C31_encrypt_decrypt P i k n h sk (List.ofFn fun i => (a i).val) hs
    (by simp) (fun x hx => by
      obtain ⟨j, rfl⟩ := (List.mem_ofFn' _ _).1 hx
      rw [← hq]; exact ZMod.val_lt _) m z (by rwa [ht] at hm) (hχ z hz)
  rw [e]
  have ha' : c.a = List.ofFn fun i => (a i).val := by rw [ha, List.take_of_length_le (by simp)]
  obtain ⟨ca, cb⟩ := c
  dsimp only at ha' hp
  subst ha'
  rw [← hq, ← ht, lwePhase, dot_ofFn a sk hs, sub_eq_iff_eq_add] at hp
  show some _ = some (maskMessage P.q n P.t m (a, _))
  unfold maskMessage
  congr 2
  have hb : cb < P.q := by rw [hq]; exact hc.2
  rw [← ZMod.val_cast_of_lt hb, hp]
  congr 1
  ring

end

/-! ## Games -/

theorem queries_map {S C : Type} (law : PMF S) (answer : Nat → S → C) (pick : List C → Nat) : ∀ (k : Nat) (seen : List C),
    queries (fun m => law.map (answer m)) pick k seen =
      (draws law k).map fun l => l.foldl (fun seen y => seen ++ [answer (pick seen) y]) seen
  | 0, seen => by rw [queries, draws, PMF.pure_map]; rfl
  | k + 1, seen => by
    rw [queries, draws, PMF.bind_map, PMF.map_bind]
    congr 1
    funext x
    show queries _ pick k _ = _
    rw [queries_map law answer pick k, PMF.map_bind]
    show _ = (draws law k).bind fun l => _
    rw [PMF.map]
    congr 1
    funext l
    rw [PMF.pure_map]
    rfl

theorem queries_const {C : Type} (law : PMF C) (pick pick' : List C → Nat) : ∀ (k : Nat) (seen : List C),
    queries (fun _ => law) pick k seen = queries (fun _ => law) pick' k seen
  | 0, _ => rfl
  | k + 1, seen => by
    rw [queries, queries]
    congr 1
    funext c
    exact queries_const law pick pick' k _

theorem queries_congr {C : Type} {o o' : Nat → PMF C} {pick : List C → Nat} (h : ∀ seen, o (pick seen) = o' (pick seen)) :
    ∀ (k : Nat) (seen : List C), queries o pick k seen = queries o' pick k seen
  | 0, _ => rfl
  | k + 1, seen => by
    rw [queries, queries, h]
    congr 1
    funext c
    exact queries_congr h k _

/-- Adding an encoded message to a uniform sample gives a uniform sample. -/
theorem uniform_masks (q n t m : Nat) [NeZero q] :
    (PMF.uniformOfFintype (Sample q n)).map (fun x => some (maskMessage q n t m x)) =
      (PMF.uniformOfFintype (Sample q n)).map (fun x => some (maskMessage q n t 0 x)) := by
  have e := uniform_equiv ((Equiv.refl (Fin n → ZMod q)).prodCongr (Equiv.addRight ((m * (q / t) : Nat) : ZMod q)))
  conv_rhs => rw [← e, PMF.map_comp]
  congr 1
  funext x
  simp [maskMessage]

section
variable (P : LWEParams) (i k n : Nat) (h : LWEParamsOk P i k) (χ : PMF ℤ)
  (hχ : ∀ z ∈ χ.support, NoiseInRange (2 ^ i) (2 ^ k) z) [NeZero P.q] {A : Type}
  (keys : PMF (List Nat × A)) (hkeys : ∀ x ∈ keys.support, x.1.length = n)
include h hχ hkeys

/-- C67: what an observer of ciphertexts of chosen messages sees is computed, without the key, from samples of learning
with errors. -/
theorem C67_simulation (pick : A → List (Option LWE) → Nat) (hp : ∀ a seen, pick a seen < P.t) (c : Nat) :
    encryptGame P n keys χ pick c = (lweGame P.q n keys χ c).map (replay P.q n P.t pick) := by
  unfold encryptGame lweGame
  rw [PMF.map_bind]
  refine bind_congr_support fun x hx => ?_
  rw [queries_congr (o' := fun m => (lweSample P.q n (keyVector P.q n x.1) χ).map
      fun y => some (maskMessage P.q n P.t m y))
    (fun seen => C67_ciphertext_law P i k n h χ hχ x.1 (hkeys x hx) _ (hp _ _)), queries_map, PMF.map_comp, PMF.map_comp]
  rfl

/-- C67: chosen messages. An observer picks pairs of messages, depending on the auxiliary value and on the ciphertexts
seen so far, and gets either always the ciphertext of the left message or always that of the right one. If it tells the
two cases apart, then one of two observers, which do the same with samples in place of ciphertexts of zero, tells samples
of learning with errors from uniform samples, with at least half of the advantage. -/
theorem C67_chosen_messages (left right : A → List (Option LWE) → Nat) (hl : ∀ a seen, left a seen < P.t)
    (hr : ∀ a seen, right a seen < P.t) (c : Nat) (D : Set (A × List (Option LWE))) :
    advantage (encryptGame P n keys χ left c) (encryptGame P n keys χ right c) D ≤
      advantage (lweGame P.q n keys χ c) (uniformGame P.q n keys c) (replay P.q n P.t left ⁻¹' D) +
      advantage (lweGame P.q n keys χ c) (uniformGame P.q n keys c) (replay P.q n P.t right ⁻¹' D) := by
  rw [C67_simulation P i k n h χ hχ keys hkeys left hl, C67_simulation P i k n h χ hχ keys hkeys right hr]
  have hu : ∀ pick : A → List (Option LWE) → Nat, (uniformGame P.q n keys c).map (replay P.q n P.t pick) =
      (uniformGame P.q n keys c).map (replay P.q n P.t fun _ _ => 0) := fun pick => by
    have e : ∀ pick : A → List (Option LWE) → Nat, (uniformGame P.q n keys c).map (replay P.q n P.t pick) =
        keys.bind fun x => (queries (fun m => (PMF.uniformOfFintype (Sample P.q n)).map
          fun y => some (maskMessage P.q n P.t m y)) (pick x.2) c []).map fun l => (x.2, l) := fun pick => by
      unfold uniformGame
      rw [PMF.map_bind]
      congr 1
      funext x
      rw [queries_map, PMF.map_comp, PMF.map_comp]
      rfl
    rw [e, e]
    congr 1
    funext x
    congr 1
    have : (fun m => (PMF.uniformOfFintype (Sample P.q n)).map fun y => some (maskMessage P.q n P.t m y)) =
        fun _ => (PMF.uniformOfFintype (Sample P.q n)).map fun y => some (maskMessage P.q n P.t 0 y) :=
      funext fun m => uniform_masks P.q n P.t m
    rw [this]
    exact queries_const _ _ _ c []
  have hu' := congrArg (fun p => p.toOuterMeasure D) ((hu left).trans (hu right).symm)
  rw [PMF.toOuterMeasure_map_apply, PMF.toOuterMeasure_map_apply] at hu'
  unfold advantage
  rw [PMF.toOuterMeasure_map_apply, PMF.toOuterMeasure_map_apply, hu', abs_sub_comm
    (ENNReal.toReal ((lweGame P.q n keys χ c).toOuterMeasure (replay P.q n P.t right ⁻¹' D)))]
  exact abs_sub_le _ _ _

end

/-- Errors in `{-1, 0, 1}`. -/
noncomputable def smallError : PMF ℤ := (uniformBelow 3).map fun x : Nat => (x : ℤ) - 1

theorem smallError_range : ∀ z ∈ smallError.support, NoiseInRange (2 ^ 2) (2 ^ 10) z := by
  intro z hz
  unfold smallError at hz
  rw [PMF.mem_support_map_iff] at hz
  obtain ⟨x, hx, rfl⟩ := hz
  have := mem_support_uniformBelow hx
  unfold NoiseInRange
  omega

/-- Binary keys of dimension 512, which the observer does not know, errors in `{-1, 0, 1}`: an observer who asks for 1000
encryptions of 0 or of 1 and accepts if the second parts of the ciphertexts sum to an even number. -/
example (keys : PMF (List Nat × Unit)) (hkeys : keys = (draws (uniformBelow 2) 512).map fun l => (l, ())) :
    let D := {x : Unit × List (Option LWE) | (x.2.map fun c => (c.map LWE.b).getD 0).sum % 2 = 0}
    advantage (encryptGame ⟨16, 4, 1024⟩ 512 keys smallError (fun _ _ => 0) 1000)
        (encryptGame ⟨16, 4, 1024⟩ 512 keys smallError (fun _ _ => 1) 1000) D ≤
      advantage (lweGame 1024 512 keys smallError 1000) (uniformGame 1024 512 keys 1000)
        (replay 1024 512 4 (fun _ _ => 0) ⁻¹' D) +
      advantage (lweGame 1024 512 keys smallError 1000) (uniformGame 1024 512 keys 1000)
        (replay 1024 512 4 (fun _ _ => 1) ⁻¹' D) := by
  intro D
  refine C67_chosen_messages ⟨16, 4, 1024⟩ 2 10 512 (by constructor <;> norm_num) smallError smallError_range keys ?_ _ _
    (fun _ _ => by decide) (fun _ _ => by decide) 1000 D
  subst hkeys
  intro x hx
  obtain ⟨l, hl, rfl⟩ := (PMF.mem_support_map_iff _ _ _).1 hx
  exact (mem_support_draws hl).1

end Verif.Props
