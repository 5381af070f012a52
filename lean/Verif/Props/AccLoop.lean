import Verif.SpecUnit
import Verif.Props.AccStep

/-! # C75: the mask of the accumulator after a blind rotation is almost uniform -/

namespace Verif.Props
open Fp Finset Spec Ntt
open scoped ENNReal

section
variable {q : Nat} [Fact q.Prime]

theorem root_pow_ne_one (hodd : q ≠ 2) {k a : Nat} (h0 : 0 < a) (ha : a < 2 * 2 ^ k) {r : ZMod q} (hr : r ^ 2 ^ k = -1) :
    r ^ a ≠ 1 := by
  have hne : (-1 : ZMod q) ≠ 1 := by
    have : Fact (2 < q) := ⟨lt_of_le_of_ne (Fact.out : q.Prime).two_le (Ne.symm hodd)⟩
    exact ZMod.neg_one_ne_one
  have ho : orderOf r = 2 ^ (k + 1) := orderOf_eq_prime_pow (by rw [hr]; exact hne) (by
    rw [pow_succ, pow_mul, hr]; ring)
  intro h
  have := Nat.le_of_dvd h0 (orderOf_dvd_of_pow_eq_one h)
  rw [ho, pow_succ] at this
  omega

theorem seq_sum_eq_evalAt {n : Nat} (p : Rq (ZMod q) n) (r : ZMod q) :
    ∑ i ∈ range n, p.seq i * r ^ i = p.evalAt (RingHom.id _) r := rfl

/-- The digits recompose. -/
theorem digits_evalAt {n bits len : Nat} (hlen : q ≤ 2 ^ (bits * len)) {l : List Nat} (hl : Reduced q n l) (r : ZMod q)
    (h : ∀ j < len, (digitPoly q n bits l j).evalAt (RingHom.id _) r = 0) :
    (Rq.ofWords q n l).evalAt (RingHom.id _) r = 0 := by
  have e : ∀ x < 2 ^ (bits * len), x = ∑ j ∈ range len, 2 ^ (bits * j) * (x / 2 ^ (bits * j) % 2 ^ bits) := by
    intro x hx
    have : ∀ m, x % 2 ^ (bits * m) = ∑ j ∈ range m, 2 ^ (bits * j) * (x / 2 ^ (bits * j) % 2 ^ bits) := by
      intro m
      induction m with
      | zero => simp [Nat.mod_one]
      | succ m ih =>
        rw [sum_range_succ, ← ih, mul_add, mul_one, pow_add, Nat.mod_mul]
    rw [← this, Nat.mod_eq_of_lt hx]
  rw [← seq_sum_eq_evalAt]
  calc ∑ i ∈ range n, (Rq.ofWords q n l).seq i * r ^ i
      = ∑ i ∈ range n, ∑ j ∈ range len, ((2 ^ (bits * j) : Nat) : ZMod q) *
          ((digitPoly q n bits l j).seq i * r ^ i) := by
        refine sum_congr rfl fun i hi => ?_
        have hi := mem_range.1 hi
        rw [Rq.seq_lt _ hi]
        have hlt := (hl.2 _ (getD_mem _ (by rw [hl.1]; exact hi) : l.getD i 0 ∈ l)).trans_le hlen
        have : (Rq.ofWords q n l).co ⟨i, hi⟩ = ((l.getD i 0 : Nat) : ZMod q) := rfl
        rw [this]
        conv_lhs => rw [e _ hlt]
        rw [Nat.cast_sum, sum_mul]
        refine sum_congr rfl fun j _ => ?_
        rw [Rq.seq_lt _ hi, Nat.cast_mul, mul_assoc]
        rfl
    _ = ∑ j ∈ range len, ((2 ^ (bits * j) : Nat) : ZMod q) *
          (digitPoly q n bits l j).evalAt (RingHom.id _) r := by
        rw [sum_comm]
        refine sum_congr rfl fun j _ => ?_
        rw [← mul_sum]; rfl
    _ = 0 := sum_eq_zero fun j hj => by rw [h j (mem_range.1 hj), mul_zero]

variable {R : Ctx} {k : Nat}

theorem step_root_prob [NeZero q] [Nontrivial (ZMod q)] (hk : 0 < k) (F : TableField R.w q R.M R.tbl k)
    (hodd : q ≠ 2) {t bits len a : Nat} (ht : t ≤ k)
    (hq : (2 ^ t * (2 ^ bits - 1)) ^ 2 ^ t < q) (hlen : q ≤ 2 ^ (bits * len)) (h0 : 0 < a) (ha : a < 2 * 2 ^ k) :
    (draws (uniformBelow q) (2 ^ k)).toOuterMeasure
      {l | ¬NoCommonRoot (fun _ j => digitPoly q (2 ^ k) bits
        (wordsOf ((Rq.mono a - 1) * Rq.ofWords q (2 ^ k) l)) j) 1 len} ≤ rootTail q (2 ^ k) t := by
  refine digits_root_prob (m := 2 ^ (k - t)) (by rw [← pow_add]; congr 1; omega) (Nat.two_pow_pos _) hq hlen
    (fun l => wordsOf ((Rq.mono a - 1) * Rq.ofWords q (2 ^ k) l)) (fun l _ => (rep_iff.1 (wordsOf_rep _)).1) fun v => ?_
  obtain ⟨g, hg⟩ : ∃ g : Rq (ZMod q) (2 ^ k), (Rq.mono a - 1) * g = 1 := by
    obtain ⟨T, rfl, E⟩ := F.env hk
    obtain ⟨g, hg⟩ := exists_cofactors E (fun _ _ => (Rq.mono a - 1 : Rq (ZMod R.M.value) (2 ^ k))) 1 1 fun r hr => by
      refine ⟨0, by omega, 0, by omega, ?_⟩
      rw [seq_sum_eq_evalAt, Rq.evalAt_sub, Rq.evalAt_one, Rq.evalAt_mono _ hr]
      exact sub_ne_zero.2 (root_pow_ne_one hodd h0 ha hr)
    rw [sum_range_one, sum_range_one] at hg
    exact ⟨g 0 0, hg⟩
  refine ⟨wordsOf (g * Rq.ofWords q (2 ^ k) (spreadWords (2 ^ k) (2 ^ (k - t)) v)), fun l hl => ?_⟩
  have h1 := Rep.addW (d := wordsOf (g * Rq.ofWords q (2 ^ k) (spreadWords (2 ^ k) (2 ^ (k - t)) v))) (rep_exists hl)
  have h2 := Rep.addW (d := spreadWords (2 ^ k) (2 ^ (k - t)) v) (wordsOf_rep ((Rq.mono a - 1) * Rq.ofWords q (2 ^ k) l))
  rw [Rep.words_eq h2, (rep_iff.1 h1).2, (rep_iff.1 (wordsOf_rep _)).2]
  congr 1
  linear_combination (Rq.ofWords q (2 ^ k) (spreadWords (2 ^ k) (2 ^ (k - t)) v)) * hg

/-- The digits of the first step that changes the accumulator have no common root. -/
def FirstGood (q n bits len : Nat) [NeZero n] [Nontrivial (ZMod q)] (acc : RLWE) : List Nat → Prop
  | [] => False
  | a :: as => if a = 0 then FirstGood q n bits len acc as else StepGood q n bits len a acc

omit [Fact q.Prime] in
theorem firstGood_of {n bits len : Nat} [NeZero n] [Nontrivial (ZMod q)] {acc : RLWE} {l : List Nat} {a : Nat}
    (ha : l.find? (· ≠ 0) = some a) (h : StepGood q n bits len a acc) : FirstGood q n bits len acc l := by
  induction l with
  | nil => cases ha
  | cons x xs ih =>
    unfold FirstGood
    by_cases h0 : x = 0
    · rw [if_pos h0]
      refine ih ?_
      rwa [List.find?_cons_of_neg (by simp [h0])] at ha
    · rw [if_neg h0]
      rw [List.find?_cons_of_pos (by simp [h0])] at ha
      rwa [Option.some.inj ha]

end

section
variable {q : Nat} [Fact q.Prime]

/-- The loop with independent key elements, from an accumulator whose digits are good. -/
theorem loop_mask {K α : Type} (n : Nat) [NeZero n] [NeZero q] [Nontrivial (ZMod q)] (hn : 0 < n) (bits len : Nat)
    (ε : ℝ≥0∞)
    (hε : ∀ a, 0 < a → a < 2 * n → (draws (uniformBelow q) n).toOuterMeasure
      {l | ¬NoCommonRoot (fun _ j => digitPoly q n bits (wordsOf ((Rq.mono a - 1) * Rq.ofWords q n l)) j) 1 len} ≤ ε)
    (s : Rq (ZMod q) n) (p : PMF α) (C : ℝ) (digit : Nat → ℤ) (gen : Nat → α → Option K)
    (generate : List Nat → List α → Option (List K)) (h0 : ∀ l, generate [] l = some [])
    (h1 : ∀ x xs d ds, generate (x :: xs) (d :: ds) =
      (gen x d).bind fun g => (generate xs ds).bind fun gs => some (g :: gs))
    (step : BlindRotation.State → K → Nat → Option BlindRotation.State)
    (hstep : ∀ x, StepNoise q n s p C hn (gen x) step (digit x))
    (hzero : ∀ st g, step st g 0 = some st)
    (hunif : ∀ x, StepUniform q n bits len s p (gen x) step)
    (f : Option (List Nat) → ℝ≥0∞) (hf : ∀ o, f o ≤ 1) :
    ∀ (xs a : List Nat), a.length = xs.length → (∀ x ∈ a, x < 2 * n) →
    ∀ (φ : Rq (ZMod q) n) (st : BlindRotation.State), BlindRotation.Inv q n s φ st →
    (FirstGood q n bits len st.acc a →
      (mean (draws p xs.length) fun l => f ((generate xs l).bind fun key =>
        (BlindRotation.loop step key a st).map fun st' => st'.acc.a)) ≤
      (mean (draws (uniformBelow q) n) fun l => f (some l)) + xs.length * ε) ∧
    (a.find? (· ≠ 0) = none → ∀ l ∈ (draws p xs.length).support, ∃ key, generate xs l = some key ∧
        BlindRotation.loop step key a st = some st) := by
  intro xs
  induction xs with
  | nil =>
    intro a ha _ φ st hst
    obtain rfl : a = [] := List.length_eq_zero_iff.1 (by simpa using ha)
    exact ⟨fun h => h.elim, fun _ l _ => ⟨[], h0 l, rfl⟩⟩
  | cons x xs ih =>
    intro a ha hlt φ st hst
    obtain ⟨a0, as, rfl⟩ : ∃ a0 as, a = a0 :: as := by
      cases a with
      | nil => simp at ha
      | cons a0 as => exact ⟨a0, as, rfl⟩
    have hlen : as.length = xs.length := by simpa using ha
    have ha0 : a0 < 2 * n := hlt a0 (by simp)
    have has : ∀ y ∈ as, y < 2 * n := fun y hy => hlt y (by simp [hy])
    have hrun : ∀ d g st' l, gen x d = some g → step st g a0 = some st' →
        ((generate (x :: xs) (d :: l)).bind fun key =>
          (BlindRotation.loop step key (a0 :: as) st).map fun st' => st'.acc.a) =
        (generate xs l).bind fun key => (BlindRotation.loop step key as st').map fun st' => st'.acc.a := by
      intro d g st' l eg es
      rw [h1, eg, Option.bind_some, Option.bind_assoc]
      refine Option.bind_congr fun key _ => ?_
      rw [Option.bind_some]
      change ((step st g a0).bind fun st => BlindRotation.loop step key as st).map _ = _
      rw [es, Option.bind_some]
    have hnext : ∀ d ∈ p.support, ∃ g st' φ', gen x d = some g ∧ step st g a0 = some st' ∧
        BlindRotation.Inv q n s φ' st' := by
      obtain ⟨δ, -, hd⟩ := hstep x a0 φ st 0 ha0 hst
      intro d hd'
      obtain ⟨g, st', eg, es, Δ, hi, -⟩ := hd d hd'
      exact ⟨g, st', _, eg, es, hi⟩
    constructor
    · intro hgood
      rw [List.length_cons, mean_draws_succ]
      by_cases hz : a0 = 0
      · unfold FirstGood at hgood
        rw [if_pos hz] at hgood
        refine (mean_mono (g := fun _ => (mean (draws (uniformBelow q) n) fun l => f (some l)) + xs.length * ε)
          fun d hd => ?_).trans ((mean_const _ _).trans_le ?_)
        · obtain ⟨g, st', φ', eg, es, hi⟩ := hnext d hd
          subst hz
          obtain rfl := Option.some.inj ((hzero st g).symm.trans es)
          simp only [hrun d g st _ eg es]
          exact (ih as hlen has φ st hst).1 hgood
        · gcongr
          exact_mod_cast Nat.le_succ _
      · unfold FirstGood at hgood
        rw [if_neg hz] at hgood
        have hu := hunif x a0 φ st (Nat.pos_of_ne_zero hz) ha0 hst hgood
        cases hfind : as.find? (· ≠ 0) with
        | none =>
          refine le_trans ?_ (le_self_add (a := mean (draws (uniformBelow q) n) fun l => f (some l)))
          rw [← hu f]
          refine mean_mono fun d hd => ?_
          obtain ⟨g, st', φ', eg, es, hi⟩ := hnext d hd
          simp only [hrun d g st' _ eg es]
          refine (mean_mono (g := fun _ => f ((gen x d).bind fun g => (step st g a0).map fun st' => st'.acc.a))
            fun l hl => ?_).trans_eq (mean_const _ _)
          obtain ⟨key, ek, el⟩ := (ih as hlen has φ' st' hi).2 hfind l hl
          rw [ek, Option.bind_some, el, eg, Option.bind_some, es]
        | some a1 =>
          have ha1 : 0 < a1 ∧ a1 < 2 * n := by
            have h1 := List.find?_some hfind
            exact ⟨Nat.pos_of_ne_zero (by simpa using h1), has a1 (List.mem_of_find?_eq_some hfind)⟩
          classical
          obtain ⟨Bad, hBad⟩ : ∃ Bad : Set (List Nat), Bad = {l | ¬NoCommonRoot (fun _ j => digitPoly q n bits
            (wordsOf ((Rq.mono a1 - 1) * Rq.ofWords q n l)) j) 1 len} := ⟨_, rfl⟩
          obtain ⟨U, hU⟩ : ∃ U, U = mean (draws (uniformBelow q) n) fun l => f (some l) := ⟨_, rfl⟩
          obtain ⟨h, hh⟩ : ∃ h : Option (List Nat) → ℝ≥0∞, ∀ o, h o = (U + xs.length * ε) +
            (match o with | some l => if l ∈ Bad then 1 else 0 | none => 0) := ⟨_, fun _ => rfl⟩
          have hε' := hε a1 ha1.1 ha1.2
          rw [← hBad, prob_eq] at hε'
          calc _ ≤ mean p fun d => h ((gen x d).bind fun g => (step st g a0).map fun st' => st'.acc.a) := by
                refine mean_mono fun d hd => ?_
                obtain ⟨g, st', φ', eg, es, hi⟩ := hnext d hd
                simp only [hrun d g st' _ eg es]
                rw [eg, Option.bind_some, es, Option.map_some, hh]
                by_cases hb : st'.acc.a ∈ Bad
                · refine (mean_mono (g := fun _ => 1) fun l _ => hf _).trans ((mean_const _ 1).trans_le ?_)
                  simp only [if_pos hb]
                  exact le_add_self
                · refine le_trans ?_ le_self_add
                  rw [hU]
                  refine (ih as hlen has φ' st' hi).1 (firstGood_of hfind fun r hr => ?_)
                  rw [hBad, Set.mem_ofPred_eq, not_not] at hb
                  obtain ⟨c, hc, j, hj, hne⟩ := hb r hr
                  exact ⟨0, by omega, j, hj, hne⟩
            _ = mean (draws (uniformBelow q) n) fun l => h (some l) := hu h
            _ = (U + xs.length * ε) + mean (draws (uniformBelow q) n) fun l => if l ∈ Bad then 1 else 0 := by
                simp only [hh]
                rw [mean_add, mean_const]
            _ ≤ (U + xs.length * ε) + ε := by gcongr
            _ = _ := by
                rw [hU]
                push_cast
                ring
    · intro hnone l hl
      have hz : a0 = 0 := by
        by_contra hne
        rw [List.find?_cons_of_pos (by simp [hne])] at hnone
        cases hnone
      have hnone' : as.find? (· ≠ 0) = none := by
        rwa [List.find?_cons_of_neg (by simp [hz])] at hnone
      rw [List.length_cons, draws, PMF.mem_support_bind_iff] at hl
      obtain ⟨d, hd, hl⟩ := hl
      obtain ⟨ds, hds, rfl⟩ := (PMF.mem_support_map_iff _ _ _).1 hl
      obtain ⟨g, st', φ', eg, es, hi⟩ := hnext d hd
      subst hz
      obtain rfl := Option.some.inj ((hzero st g).symm.trans es)
      obtain ⟨key, ek, el⟩ := (ih as hlen has φ st hst).2 hnone' ds hds
      refine ⟨g :: key, by rw [h1, eg, Option.bind_some, ek]; rfl, ?_⟩
      change ((step st g 0).bind fun st => BlindRotation.loop step key as st) = _
      rw [es, Option.bind_some, el]

end
end Verif.Props
