import Verif.SpecKeySwitch
import Verif.Model.KeySwitch
import Verif.Props.RGSW
import Verif.Props.RLWE
import Verif.Props.BlindRotation

/-! # C40: RLWE key switching -/

namespace Verif.Props
open Fp Finset Spec Ntt

theorem nextPow2_eq {dim k : Nat} (hk : 0 < k) (h1 : 2 ^ (k - 1) < dim) (h2 : dim ≤ 2 ^ k) :
    RlweSwitch.nextPow2 dim = 2 ^ k := by
  have : 1 ≤ 2 ^ (k - 1) := Nat.one_le_two_pow
  unfold RlweSwitch.nextPow2
  rw [if_neg (by omega)]
  congr 1
  have : (dim - 1).log2 = k - 1 := by
    rw [Nat.log2_eq_iff (by omega), Nat.sub_add_cancel hk]
    omega
  omega

section Chunks
variable {R : Ctx} {k : Nat} {t : Table} (E : Env R k t) {n : Nat} {l : List Nat}
  {u : Nat → ZMod R.M.value}

include E

theorem negHeadReverse_vals (hn : 0 < n) (h : Vals R.M.value n R.M.value l u) :
    ∃ o, RlweSwitch.negHeadReverse R l = some o ∧
      Vals R.M.value n R.M.value o (fun i => if i = 0 then -u 0 else u (n - i)) := by
  cases l with
  | nil => have := h.len; simp at this; omega
  | cons x l =>
    obtain ⟨hl, hx, ex, ht⟩ := vals_tail h
    obtain ⟨y, ey, hy, cy⟩ := (E.C.ops hx hx hx).2.2.2.2.2.2.1
    have h2 : Vals R.M.value n R.M.value (y :: l) (fun i => if i = 0 then -u 0 else u i) :=
      vals_cons hl hy (by rw [cy, ex]; rfl) (ht.congr fun i _ => by rw [if_neg (by omega)])
    obtain ⟨z, m, em, er, hr⟩ := reverseTail_vals h2 hn
    refine ⟨_, ?_, hr.congr fun i hi => ?_⟩
    · unfold RlweSwitch.negHeadReverse RlweSwitch.negHead
      simp only [Option.bind_eq_bind, Option.pure_def, ey, Option.bind_some]
      exact er
    · by_cases h0 : i = 0
      · rw [if_pos h0, if_pos h0, if_pos rfl]
      · rw [if_neg h0, if_neg h0, if_neg (by omega)]

theorem reverseNegTail_vals (hn : 0 < n) (h : Vals R.M.value n R.M.value l u) :
    ∃ o, RlweSwitch.reverseNegTail R l = some o ∧
      Vals R.M.value n R.M.value o (fun i => if i = 0 then u 0 else -u (n - i)) := by
  obtain ⟨y, m, em, er, hr⟩ := reverseTail_vals h hn
  obtain ⟨hl, hy, ey, hm⟩ := vals_tail hr
  obtain ⟨o, eo, ho⟩ := hm.neg E.C
  have eo' : m.reverse.mapM (Fp.neg R.M) = some o := eo
  refine ⟨y :: o, ?_, vals_cons (by rw [ho.len]; exact hl) hy (by rw [ey]; rfl) ?_⟩
  · unfold RlweSwitch.reverseNegTail
    rw [mbind er]
    simp only [List.drop_one, List.tail_cons]
    rw [mbind eo']; rfl
  · rw [ho.len]
    exact ho.congr fun i _ => by rw [if_neg (by omega), if_neg (by omega)]

omit E in
theorem chunks_vals {q B C : Nat} {l : List Nat} {u : Nat → ZMod q} (hn : 0 < n)
    (h : Vals q (C * n) B l u) :
    (RlweSwitch.chunks n l).length = C ∧
      ∀ c (hc : c < (RlweSwitch.chunks n l).length),
        Vals q n B (RlweSwitch.chunks n l)[c] (fun i => u (c * n + i)) := by
  have hl : (RlweSwitch.chunks n l).length = C := by
    simp [RlweSwitch.chunks, h.len, Nat.mul_div_cancel _ hn]
  refine ⟨hl, fun c hc => ?_⟩
  rw [hl] at hc
  simp only [RlweSwitch.chunks, List.getElem_map, List.getElem_range]
  have : (c + 1) * n ≤ C * n := Nat.mul_le_mul_right _ hc
  rw [Nat.succ_mul] at this
  exact vals_take (vals_drop h) (by omega)

/-- The chunk polynomial `c` of the mask `u`. -/
def chunkSeq {q : Nat} (n : Nat) (u : Nat → ZMod q) (c i : Nat) : ZMod q :=
  if i = 0 then u (c * n) else -u (c * n + (n - i))

theorem lweChunks_vals {C : Nat} (hn : 0 < n) (h : Vals R.M.value (C * n) R.M.value l u) :
    ∃ ps, RlweSwitch.lweChunks R n l = some ps ∧ ps.length = C ∧
      ∀ c (hc : c < ps.length), Vals R.M.value n R.M.value ps[c] (chunkSeq n u c) := by
  unfold RlweSwitch.lweChunks
  by_cases hC : l.length = n
  · rw [if_neg (by simpa using hC)]
    have hC1 : C = 1 := by
      rw [h.len] at hC
      exact Nat.eq_of_mul_eq_mul_right hn (by omega)
    subst hC1
    rw [one_mul] at h
    obtain ⟨o, eo, ho⟩ := reverseNegTail_vals E hn h
    obtain ⟨h1, h2⟩ := chunks_vals (C := 1) hn (by rw [one_mul]; exact ho)
    refine ⟨_, by rw [mbind eo]; rfl, h1, fun c hc => (h2 c hc).congr fun i hi => ?_⟩
    obtain rfl : c = 0 := by rw [h1] at hc; omega
    unfold chunkSeq
    simp
  · rw [if_pos hC]
    obtain ⟨h1, h2⟩ := chunks_vals hn h
    obtain ⟨ps, e, hl, hp⟩ := mapM_getElem (f := RlweSwitch.reverseNegTail R)
      (l := RlweSwitch.chunks n l)
      (P := fun c o => Vals R.M.value n R.M.value o (chunkSeq n u c))
      (fun c hc => by
        obtain ⟨o, eo, ho⟩ := reverseNegTail_vals E hn (h2 c hc)
        exact ⟨o, eo, ho.congr fun i _ => by unfold chunkSeq; simp⟩)
    exact ⟨ps, e, by rw [hl, h1], hp⟩

theorem rlweChunks_vals {C : Nat} (hn : 0 < n) (hC : 0 < C)
    (h : Vals R.M.value (C * n) R.M.value l u) :
    ∃ ps, RlweSwitch.rlweChunks R n l = some ps ∧ ps.length = C ∧
      ∀ c (hc : c < ps.length), Vals R.M.value n R.M.value ps[c]
        (chunkSeq n (extractSeq (C * n) u) c) := by
  unfold RlweSwitch.rlweChunks
  by_cases hl : l.length = n
  · rw [if_neg (by simpa using hl)]
    have hC1 : C = 1 := by
      rw [h.len] at hl
      exact Nat.eq_of_mul_eq_mul_right hn (by omega)
    subst hC1
    obtain ⟨h1, h2⟩ := chunks_vals hn h
    refine ⟨_, rfl, h1, fun c hc => (h2 c hc).congr fun i hi => ?_⟩
    obtain rfl : c = 0 := by rw [h1] at hc; omega
    unfold chunkSeq extractSeq
    by_cases h0 : i = 0
    · simp [h0]
    · rw [if_neg h0, if_neg (by omega), neg_neg]
      congr 1; omega
  · rw [if_pos hl]
    obtain ⟨o, eo, ho⟩ := negHeadReverse_vals E (Nat.mul_pos hC hn) h
    obtain ⟨h1, h2⟩ := chunks_vals hn ho
    obtain ⟨ps, e, hl, hp⟩ := mapM_getElem (f := RlweSwitch.negHeadReverse R)
      (l := RlweSwitch.chunks n o)
      (P := fun c o => Vals R.M.value n R.M.value o (chunkSeq n (extractSeq (C * n) u) c))
      (fun c hc => by
        obtain ⟨o, eo, ho⟩ := negHeadReverse_vals E hn (h2 c hc)
        refine ⟨o, eo, ho.congr fun i hi => ?_⟩
        have hcn : (c + 1) * n ≤ C * n := Nat.mul_le_mul_right _ (by rw [h1] at hc; omega)
        rw [Nat.succ_mul] at hcn
        unfold chunkSeq extractSeq
        by_cases h0 : i = 0
        · simp only [h0, if_true, add_zero]
          split <;> simp
        · simp only [if_neg h0]
          rw [if_neg (by omega), if_neg (by omega), neg_neg])
    exact ⟨ps, by rw [mbind eo, e], by rw [hl, h1], hp⟩

end Chunks

theorem sum_co {S : Type} [CommRing S] {n : Nat} [NeZero n] [Nontrivial S] (f : Nat → Rq S n)
    (i : Fin n) : ∀ m : Nat, (∑ c ∈ range m, f c).co i = ∑ c ∈ range m, (f c).co i
  | 0 => by simp
  | m + 1 => by rw [sum_range_succ, sum_range_succ, Rq.add_co, sum_co f i m]

theorem ofWords_pad (q n r : Nat) (l : List Nat) :
    Rq.ofWords q n (l ++ List.replicate r 0) = Rq.ofWords q n l := by
  ext i
  show ((_ : Nat) : ZMod q) = ((_ : Nat) : ZMod q)
  congr 1
  by_cases hi : i.val < l.length
  · rw [List.getD_append _ _ _ _ hi]
  · rw [List.getD_append_right _ _ _ _ (by omega), List.getD_eq_default (l := l) _ (by omega)]
    by_cases hj : i.val - l.length < r
    · rw [List.getD_eq_getElem _ _ (by simpa using hj)]; simp
    · rw [List.getD_eq_default]; simpa using hj

section Loop
variable {R : Ctx} {q : Nat} [Fact q.Prime] {k : Nat}

theorem rlweLoop_spec (hk : 0 < k) (F : TableField R.w q R.M R.tbl k) (bits : Nat) {B : Basis}
    (hB : Basis.new R.w q bits = some B) (s : Rq (ZMod q) (2 ^ k)) :
    ∀ (gs : List NTTGadgetRLWE) (ps : List (List Nat)) (m : Nat → Rq (ZMod q) (2 ^ k))
      (e : Nat → Nat → Rq (ZMod q) (2 ^ k)) (P : Nat → Rq (ZMod q) (2 ^ k)) (np : Nat → List Nat)
      (φ : Rq (ZMod q) (2 ^ k)) (x : NTTRLWE),
      gs.length = ps.length →
      (∀ c (h : c < gs.length), gs[c].Encrypts R q (2 ^ k) bits s (m c) (e c)) →
      (∀ c (h : c < ps.length), Rep q (2 ^ k) ps[c] (P c)) →
      (∀ c, c < ps.length → Rep q (2 ^ k) (np c) (-P c)) →
      x.HasPhase R (2 * q) q (2 ^ k) s φ →
      ∃ r, RlweSwitch.loop R gs ps x = some r ∧ r.HasPhase R (2 * q) q (2 ^ k) s
        (φ + ∑ c ∈ range gs.length,
          (-(m c * P c) + gadgetError q (2 ^ k) bits B.decomposeLen (np c) (e c)))
  | [], ps, m, e, P, np, φ, x, _, _, _, _, hx => ⟨x, by unfold RlweSwitch.loop; rfl, by simpa using hx⟩
  | g :: gs, [], m, e, P, np, φ, x, h, _, _, _, _ => by simp at h
  | g :: gs, p :: ps, m, e, P, np, φ, x, hl, hg, hp, hnp, hx => by
    have hg0 := hg 0 (by simp)
    have hp0 := hp 0 (by simp)
    have hnp0 := hnp 0 (by simp)
    simp only [List.getElem_cons_zero] at hg0 hp0
    obtain ⟨rp, ep⟩ := rep_iff.1 hp0
    obtain ⟨rn, en⟩ := rep_iff.1 hnp0
    obtain ⟨r, er, hr⟩ := (((C36_accumulate hk F bits s (m 0) φ (e 0) p (np 0) rp rn
      (by rw [ep, en])).2 g hg0).2 x hx).2
    have hgb : g.basis = B := Option.some_inj.1 (hg0.basis.symm.trans hB)
    obtain ⟨o, eo, ho⟩ := rlweLoop_spec hk F bits hB s gs ps (fun c => m (c + 1)) (fun c => e (c + 1))
      (fun c => P (c + 1)) (fun c => np (c + 1)) _ r (by simpa using hl)
      (fun c h => hg (c + 1) (by simpa using h))
      (fun c h => hp (c + 1) (by simpa using h))
      (fun c h => hnp (c + 1) (by simpa using h)) hr
    refine ⟨o, by unfold RlweSwitch.loop; rw [mbind er, eo], ?_⟩
    rw [List.length_cons, sum_range_succ']
    rw [hgb, ep] at ho
    convert ho using 1
    abel

theorem neg_word {q : Nat} [NeZero q] (x : Nat) (hx : x < q) :
    (q - x) % q < q ∧ (((q - x) % q : Nat) : ZMod q) = -(x : ZMod q) := by
  have hq : 0 < q := Nat.pos_of_ne_zero (NeZero.ne q)
  refine ⟨Nat.mod_lt _ hq, ?_⟩
  rw [ZMod.natCast_mod, Nat.cast_sub (by omega), ZMod.natCast_self, zero_sub]

theorem sum_range_blocks {M : Type} [AddCommMonoid M] (n : Nat) (f : Nat → M) : ∀ C : Nat,
    ∑ i ∈ range (C * n), f i = ∑ c ∈ range C, ∑ j ∈ range n, f (c * n + j)
  | 0 => by simp
  | C + 1 => by
    rw [Nat.succ_mul, sum_range_add, sum_range_blocks n f C, sum_range_succ]

theorem rlweInner_spec (hk : 0 < k) (F : TableField R.w q R.M R.tbl k) (bits : Nat) {B : Basis}
    (hB : Basis.new R.w q bits = some B) {dim : Nat} (h1 : 2 ^ (k - 1) < dim) (h2 : dim ≤ 2 ^ k)
    (sk : List Nat) (hs : Reduced q dim sk) (z : List Nat)
    (e : Nat → Nat → Rq (ZMod q) (2 ^ k)) (key : List NTTGadgetRLWE)
    (hkey : RlweSwitchKey R q (2 ^ k) bits (Rq.ofWords q (2 ^ k) sk) z e key)
    (a : List Nat) (ha : Reduced q z.length a) (b : Nat) (hb : b < q) (ps : List (List Nat))
    (hpl : ps.length = key.length)
    (hps : ∀ c (hc : c < ps.length), Vals q (2 ^ k) q ps[c] (chunkSeq (2 ^ k) (coeff q a) c)) :
    ∃ out, RlweSwitch.inner R dim key b ps = some out ∧ LWEReduced q dim out ∧
      lwePhase q sk out.a out.b =
        lwePhase q z a b + rlweSwitchError q (2 ^ k) bits B.decomposeLen e a key.length := by
  have hq : 0 < q := (Fact.out : q.Prime).pos
  have : NeZero q := ⟨by omega⟩
  have hn : 0 < 2 ^ k := Nat.two_pow_pos k
  -- the chunk polynomials
  obtain ⟨P, hP⟩ : ∃ P : Nat → Rq (ZMod q) (2 ^ k), ∀ c, P c = ⟨fun i => chunkSeq (2 ^ k) (coeff q a) c i.val⟩ :=
    ⟨_, fun _ => rfl⟩
  have hPseq : ∀ c i, i < 2 ^ k → (P c).seq i = chunkSeq (2 ^ k) (coeff q a) c i := by
    intro c i hi
    rw [Rq.seq_lt _ hi, hP]
  have hpr : ∀ c (hc : c < ps.length), Rep q (2 ^ k) ps[c] (P c) := fun c hc =>
    (hps c hc).congr fun i hi => (hPseq c i hi).symm
  have hnr : ∀ c, c < ps.length → Rep q (2 ^ k) (switchWords q (2 ^ k) a c) (-P c) := by
    intro c hc
    have hcn : (c + 1) * 2 ^ k ≤ z.length := by
      rw [← hkey.len, ← hpl]; exact Nat.mul_le_mul_right _ hc
    rw [Nat.succ_mul] at hcn
    have hlt : ∀ i, i < z.length → a.getD i 0 < q := fun i hi =>
      ha.2 _ (getD_mem _ (by rw [ha.1]; exact hi))
    refine Vals.of_getD (by simp [switchWords]) fun i hi => ?_
    have hget : (switchWords q (2 ^ k) a c).getD i 0 =
        if i = 0 then (q - a.getD (c * 2 ^ k) 0) % q else a.getD (c * 2 ^ k + (2 ^ k - i)) 0 := by
      rw [List.getD_eq_getElem _ _ (by simpa [switchWords] using hi)]
      simp [switchWords]
    have hseq : (-P c).seq i = -chunkSeq (2 ^ k) (coeff q a) c i := by
      rw [← hPseq c i hi, Rq.seq_lt _ hi, Rq.seq_lt _ hi, Rq.neg_co]
    rw [hget, hseq]
    unfold chunkSeq
    split
    · exact neg_word _ (hlt _ (by omega))
    · rw [neg_neg]
      exact ⟨hlt _ (by omega), rfl⟩
  -- the loop
  obtain ⟨s, hsdef⟩ : ∃ s, s = Rq.ofWords q (2 ^ k) sk := ⟨_, rfl⟩
  have hinit : NTTRLWE.HasPhase R (2 * q) q (2 ^ k) s ⟨Poly.zero (2 ^ k), List.replicate (2 ^ k) b⟩
      (Rq.const (b : ZMod q)) := by
    obtain ⟨t, rfl, E⟩ := F.env hk
    refine (nttHasPhase_iff E (Or.inr rfl)).2 ⟨0, Rq.const (b : ZMod R.M.value), ⟨?_, ?_⟩, ?_⟩
    · exact NttRep.zero (by omega)
    · refine Vals.of_getD (by simp) fun i hi => ?_
      rw [List.getD_eq_getElem _ _ (by simpa using hi), List.getElem_replicate, Rq.evalAt_const]
      exact ⟨by omega, rfl⟩
    · unfold rlwePhase
      rw [zero_mul, sub_zero]
  obtain ⟨r, er, hr⟩ := rlweLoop_spec hk F bits hB s key ps
    (fun c => Rq.ofWords q (2 ^ k) (z.drop (c * 2 ^ k))) e P (fun c => switchWords q (2 ^ k) a c) _ _ hpl.symm
    (fun c h => by rw [hsdef]; exact hkey.elem c h) hpr hnr hinit
  obtain ⟨y, ey, hy⟩ := hr.phase
  -- extraction
  have hdl : sk.length ≤ 2 ^ k := by rw [hs.1]; exact h2
  have hs' : Reduced q (2 ^ k) (sk ++ List.replicate (2 ^ k - dim) 0) := by
    refine ⟨by simp [hs.1]; omega, fun x hx => ?_⟩
    rcases List.mem_append.1 hx with hx | hx
    · exact hs.2 x hx
    · rw [(List.mem_replicate.1 hx).2]; exact hq
  obtain ⟨c, ec, hc, hph⟩ := C34_extract_truncated R.w q F.even R.M F.conf R.tbl (2 ^ k) hn y hy.a hy.b
    (sk ++ List.replicate (2 ^ k - dim) 0) hs' dim h2 (by
      intro i hi hi'
      rw [List.getD_eq_getElem _ _ (by rw [hs'.1]; exact hi'), List.getElem_append_right (by rw [hs.1]; exact hi)]
      simp)
  have hpad : Rq.ofWords q (2 ^ k) (sk ++ List.replicate (2 ^ k - dim) 0) = s := by
    rw [hsdef, ofWords_pad]
  rw [List.take_left' hs.1, hpad, hy.phase] at hph
  refine ⟨c, ?_, hc, ?_⟩
  · unfold RlweSwitch.inner
    simp only [nextPow2_eq hk h1 h2, Option.bind_eq_bind, er, Option.bind_some, ey]
    exact ec
  · rw [hph, lwePhase_eq ha.1 rfl, ← hkey.len, sum_range_blocks]
    unfold rlweSwitchError
    have hb0 : (Rq.const (b : ZMod q) : Rq (ZMod q) (2 ^ k)).co ⟨0, hn⟩ = b := by simp [Rq.const]
    rw [Rq.add_co, sum_co, hb0, sub_add_eq_add_sub, add_sub_assoc, ← sum_sub_distrib]
    congr 1
    · refine sum_congr rfl fun c hc => ?_
      have hcn : (c + 1) * 2 ^ k ≤ z.length := by
        rw [← hkey.len]; exact Nat.mul_le_mul_right _ (mem_range.1 hc)
      rw [Rq.add_co, Rq.neg_co, neg_add_eq_sub, mul_comm (Rq.ofWords q (2 ^ k) _), Rq.mul_co_zero]
      congr 1
      refine sum_congr rfl fun j hj => ?_
      have hj := mem_range.1 hj
      rw [ofWords_seq _ _ _ hj]
      congr 1
      · by_cases h0 : j = 0
        · rw [if_pos h0, hPseq _ _ hn, h0]; simp [chunkSeq]
        · rw [if_neg h0, hPseq _ _ (by omega)]
          unfold chunkSeq
          rw [if_neg (by omega), neg_neg]
          congr 1; omega
      · unfold coeff
        rw [getD_drop]

section C40
variable (hk : 0 < k) (F : TableField R.w q R.M R.tbl k) (bits : Nat) (B : Basis)
  (hB : Basis.new R.w q bits = some B) (dim : Nat) (h1 : 2 ^ (k - 1) < dim) (h2 : dim ≤ 2 ^ k)
  (sk : List Nat) (hs : Reduced q dim sk) (z : List Nat)
  (e : Nat → Nat → Rq (ZMod q) (2 ^ k)) (key : List NTTGadgetRLWE)
  (hkey : RlweSwitchKey R q (2 ^ k) bits (Rq.ofWords q (2 ^ k) sk) z e key)
include hk F hB h1 h2 hs hkey

/-- C40: switching an LWE ciphertext under the coefficients `z` of the ring key to the key `sk`, whose
dimension is padded to the power of two `2^k`. -/
theorem C40_key_switch_lwe (c : LWE) (hc : LWEReduced q z.length c) :
    ∃ out, RlweSwitch.keySwitchLwe R dim key c = some out ∧ LWEReduced q dim out ∧
      lwePhase q sk out.a out.b = lwePhase q z c.a c.b +
        rlweSwitchError q (2 ^ k) bits B.decomposeLen e c.a key.length := by
  obtain ⟨ps, ep, hl, hp⟩ : ∃ ps, RlweSwitch.lweChunks R (2 ^ k) c.a = some ps ∧
      ps.length = key.length ∧
      ∀ i (hi : i < ps.length), Vals q (2 ^ k) q ps[i] (chunkSeq (2 ^ k) (coeff q c.a) i) := by
    obtain ⟨t, rfl, E⟩ := F.env hk
    exact lweChunks_vals E (Nat.two_pow_pos k) (by rw [hkey.len]; exact vals_self hc.1)
  obtain ⟨out, eo, ho, hph⟩ := rlweInner_spec hk F bits hB h1 h2 sk hs z e key hkey c.a hc.1 c.b hc.2 ps
    hl hp
  refine ⟨out, ?_, ho, hph⟩
  unfold RlweSwitch.keySwitchLwe
  rw [nextPow2_eq hk h1 h2, mbind ep, eo]

/-- C40: switching an RLWE ciphertext under the ring key `z` to an LWE ciphertext under `sk`: the
phase is the constant coefficient of the ring phase. -/
theorem C40_key_switch_rlwe (hz : 0 < z.length) (x : RLWE) (ha : Reduced q z.length x.a)
    (hb : Reduced q z.length x.b) :
    ∃ out, RlweSwitch.keySwitchRlwe R dim key x = some out ∧ LWEReduced q dim out ∧
      lwePhase q sk out.a out.b =
        (rlwePhase (Rq.ofWords q z.length z) (Rq.ofWords q z.length x.a)
          (Rq.ofWords q z.length x.b)).co ⟨0, hz⟩ +
        rlweSwitchError q (2 ^ k) bits B.decomposeLen e (extractWords q z.length x.a) key.length := by
  have hq : 0 < q := (Fact.out : q.Prime).pos
  have : NeZero q := ⟨by omega⟩
  have hv : Vals q z.length q (extractWords q z.length x.a) (extractSeq z.length (coeff q x.a)) := by
    refine Vals.of_getD (by simp [extractWords]) fun i hi => ?_
    have hget : (extractWords q z.length x.a).getD i 0 =
        if i = 0 then x.a.getD 0 0 else (q - x.a.getD (z.length - i) 0) % q := by
      rw [List.getD_eq_getElem _ _ (by simpa [extractWords] using hi)]
      simp [extractWords]
    have hlt : ∀ i, i < z.length → x.a.getD i 0 < q := fun i hi =>
      ha.2 _ (getD_mem _ (by rw [ha.1]; exact hi))
    rw [hget]
    unfold extractSeq
    split
    · exact ⟨hlt _ hz, rfl⟩
    · exact neg_word _ (hlt _ (by omega))
  obtain ⟨ps, ep, hl, hp⟩ : ∃ ps, RlweSwitch.rlweChunks R (2 ^ k) x.a = some ps ∧
      ps.length = key.length ∧ ∀ i (hi : i < ps.length), Vals q (2 ^ k) q ps[i]
        (chunkSeq (2 ^ k) (extractSeq z.length (coeff q x.a)) i) := by
    obtain ⟨t, rfl, E⟩ := F.env hk
    rw [← hkey.len]
    exact rlweChunks_vals E (Nat.two_pow_pos k)
      (Nat.pos_of_ne_zero fun h => by have := hkey.len; rw [h, zero_mul] at this; omega)
      (by rw [hkey.len]; exact vals_self ha)
  have hb0 : x.b[0]? = some (x.b.getD 0 0) := by
    rw [List.getElem?_eq_getElem (by rw [hb.1]; exact hz), List.getD_eq_getElem _ _ (by rw [hb.1]; exact hz)]
  have hblt : x.b.getD 0 0 < q := hb.2 _ (getD_mem _ (by rw [hb.1]; exact hz))
  have hn : 0 < 2 ^ k := Nat.two_pow_pos k
  obtain ⟨out, eo, ho, hph⟩ := rlweInner_spec hk F bits hB h1 h2 sk hs z e key hkey _
    ⟨hv.len, hv.lt⟩ _ hblt ps hl
    (fun c hc => (hp c hc).congr fun i hi => by
      have hcn : (c + 1) * 2 ^ k ≤ z.length := by
        rw [← hkey.len, ← hl]; exact Nat.mul_le_mul_right _ hc
      rw [Nat.succ_mul] at hcn
      unfold chunkSeq
      split
      · exact (hv.val _ (by omega)).symm
      · rw [show coeff q (extractWords q z.length x.a) (c * 2 ^ k + (2 ^ k - i)) = _ from
          hv.val (c * 2 ^ k + (2 ^ k - i)) (by omega)])
  refine ⟨out, ?_, ho, ?_⟩
  · unfold RlweSwitch.keySwitchRlwe
    rw [nextPow2_eq hk h1 h2, mbind hb0, mbind ep, eo]
  · rw [hph, lwePhase_eq hv.len rfl, rlwePhase, Rq.sub_co, Rq.mul_co_zero]
    congr 2
    refine sum_congr rfl fun j hj => ?_
    have hj := mem_range.1 hj
    rw [ofWords_seq _ _ _ hj, ofWords_seq _ _ _ hz]
    congr 1
    refine (hv.val j hj).trans ?_
    unfold extractSeq
    split
    · rfl
    · rw [ofWords_seq _ _ _ (by omega)]

end C40

/-- C40: a bound on the error. -/
theorem C40_error_bound (q n bits len b : Nat) [NeZero n] [Fact (1 < q)]
    (e : Nat → Nat → Rq (ZMod q) n) (a : List Nat) (cnt : Nat)
    (he : ∀ c j, c < cnt → j < len → (e c j).Bounded b) :
    ∃ v : ℤ, |v| ≤ (cnt * (len * (n * ((2 ^ bits - 1) * b))) : Nat) ∧
      (v : ZMod q) = rlweSwitchError q n bits len e a cnt := by
  have h : ∀ c, ∃ v : ℤ, c < cnt → |v| ≤ (len * (n * ((2 ^ bits - 1) * b)) : Nat) ∧
      (v : ZMod q) = (gadgetError q n bits len (switchWords q n a c) (e c)).co
        ⟨0, Nat.pos_of_ne_zero (NeZero.ne n)⟩ := by
    intro c
    by_cases hc : c < cnt
    · obtain ⟨v, h1, h2⟩ := C36_error_bound q n bits len b (switchWords q n a c) (e c)
        (fun j hj => he c j hc hj) ⟨0, Nat.pos_of_ne_zero (NeZero.ne n)⟩
      exact ⟨v, fun _ => ⟨h1, h2⟩⟩
    · exact ⟨0, fun h => absurd h hc⟩
  choose V hV using h
  refine ⟨∑ c ∈ range cnt, V c, (abs_sum_le_sum_abs _ _).trans ?_, ?_⟩
  · calc ∑ c ∈ range cnt, |V c|
        ≤ ∑ _c ∈ range cnt, ((len * (n * ((2 ^ bits - 1) * b)) : Nat) : ℤ) :=
          sum_le_sum fun c hc => (hV c (mem_range.1 hc)).1
      _ = _ := by rw [sum_const, card_range, nsmul_eq_mul]; push_cast; rfl
  · unfold rlweSwitchError
    push_cast
    exact sum_congr rfl fun c hc => (hV c (mem_range.1 hc)).2

section Generate
variable {t : Table} (E : Env R k t)
include E

omit [Fact q.Prime] in
theorem sample_add {s φ m : Rq (ZMod R.M.value) (2 ^ k)} {x : NTTRLWE} {z : List Nat}
    (hx : x.HasPhase R R.M.value R.M.value (2 ^ k) s φ) (hz : NttRep R k t R.M.value z m) :
    ∃ b, Poly.add R.w R.M x.b z = some b ∧
      NTTRLWE.HasPhase R R.M.value R.M.value (2 ^ k) s ⟨x.a, b⟩ (m + φ) := by
  obtain ⟨a, b, ⟨ha, hb⟩, hφ⟩ := (nttHasPhase_iff E (Or.inl rfl)).1 hx
  obtain ⟨o, eo, ho⟩ := hb.add E hz
  refine ⟨o, eo, (nttHasPhase_iff E (Or.inl rfl)).2 ⟨a, b + m, ⟨ha, ho⟩, ?_⟩⟩
  unfold rlwePhase at hφ ⊢
  rw [← hφ]
  have := E.nontrivial
  abel

omit [Fact q.Prime] in
theorem mulScalar_ntt {z : List Nat} {m : Rq (ZMod R.M.value) (2 ^ k)}
    (hz : NttRep R k t R.M.value z m) {c : Nat} (hc : c < R.M.value) :
    ∃ o, Poly.mulScalar R.w R.M z c = some o ∧
      NttRep R k t R.M.value o (m * Rq.const (c : ZMod R.M.value)) := by
  obtain ⟨o, e, ho⟩ := Vals.map hz (f := fun v => Fp.mul R.w R.M v c)
    (g := (· * (c : ZMod R.M.value))) (C := R.M.value)
    fun _ hx => (E.C.ops hx hc hx).2.2.2.2.2.2.2.1
  refine ⟨o, e, ho.congr fun i _ => ?_⟩
  rw [Rq.evalAt_mul _ (E.pt_pow i), Rq.evalAt_const]; rfl

omit [Fact q.Prime] in
theorem switchSamples_spec [Fact R.M.value.Prime] (F : TableField R.w R.M.value R.M R.tbl k)
    (s sn : List Nat) (hs : Reduced R.M.value (2 ^ k) s)
    (hsn : Poly.toNtt R.w R.M R.tbl s = some sn) (basis : Nat) (hb : basis < R.M.value) :
    ∀ (cnt : Nat) (z : List Nat) (m : Rq (ZMod R.M.value) (2 ^ k)) (ds : List Draw),
      NttRep R k t R.M.value z m → cnt ≤ ds.length → DrawsOk R.M.value (2 ^ k) ds →
      ∃ out, RlweSwitch.samples R sn basis cnt z ds = some out ∧ out.length = cnt ∧
        ∀ j (h : j < out.length), out[j].HasPhase R R.M.value R.M.value (2 ^ k)
          (Rq.ofWords R.M.value (2 ^ k) s)
          (m * Rq.const ((basis : ZMod R.M.value) ^ j) + drawErrors R.M.value (2 ^ k) ds j)
  | 0, z, m, ds, _, _, _ => ⟨[], by unfold RlweSwitch.samples; rfl, rfl, by simp⟩
  | cnt + 1, z, m, [], _, h, _ => by simp at h
  | 1, z, m, (a, e) :: ds, hz, _, hd => by
    obtain ⟨ha, he⟩ := hd (a, e) List.mem_cons_self
    obtain ⟨x, ex, hx⟩ := (samples_spec E.pos F s sn hs hsn a e ha he 0 E.q_pos).2.2.2.1
    obtain ⟨b, eb, hb'⟩ := sample_add E hx hz
    refine ⟨[⟨x.a, b⟩], by unfold RlweSwitch.samples; rw [mbind ex, mbind eb]; rfl, rfl, ?_⟩
    intro j hj
    obtain rfl : j = 0 := by simpa using hj
    have := E.nontrivial
    rw [pow_zero, show (Rq.const (1 : ZMod R.M.value) : Rq (ZMod R.M.value) (2 ^ k)) = 1 from rfl,
      mul_one]
    exact hb'
  | cnt + 2, z, m, (a, e) :: ds, hz, hl, hd => by
    obtain ⟨ha, he⟩ := hd (a, e) List.mem_cons_self
    obtain ⟨x, ex, hx⟩ := (samples_spec E.pos F s sn hs hsn a e ha he 0 E.q_pos).2.2.2.1
    obtain ⟨b, eb, hb'⟩ := sample_add E hx hz
    obtain ⟨z', ez, hz'⟩ := mulScalar_ntt E hz hb
    obtain ⟨out, eo, ho, hp⟩ := switchSamples_spec F s sn hs hsn basis hb (cnt + 1) z' _ ds hz'
      (by simpa using hl) (fun d h => hd d (List.mem_cons_of_mem _ h))
    refine ⟨⟨x.a, b⟩ :: out, ?_, by simp [ho], ?_⟩
    · unfold RlweSwitch.samples
      rw [mbind ex, mbind eb, mbind ez, mbind eo]; rfl
    · intro j hj
      have := E.nontrivial
      cases j with
      | zero =>
        rw [pow_zero, show (Rq.const (1 : ZMod R.M.value) : Rq (ZMod R.M.value) (2 ^ k)) = 1 from rfl,
          mul_one]
        exact hb'
      | succ j =>
        have := hp j (by simpa using hj)
        rw [mul_assoc, ← Rq.const_mul, ← pow_succ'] at this
        exact this

omit [Fact q.Prime] in
theorem switchElement_spec [Fact R.M.value.Prime] (F : TableField R.w R.M.value R.M R.tbl k)
    (bits : Nat) {B : Basis} (hB : Basis.new R.w R.M.value bits = some B)
    (s sn : List Nat) (hs : Reduced R.M.value (2 ^ k) s)
    (hsn : Poly.toNtt R.w R.M R.tbl s = some sn) (basis : Nat) (hb : basis < R.M.value)
    (hbc : (basis : ZMod R.M.value) = ((2 ^ bits : Nat) : ZMod R.M.value)) (z : List Nat)
    (m : Rq (ZMod R.M.value) (2 ^ k)) (ds : List Draw) (hz : NttRep R k t R.M.value z m)
    (hl : B.decomposeLen ≤ ds.length) (hd : DrawsOk R.M.value (2 ^ k) ds) :
    ∃ g, RlweSwitch.element R B sn basis z ds = some g ∧
      g.Encrypts R R.M.value (2 ^ k) bits (Rq.ofWords R.M.value (2 ^ k) s) m
        (drawErrors R.M.value (2 ^ k) ds) := by
  obtain ⟨out, eo, ho, hp⟩ := switchSamples_spec E F s sn hs hsn basis hb B.decomposeLen z m ds hz hl hd
  refine ⟨⟨out, B⟩, ?_, hB, ho, fun j hj => ?_⟩
  · unfold RlweSwitch.element
    rw [mbind eo, if_pos ho]
  · have := hp j hj
    rw [hbc, ← Nat.cast_pow, ← pow_mul] at this
    exact this

omit [Fact q.Prime] in
theorem switchElements_spec [Fact R.M.value.Prime] (F : TableField R.w R.M.value R.M R.tbl k)
    (bits : Nat) {B : Basis} (hB : Basis.new R.w R.M.value bits = some B)
    (s sn : List Nat) (hs : Reduced R.M.value (2 ^ k) s)
    (hsn : Poly.toNtt R.w R.M R.tbl s = some sn) (basis : Nat) (hb : basis < R.M.value)
    (hbc : (basis : ZMod R.M.value) = ((2 ^ bits : Nat) : ZMod R.M.value)) (d : Nat → List Draw)
    (hl : ∀ c, B.decomposeLen ≤ (d c).length) (hd : ∀ c, DrawsOk R.M.value (2 ^ k) (d c)) :
    ∀ (c0 : Nat) (zs : List (List Nat)), (∀ z ∈ zs, Reduced R.M.value (2 ^ k) z) →
      ∃ gs, RlweSwitch.elements R B sn basis d c0 zs = some gs ∧ gs.length = zs.length ∧
        ∀ c (h : c < gs.length), gs[c].Encrypts R R.M.value (2 ^ k) bits
          (Rq.ofWords R.M.value (2 ^ k) s) (Rq.ofWords R.M.value (2 ^ k) (zs.getD c []))
          (drawErrors R.M.value (2 ^ k) (d (c0 + c)))
  | c0, [], _ => ⟨[], by unfold RlweSwitch.elements; rfl, rfl, by simp⟩
  | c0, z :: zs, hz => by
    obtain ⟨v, ev, hv⟩ := E.toNtt (rep_exists (hz z List.mem_cons_self))
    obtain ⟨g, eg, hg⟩ := switchElement_spec E F bits hB s sn hs hsn basis hb hbc v _ (d c0) hv (hl c0)
      (hd c0)
    obtain ⟨gs, egs, hlen, hgs⟩ := switchElements_spec F bits hB s sn hs hsn basis hb hbc d hl hd (c0 + 1)
      zs (fun z h => hz z (List.mem_cons_of_mem _ h))
    refine ⟨g :: gs, ?_, by simp [hlen], ?_⟩
    · unfold RlweSwitch.elements
      rw [mbind ev, mbind eg, mbind egs]; rfl
    · intro c hc
      cases c with
      | zero => simpa using hg
      | succ c =>
        have := hgs c (by simpa using hc)
        rw [show c0 + 1 + c = c0 + (c + 1) by omega] at this
        exact this

end Generate

/-- C40: the generated key is a switching key from the ring key to the LWE key `sk`, whose elements
read as digits 0, 1 and -1 are the words `sk'` of the field; the errors are the noise samples. -/
theorem C40_generate (hk : 0 < k) (F : TableField R.w q R.M R.tbl k) (bits : Nat) (B : Basis)
    (hB : Basis.new R.w q bits = some B) (sk : List Nat) (h1 : 2 ^ (k - 1) < sk.length)
    (h2 : sk.length ≤ 2 ^ k) (sk' : List Nat) (hsk : Reduced q sk.length sk')
    (hcast : sk'.map (fun v : Nat => (v : ZMod q)) = sk.map fun v => (ternaryDigit v : ZMod q))
    (cnt : Nat) (hcnt : 0 < cnt) (ring ringNtt : List Nat) (hr : Reduced q (cnt * 2 ^ k) ring)
    (hrn : cnt = 1 → Poly.toNtt R.w R.M R.tbl ring = some ringNtt) (d : Nat → List Draw)
    (hl : ∀ c, B.decomposeLen ≤ (d c).length) (hd : ∀ c, DrawsOk q (2 ^ k) (d c)) :
    ∃ key, RlweSwitch.generate R bits sk ring ringNtt d = some key ∧
      RlweSwitchKey R q (2 ^ k) bits (Rq.ofWords q (2 ^ k) sk') ring
        (fun c => drawErrors q (2 ^ k) (d c)) key := by
  obtain ⟨t, rfl, E⟩ := F.env hk
  have hn : 0 < 2 ^ k := Nat.two_pow_pos k
  have h2q := E.C.two_le
  have hqw : R.M.value < 2 ^ R.w := by have := E.C.four_mul_lt; omega
  obtain ⟨no, eno, hno, cno⟩ := (E.C.ops E.q_pos E.q_pos E.q_pos).2.2.1
  obtain ⟨_, _, _, _, hbw, hbasis, _⟩ := new_basis hqw hB
  have eb := C49_new R.w R.M.value F.even R.M F.conf B.basis (by
    rw [hbasis]; exact Nat.pow_lt_pow_right (by omega) hbw)
  have hbq : B.basis % R.M.value < R.M.value := Nat.mod_lt _ E.q_pos
  have hbc : ((B.basis % R.M.value : Nat) : ZMod R.M.value) = ((2 ^ bits : Nat) : ZMod R.M.value) := by
    rw [ZMod.natCast_mod, hbasis]
  -- the padded key
  have hconv : ∀ v, LweSwitch.convert no v < R.M.value ∧
      ((LweSwitch.convert no v : Nat) : ZMod R.M.value) = (ternaryDigit v : ZMod R.M.value) := by
    intro v
    unfold LweSwitch.convert ternaryDigit
    by_cases h0 : v = 0
    · rw [if_pos h0, if_neg (by omega), if_pos h0]; exact ⟨E.q_pos, by simp⟩
    · rw [if_neg h0]
      by_cases h1 : v = 1
      · rw [if_pos h1, if_pos h1]; exact ⟨by omega, by simp⟩
      · rw [if_neg h1, if_neg h1, if_neg h0]; exact ⟨hno, by rw [cno]; simp⟩
  have hsk' : sk.map (LweSwitch.convert no) = sk' := by
    have hlen : sk'.length = sk.length := hsk.1
    refine list_ext_of_cast (q := R.M.value) (n := sk.length) (by simp) hlen ?_ ?_ ?_
    · intro i hi
      rw [List.getD_eq_getElem _ _ (by simpa using hi), List.getElem_map]
      exact (hconv _).1
    · intro i hi
      exact hsk.2 _ (getD_mem _ (by omega))
    · intro i hi
      rw [List.getD_eq_getElem _ _ (by simpa using hi), List.getElem_map, (hconv _).2,
        List.getD_eq_getElem _ _ (by omega)]
      have := congrArg (fun l => l[i]?) hcast
      simp only [List.getElem?_map] at this
      rw [List.getElem?_eq_getElem (by omega), List.getElem?_eq_getElem (by omega)] at this
      simpa using this.symm
  have hs : Reduced R.M.value (2 ^ k) (sk' ++ List.replicate (2 ^ k - sk.length) 0) := by
    refine ⟨by simp [hsk.1]; omega, fun x hx => ?_⟩
    rcases List.mem_append.1 hx with hx | hx
    · exact hsk.2 x hx
    · rw [(List.mem_replicate.1 hx).2]; exact E.q_pos
  obtain ⟨sn, esn, _⟩ := E.toNtt (rep_exists hs)
  have hrl : 2 ^ k ≤ ring.length := by rw [hr.1]; exact Nat.le_mul_of_pos_left _ hcnt
  -- the parts
  obtain ⟨key, ek, hkey⟩ : ∃ key, RlweSwitch.keyParts R B (2 ^ k) sn (B.basis % R.M.value) ring ringNtt d
      = some key ∧ RlweSwitchKey R R.M.value (2 ^ k) bits
        (Rq.ofWords R.M.value (2 ^ k) (sk' ++ List.replicate (2 ^ k - sk.length) 0)) ring
        (fun c => drawErrors R.M.value (2 ^ k) (d c)) key := by
    unfold RlweSwitch.keyParts
    by_cases hC : 2 ^ k = ring.length
    · have hC1 : cnt = 1 := by
        rw [hr.1] at hC
        exact Nat.eq_of_mul_eq_mul_right hn (by omega)
      rw [if_pos hC]
      obtain ⟨v, ev, hv⟩ := E.toNtt (rep_exists (l := ring) (by rw [hC1, one_mul] at hr; exact hr))
      rw [hrn hC1] at ev
      cases ev
      obtain ⟨g, eg, hg⟩ := switchElement_spec E F bits hB _ sn hs esn _ hbq hbc ringNtt _ (d 0) hv (hl 0)
        (hd 0)
      refine ⟨[g], by rw [mbind eg]; rfl, by simpa using hC, fun c hc => ?_⟩
      obtain rfl : c = 0 := by simpa using hc
      simpa using hg
    · rw [if_neg hC]
      obtain ⟨hcl, hcv⟩ := chunks_vals hn (vals_self (q := R.M.value) hr)
      obtain ⟨gs, egs, hgl, hgs⟩ := switchElements_spec E F bits hB _ sn hs esn _ hbq hbc d hl hd 0
        (RlweSwitch.chunks (2 ^ k) ring) (by
          intro z hz
          obtain ⟨c, hc, rfl⟩ := List.mem_iff_getElem.1 hz
          exact ⟨(hcv c hc).len, (hcv c hc).lt⟩)
      refine ⟨gs, egs, by rw [hgl, hcl, hr.1], fun c hc => ?_⟩
      have := hgs c hc
      rw [zero_add] at this
      have hcc : c < (RlweSwitch.chunks (2 ^ k) ring).length := by rw [← hgl]; exact hc
      have heq : Rq.ofWords R.M.value (2 ^ k) ((RlweSwitch.chunks (2 ^ k) ring).getD c []) =
          Rq.ofWords R.M.value (2 ^ k) (ring.drop (c * 2 ^ k)) := by
        ext i
        show coeff _ _ _ = coeff _ _ _
        rw [List.getD_eq_getElem _ _ hcc]
        refine ((hcv c hcc).val i.val i.isLt).trans ?_
        unfold coeff
        rw [getD_drop]
      rw [heq] at this
      exact this
  rw [ofWords_pad] at hkey
  refine ⟨key, ?_, hkey⟩
  unfold RlweSwitch.generate
  simp only [nextPow2_eq hk h1 h2]
  rw [if_pos hrl, mbind hB, mbind eno, hsk', mbind (show Poly.toNtt R.w R.M R.tbl
    (sk' ++ List.replicate (2 ^ k - sk.length) Fp.zero) = some sn from esn), mbind eb, ek]

end Loop

-- the ring key (1, -1, 0, 1, 1, 0, -1, 0) of degree 8, the LWE key (1, 0, -1) padded to 4: generation,
-- and switching of an RLWE and of an LWE ciphertext
example : ∃ key, RlweSwitch.generate ⟨8, barrett17, tbl17⟩ 4 [1, 0, 9] [1, 16, 0, 1, 1, 0, 16, 0] []
      (fun _ => draw17) = some key ∧
    (∃ out, RlweSwitch.keySwitchRlwe ⟨8, barrett17, tbl17⟩ 3 key
        ⟨[3, 5, 0, 16, 7, 8, 9, 1], [4, 2, 8, 11, 0, 1, 2, 3]⟩ = some out ∧ LWEReduced 17 3 out) ∧
    ∃ out, RlweSwitch.keySwitchLwe ⟨8, barrett17, tbl17⟩ 3 key
      ⟨[3, 5, 0, 16, 7, 8, 9, 1], 4⟩ = some out ∧ LWEReduced 17 3 out := by
  have : Fact (Nat.Prime 17) := ⟨by decide⟩
  obtain ⟨key, ek, hkey⟩ := C40_generate (R := ⟨8, barrett17, tbl17⟩) (q := 17) (k := 2)
    (by omega) tbl17_field 4 ⟨16, 2, 15, 4⟩ (by decide +kernel) [1, 0, 9] (by decide) (by decide)
    [1, 0, 16] ⟨rfl, by decide⟩ rfl 2 (by omega) [1, 16, 0, 1, 1, 0, 16, 0] []
    ⟨rfl, by decide⟩ (by omega) (fun _ => draw17) (fun _ => by decide) (fun _ => draw17_ok.1)
  obtain ⟨o1, e1, r1, _⟩ := C40_key_switch_rlwe (R := ⟨8, barrett17, tbl17⟩) (q := 17) (k := 2)
    (by omega) tbl17_field 4 ⟨16, 2, 15, 4⟩ (by decide +kernel) 3 (by decide) (by decide) _
    ⟨rfl, by decide⟩ _ _ key hkey (by decide) ⟨[3, 5, 0, 16, 7, 8, 9, 1], [4, 2, 8, 11, 0, 1, 2, 3]⟩
    ⟨rfl, by decide⟩ ⟨rfl, by decide⟩
  obtain ⟨o2, e2, r2, _⟩ := C40_key_switch_lwe (R := ⟨8, barrett17, tbl17⟩) (q := 17) (k := 2)
    (by omega) tbl17_field 4 ⟨16, 2, 15, 4⟩ (by decide +kernel) 3 (by decide) (by decide) _
    ⟨rfl, by decide⟩ _ _ key hkey ⟨[3, 5, 0, 16, 7, 8, 9, 1], 4⟩ ⟨⟨rfl, by decide⟩, by decide⟩
  exact ⟨key, ek, ⟨o1, e1, r1⟩, o2, e2, r2⟩

end Verif.Props
