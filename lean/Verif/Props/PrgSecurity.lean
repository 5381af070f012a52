import Verif.SpecPrgSecurity
import Verif.Lemmas.Switching

/-! # C74: programs cannot tell the generator from uniform words, unless AES-128 is broken -/

namespace Verif.Props
open Spec
open Verif.Prg (Request Answer serve)
open Spec.Aes (State)
open scoped ENNReal

section
variable {α : Type}

theorem client_answer (seed : State) (p : Nat) (r : Request) :
    Client.answer (Spec.Prg.word seed) p r = Spec.Prg.answer seed p r := by
  cases r <;> first | rfl | simp [Client.answer, Spec.Prg.answer, Spec.Prg.bytes]

theorem client_run {I : AesImpl} (hI : IsAes I) {key : Block} : ∀ (C : Client α) (n p : Nat) (g : Prg), At I key p g →
    C.Within n → p + n < 2 ^ 66 - 64 →
    ∃ g', C.run I g = some (C.ideal (Spec.Prg.word (toState key)) p, g')
  | .done a, _, _, g, _, _, _ => ⟨g, rfl⟩
  | .ask r next, n, p, g, h, hC, hp => by
    obtain ⟨h1, h2⟩ := hC
    obtain ⟨g1, e1, a1⟩ := serve_spec hI h r (by omega)
    obtain ⟨g2, e2⟩ := client_run hI (next (Spec.Prg.answer (toState key) p r)) (n - Spec.Prg.cost r) _ g1 a1
      (h2 _) (by omega)
    refine ⟨g2, ?_⟩
    unfold Client.run Client.ideal
    rw [e1, client_answer]
    exact e2

theorem answer_congr (v v' : Nat → Nat) (p : Nat) (r : Request) (h : ∀ i < p + Spec.Prg.cost r, v i = v' i) :
    Client.answer v p r = Client.answer v' p r := by
  have hb : ∀ p', p' + 4 ≤ p + Spec.Prg.cost r → Client.answer.block v p' = Client.answer.block v' p' := fun p' hp => by
    unfold Client.answer.block
    dsimp only
    simp only [Nat.reduceDiv, Nat.add_zero]
    rw [h p' (by omega), h (p' + 1) (by omega), h (p' + 2) (by omega), h (p' + 3) (by omega)]
  cases r with
  | u32 => simp only [Client.answer]; rw [h p (by simp [Spec.Prg.cost])]
  | u64 =>
    simp only [Client.answer]; rw [h p (by simp [Spec.Prg.cost]), h (p + 1) (by simp [Spec.Prg.cost])]
  | bytes n =>
    simp only [Client.answer]
    congr 1
    refine List.map_congr_left fun k hk => ?_
    rw [h (p + k / 4) (by have := List.mem_range.1 hk; simp only [Spec.Prg.cost]; omega)]
  | bool => simp only [Client.answer]; rw [h p (by simp [Spec.Prg.cost])]
  | bools n =>
    simp only [Client.answer]
    congr 1
    refine List.map_congr_left fun k hk => ?_
    rw [h (p + k) (by have := List.mem_range.1 hk; simp only [Spec.Prg.cost]; omega)]
  | byte => simp only [Client.answer]; rw [h p (by simp [Spec.Prg.cost])]
  | block => simp only [Client.answer]; rw [hb p (by simp [Spec.Prg.cost])]
  | blocks n =>
    simp only [Client.answer]
    congr 1
    refine List.map_congr_left fun k hk => ?_
    rw [hb (p + 4 * k) (by have := List.mem_range.1 hk; simp only [Spec.Prg.cost]; omega)]

/-- The result only depends on the words that the program uses. -/
theorem client_congr (v v' : Nat → Nat) : ∀ (C : Client α) (n p : Nat), C.Within n → (∀ i < p + n, v i = v' i) →
    C.ideal v p = C.ideal v' p
  | .done _, _, _, _, _ => rfl
  | .ask r next, n, p, hC, h => by
    obtain ⟨h1, h2⟩ := hC
    unfold Client.ideal
    rw [answer_congr v v' p r fun i hi => h i (by omega)]
    exact client_congr v v' _ (n - Spec.Prg.cost r) _ (h2 _) fun i hi => h i (by omega)

end

theorem blockWords_word (seed : State) (j : Nat) :
    blockWords (Spec.Prg.block seed j) = (List.range' (4 * j) 4).map (Spec.Prg.word seed) := by
  have h : ∀ c : Fin 4, Spec.Prg.word seed (4 * j + c.val) =
      (Spec.Prg.block seed j 0 c).toNat + 256 * (Spec.Prg.block seed j 1 c).toNat +
        256 ^ 2 * (Spec.Prg.block seed j 2 c).toNat + 256 ^ 3 * (Spec.Prg.block seed j 3 c).toNat := fun c => by
    unfold Spec.Prg.word
    have e1 : (4 * j + c.val) / 4 = j := by omega
    have e2 : (4 * j + c.val) % 4 = c.val := by omega
    simp only [e1, e2]
  have h0 := h 0
  have h1 := h 1
  have h2 := h 2
  have h3 := h 3
  unfold blockWords
  simp only [List.map_cons, List.map_nil, List.range'_succ, List.range'_zero]
  rw [← h0, ← h1, ← h2, ← h3]
  rfl

theorem stream_words (seed : State) (m : Nat) :
    ((List.range m).map fun j => Spec.Prg.block seed j).flatMap blockWords =
      (List.range (4 * m)).map (Spec.Prg.word seed) := by
  induction m with
  | zero => rfl
  | succ m ih =>
    rw [List.range_succ, List.map_append, List.flatMap_append, ih, List.map_singleton, List.flatMap_singleton,
      blockWords_word, show 4 * (m + 1) = 4 * m + 4 by ring, ← List.map_append]
    congr 1
    rw [List.range_eq_range', List.range_eq_range', ← List.range'_append_1, Nat.zero_add]

/-! ## Uniform blocks are uniform words -/

theorem draws_append {β : Type} (p : PMF β) (b : Nat) (F : List β → ℝ≥0∞) : ∀ a : Nat,
    mean (draws p (a + b)) F = mean (draws p a) fun l => mean (draws p b) fun l' => F (l ++ l')
  | 0 => by rw [mean_draws_zero, Nat.zero_add]; rfl
  | a + 1 => by
    rw [show a + 1 + b = a + b + 1 by ring, mean_draws_succ, mean_draws_succ]
    congr 1
    funext x
    exact draws_append p b (fun l => F (x :: l)) a

theorem draws_flatMap {β γ : Type} (p : PMF β) (r : PMF γ) (f : β → List γ) (n : Nat) (h : p.map f = draws r n) (m : Nat) :
    (draws p m).map (fun l => l.flatMap f) = draws r (n * m) := by
  refine pmf_ext_mean fun F => ?_
  rw [mean_map]
  induction m generalizing F with
  | zero => simp [mean_draws_zero]
  | succ m ih =>
    rw [mean_draws_succ, Nat.mul_succ, Nat.add_comm, draws_append, ← h, mean_map]
    congr 1
    funext x
    simp only [List.flatMap_cons]
    exact ih fun l => F (f x ++ l)

theorem card_state : Fintype.card State = 2 ^ 128 := by
  have : Fintype.card (BitVec 8) = 2 ^ 8 := by
    rw [Fintype.ofEquiv_card]; exact Fintype.card_fin _
  rw [Fintype.card_fun, Fintype.card_fun, this, Fintype.card_fin, ← pow_mul, ← pow_mul]

/-- The columns of a block as words. -/
def columns (s : State) : Fin 4 → Fin (2 ^ 32) := fun c =>
  ⟨(s 0 c).toNat + 256 * (s 1 c).toNat + 256 ^ 2 * (s 2 c).toNat + 256 ^ 3 * (s 3 c).toNat, by
    have := (s 0 c).isLt; have := (s 1 c).isLt; have := (s 2 c).isLt; have := (s 3 c).isLt; omega⟩

theorem columns_bijective : Function.Bijective columns := by
  rw [Fintype.bijective_iff_injective_and_card]
  constructor
  · intro s t h
    have hc : ∀ c, (s 0 c).toNat = (t 0 c).toNat ∧ (s 1 c).toNat = (t 1 c).toNat ∧ (s 2 c).toNat = (t 2 c).toNat ∧
        (s 3 c).toNat = (t 3 c).toNat := fun c => by
      have e := congrArg Fin.val (congrFun h c)
      simp only [columns] at e
      have := (s 0 c).isLt; have := (s 1 c).isLt; have := (s 2 c).isLt; have := (s 3 c).isLt
      have := (t 0 c).isLt; have := (t 1 c).isLt; have := (t 2 c).isLt; have := (t 3 c).isLt
      omega
    funext r c
    refine BitVec.eq_of_toNat_eq ?_
    obtain ⟨h0, h1, h2, h3⟩ := hc c
    fin_cases r
    exacts [h0, h1, h2, h3]
  · rw [card_state, Fintype.card_fun, Fintype.card_fin, Fintype.card_fin, ← pow_mul]

theorem blockWords_law : (PMF.uniformOfFintype State).map blockWords = draws (uniformWord 32) 4 := by
  have e : blockWords = (fun a : List (Fin (2 ^ 32)) => a.map Fin.val) ∘ (fun a => List.ofFn a) ∘
      (Equiv.ofBijective columns columns_bijective) := by
    funext s
    simp [blockWords, columns, List.ofFn_succ]
  rw [e, ← PMF.map_comp, ← PMF.map_comp, uniform_equiv, uniform_list, draws_map]
  rfl

theorem blocks_law (m : Nat) : (draws (PMF.uniformOfFintype State) m).map (fun l => l.flatMap blockWords) =
    draws (uniformWord 32) (4 * m) := draws_flatMap _ _ _ 4 blockWords_law m

/-! ## The bound -/

theorem chance_sub_le {α : Type} {p r : PMF α} {A : Set α} {ε : ℝ≥0∞} (hε : ε ≠ ⊤)
    (h1 : p.toOuterMeasure A ≤ r.toOuterMeasure A + ε) (h2 : r.toOuterMeasure A ≤ p.toOuterMeasure A + ε) :
    |chance p A - chance r A| ≤ ε.toReal := by
  have ht : ∀ p : PMF α, p.toOuterMeasure A ≠ ⊤ := fun p =>
    ne_top_of_le_ne_top ENNReal.one_ne_top (by
      rw [PMF.toOuterMeasure_apply, ← p.tsum_coe]
      exact ENNReal.tsum_le_tsum fun a => Set.indicator_le_self _ _ a)
  have e1 := ENNReal.toReal_mono (by finiteness [ht r]) h1
  have e2 := ENNReal.toReal_mono (by finiteness [ht p]) h2
  rw [ENNReal.toReal_add (ht _) hε] at e1 e2
  unfold chance
  rw [abs_sub_le_iff]
  constructor <;> linarith

theorem chance_map {α β : Type} (p : PMF α) (f : α → β) (A : Set β) : chance (p.map f) A = chance p (f ⁻¹' A) := by
  unfold chance
  rw [PMF.toOuterMeasure_map_apply]

/-- The seeds as states. -/
noncomputable def seedEquiv : Block ≃ State := Equiv.ofBijective toState ⟨toState_injective, fun s =>
  ⟨⟨⟨s 0 0, s 1 0, s 2 0, s 3 0⟩, ⟨s 0 1, s 1 1, s 2 1, s 3 1⟩, ⟨s 0 2, s 1 2, s 2 2, s 3 2⟩,
    ⟨s 0 3, s 1 3, s 2 3, s 3 3⟩⟩, by funext r c; fin_cases r <;> fin_cases c <;> rfl⟩⟩

/-- C74: a program that asks the generator with a uniform seed for at most `4 m` words, adaptively and in any mixture of
the requests, on both architectures. It does not panic, and the probability of every event `A` of its results is that for
independent uniform words, up to the advantage of a test against AES-128, which runs the program on the ciphertexts of `m`
counters, and `m (m - 1) / 2^129`. -/
theorem C74_client {α : Type} (I : AesImpl) (hI : I = .x86 ∨ I = .arm) (C : Client α) (m : Nat)
    (hm : 4 * m < 2 ^ 66 - 64) (hC : C.Within (4 * m)) (A : Set α) :
    (∀ key, ∃ r, C.run I (Prg.fromSeed I key) = some r) ∧
    |chance ((PMF.uniformOfFintype Block).map fun key => (C.run I (Prg.fromSeed I key)).map Prod.fst) (some '' A) -
      chance ((draws (uniformWord 32) (4 * m)).map fun l => C.ideal (fun i => l.getD i 0) 0) A| ≤
    aesAdvantage m {l | C.ideal (fun i => (l.flatMap blockWords).getD i 0) 0 ∈ A} + m * (m - 1) / 2 ^ 129 := by
  have hA : IsAes I := by rcases hI with rfl | rfl; exacts [isAes_x86, isAes_arm]
  have hrun := fun key => client_run hA C (4 * m) 0 _ (at_fromSeed key) hC (by omega)
  refine ⟨fun key => ⟨_, (hrun key).choose_spec⟩, ?_⟩
  set D : Set (List State) := {l | C.ideal (fun i => (l.flatMap blockWords).getD i 0) 0 ∈ A} with hD
  have e1 : chance ((PMF.uniformOfFintype Block).map fun key => (C.run I (Prg.fromSeed I key)).map Prod.fst) (some '' A) =
      chance ((PMF.uniformOfFintype State).map fun key =>
        (List.range m).map fun j => Aes.cipher key (Prg.counterBlock j)) D := by
    rw [chance_map, chance_map, ← uniform_equiv seedEquiv, chance_map]
    congr 1
    ext key
    obtain ⟨g, e⟩ := hrun key
    simp only [Set.mem_preimage, e, Option.map_some, hD, Set.mem_ofPred_eq]
    rw [show (fun j => Aes.cipher (seedEquiv key) (Prg.counterBlock j)) = fun j => Spec.Prg.block (toState key) j from rfl,
      stream_words, client_congr (fun i => ((List.range (4 * m)).map (Spec.Prg.word (toState key))).getD i 0)
        (Spec.Prg.word (toState key)) C (4 * m) 0 hC fun i hi => by
          rw [List.getD_eq_getElem?_getD, List.getElem?_map, List.getElem?_range (by omega)]; rfl]
    simp
  have e2 : chance ((draws (uniformWord 32) (4 * m)).map fun l => C.ideal (fun i => l.getD i 0) 0) A =
      chance (draws (PMF.uniformOfFintype State) m) D := by
    rw [← blocks_law, PMF.map_comp, chance_map]
    rfl
  have hnd : ((List.range m).map Spec.Prg.counterBlock).Nodup := by
    refine List.Nodup.map_on (fun i hi j hj h => ?_) List.nodup_range
    have hi := List.mem_range.1 hi
    have hj := List.mem_range.1 hj
    exact counterBlock_injective (by omega) (by omega) h
  obtain ⟨s1, s2⟩ := switching ((List.range m).map Spec.Prg.counterBlock) hnd D
  rw [List.length_map, List.length_range, card_state] at s1 s2
  have s3 := chance_sub_le (by
    refine ENNReal.div_ne_top (ENNReal.natCast_ne_top _) ?_
    rw [Nat.cast_ne_zero]; positivity) s1 s2
  have e3 : (((m * (m - 1) / 2 : Nat) : ℝ≥0∞) / ((2 ^ 128 : Nat) : ℝ≥0∞)).toReal = m * (m - 1) / 2 ^ 129 := by
    rw [ENNReal.toReal_div, ENNReal.toReal_natCast, ENNReal.toReal_natCast, Nat.cast_div (even_iff_two_dvd.1
      (Nat.even_mul_pred_self m)) (by norm_num)]
    rcases m with _ | m
    · simp
    · push_cast
      norm_num
      ring
  rw [e3] at s3
  rw [e1, e2]
  unfold aesAdvantage
  simp only [List.map_map, Function.comp_def] at s3
  refine (abs_sub_le _ _ _).trans (add_le_add le_rfl s3)

theorem words_within {α : Type} (f : List Nat → α) : ∀ (n : Nat) (acc : List Nat) (k : Nat), n ≤ k →
    (Client.words f n acc).Within k
  | 0, _, _, _ => trivial
  | n + 1, acc, k, h => ⟨by simp only [Spec.Prg.cost]; omega, fun a => by
    cases a with
    | word x => exact words_within f n _ _ (by simp only [Spec.Prg.cost]; omega)
    | _ => trivial⟩

theorem words_ideal {α : Type} (f : List Nat → α) (v : Nat → Nat) : ∀ (n : Nat) (acc : List Nat) (p : Nat),
    (Client.words f n acc).ideal v p = f (acc ++ (List.range' p n).map v)
  | 0, _, _ => by simp [Client.words, Client.ideal]
  | n + 1, acc, p => by
    unfold Client.words Client.ideal
    simp only [Client.answer, Spec.Prg.cost]
    rw [words_ideal f v n, List.range'_succ, List.map_cons, List.append_assoc]
    rfl

/-- C74: whatever is computed from the first `n` words of the generator has the law that it has for independent uniform
words, as they are assumed in the laws of the samplers, up to the same bound. -/
theorem C74_words {α : Type} (I : AesImpl) (hI : I = .x86 ∨ I = .arm) (f : List Nat → α) (n m : Nat) (hn : n ≤ 4 * m)
    (hm : 4 * m < 2 ^ 66 - 64) (A : Set α) :
    |chance ((PMF.uniformOfFintype Block).map fun key =>
        ((Client.words f n []).run I (Prg.fromSeed I key)).map Prod.fst) (some '' A) -
      chance ((draws (uniformWord 32) n).map f) A| ≤
    aesAdvantage m {l | f ((l.flatMap blockWords).take n) ∈ A} + m * (m - 1) / 2 ^ 129 := by
  have key : ∀ l : List Nat, l.length = 4 * m →
      (Client.words f n []).ideal (fun i => l.getD i 0) 0 = f (l.take n) := fun l hl => by
    rw [words_ideal]
    congr 1
    refine List.ext_getElem? fun i => ?_
    simp only [List.nil_append, List.getElem?_map, List.getElem?_take]
    by_cases hi : i < n
    · rw [List.getElem?_range' hi, if_pos hi, List.getElem?_eq_getElem (by omega)]
      simp [List.getD_eq_getElem?_getD, List.getElem?_eq_getElem (show i < l.length by omega)]
    · rw [if_neg hi, List.getElem?_eq_none (by simpa using hi)]
      rfl
  have h := (C74_client I hI (Client.words f n []) m hm (words_within f n [] _ hn) A).2
  have e1 : ((draws (uniformWord 32) (4 * m)).map fun l => (Client.words f n []).ideal (fun i => l.getD i 0) 0) =
      (draws (uniformWord 32) n).map f := by
    rw [← draws_take _ hn, PMF.map_comp]
    exact map_congr_support fun l hl => key l (mem_support_draws hl).1
  rw [e1] at h
  refine h.trans (le_of_eq ?_)
  have hlen : ∀ l : List State, (l.flatMap blockWords).length = 4 * l.length := fun l => by
    induction l with
    | nil => rfl
    | cons s l ih => rw [List.flatMap_cons, List.length_append, ih, List.length_cons]; simp [blockWords]; omega
  have hs : ∀ l : List State, l.length = m →
      ((Client.words f n []).ideal (fun i => (l.flatMap blockWords).getD i 0) 0 ∈ A ↔
        f ((l.flatMap blockWords).take n) ∈ A) := fun l hl => by rw [key _ (by rw [hlen, hl])]
  unfold aesAdvantage
  congr 3
  · rw [chance_map, chance_map]
    congr 1
    ext x
    exact hs _ (by simp)
  · rw [chance_map, chance_map]
    congr 1
    ext x
    exact hs _ (by simp)

/-- A program that asks for a byte and then, depending on it, for a block or for three booleans. -/
def branching : Client Nat := .ask .byte fun
  | .bytes [0] => .ask .block fun _ => .done 9
  | _ => .ask (.bools 3) fun
    | .bools l => .done (l.countP id)
    | _ => .done 4

-- the program uses at most five words, so two blocks suffice; with the zero seed the byte is not zero and none of the
-- booleans after it is true
example : branching.Within (4 * 2) ∧ 4 * 2 < 2 ^ 66 - 64 ∧
    ((branching.run .x86 (Prg.fromSeed .x86 Block.zero)).map Prod.fst = some 0) := by
  refine ⟨⟨by decide, fun a => ?_⟩, by decide, by decide +kernel⟩
  dsimp only
  split
  · exact ⟨by decide, fun _ => trivial⟩
  · refine ⟨by decide, fun a => ?_⟩
    dsimp only
    split <;> trivial

-- the uniform sampler modulo Q = 132120577 with 2^12 words of the generator: 2^11 residues fail to be found with probability
-- at most 2^2048 (3/4)^4096 + 2^20 / 2^129, and the advantage against AES
example (M : Barrett) (h : Fp.config 32 132120577 = some M) :
    chance ((PMF.uniformOfFintype Block).map fun key =>
      ((Client.words (Sample.uniformVec 32 32 M 2048) 4096 []).run .x86 (Prg.fromSeed .x86 key)).map Prod.fst)
        (some '' {some none}) ≤
    ((2 : ℝ≥0∞) ^ 2048 * (3 / 4) ^ 4096).toReal +
      (aesAdvantage 1024 {l | Sample.uniformVec 32 32 M 2048 ((l.flatMap blockWords).take 4096) ∈
        ({some none} : Set (Option (Option (List Nat))))} + (1024 : Nat) * ((1024 : Nat) - 1) / 2 ^ 129) := by
  have h1 := C74_words .x86 (.inl rfl) (Sample.uniformVec 32 32 M 2048) 4096 1024 (by decide) (by decide) {some none}
  have h2 := (C64_uniform 32 32 132120577 (by decide) (by decide) M h 2048 4096).2.2
  have h3 : chance ((draws (uniformWord 32) 4096).map (Sample.uniformVec 32 32 M 2048)) {some none} ≤
      ((2 : ℝ≥0∞) ^ 2048 * (3 / 4) ^ 4096).toReal := by
    unfold chance
    rw [PMF.toOuterMeasure_apply_singleton]
    refine ENNReal.toReal_mono (ENNReal.mul_ne_top (by finiteness) (ENNReal.pow_ne_top (ENNReal.div_ne_top (by simp) (by simp)))) h2
  have := (abs_sub_le_iff.1 h1).1
  linarith

end Verif.Props
