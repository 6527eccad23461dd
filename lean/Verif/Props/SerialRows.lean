import Verif.Props.Reported
/-
C146. Which rows of the serial avalanche test are reported, and when the runs test is.
-/
namespace TFR
open Spec

/-- For words with the given number of bits: the smallest numbers of pairs with which the rows for `0, 1, 2, ...` (up to half) set bits in the
first word of a pair have sub tests. -/
def Spec.serialRows : WT → List Nat
  | .u8 => [8857, 1108, 317, 159, 127]
  | .u16 => [3119076, 194943, 25993, 5570, 1714, 715, 390, 273, 243]
  | .u32 => [
    857236814108, 26788650441, 1728300029, 172830003, 23838622, 4256897, 945978, 254687, 81500, 30563, 13288, 6644, 3797, 2468, 1819,
    1516, 1427]
  | .u64 => [
    22642648157392134313720, 353791377459252098652, 11231472300293717418, 543458337110986327, 35636612269572874, 2969717689131073,
    302005188725194, 36448902087524, 5115635380706, 822155686185, 149482852034, 30450210600, 6894387306, 1723596827, 473144227,
    141943269, 46348823, 16415208, 6286676, 2596671, 1154076, 550809, 281810, 154325, 90337, 56461, 37641, 26745, 20239, 16304, 13975,
    12742, 12356]

/-- The smallest number of pairs with which sub test `bit(a)` exists: that of `w - a` bits is the same as that of `a` bits. -/
def Spec.serialRowFrom (t : WT) (a : Nat) : Nat := (serialRows t).getD (min a (t.bits - a)) 0

namespace SerialRows

/-- Counting the groups: the groups so far and the sum since the last one. -/
def step (T m : Nat) (st : Nat × Nat) (c : Nat) : Nat × Nat := if T ≤ st.2 + m * c then (st.1 + 1, 0) else (st.1, st.2 + m * c)

/-- A row of Pascal's triangle. -/
def pascal : WT → List Nat
  | .u8 => [1, 8, 28, 56, 70, 56, 28, 8, 1]
  | .u16 => [1, 16, 120, 560, 1820, 4368, 8008, 11440, 12870, 11440, 8008, 4368, 1820, 560, 120, 16, 1]
  | .u32 => [
    1, 32, 496, 4960, 35960, 201376, 906192, 3365856, 10518300, 28048800, 64512240, 129024480, 225792840, 347373600, 471435600,
    565722720, 601080390, 565722720, 471435600, 347373600, 225792840, 129024480, 64512240, 28048800, 10518300, 3365856, 906192,
    201376, 35960, 4960, 496, 32, 1]
  | .u64 => [
    1, 64, 2016, 41664, 635376, 7624512, 74974368, 621216192, 4426165368, 27540584512, 151473214816, 743595781824, 3284214703056,
    13136858812224, 47855699958816, 159518999862720, 488526937079580, 1379370175283520, 3601688791018080, 8719878125622720,
    19619725782651120, 41107996877935680, 80347448443237920, 146721427591999680, 250649105469666120, 401038568751465792,
    601557853127198688, 846636978475316672, 1118770292985239888, 1388818294740297792, 1620288010530347424, 1777090076065542336,
    1832624140942590534, 1777090076065542336, 1620288010530347424, 1388818294740297792, 1118770292985239888, 846636978475316672,
    601557853127198688, 401038568751465792, 250649105469666120, 146721427591999680, 80347448443237920, 41107996877935680,
    19619725782651120, 8719878125622720, 3601688791018080, 1379370175283520, 488526937079580, 159518999862720, 47855699958816,
    13136858812224, 3284214703056, 743595781824, 151473214816, 27540584512, 4426165368, 621216192, 74974368, 7624512, 635376, 41664,
    2016, 64, 1]

theorem pascal_eq (t : WT) : (List.range (t.bits + 1)).map (fun b => t.bits.choose b) = pascal t := by
  simp only [Nat.choose_eq_descFactorial_div_factorial]
  cases t <;> decide +kernel

theorem table (t : WT) : ∀ a < t.bits, (
    let row := fun n => ((pascal t).foldl (step (5 * (2 ^ t.bits * 2 ^ t.bits)) (n * (pascal t).getD a 0)) (0, 0)).1
    35 * (t.bits + 1) ≤ 100 * row (serialRowFrom t a) ∧ 2 ≤ row (serialRowFrom t a) ∧ 0 < serialRowFrom t a ∧
    100 * row (serialRowFrom t a - 1) < 35 * (t.bits + 1)) := by
  cases t <;> decide +kernel

theorem step_mono (T m m' : Nat) (h : m ≤ m') (l : List Nat) : ∀ st st' : Nat × Nat, (st.1 < st'.1 ∨ st.1 = st'.1 ∧ st.2 ≤ st'.2) →
    (l.foldl (step T m) st).1 ≤ (l.foldl (step T m') st').1 := by
  induction l with
  | nil => intro st st' h; rcases h with h | h <;> simp <;> omega
  | cons c l ih =>
    intro st st' hs
    rw [List.foldl_cons, List.foldl_cons]
    refine ih _ _ ?_
    have hm : m * c ≤ m' * c := Nat.mul_le_mul_right _ h
    unfold step
    by_cases h1 : T ≤ st.2 + m * c
    · rw [if_pos h1]
      by_cases h2 : T ≤ st'.2 + m' * c
      · rw [if_pos h2]; dsimp only; omega
      · rw [if_neg h2]; dsimp only; omega
    · rw [if_neg h1]
      by_cases h2 : T ≤ st'.2 + m' * c
      · rw [if_pos h2]; dsimp only; omega
      · rw [if_neg h2]; dsimp only; omega

theorem fold_short (T m : Nat) (l : List Nat) (g : Nat) (h : ∀ p, p <+: l → p ≠ [] → m * p.sum < T) :
    l.foldl (step T m) (g, 0) = (g, m * l.sum) := by
  induction l using List.reverseRecOn with
  | nil => simp
  | append_singleton l c ih =>
    rw [List.foldl_append, ih (fun p hp => h p (hp.trans (List.prefix_append _ _)))]
    have := h (l ++ [c]) (List.prefix_refl _) (by simp)
    rw [List.sum_append, List.sum_singleton, Nat.mul_add] at this
    show step T m (g, m * l.sum) c = _
    unfold step
    rw [if_neg (by dsimp only; omega)]
    simp [Nat.mul_add]

theorem fold_group (T m : Nat) (l : List Nat) (g : Nat) (hl : l ≠ []) (hT : T ≤ m * l.sum)
    (h : ∀ p, p <+: l → p ≠ [] → p ≠ l → m * p.sum < T) : l.foldl (step T m) (g, 0) = (g + 1, 0) := by
  obtain ⟨l', c, rfl⟩ : ∃ l' c, l = l' ++ [c] := ⟨l.dropLast, l.getLast hl, (List.dropLast_append_getLast hl).symm⟩
  rw [List.foldl_append, fold_short T m l' g (fun p hp hne => h p (hp.trans (List.prefix_append _ _)) hne (by
    rintro rfl
    have := hp.length_le
    simp at this))]
  rw [List.sum_append, List.sum_singleton, Nat.mul_add] at hT
  show step T m (g, m * l'.sum) c = _
  unfold step
  rw [if_pos (by dsimp only; omega)]

theorem fold_groups (T m : Nat) (gs : List (List Nat)) (rest : List Nat) (g : Nat)
    (hgs : ∀ l ∈ gs, l ≠ [] ∧ T ≤ m * l.sum ∧ ∀ p, p <+: l → p ≠ [] → p ≠ l → m * p.sum < T)
    (hrest : ∀ p, p <+: rest → p ≠ [] → m * p.sum < T) : ((gs.flatten ++ rest).foldl (step T m) (g, 0)).1 = g + gs.length := by
  induction gs generalizing g with
  | nil => rw [List.flatten_nil, List.nil_append, fold_short T m rest g hrest]; rfl
  | cons l gs ih =>
    obtain ⟨h1, h2, h3⟩ := hgs l List.mem_cons_self
    rw [List.flatten_cons, List.append_assoc, List.foldl_append, fold_group T m l g h1 h2 h3, ih _ fun x hx => hgs x (List.mem_cons_of_mem _ hx)]
    simp; omega

theorem expected_sum (w n a : Nat) (l : List Nat) :
    (l.map (pairExpected w n a)).sum = ((n * w.choose a * (l.map fun b => w.choose b).sum : ℕ) : ℝ) / ((2 ^ w * 2 ^ w : ℕ) : ℝ) := by
  induction l with
  | nil => simp
  | cons b l ih =>
    rw [List.map_cons, List.sum_cons, ih, List.map_cons, List.sum_cons, Nat.mul_add, Nat.cast_add, add_div]
    congr 1
    unfold pairExpected
    push_cast
    field_simp

theorem five_le (w n a : Nat) (l : List Nat) :
    5 ≤ (l.map (pairExpected w n a)).sum ↔ 5 * (2 ^ w * 2 ^ w) ≤ n * w.choose a * (l.map fun b => w.choose b).sum := by
  rw [expected_sum, le_div_iff₀ (by positivity)]
  exact_mod_cast Iff.rfl

/-- The number of groups is what the counting gives. -/
theorem groups_eq (w n a : Nat) (G : List (List Nat)) (hG : GreedyMerge (pairExpected w n a) 5 (w + 1) G) :
    G.length = (((List.range (w + 1)).map (fun b => w.choose b)).foldl (step (5 * (2 ^ w * 2 ^ w)) (n * w.choose a)) (0, 0)).1 := by
  obtain ⟨gs, rest, hr, hgs, hrest, hnil, hlast⟩ := hG
  have hlen : G.length = gs.length := by
    by_cases h : gs = []
    · rw [hnil h, h]
    · rw [hlast h]
      have := List.length_pos_iff.2 h
      simp; omega
  have hlt : ∀ l : List Nat, (l.map (pairExpected w n a)).sum < 5 → n * w.choose a * (l.map fun b => w.choose b).sum < 5 * (2 ^ w * 2 ^ w) := by
    intro l h
    by_contra hc
    exact absurd ((five_le w n a l).2 (by omega)) (not_le.2 h)
  have pre : ∀ (l : List Nat) (p : List Nat), p <+: l.map (fun b => w.choose b) → ∃ q, q <+: l ∧ p = q.map fun b => w.choose b := by
    intro l p hp
    refine ⟨l.take p.length, List.take_prefix _ _, ?_⟩
    rw [List.map_take]
    exact List.prefix_iff_eq_take.1 hp
  rw [hlen, hr, List.map_append, List.map_flatten, fold_groups, List.length_map, Nat.zero_add]
  · intro l hl
    obtain ⟨g, hg, rfl⟩ := List.mem_map.1 hl
    obtain ⟨h1, h2, h3⟩ := hgs g hg
    refine ⟨by simpa using h1, (five_le w n a g).1 h2, ?_⟩
    intro p hp hne hne'
    obtain ⟨q, hq, rfl⟩ := pre g p hp
    exact hlt q (h3 q hq (by rintro rfl; exact hne rfl) (by rintro rfl; exact hne' rfl))
  · intro p hp hne
    obtain ⟨q, hq, rfl⟩ := pre rest p hp
    exact hlt q (hrest q hq (by rintro rfl; exact hne rfl))

theorem greedy_ge {e : Nat → ℝ} {thr : ℝ} {m : Nat} {G : List (List Nat)} (he : ∀ i, 0 ≤ e i) (hG : GreedyMerge e thr m G) :
    ∀ g ∈ G, thr ≤ (g.map e).sum := by
  obtain ⟨gs, rest, -, hgs, -, hnil, hlast⟩ := hG
  intro g hg
  by_cases h : gs = []
  · rw [hnil h] at hg; exact absurd hg (by simp)
  · rw [hlast h] at hg
    rcases List.mem_append.1 hg with hg | hg
    · exact (hgs g (List.dropLast_subset _ hg)).2.1
    · rw [List.mem_singleton.1 hg, List.map_append, List.sum_append]
      have h1 := (hgs _ (List.getLast_mem h)).2.1
      have h2 : 0 ≤ (rest.map e).sum := List.sum_nonneg (by
        intro x hx
        obtain ⟨i, -, rfl⟩ := List.mem_map.1 hx
        exact he i)
      linarith

theorem row_iff (t : WT) (n a : Nat) (ha : a < t.bits) (G : List (List Nat)) (hG : GreedyMerge (pairExpected t.bits n a) 5 (t.bits + 1) G) :
    (¬ (G.length : ℝ) / ((t.bits + 1 : ℕ) : ℝ) < 35 / 100 ↔ serialRowFrom t a ≤ n) ∧ (serialRowFrom t a ≤ n → 2 ≤ G.length) := by
  have hl := groups_eq t.bits n a G hG
  have hc : t.bits.choose a = (pascal t).getD a 0 := by
    rw [← pascal_eq, List.getD_eq_getElem _ _ (by simp; omega)]; simp
  rw [pascal_eq, hc] at hl
  obtain ⟨h1, h2, h3, h4⟩ := table t a ha
  have hm : ∀ n n' : Nat, n ≤ n' → ((pascal t).foldl (step (5 * (2 ^ t.bits * 2 ^ t.bits)) (n * (pascal t).getD a 0)) (0, 0)).1 ≤
      ((pascal t).foldl (step (5 * (2 ^ t.bits * 2 ^ t.bits)) (n' * (pascal t).getD a 0)) (0, 0)).1 := fun n n' h =>
    step_mono _ _ _ (Nat.mul_le_mul_right _ h) _ _ _ (Or.inr ⟨rfl, le_refl _⟩)
  have hdiv : ¬ (G.length : ℝ) / ((t.bits + 1 : ℕ) : ℝ) < 35 / 100 ↔ 35 * (t.bits + 1) ≤ 100 * G.length := by
    rw [not_lt, le_div_iff₀ (by positivity)]
    constructor
    · intro h
      have : ((35 * (t.bits + 1) : ℕ) : ℝ) ≤ ((100 * G.length : ℕ) : ℝ) := by push_cast at h ⊢; linarith
      exact Nat.cast_le.1 this
    · intro h
      have : ((35 * (t.bits + 1) : ℕ) : ℝ) ≤ ((100 * G.length : ℕ) : ℝ) := Nat.cast_le.2 h
      push_cast at this ⊢; linarith
  refine ⟨hdiv.trans ⟨fun h => ?_, fun h => ?_⟩, fun h => ?_⟩
  · by_contra hc
    have := hm n (serialRowFrom t a - 1) (by omega)
    rw [hl] at h
    dsimp only at h4
    omega
  · have := hm _ _ h
    rw [hl]
    dsimp only at h1
    omega
  · have := hm _ _ h
    rw [hl]
    dsimp only at h2
    omega

end SerialRows
open SerialRows

/-- C146. For every number of pairs and every stream: sub test `bit(a)` exists, with a statistic, exactly from `serialRowFrom` pairs on; there is
no other sub test. -/
theorem C146_serial_rows (cdf : ℝ → ℝ → ℝ) (t : WT) (n : BitVec 64) (s : Stream (BitVec t.bits)) :
    ∃ res, serialAvalanche cdf n s = .ok res ∧
      (∀ x ∈ res, ∃ a < t.bits, x.name = "bit(" ++ toString a ++ ")" ∧ x.stats ≠ none) ∧
      ∀ a < t.bits, (∃ x ∈ res, x.name = "bit(" ++ toString a ++ ")") ↔ serialRowFrom t a ≤ n.toNat := by
  obtain ⟨G, hG, hs⟩ := C81_serial_avalanche (w := t.bits) cdf n
  refine ⟨_, hs s, ?_, ?_⟩
  · intro x hx
    obtain ⟨a, ha, hx⟩ := List.mem_filterMap.1 hx
    obtain ⟨st, hst, rfl⟩ := Option.map_eq_some_iff.1 hx
    exact ⟨a, List.mem_range.1 ha, rfl, by simp⟩
  · intro a ha
    obtain ⟨h1, h2⟩ := row_iff t n.toNat a ha (G a) (hG a ha)
    rw [← h1]
    constructor
    · rintro ⟨x, hx, hxa⟩ hlt
      obtain ⟨b, hb, hx⟩ := List.mem_filterMap.1 hx
      obtain ⟨st, hst, rfl⟩ := Option.map_eq_some_iff.1 hx
      have hab : b = a := by
        have h1 := congrArg String.toList hxa
        simp only [String.toList_append] at h1
        have h2 := List.append_cancel_right h1
        have h3 := List.append_cancel_left h2
        have h4 : (toString b : String) = toString a := String.toList_injective h3
        exact Nat.repr_inj.1 h4
      subst hab
      rw [if_pos hlt] at hst
      exact absurd hst (by simp)
    · intro hlt
      have hlen := h2 (h1.1 hlt)
      obtain ⟨st, hst⟩ : ∃ st, pearson cdf ((G a).map fun g =>
          ((((g.map (pairHits s.nth n.toNat a)).sum : ℕ) : ℝ), (g.map (pairExpected t.bits n.toNat a)).sum)) 0 = some st := by
        unfold pearson
        rw [if_neg]
        · exact ⟨_, rfl⟩
        · unfold usedCells
          rw [List.filter_eq_self.2, List.length_map]
          · omega
          · intro c hc
            obtain ⟨g, hg, rfl⟩ := List.mem_map.1 hc
            simp only [decide_eq_true_eq]
            exact lt_of_lt_of_le (by norm_num) (greedy_ge (fun b => by unfold pairExpected; positivity) (hG a ha) g hg)
      refine ⟨⟨"bit(" ++ toString a ++ ")", some st⟩, List.mem_filterMap.2 ⟨a, List.mem_range.2 ha, ?_⟩, rfl⟩
      rw [if_neg hlt, hst]; rfl

/-- C146. In every battery of `n` samples, under every schedule: sub test `bit(a)` of serial-avalanche has results exactly from
`serialRowFrom` samples on. -/
theorem C146_serial (cdf : ℝ → ℝ → ℝ) (t : WT) (n : BitVec 64) (setup : TestSetup t.bits) (hth : 0 < setup.maxThreads)
    (htests : .serialAvalanche ∈ setup.tests) (hsrc : setup.sources ≠ []) (b : Battery ℝ)
    (hb : EvaluateOutcome (suiteDef cdf) n setup b) (a : Nat) (ha : a < t.bits) :
    b.get ⟨.serialAvalanche, "bit(" ++ toString a ++ ")"⟩ ≠ [] ↔ serialRowFrom t a ≤ n.toNat := by
  have rows := C146_serial_rows cdf t n
  rw [reported_get_iff cdf n setup hth b hb]
  constructor
  · rintro ⟨-, s, -, ⟨f, m, hf, -⟩ | ⟨f, hf, st, hst⟩⟩
    · cases hf
    · cases hf
      obtain ⟨res, h1, -, h3⟩ := rows (createStream setup.mix s)
      change _ ∈ TestRun.value (some (serialAvalanche cdf n (createStream setup.mix s))) at hst
      rw [h1] at hst
      exact (h3 a ha).1 ⟨_, hst, rfl⟩
  · intro h
    refine ⟨htests, ?_⟩
    obtain ⟨s, hs⟩ := List.exists_mem_of_ne_nil _ hsrc
    obtain ⟨res, h1, h2, h3⟩ := rows (createStream setup.mix s)
    obtain ⟨⟨nm, so⟩, hx, hxa⟩ := (h3 a ha).2 h
    obtain ⟨-, -, -, hso⟩ := h2 _ hx
    obtain ⟨st, rfl⟩ := Option.ne_none_iff_exists'.1 hso
    dsimp only at hxa
    subst hxa
    refine ⟨s, hs, Or.inr ⟨_, rfl, st, ?_⟩⟩
    show _ ∈ TestRun.value (some (serialAvalanche cdf n (createStream setup.mix s)))
    rw [h1]
    exact hx

/-- From which power of two of samples on the serial avalanche test has a result: 2^7, 2^8, 2^11, 2^14 for words of 8, 16, 32, 64 bits. -/
def Spec.serialPower : WT → Nat
  | .u8 => 7 | .u16 => 8 | .u32 => 11 | .u64 => 14

/-- C146. In a battery of `2^k` samples serial-avalanche has a result exactly for `k ≥ serialPower`. -/
theorem C146_serial_first (cdf : ℝ → ℝ → ℝ) (t : WT) (k : Nat) (hk : k < 58) (setup : TestSetup t.bits) (hth : 0 < setup.maxThreads)
    (htests : .serialAvalanche ∈ setup.tests) (hsrc : setup.sources ≠ []) (b : Battery ℝ)
    (hb : EvaluateOutcome (suiteDef cdf) (BitVec.ofNat 64 (2 ^ k)) setup b) :
    (∃ sub, b.get ⟨.serialAvalanche, sub⟩ ≠ []) ↔ serialPower t ≤ k := by
  have hpow : (2 : Nat) ^ k < 2 ^ 64 := Nat.pow_lt_pow_right (by norm_num) (by omega)
  have hn : (BitVec.ofNat 64 (2 ^ k)).toNat = 2 ^ k := by rw [BitVec.toNat_ofNat, Nat.mod_eq_of_lt hpow]
  have key := fun a ha => C146_serial cdf t _ setup hth htests hsrc b hb a ha
  rw [hn] at key
  have hmin : ∀ a < t.bits, serialRowFrom t (t.bits / 2) ≤ serialRowFrom t a := by cases t <;> decide +kernel
  have hp : 2 ^ (serialPower t - 1) < serialRowFrom t (t.bits / 2) ∧ serialRowFrom t (t.bits / 2) ≤ 2 ^ serialPower t ∧ 0 < serialPower t := by
    cases t <;> decide +kernel
  constructor
  · rintro ⟨sub, h⟩
    obtain ⟨-, s, -, ⟨f, m, hf, -⟩ | ⟨f, hf, st, hst⟩⟩ := (reported_get_iff cdf _ setup hth b hb _).1 h
    · cases hf
    · cases hf
      obtain ⟨res, h1, h2, -⟩ := C146_serial_rows cdf t (BitVec.ofNat 64 (2 ^ k)) (createStream setup.mix s)
      change _ ∈ TestRun.value (some (serialAvalanche cdf (BitVec.ofNat 64 (2 ^ k)) (createStream setup.mix s))) at hst
      rw [h1] at hst
      obtain ⟨a, ha, hsub, -⟩ := h2 _ hst
      dsimp only at hsub
      subst hsub
      have h3 := (key a ha).1 h
      have h4 := hmin a ha
      by_contra hc
      have : (2 : Nat) ^ k ≤ 2 ^ (serialPower t - 1) := Nat.pow_le_pow_right (by norm_num) (by omega)
      omega
  · intro h
    refine ⟨_, (key (t.bits / 2) (by cases t <;> decide)).2 ?_⟩
    have : (2 : Nat) ^ serialPower t ≤ 2 ^ k := Nat.pow_le_pow_right (by norm_num) h
    omega

/-- The first pass of -test for 32 bit words (2^10 samples) has no result of serial-avalanche; the second (2^11 with `-test` doubling) has. -/
example (s : Stream (BitVec WT.u32.bits)) (b b' : Battery ℝ)
    (hb : EvaluateOutcome (suiteDef chi2DistributionCdf) (BitVec.ofNat 64 (2 ^ 10)) ⟨"s", [s], defaultTestTypes, none, 2, 10, 25⟩ b)
    (hb' : EvaluateOutcome (suiteDef chi2DistributionCdf) (BitVec.ofNat 64 (2 ^ 11)) ⟨"s", [s], defaultTestTypes, none, 2, 10, 25⟩ b') :
    (∀ sub, b.get ⟨.serialAvalanche, sub⟩ = []) ∧ b'.get ⟨.serialAvalanche, "bit(16)"⟩ ≠ [] ∧ b'.get ⟨.serialAvalanche, "bit(0)"⟩ = [] := by
  refine ⟨fun sub => ?_, ?_, ?_⟩
  · by_contra h
    have := (C146_serial_first _ .u32 10 (by norm_num) _ (show 0 < 2 by norm_num) (show _ ∈ defaultTestTypes by decide) (by simp) b hb).1 ⟨sub, h⟩
    exact absurd this (by decide)
  · exact (C146_serial _ .u32 _ _ (show 0 < 2 by norm_num) (show _ ∈ defaultTestTypes by decide) (by simp) b' hb' 16 (by decide)).2
      (by decide +kernel)
  · by_contra h
    have := (C146_serial _ .u32 _ _ (show 0 < 2 by norm_num) (show _ ∈ defaultTestTypes by decide) (by simp) b' hb' 0 (by decide)).1 h
    exact absurd this (by decide +kernel)

/-- Rows 0 and 1 for 64 bit words need more pairs than a 64-bit count can express: sub tests `bit(0)` and `bit(1)` never exist there. -/
example (cdf : ℝ → ℝ → ℝ) (n : BitVec 64) (s : Stream (BitVec WT.u64.bits)) :
    ∃ res, serialAvalanche cdf n s = .ok res ∧ ∀ a < 2, ∀ x ∈ res, x.name ≠ "bit(" ++ toString a ++ ")" := by
  obtain ⟨res, h1, -, h3⟩ := C146_serial_rows cdf .u64 n s
  refine ⟨res, h1, fun a ha x hx hn => ?_⟩
  have h := (h3 a (by simp [WT.bits]; omega)).1 ⟨x, hx, hn⟩
  have : 2 ^ 64 < serialRowFrom .u64 a := by
    interval_cases a <;> decide +kernel
  have := n.isLt
  omega

/-- Whether the values have a value in the upper half and one below the largest of the lower half, and more than one each. -/
def Spec.halvesMixed {w : Nat} (l : List (BitVec w)) : Prop :=
  let hi := l.countP fun v => v.msb
  let lo := l.countP fun v => decide (v.toNat < 2 ^ (w - 1) - 1)
  hi ≠ 0 ∧ lo ≠ 0 ∧ ¬ (hi = 1 ∧ lo = 1)

/-- C146. In every battery of `n` samples, under every schedule: the runs test has a result exactly if the first `n` values of some source have
a value of the upper half of the words and one below the largest of the lower half, and not just one of each. -/
theorem C146_runs (cdf : ℝ → ℝ → ℝ) (t : WT) (n : BitVec 64) (setup : TestSetup t.bits) (hth : 0 < setup.maxThreads)
    (htests : .runs ∈ setup.tests) (b : Battery ℝ) (hb : EvaluateOutcome (suiteDef cdf) n setup b) :
    b.get ⟨.runs, ""⟩ ≠ [] ↔ ∃ s ∈ setup.sources, halvesMixed ((createStream setup.mix s).take n.toNat) := by
  have hw : 0 < t.bits := by cases t <;> decide
  have one : ∀ s : Stream (BitVec t.bits), (∃ st, (⟨"", some st⟩ : SubTest ℝ) ∈ TestRun.value (some (runsTest n s))) ↔
      halvesMixed (s.take n.toNat) := by
    intro s
    obtain ⟨a, b, r, ha, hb, -, h⟩ := C80_runs hw n s
    rw [h]
    unfold halvesMixed
    dsimp only
    rw [← ha, ← hb]
    simp only [TestRun.value, List.mem_singleton, SubTest.mk.injEq, true_and]
    by_cases hc : a = 0 ∨ b = 0 ∨ (a = 1 ∧ b = 1)
    · rw [if_pos hc]
      simp only [reduceCtorEq, exists_false, false_iff]
      tauto
    · rw [if_neg hc]
      exact iff_of_true ⟨_, rfl⟩ (by tauto)
  rw [reported_get_iff cdf n setup hth b hb]
  constructor
  · rintro ⟨-, s, hs, ⟨f, m, hf, -⟩ | ⟨f, hf, st, hst⟩⟩
    · cases hf
    · cases hf
      exact ⟨s, hs, (one _).1 ⟨st, hst⟩⟩
  · rintro ⟨s, hs, h⟩
    obtain ⟨st, hst⟩ := (one _).2 h
    exact ⟨htests, s, hs, Or.inr ⟨_, rfl, st, hst⟩⟩

/-- A source of constant value zero has no result of the runs test, at any number of samples. -/
example (n : BitVec 64) (b : Battery ℝ)
    (hb : EvaluateOutcome (suiteDef chi2DistributionCdf) n (⟨"s", [constantStream (0#WT.u32.bits)], defaultTestTypes, none, 2, 10, 25⟩ :
      TestSetup WT.u32.bits) b) : b.get ⟨.runs, ""⟩ = [] := by
  by_contra h
  obtain ⟨s, hs, h1, -⟩ := (C146_runs _ .u32 n _ (show 0 < 2 by norm_num) (show _ ∈ defaultTestTypes by decide) b hb).1 h
  obtain rfl := List.mem_singleton.1 hs
  apply h1
  rw [List.countP_eq_zero]
  intro v hv
  rw [Stream.take_eq_map] at hv
  obtain ⟨i, -, rfl⟩ := List.mem_map.1 hv
  rw [show createStream none (constantStream 0#WT.u32.bits) = constantStream 0#WT.u32.bits from rfl, show (constantStream 0#WT.u32.bits).nth i = 0#WT.u32.bits from by rw [Stream.nth_eq]; rfl]
  decide
end TFR
