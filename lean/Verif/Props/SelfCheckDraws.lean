import Verif.Props.SelfCheckRuns
import Verif.Props.DrawTests
import Verif.Lemmas.Patterns
/-
C129. What the gap test and the divisibility test reject, and what the self-check of `-inspect-test` prints about them.
-/
namespace TFR
open Finset Spec
variable {w : Nat}

/-- One cell gives a lower bound of Pearson's statistic. -/
theorem pearson_cell (cdf : ℝ → ℝ → ℝ) (cells : List (ℝ × ℝ)) (thr : ℝ) (hthr : 0 ≤ thr) (st : Statistic ℝ) (h : pearson cdf cells thr = some st)
    (c : ℝ × ℝ) (hc : c ∈ cells) (hc2 : thr < c.2) : (c.1 - c.2) ^ 2 / c.2 ≤ st.value := by
  unfold pearson at h
  split at h
  · cases h
  obtain rfl := Option.some.inj h
  show _ ≤ chiSquare (usedCells thr cells)
  unfold chiSquare
  have hu : c ∈ usedCells thr cells := by
    unfold usedCells
    rw [List.mem_filter]
    exact ⟨hc, by simpa using hc2⟩
  refine List.single_le_sum ?_ _ (List.mem_map.2 ⟨c, hu, rfl⟩)
  intro x hx
  obtain ⟨d, hd, rfl⟩ := List.mem_map.1 hx
  unfold usedCells at hd
  have : thr < d.2 := by simpa using (List.mem_filter.1 hd).2
  have : 0 < d.2 := by linarith
  positivity

/-- A cell in which many more values are expected than come. -/
theorem reject_of_cell (cells : List (ℝ × ℝ)) (thr : ℝ) (hthr : 0 ≤ thr) (hlen : cells.length ≤ 26) (st : Statistic ℝ)
    (h : pearson chi2DistributionCdf cells thr = some st) (c : ℝ × ℝ) (hc : c ∈ cells) (hc2 : thr < c.2) (M : ℝ) (hM : c.1 ≤ M)
    (hE1 : M ≤ c.2) (hE : 119 * c.2 ≤ (c.2 - M) ^ 2) : st.pValue ≤ 1 / 10 ^ 9 ∧ statPass st = false := by
  obtain ⟨p1, p2, p3, p4, p5⟩ := pearson_some _ cells thr hthr st h
  refine reject_of_value st p1 p5 p2 ?_
  have h1 := pearson_cell _ cells thr hthr st h c hc hc2
  refine le_trans ?_ h1
  have hl : (cells.length : ℝ) ≤ 26 := by exact_mod_cast hlen
  have hE0 : 0 < c.2 := by linarith
  rw [le_div_iff₀ hE0]
  have h3 : (c.2 - M) ^ 2 ≤ (c.1 - c.2) ^ 2 := by
    rw [← neg_sub c.2 c.1, neg_sq]
    exact pow_le_pow_left₀ (by linarith) (by linarith) _
  have h4 : st.df ≤ 25 := by linarith
  nlinarith

theorem cell_num (M E : ℝ) (hM : 0 ≤ M) (h : 2 * M + 500 ≤ E) : M ≤ E ∧ 119 * E ≤ (E - M) ^ 2 := by
  constructor <;> nlinarith

theorem gap_end {α : Type} {hit : α → Prop} {l : List α} {segs : List (List α)} {rest : List α}
    (h : IsSegmentation (fun s => ∃ v ∈ s, hit v) l segs rest) (s : List α) (hs : s ∈ segs) :
    ∃ s' v, s = s' ++ [v] ∧ hit v ∧ ∀ u ∈ s', ¬ hit u := by
  obtain ⟨hne, v, hv, hhv⟩ := h.complete s hs
  have e := (List.dropLast_append_getLast hne).symm
  have hno : ∀ u ∈ s.dropLast, ¬ hit u := by
    intro u hu hh
    refine h.minimal s hs s.dropLast (List.dropLast_prefix s) (List.ne_nil_of_mem hu) ?_ ⟨u, hu, hh⟩
    intro e2
    have := congrArg List.length e2
    rw [List.length_dropLast] at this
    have := List.length_pos_iff.2 hne
    omega
  refine ⟨_, _, e, ?_, hno⟩
  rw [e, List.mem_append, List.mem_singleton] at hv
  rcases hv with hv | hv
  · exact absurd hhv (hno v hv)
  · rwa [← hv]

open Classical in
/-- Gaps of length 0 and 1, by patterns of the sequence. -/
theorem gap_bins {α : Type} {hit : α → Prop} {l : List α} {segs : List (List α)} {rest : List α}
    (h : IsSegmentation (fun s => ∃ v ∈ s, hit v) l segs rest) :
    binCount (fun s => min (s.length - 1) 7) segs 0 ≤ patternCount twoInRow (l.map fun v => decide (hit v)) + 1 ∧
    binCount (fun s => min (s.length - 1) 7) segs 1 ≤ patternCount loneMiss (l.map fun v => decide (hit v)) + 1 := by
  have hend : ∀ s ∈ segs, ∃ s' v, s = s' ++ [v] ∧ decide (hit v) = true := fun s hs => by
    obtain ⟨s', v, h1, h2, -⟩ := gap_end h s hs
    exact ⟨s', v, h1, by simpa using h2⟩
  rw [h.cover]
  constructor
  · refine binCount_le_patternCount _ twoInRow twoInRow_append _ 0 segs rest hend fun s hs hb => ?_
    obtain ⟨s', v, h1, h2, h3⟩ := gap_end h s hs
    rw [h1] at hb
    simp only [List.length_append, List.length_singleton] at hb
    have : s' = [] := List.length_eq_zero_iff.1 (by omega)
    subst this
    exact ⟨0, by rw [h1]; simp, by rw [h1]; simp [twoInRow, h2]⟩
  · refine binCount_le_patternCount _ loneMiss loneMiss_append _ 1 segs rest hend fun s hs hb => ?_
    obtain ⟨s', v, h1, h2, h3⟩ := gap_end h s hs
    rw [h1] at hb
    simp only [List.length_append, List.length_singleton] at hb
    obtain ⟨u, rfl⟩ := List.length_eq_one_iff.1 (by omega : s'.length = 1)
    have := h3 u List.mem_cons_self
    exact ⟨0, by rw [h1]; simp, by rw [h1]; simp [loneMiss, h2, this]⟩

theorem draws_end {α : Type} {even : α → Bool} {l : List α} {segs : List (List α)} {rest : List α}
    (h : IsSegmentation (fun s => 5 ≤ s.countP even) l segs rest) (s : List α) (hs : s ∈ segs) :
    ∃ s' v, s = s' ++ [v] ∧ even v = true ∧ s'.countP even = 4 := by
  obtain ⟨hne, hv⟩ := h.complete s hs
  have e := (List.dropLast_append_getLast hne).symm
  have hno : s.dropLast.countP even < 5 := by
    by_cases hd : s.dropLast = []
    · rw [hd]; simp
    · have := h.minimal s hs s.dropLast (List.dropLast_prefix s) hd (by
        intro e2
        have := congrArg List.length e2
        rw [List.length_dropLast] at this
        have := List.length_pos_iff.2 hne
        omega)
      omega
  rw [e, List.countP_append, List.countP_cons, List.countP_nil] at hv
  refine ⟨_, _, e, ?_, ?_⟩
  · by_contra hc
    rw [if_neg hc] at hv
    omega
  · split at hv <;> omega

/-- Five even values in a row, and five with one odd value between. -/
theorem draws_bins {α : Type} {even : α → Bool} {l : List α} {segs : List (List α)} {rest : List α}
    (h : IsSegmentation (fun s => 5 ≤ s.countP even) l segs rest) :
    binCount (fun s => min 15 (s.length - 5)) segs 0 ≤ patternCount twoInRow (l.map even) + 1 ∧
    binCount (fun s => min 15 (s.length - 5)) segs 1 ≤ patternCount loneMiss (l.map even) + 1 := by
  have hend : ∀ s ∈ segs, ∃ s' v, s = s' ++ [v] ∧ even v = true := fun s hs => by
    obtain ⟨s', v, h1, h2, -⟩ := draws_end h s hs
    exact ⟨s', v, h1, h2⟩
  rw [h.cover]
  constructor
  · refine binCount_le_patternCount _ twoInRow twoInRow_append _ 0 segs rest hend fun s hs hb => ?_
    obtain ⟨s', v, h1, h2, h3⟩ := draws_end h s hs
    have hle := List.countP_le_length (p := even) (l := s')
    rw [h1] at hb
    simp only [List.length_append, List.length_singleton] at hb
    have hl : s'.length = 4 := by omega
    have hall := List.countP_eq_length.1 (h3.trans hl.symm)
    match s', hl, hall with
    | [a, b, c, d], _, hall =>
      exact ⟨0, by rw [h1]; simp, by rw [h1]; simp [twoInRow, hall a]⟩
  · refine binCount_le_patternCount _ loneMiss loneMiss_append _ 1 segs rest hend fun s hs hb => ?_
    obtain ⟨s', v, h1, h2, h3⟩ := draws_end h s hs
    have hle := List.countP_le_length (p := even) (l := s')
    rw [h1] at hb
    simp only [List.length_append, List.length_singleton] at hb
    have hl : s'.length = 5 := by omega
    have key : ∀ a b c d e : Bool, [a, b, c, d, e].countP id = 4 → ∃ k < 6, loneMiss ((true :: [a, b, c, d, e, true]).drop k) = true := by
      decide
    match s', hl, h3 with
    | [a, b, c, d, e], _, h3 =>
      obtain ⟨k, hk, hp⟩ := key (even a) (even b) (even c) (even d) (even e) (by
        have : [even a, even b, even c, even d, even e] = [a, b, c, d, e].map even := rfl
        rw [this, List.countP_map]; exact h3)
      refine ⟨k, by rw [h1]; simpa using hk, ?_⟩
      rw [h1]
      simpa [h2] using hp

/-! ### Sequences of bits of a counter -/

theorem counter_no_two (c : Bool) (i : Nat) : ¬ (((i + 1).testBit 0 != c) = true ∧ ((i + 1 + 1).testBit 0 != c) = true) := by
  have := (testBit_succ_ne (i + 1) 0).2 (by simp)
  revert this
  generalize (i + 1 + 1).testBit 0 = x
  generalize (i + 1).testBit 0 = y
  cases x <;> cases y <;> cases c <;> simp

theorem counter_no_lone (j : Nat) (hj : 1 ≤ j) (c : Bool) (i : Nat) :
    ¬ (((i + 1).testBit j != c) = true ∧ ((i + 1 + 1).testBit j != c) = false ∧ ((i + 2 + 1).testBit j != c) = true) := by
  rintro ⟨h1, h2, h3⟩
  have a := (testBit_succ_ne (i + 1) j).1 (by
    intro e; rw [e, h1] at h2; cases h2)
  have b := (testBit_succ_ne (i + 2) j).1 (by
    intro e
    rw [show i + 2 = i + 1 + 1 from rfl] at e h3
    rw [e, h2] at h3; cases h3)
  have hd : 2 ∣ 2 ^ j := dvd_pow_self 2 (by omega)
  have a := hd.trans a
  have b := hd.trans b
  omega

/-- A sequence that follows a bit of the counter, or is constant, up to some exceptions. -/
theorem follows_patterns (f exc : Nat → Bool) (n j : Nat) (c : Bool) (h : ∀ i < n, exc i = false → f i = ((i + 1).testBit j != c)) :
    (j = 0 → patternCount twoInRow ((List.range n).map f) ≤ 3 * (List.range n).countP exc) ∧
    (1 ≤ j → patternCount loneMiss ((List.range n).map f) ≤ 3 * (List.range n).countP exc) := by
  -- exceptions near a place
  have hshift : ∀ d, (List.range n).countP (fun i => decide (i + d < n) && exc (i + d)) ≤ (List.range n).countP exc := by
    intro d
    rw [List.countP_eq_length_filter, List.countP_eq_length_filter]
    have e1 : ∀ p : Nat → Bool, ((List.range n).filter p).length = #{i ∈ range n | p i = true} := by
      intro p
      rw [← List.toFinset_range, ← List.toFinset_filter, List.toFinset_card_of_nodup (List.nodup_range.filter _)]
    rw [e1, e1]
    refine Finset.card_le_card_of_injOn (fun i => i + d) ?_ (fun a _ b _ h => by simpa using h)
    intro i hi
    simp only [coe_filter, mem_range, Bool.and_eq_true, decide_eq_true_eq, Set.mem_ofPred_eq] at hi ⊢
    exact hi.2
  have hunion : (List.range n).countP (fun i => exc i || (decide (i + 1 < n) && exc (i + 1)) || (decide (i + 2 < n) && exc (i + 2))) ≤
      3 * (List.range n).countP exc := by
    have gen : ∀ (l : List Nat) (a b : Nat → Bool), l.countP (fun i => a i || b i) ≤ l.countP a + l.countP b := by
      intro l a b
      induction l with
      | nil => simp
      | cons x l ih =>
        rw [List.countP_cons, List.countP_cons, List.countP_cons]
        cases a x <;> cases b x <;> simp <;> omega
    have h0 := gen (List.range n) (fun i => exc i || (decide (i + 1 < n) && exc (i + 1))) (fun i => decide (i + 2 < n) && exc (i + 2))
    have h1 := gen (List.range n) exc (fun i => decide (i + 1 < n) && exc (i + 1))
    have := hshift 1
    have := hshift 2
    omega
  constructor
  · rintro rfl
    refine (patternCount_map twoInRow f n _ ?_).trans hunion
    intro i hi hp
    obtain ⟨h1, h2, h3⟩ := twoInRow_drop f n i hp
    by_contra hc
    have hc0 : exc i = false := by
      by_contra hx
      apply hc
      simp [Bool.not_eq_false _ ▸ hx]
    have hc1 : exc (i + 1) = false := by
      by_contra hx
      apply hc
      simp [Bool.not_eq_false _ ▸ hx, h1]
    exact counter_no_two c i ⟨by rw [← h i hi hc0]; exact h2, by rw [← h (i + 1) h1 hc1]; exact h3⟩
  · intro hj
    refine (patternCount_map loneMiss f n _ ?_).trans hunion
    intro i hi hp
    obtain ⟨h1, h2, h3, h4⟩ := loneMiss_drop f n i hp
    by_contra hc
    have hc0 : exc i = false := by
      by_contra hx
      apply hc
      simp [Bool.not_eq_false _ ▸ hx]
    have hc1 : exc (i + 1) = false := by
      by_contra hx
      apply hc
      simp [Bool.not_eq_false _ ▸ hx, (by omega : i + 1 < n)]
    have hc2 : exc (i + 2) = false := by
      by_contra hx
      apply hc
      simp [Bool.not_eq_false _ ▸ hx, h1]
    exact counter_no_lone j hj c i ⟨by rw [← h i hi hc0]; exact h2, by rw [← h (i + 1) (by omega) hc1]; exact h3, by rw [← h (i + 2) h1 hc2]; exact h4⟩

theorem constant_patterns (f : Nat → Bool) (n : Nat) (b : Bool) (h : ∀ i, f i = b) : patternCount loneMiss ((List.range n).map f) = 0 := by
  have := patternCount_map loneMiss f n (fun _ => false) (by
    intro i _ hp
    obtain ⟨-, h2, h3, -⟩ := loneMiss_drop f n i hp
    rw [h] at h2 h3
    rw [h2] at h3; cases h3)
  simpa using this

/-! ### Streams the two tests reject -/

open Classical in
/-- Places where one value outside the property stands between two that have it. -/
noncomputable def Spec.loneMisses {α : Type} (v : Nat → α) (P : α → Prop) (n : Nat) : Nat :=
  #{i ∈ range n | i + 2 < n ∧ P (v i) ∧ ¬ P (v (i + 1)) ∧ P (v (i + 2))}

open Classical in
/-- Places where two values in a row have the property. -/
noncomputable def Spec.pairs {α : Type} (v : Nat → α) (P : α → Prop) (n : Nat) : Nat :=
  #{i ∈ range n | i + 1 < n ∧ P (v i) ∧ P (v (i + 1))}

theorem countP_range (p : Nat → Bool) (n : Nat) : (List.range n).countP p = #{i ∈ range n | p i = true} := by
  rw [List.countP_eq_length_filter, ← List.toFinset_range, ← List.toFinset_filter, List.toFinset_card_of_nodup (List.nodup_range.filter _)]

open Classical in
theorem patterns_le {α : Type} (v : Nat → α) (P : α → Prop) (n : Nat) :
    patternCount twoInRow ((List.range n).map fun i => decide (P (v i))) ≤ pairs v P n ∧
    patternCount loneMiss ((List.range n).map fun i => decide (P (v i))) ≤ loneMisses v P n := by
  constructor
  · refine (patternCount_map _ _ n (fun i => decide (i + 1 < n ∧ P (v i) ∧ P (v (i + 1)))) ?_).trans ?_
    · intro i _ hp
      simpa using twoInRow_drop _ n i hp
    · rw [countP_range]
      unfold pairs
      simp
  · refine (patternCount_map _ _ n (fun i => decide (i + 2 < n ∧ P (v i) ∧ ¬ P (v (i + 1)) ∧ P (v (i + 2)))) ?_).trans ?_
    · intro i _ hp
      simpa using loneMiss_drop _ n i hp
    · rw [countP_range]
      unfold loneMisses
      simp

open Classical in
/-- The reverse direction, to bound the counts. -/
theorem le_patterns {α : Type} (v : Nat → α) (P : α → Prop) (n : Nat) (f : Nat → Bool) (hf : ∀ i, f i = true ↔ P (v i)) :
    pairs v P n ≤ patternCount twoInRow ((List.range n).map f) ∧ loneMisses v P n ≤ patternCount loneMiss ((List.range n).map f) := by
  have gen : ∀ (pat : List Bool → Bool) (bad : Nat → Bool), (∀ i < n, bad i = true → pat (((List.range n).map f).drop i) = true) →
      (List.range n).countP bad ≤ patternCount pat ((List.range n).map f) := by
    intro pat bad h
    have gen : ∀ m ≤ n, ((List.range n).drop (n - m)).countP bad ≤ patternCount pat (((List.range n).map f).drop (n - m)) := by
      intro m
      induction m with
      | zero =>
        intro _
        rw [Nat.sub_zero, List.drop_of_length_le (by simp)]
        exact Nat.zero_le _
      | succ m ih =>
        intro hm
        have h1 : n - (m + 1) < n := by omega
        have e1 : ((List.range n).map f).drop (n - (m + 1)) = f (n - (m + 1)) :: ((List.range n).map f).drop (n - m) := by
          rw [List.drop_eq_getElem_cons (by simpa using h1)]
          rw [show n - (m + 1) + 1 = n - m by omega]
          simp
        have e2 : (List.range n).drop (n - (m + 1)) = (n - (m + 1)) :: (List.range n).drop (n - m) := by
          rw [List.drop_eq_getElem_cons (by simpa using h1)]
          rw [show n - (m + 1) + 1 = n - m by omega]
          simp
        have hb := h _ h1
        rw [e1] at hb ⊢
        rw [e2, patternCount, List.countP_cons]
        have := ih (by omega)
        by_cases hp : bad (n - (m + 1)) = true
        · rw [if_pos hp, if_pos (hb hp)]; omega
        · rw [if_neg hp]; omega
    simpa using gen n le_rfl
  have get : ∀ i < n, ((List.range n).map f).drop i = f i :: ((List.range n).map f).drop (i + 1) := by
    intro i hi
    rw [List.drop_eq_getElem_cons (by simpa using hi)]
    simp
  constructor
  · refine le_trans (le_of_eq ?_) (gen twoInRow (fun i => decide (i + 1 < n ∧ P (v i) ∧ P (v (i + 1)))) ?_)
    · rw [countP_range]
      unfold pairs
      simp
    · intro i hi hb
      obtain ⟨h1, h2, h3⟩ := of_decide_eq_true hb
      rw [get i hi, get (i + 1) h1, (hf _).2 h2, (hf _).2 h3]
      rfl
  · refine le_trans (le_of_eq ?_) (gen loneMiss (fun i => decide (i + 2 < n ∧ P (v i) ∧ ¬ P (v (i + 1)) ∧ P (v (i + 2)))) ?_)
    · rw [countP_range]
      unfold loneMisses
      simp
    · intro i hi hb
      obtain ⟨h1, h2, h3, h4⟩ := of_decide_eq_true hb
      have h3' : f (i + 1) = false := by
        rw [← Bool.not_eq_true]
        exact fun e => h3 ((hf _).1 e)
      rw [get i hi, get (i + 1) (by omega), get (i + 1 + 1) h1, (hf _).2 h2, h3', (hf _).2 h4]
      rfl

/-- C129. The gap test rejects every sequence of `n` values in which single values of the upper half between two of the lower half are rare
(`16` times their number and `4100` is at most `n`; about `n/8` come in a random sequence), or two values of the lower half in a row are. -/
theorem C129_gap (t : WT) (n : BitVec 64) (s : Stream (BitVec t.bits))
    (h : 16 * loneMisses s.nth (lowHalf t) n.toNat + 4100 ≤ n.toNat ∨ 8 * pairs s.nth (lowHalf t) n.toNat + 2100 ≤ n.toNat) :
    ∃ res st, gapTest chi2DistributionCdf n s = some (.ok res) ∧ ⟨"1/2", some st⟩ ∈ res ∧ st.pValue ≤ 1 / 10 ^ 9 ∧ statPass st = false := by
  classical
  obtain ⟨low, restL, high, restH, hl, -, hg⟩ := C82_gap chi2DistributionCdf t n s
  have hb := gap_bins hl
  have hp := patterns_le s.nth (lowHalf t) n.toNat
  rw [Stream.take_eq_map, List.map_map] at hb
  have hb0 := hb.1.trans (Nat.add_le_add_right hp.1 1)
  have hb1 := hb.2.trans (Nat.add_le_add_right hp.2 1)
  have hn : 42 ≤ n.toNat := by omega
  have h21 : (21 : ℝ) ≤ ((n.toNat / 2 : ℕ) : ℝ) := by
    have : 21 ≤ n.toNat / 2 := by omega
    exact_mod_cast this
  obtain ⟨st, hst⟩ := pearson_isSome chi2DistributionCdf 8 (fun g => (binCount (fun s => min (s.length - 1) 7) low g : ℝ))
    (fun g => ((n.toNat / 2 : ℕ) : ℝ) / 2 ^ min (g + 1) 7) 5 0 1 (by norm_num) (by norm_num) (by norm_num; linarith) (by norm_num; linarith)
  have hpv : st.pValue ≤ 1 / 10 ^ 9 ∧ statPass st = false := by
    rcases h with h | h
    · have h1 : 2 * (loneMisses s.nth (lowHalf t) n.toNat + 1) * 4 + 2000 ≤ n.toNat / 2 := by omega
      have h2 : 2 * ((loneMisses s.nth (lowHalf t) n.toNat : ℝ) + 1) * 4 + 2000 ≤ ((n.toNat / 2 : ℕ) : ℝ) := by exact_mod_cast h1
      refine reject_of_cell _ 5 (by norm_num) (by simp) st hst
        ((binCount (fun s => min (s.length - 1) 7) low 1 : ℝ), ((n.toNat / 2 : ℕ) : ℝ) / 2 ^ min (1 + 1) 7)
        (List.mem_map.2 ⟨1, by simp, rfl⟩) (by norm_num; linarith) ((loneMisses s.nth (lowHalf t) n.toNat : ℝ) + 1)
        (by dsimp only; exact_mod_cast hb1) (cell_num _ _ (by positivity) (by norm_num; linarith)).1
        (cell_num _ _ (by positivity) (by norm_num; linarith)).2
    · have h1 : 2 * (pairs s.nth (lowHalf t) n.toNat + 1) * 2 + 1000 ≤ n.toNat / 2 := by omega
      have h2 : 2 * ((pairs s.nth (lowHalf t) n.toNat : ℝ) + 1) * 2 + 1000 ≤ ((n.toNat / 2 : ℕ) : ℝ) := by exact_mod_cast h1
      refine reject_of_cell _ 5 (by norm_num) (by simp) st hst
        ((binCount (fun s => min (s.length - 1) 7) low 0 : ℝ), ((n.toNat / 2 : ℕ) : ℝ) / 2 ^ min (0 + 1) 7)
        (List.mem_map.2 ⟨0, by simp, rfl⟩) (by norm_num; linarith) ((pairs s.nth (lowHalf t) n.toNat : ℝ) + 1)
        (by dsimp only; exact_mod_cast hb0) (cell_num _ _ (by positivity) (by norm_num; linarith)).1
        (cell_num _ _ (by positivity) (by norm_num; linarith)).2
  refine ⟨_, st, hg, ?_, hpv⟩
  rw [List.mem_filterMap]
  exact ⟨("1/2", low), by simp, by dsimp only; rw [hst]; rfl⟩

/-- C129. The divisibility test rejects every sequence of `n` values in which single odd values between two even values are rare, or two even
values in a row are. -/
theorem C129_divisibility (n : BitVec 64) (hmax : n.toNat < 2 ^ 64 - 1) (s : Stream (BitVec w))
    (h : 256 * loneMisses s.nth (fun v => 2 ∣ v.toNat) n.toNat + 65000 ≤ n.toNat ∨
      640 * pairs s.nth (fun v => 2 ∣ v.toNat) n.toNat + 161000 ≤ n.toNat) :
    ∃ st, divisibilityTest chi2DistributionCdf n s = some (.ok [⟨"d2", some st⟩]) ∧ st.pValue ≤ 1 / 10 ^ 9 ∧ statPass st = false := by
  classical
  obtain ⟨segs, rest, hl, -, hd⟩ := C84_divisibility chi2DistributionCdf n hmax s
  obtain ⟨st, hdt, hst⟩ := hd (by omega)
  have hb := draws_bins hl
  have hp := patterns_le s.nth (fun v => 2 ∣ v.toNat) n.toNat
  rw [Stream.take_eq_map, List.map_map] at hb
  have hb0 := hb.1.trans (Nat.add_le_add_right (le_of_eq_of_le (by congr 1; apply List.map_congr_left; intro i _; simp) hp.1) 1)
  have hb1 := hb.2.trans (Nat.add_le_add_right (le_of_eq_of_le (by congr 1; apply List.map_congr_left; intro i _; simp) hp.2) 1)
  have e0 : evenShare 0 = 1 / 32 := by unfold evenShare; norm_num
  have e1 : evenShare 1 = 5 / 64 := by unfold evenShare; norm_num [Nat.choose]
  have hpv : st.pValue ≤ 1 / 10 ^ 9 ∧ statPass st = false := by
    rcases h with h | h
    · have h1 : 2 * (loneMisses s.nth (fun v => 2 ∣ v.toNat) n.toNat + 1) * 64 + 32000 ≤ 5 * (n.toNat / 10) := by omega
      have h2 : 2 * ((loneMisses s.nth (fun v => 2 ∣ v.toNat) n.toNat : ℝ) + 1) * 64 + 32000 ≤ 5 * ((n.toNat / 10 : ℕ) : ℝ) := by exact_mod_cast h1
      have hpos : (0 : ℝ) ≤ (loneMisses s.nth (fun v => 2 ∣ v.toNat) n.toNat : ℝ) := by positivity
      refine reject_of_cell _ 5 (by norm_num) (by simp) st hst
        ((binCount (fun s => min 15 (s.length - 5)) segs 1 : ℝ), evenShare 1 * ((n.toNat / 10 : ℕ) : ℝ))
        (List.mem_map.2 ⟨1, by simp, rfl⟩) (by rw [e1]; linarith) ((loneMisses s.nth (fun v => 2 ∣ v.toNat) n.toNat : ℝ) + 1)
        (by dsimp only; exact_mod_cast hb1) (cell_num _ _ (by positivity) (by rw [e1]; linarith)).1
        (cell_num _ _ (by positivity) (by rw [e1]; linarith)).2
    · have h1 : 2 * (pairs s.nth (fun v => 2 ∣ v.toNat) n.toNat + 1) * 32 + 16000 ≤ n.toNat / 10 := by omega
      have h2 : 2 * ((pairs s.nth (fun v => 2 ∣ v.toNat) n.toNat : ℝ) + 1) * 32 + 16000 ≤ ((n.toNat / 10 : ℕ) : ℝ) := by exact_mod_cast h1
      have hpos : (0 : ℝ) ≤ (pairs s.nth (fun v => 2 ∣ v.toNat) n.toNat : ℝ) := by positivity
      refine reject_of_cell _ 5 (by norm_num) (by simp) st hst
        ((binCount (fun s => min 15 (s.length - 5)) segs 0 : ℝ), evenShare 0 * ((n.toNat / 10 : ℕ) : ℝ))
        (List.mem_map.2 ⟨0, by simp, rfl⟩) (by rw [e0]; linarith) ((pairs s.nth (fun v => 2 ∣ v.toNat) n.toNat : ℝ) + 1)
        (by dsimp only; exact_mod_cast hb0) (cell_num _ _ (by positivity) (by rw [e0]; linarith)).1
        (cell_num _ _ (by positivity) (by rw [e0]; linarith)).2
  exact ⟨st, hdt, hpv⟩

/-! ### The sources of the self-check -/

theorem view_bit (t : WT) (ty : RrcType) (rot p i : Nat) (hp : p < t.bits) :
    ((mixerStream (addRrc t (counterStream t.bits 1 0) rot ty) ⟨"identity", fun x => x⟩).nth i).getLsbD p =
      ((i + 1).testBit (fromBit t.bits rot ty p) != complements ty) := by
  have hnth : (mixerStream (addRrc t (counterStream t.bits 1 0) rot ty) ⟨"identity", fun x => x⟩).nth i =
      permute t (BitVec.ofNat t.bits (i + 1)) rot ty := mixed_nth t ⟨"identity", fun x => x⟩ ty rot i
  rw [hnth, permute_bit t _ rot ty p hp, BitVec.getLsbD_ofNat]
  simp [fromBit_lt t.bits rot (by omega) ty p]

theorem view_injective (t : WT) (ty : RrcType) (rot n : Nat) (hn : n < 2 ^ t.bits) (a b : Nat) (ha : a < n) (hb : b < n)
    (h : (mixerStream (addRrc t (counterStream t.bits 1 0) rot ty) ⟨"identity", fun x => x⟩).nth a =
      (mixerStream (addRrc t (counterStream t.bits 1 0) rot ty) ⟨"identity", fun x => x⟩).nth b) : a = b := by
  have hnth : ∀ i, (mixerStream (addRrc t (counterStream t.bits 1 0) rot ty) ⟨"identity", fun x => x⟩).nth i =
      permute t (BitVec.ofNat t.bits (i + 1)) rot ty := fun i => mixed_nth t ⟨"identity", fun x => x⟩ ty rot i
  rw [hnth, hnth] at h
  have h2 := congrArg BitVec.toNat ((C10_permute_bijective t rot ty).1 h)
  rw [BitVec.toNat_ofNat, BitVec.toNat_ofNat, Nat.mod_eq_of_lt (by omega), Nat.mod_eq_of_lt (by omega)] at h2
  omega

theorem view_constant (t : WT) (ty : RrcType) (rot : Nat) (c : BitVec t.bits) (i : Nat) :
    (mixerStream (addRrc t (constantStream c) rot ty) ⟨"identity", fun x => x⟩).nth i = permute t c rot ty := by
  rw [C31_mixer]
  unfold addRrc
  rw [Stream.nth_mapS, constantStream_nth]

open Classical in
theorem constant_lone {α : Type} (v : Nat → α) (P : α → Prop) (n : Nat) (x : α) (h : ∀ i, v i = x) : loneMisses v P n = 0 := by
  unfold loneMisses
  rw [Finset.card_eq_zero, Finset.filter_eq_empty_iff]
  rintro i - ⟨-, h1, h2, -⟩
  rw [h] at h1 h2
  exact h2 h1

/-- Of a counter with its bits permuted, the values in the lower half follow a bit of the counter but for 512 of them. -/
theorem counter_low (t : WT) (ty : RrcType) (rot n : Nat) (hn : n ≤ 2 ^ 25) :
    (fromBit t.bits rot ty (t.bits - 1) = 0 →
      pairs (mixerStream (addRrc t (counterStream t.bits 1 0) rot ty) ⟨"identity", fun x => x⟩).nth (lowHalf t) n ≤ 1536) ∧
    (1 ≤ fromBit t.bits rot ty (t.bits - 1) →
      loneMisses (mixerStream (addRrc t (counterStream t.bits 1 0) rot ty) ⟨"identity", fun x => x⟩).nth (lowHalf t) n ≤ 1536) := by
  classical
  have hw8 : 8 ≤ t.bits := by cases t <;> decide
  have hbit := fun i => view_bit t ty rot (t.bits - 1) i (by omega)
  have hinj := view_injective t ty rot n
  generalize mixerStream (addRrc t (counterStream t.bits 1 0) rot ty) ⟨"identity", fun x => x⟩ = s at hbit hinj
  generalize fromBit t.bits rot ty (t.bits - 1) = j at hbit
  set f : Nat → Bool := fun i => decide (lowHalf t (s.nth i)) with hf
  set exc : Nat → Bool := fun i => decide ((s.nth i).msb = false ∧ ¬ lowHalf t (s.nth i)) with hexc
  have hcount : (List.range n).countP exc ≤ 512 := by
    rw [countP_range]
    by_cases ht : t = .u64
    · subst ht
      refine (Finset.card_le_card_of_injOn (fun i => (s.nth i).toNat) (t := Finset.Ico (2 ^ 63 - 512) (2 ^ 63)) ?_ ?_).trans (by simp)
      · intro i hi
        simp only [coe_filter, mem_range, Set.mem_ofPred_eq] at hi
        obtain ⟨-, hi⟩ := hi
        rw [hexc] at hi
        obtain ⟨h1, h2⟩ := of_decide_eq_true hi
        unfold lowHalf at h2
        rw [BitVec.msb_eq_decide, decide_eq_false_iff_not] at h1
        rw [if_pos rfl] at h2
        simp only [coe_Ico, Set.mem_Ico]
        have e : WT.u64.bits - 1 = 63 := rfl
        rw [e] at h1 h2
        exact ⟨not_lt.1 h2, not_le.1 h1⟩
      · intro a ha b hb h
        simp only [coe_filter, mem_range, Set.mem_ofPred_eq] at ha hb
        refine hinj ?_ a b ha.1 hb.1 (BitVec.eq_of_toNat_eq h)
        show n < 2 ^ 64
        omega
    · rw [Finset.card_eq_zero.2, ]
      · exact Nat.zero_le _
      rw [Finset.filter_eq_empty_iff]
      intro i _ hi
      rw [hexc] at hi
      obtain ⟨h1, h2⟩ := of_decide_eq_true hi
      unfold lowHalf at h2
      rw [BitVec.msb_eq_decide, decide_eq_false_iff_not] at h1
      rw [if_neg ht] at h2
      omega
  have hfol : ∀ i < n, exc i = false → f i = ((i + 1).testBit j != !complements ty) := by
    intro i _ he
    have hb := hbit i
    rw [← BitVec.msb_eq_getLsbD_last] at hb
    have h1 : f i = !(s.nth i).msb := by
      by_cases hl : lowHalf t (s.nth i)
      · have : (s.nth i).msb = false := by
          unfold lowHalf at hl
          rw [BitVec.msb_eq_decide, decide_eq_false_iff_not]
          omega
        rw [this, hf]
        simpa using hl
      · have : ¬ (s.nth i).msb = false := fun hm => by
          rw [hexc] at he
          exact of_decide_eq_false he ⟨hm, hl⟩
        rw [hf]
        simp only [hl, decide_false]
        revert this
        cases (s.nth i).msb <;> simp
    rw [h1, hb]
    generalize (i + 1).testBit j = x
    cases x <;> cases complements ty <;> rfl
  obtain ⟨g0, g1⟩ := follows_patterns f exc n j (!complements ty) hfol
  obtain ⟨k0, k1⟩ := le_patterns s.nth (lowHalf t) n f (fun i => by rw [hf]; simp)
  exact ⟨fun h => k0.trans ((g0 h).trans (by omega)), fun h => k1.trans ((g1 h).trans (by omega))⟩

theorem counter_even (t : WT) (ty : RrcType) (rot n : Nat) :
    (fromBit t.bits rot ty 0 = 0 →
      pairs (mixerStream (addRrc t (counterStream t.bits 1 0) rot ty) ⟨"identity", fun x => x⟩).nth (fun v => 2 ∣ v.toNat) n = 0) ∧
    (1 ≤ fromBit t.bits rot ty 0 →
      loneMisses (mixerStream (addRrc t (counterStream t.bits 1 0) rot ty) ⟨"identity", fun x => x⟩).nth (fun v => 2 ∣ v.toNat) n = 0) := by
  have hw8 : 8 ≤ t.bits := by cases t <;> decide
  have hbit := fun i => view_bit t ty rot 0 i (by omega)
  generalize mixerStream (addRrc t (counterStream t.bits 1 0) rot ty) ⟨"identity", fun x => x⟩ = s at hbit
  generalize fromBit t.bits rot ty 0 = j at hbit
  have hf : ∀ i, ((i + 1).testBit j != !complements ty) = true ↔ 2 ∣ (s.nth i).toNat := by
    intro i
    have h1 := hbit i
    have h2 : 2 ∣ (s.nth i).toNat ↔ (s.nth i).getLsbD 0 = false := by
      unfold BitVec.getLsbD
      rw [Nat.testBit_zero]
      simp
      omega
    rw [h2, h1]
    generalize (i + 1).testBit j = x
    cases x <;> cases complements ty <;> simp
  obtain ⟨g0, g1⟩ := follows_patterns (fun i => (i + 1).testBit j != !complements ty) (fun _ => false) n j (!complements ty) (fun _ _ _ => rfl)
  obtain ⟨k0, k1⟩ := le_patterns s.nth (fun v => 2 ∣ v.toNat) n _ hf
  simp only [List.countP_false] at g0 g1
  exact ⟨fun h => Nat.le_zero.1 (k0.trans (g0 h)), fun h => Nat.le_zero.1 (k1.trans (g1 h))⟩

/-- The sources of the self-check: rotated, reversed and complemented constants and counter. -/
theorem fail_source_cases (t : WT) (sources : List (Stream (BitVec t.bits))) (hs : createFailSources t = .ok sources) (s : Stream (BitVec t.bits))
    (h : s ∈ createRrcSources t sources) : ∃ ty rot, rot < t.bits ∧ (s = addRrc t (counterStream t.bits 1 0) rot ty ∨
      ∃ c, s = addRrc t (constantStream c) rot ty) := by
  obtain ⟨c, hc⟩ : ∃ c, sources = [constantStream (BitVec.ofNat t.bits 0), constantStream (BitVec.ofNat t.bits 1), constantStream c,
      counterStream t.bits 1 0] := by
    unfold createFailSources at hs
    split at hs
    · cases hs
    · exact ⟨_, (Except.ok.inj hs).symm⟩
  unfold createRrcSources at h
  obtain ⟨s0, hs0, h⟩ := List.mem_flatMap.1 h
  obtain ⟨ty, -, h⟩ := List.mem_flatMap.1 h
  obtain ⟨rot, hrot, rfl⟩ := List.mem_map.1 h
  refine ⟨ty, rot, List.mem_range.1 hrot, ?_⟩
  rw [hc] at hs0
  simp only [List.mem_cons, List.not_mem_nil, or_false] at hs0
  rcases hs0 with rfl | rfl | rfl | rfl
  · exact Or.inr ⟨_, rfl⟩
  · exact Or.inr ⟨_, rfl⟩
  · exact Or.inr ⟨_, rfl⟩
  · exact Or.inl rfl

/-- C129. The self-check prints `PASS` for the gap test and for the divisibility test. -/
theorem C129_self_check (t : WT) (hw : BitVec 32) (analyse : Battery ℝ → List ResultAnalysis) (ha : Analyses analyse)
    (eval : TestRow → Stream (BitVec t.bits) → BitVec 64 → Battery ℝ) (h : SelfCheckRuns t hw eval) (sources : List (Stream (BitVec t.bits)))
    (hs : createFailSources t = .ok sources) (lines : List InspectLine) (hl : inspectTests t analyse eval sources false = .ok lines) :
    lines.filter (fun l => decide (lineTest l = "gap")) = [.pass "gap"] ∧
    lines.filter (fun l => decide (lineTest l = "divisibility")) = [.pass "divisibility"] := by
  have hth := defaultMaxThreads_pos hw
  obtain ⟨n', h1, h2, h3⟩ := slow_budget 25 (by norm_num) 200000 (by norm_num) (by norm_num)
  constructor
  · refine pass_of_none t hw analyse ha eval h sources lines hl ⟨.gap, true, false, .slow, "gap"⟩ (by decide) fun s hmem =>
      not_accepted _ 25 (by norm_num) le_rfl ?_
    rw [if_neg (by decide)] at hmem
    have hrej : ∃ res st, gapTest chi2DistributionCdf n' (mixerStream s ⟨"identity", fun x => x⟩) = some (.ok res) ∧ ⟨"1/2", some st⟩ ∈ res ∧
        st.pValue ≤ 1 / 10 ^ 9 ∧ statPass st = false := by
      apply C129_gap
      obtain ⟨ty, rot, hrot, rfl | ⟨c, rfl⟩⟩ := fail_source_cases t sources hs s hmem
      · obtain ⟨g0, g1⟩ := counter_low t ty rot n'.toNat h3
        by_cases hj : fromBit t.bits rot ty (t.bits - 1) = 0
        · right
          have := g0 hj
          omega
        · left
          have := g1 (by omega)
          omega
      · left
        rw [constant_lone _ _ _ _ (view_constant t ty rot c)]
        omega
    obtain ⟨res, st, g1, g2, g3, -⟩ := hrej
    refine battery_rejects chi2DistributionCdf .gap _ (inspectSetup (defaultMaxThreads hw) ⟨.gap, true, false, .slow, "gap"⟩ s)
      (by show 0 < defaultMaxThreads hw; omega) _ (h _ s 25 (by norm_num) le_rfl) List.mem_cons_self s List.mem_cons_self _ rfl res ?_ "1/2" st g2 g3
    dsimp only
    rw [show (getTestDefinition .gap).limiter.limit (BitVec.ofNat 64 (2 ^ 25)) = some n' from h1]
    exact g1
  · refine pass_of_none t hw analyse ha eval h sources lines hl ⟨.divisibility, true, false, .slow, "divisibility"⟩ (by decide) fun s hmem =>
      not_accepted _ 25 (by norm_num) le_rfl ?_
    rw [if_neg (by decide)] at hmem
    have hrej : ∃ st, divisibilityTest chi2DistributionCdf n' (mixerStream s ⟨"identity", fun x => x⟩) = some (.ok [⟨"d2", some st⟩]) ∧
        st.pValue ≤ 1 / 10 ^ 9 ∧ statPass st = false := by
      refine C129_divisibility n' (by omega) _ ?_
      obtain ⟨ty, rot, hrot, rfl | ⟨c, rfl⟩⟩ := fail_source_cases t sources hs s hmem
      · obtain ⟨g0, g1⟩ := counter_even t ty rot n'.toNat
        by_cases hj : fromBit t.bits rot ty 0 = 0
        · right
          rw [g0 hj]
          omega
        · left
          rw [g1 (by omega)]
          omega
      · left
        rw [constant_lone _ _ _ _ (view_constant t ty rot c)]
        omega
    obtain ⟨st, g1, g3, -⟩ := hrej
    refine battery_rejects chi2DistributionCdf .divisibility _ (inspectSetup (defaultMaxThreads hw) ⟨.divisibility, true, false, .slow, "divisibility"⟩ s)
      (by show 0 < defaultMaxThreads hw; omega) _ (h _ s 25 (by norm_num) le_rfl) List.mem_cons_self s List.mem_cons_self _ rfl [⟨"d2", some st⟩] ?_ "d2" st
      List.mem_cons_self g3
    dsimp only
    rw [show (getTestDefinition .divisibility).limiter.limit (BitVec.ofNat 64 (2 ^ 25)) = some n' from h1]
    exact g1

-- C129, non-vacuity: a constant and a counter meet the hypotheses.
example : (16 * loneMisses (constantStream 5#8).nth (lowHalf .u8) 5000 + 4100 ≤ 5000) ∧
    640 * pairs (mixerStream (addRrc .u32 (counterStream WT.u32.bits 1 0) 0 .identity) ⟨"identity", fun x => x⟩).nth (fun v => 2 ∣ v.toNat) 200000 + 161000 ≤ 200000 ∧
    16 * loneMisses (mixerStream (addRrc .u32 (counterStream WT.u32.bits 1 0) 5 .reverse) ⟨"identity", fun x => x⟩).nth (lowHalf .u32) 200000 + 4100 ≤ 200000 := by
  refine ⟨?_, ?_, ?_⟩
  · rw [constant_lone _ _ _ 5#8 (constantStream_nth _)]; norm_num
  · have := (counter_even .u32 .identity 0 200000).1 (by decide)
    rw [this]; norm_num
  · have := (counter_low .u32 .reverse 5 200000 (by norm_num)).2 (by decide)
    exact (Nat.add_le_add_right (Nat.mul_le_mul_left 16 this) 4100).trans (by norm_num)

end TFR
