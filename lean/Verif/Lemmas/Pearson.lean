import Verif.Spec.Pearson
import Verif.Props.ChiSquare
/-
`chi2_stats` is Pearson's test.
-/
namespace TFR
open Spec

private theorem fold_used (cells : List (ℝ × ℝ)) (thr a b : ℝ) :
    cells.foldl (fun (st : ℝ × ℝ) c => if c.2 ≤ thr then st else (st.1 + (c.1 - c.2) * (c.1 - c.2) / c.2, st.2 + 1)) (a, b) =
      (a + chiSquare (usedCells thr cells), b + ((usedCells thr cells).length : ℝ)) := by
  induction cells generalizing a b with
  | nil => simp [chiSquare, usedCells]
  | cons c rest ih =>
    rw [List.foldl_cons]
    by_cases h : c.2 ≤ thr
    · rw [if_pos h, ih]
      have : usedCells thr (c :: rest) = usedCells thr rest := by
        unfold usedCells; rw [List.filter_cons_of_neg (by simpa using h)]
      rw [this]
    · rw [if_neg h, ih]
      have : usedCells thr (c :: rest) = c :: usedCells thr rest := by
        unfold usedCells; rw [List.filter_cons_of_pos (by simpa using h)]
      rw [this]
      simp only [chiSquare, List.map_cons, List.sum_cons, List.length_cons, Nat.cast_add, Nat.cast_one, Prod.mk.injEq]
      constructor <;> ring

/-- `chi2_stats` is Pearson's test of the cells it is given. -/
theorem chi2Stats_eq_pearson (cdf : ℝ → ℝ → ℝ) (n : Nat) (o e : Nat → ℝ) (thr : ℝ) :
    chi2Stats cdf n o e thr = pearson cdf ((List.range n).map fun i => (o i, e i)) thr := by
  have h := fold_used ((List.range n).map fun i => (o i, e i)) thr 0 0
  rw [List.foldl_map, zero_add, zero_add] at h
  unfold chi2Stats pearson
  dsimp only at h ⊢
  rw [h]
  dsimp only
  generalize usedCells thr ((List.range n).map fun i => (o i, e i)) = u
  by_cases hu : u.length < 2
  · rw [if_pos hu, if_pos ((near_df _).2 (by omega))]
  · rw [if_neg hu, if_neg (fun h' => hu (by have := (near_df _).1 h'; omega))]
    have : (1 : ℝ) ≤ (u.length : ℝ) := by
      have : 1 ≤ u.length := by omega
      exact_mod_cast this
    rw [max_eq_left (by linarith)]

/-- The same for a vector of 64-bit counters whose values are known. -/
theorem chi2Stats_counts (cdf : ℝ → ℝ → ℝ) (counts : List (BitVec 64)) (m : Nat) (c : Nat → Nat) (e : Nat → ℝ) (thr : ℝ)
    (hl : counts.length = m) (hc : ∀ i, i < m → counts[i]? = some (BitVec.ofNat 64 (c i))) (hlt : ∀ i, i < m → c i < 2 ^ 64) :
    chi2Stats cdf counts.length (toData counts) e thr = pearson cdf ((List.range m).map fun i => (((c i : ℕ) : ℝ), e i)) thr := by
  rw [chi2Stats_eq_pearson, hl]
  congr 1
  apply List.map_congr_left
  intro i hi
  have hi := List.mem_range.1 hi
  unfold toData
  rw [List.getD_eq_getElem?_getD, hc i hi, Option.getD_some, BitVec.toNat_ofNat, Nat.mod_eq_of_lt (hlt i hi)]

/-- Pearson's statistic of cells with positive expectation is not negative. -/
theorem Spec.chiSquare_nonneg (cells : List (ℝ × ℝ)) (h : ∀ c ∈ cells, 0 < c.2) : 0 ≤ chiSquare cells := by
  apply List.sum_nonneg
  intro x hx
  obtain ⟨c, hc, rfl⟩ := List.mem_map.1 hx
  exact div_nonneg (sq_nonneg _) (h c hc).le

/-- What a result of Pearson's test looks like. -/
theorem Spec.pearson_some (cdf : ℝ → ℝ → ℝ) (cells : List (ℝ × ℝ)) (thr : ℝ) (hthr : 0 ≤ thr) (s : Statistic ℝ)
    (h : pearson cdf cells thr = some s) :
    s.type = .chi2 ∧ 1 ≤ s.df ∧ s.df ≤ cells.length - 1 ∧ 0 ≤ s.value ∧ s.pValue = cdf s.value s.df := by
  unfold pearson at h
  split at h
  · cases h
  · rename_i hn
    obtain rfl := Option.some.inj h
    have h2 : (2 : ℝ) ≤ ((usedCells thr cells).length : ℝ) := by
      have : 2 ≤ (usedCells thr cells).length := by omega
      exact_mod_cast this
    have h3 : ((usedCells thr cells).length : ℝ) ≤ (cells.length : ℝ) := by
      exact_mod_cast List.length_filter_le _ _
    refine ⟨rfl, by dsimp only; linarith, by dsimp only; linarith, chiSquare_nonneg _ ?_, rfl⟩
    intro c hc
    have := (List.mem_filter.1 hc).2
    simp only [decide_eq_true_eq] at this
    linarith

/-- Pearson's test has a result as soon as two cells are above the threshold. -/
theorem Spec.pearson_isSome (cdf : ℝ → ℝ → ℝ) (m : Nat) (o e : Nat → ℝ) (thr : ℝ) (i j : Nat) (hij : i < j) (hj : j < m)
    (hi' : thr < e i) (hj' : thr < e j) : ∃ st, pearson cdf ((List.range m).map fun i => (o i, e i)) thr = some st := by
  unfold pearson
  rw [if_neg]
  · exact ⟨_, rfl⟩
  · have hsub : [(o i, e i), (o j, e j)].Sublist ((List.range m).map fun i => (o i, e i)) := by
      have : [i, j].Sublist (List.range m) := by
        have h1 : List.range m = List.range j ++ List.range' j (m - j) := by
          have := List.range'_append_1 (s := 0) (m := j) (n := m - j)
          rw [Nat.zero_add, show j + (m - j) = m by omega] at this
          rw [List.range_eq_range', List.range_eq_range', this]
        rw [h1, show [i, j] = [i] ++ [j] from rfl]
        apply List.Sublist.append
        · rw [List.singleton_sublist]; exact List.mem_range.2 hij
        · rw [List.singleton_sublist, List.mem_range'_1]; omega
      exact this.map fun i => (o i, e i)
    have h2 := hsub.filter (fun c => decide (thr < c.2))
    have h3 := h2.length_le
    rw [List.filter_cons_of_pos (by simpa using hi'), List.filter_cons_of_pos (by simpa using hj')] at h3
    simp only [List.filter_nil, List.length_cons, List.length_nil] at h3
    unfold usedCells
    classical
    have h4 : (List.filter (fun c : ℝ × ℝ => decide (thr < c.2)) ((List.range m).map fun i => (o i, e i))).length =
      (List.filter (fun c : ℝ × ℝ => @decide (thr < c.2) (Classical.propDecidable _)) ((List.range m).map fun i => (o i, e i))).length := by
      congr 2
    rw [← h4]
    omega

end TFR
