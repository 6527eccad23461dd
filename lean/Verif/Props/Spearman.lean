import Verif.Props.Correlation
import Mathlib.Data.List.Sort
/-
C63: get_ranks and Spearman's correlation (exact arithmetic).
-/
namespace TFR
open Finset Spec

open Classical in
/-- C63. `get_ranks` has a result for every vector. -/
theorem C63_exists (vec : List ℝ) : ∃ p, GetRanks vec p := by
  refine ⟨(List.range vec.length).mergeSort (fun i j => decide (vec.getD i 0 ≤ vec.getD j 0)), List.mergeSort_perm _ _, ?_⟩
  have := List.pairwise_mergeSort (le := fun (i j : Nat) => decide (vec.getD i 0 ≤ vec.getD j 0))
    (by intro a b c h1 h2; simp only [decide_eq_true_eq] at *; exact h1.trans h2)
    (by intro a b; simp only [Bool.or_eq_true, decide_eq_true_eq]; exact le_total _ _) (List.range vec.length)
  refine List.Pairwise.imp ?_ this
  intro i j h
  exact not_lt.2 (by simpa using h)

open Classical in
/-- The rank of element `i`: how many elements are smaller. -/
noncomputable def Spec.rank (vec : List ℝ) (i : Nat) : Nat := (vec.filter fun v => v < vec.getD i 0).length

open Classical in
private theorem strict_count (s : List ℝ) (hs : s.Pairwise (· < ·)) (k : Nat) (hk : k < s.length) :
    (s.filter fun v => v < s[k]).length = k := by
  induction s generalizing k with
  | nil => simp at hk
  | cons a t ih =>
    rw [List.pairwise_cons] at hs
    cases k with
    | zero =>
      simp only [List.getElem_cons_zero]
      rw [List.filter_cons_of_neg (by simp), List.length_eq_zero_iff, List.filter_eq_nil_iff]
      intro b hb
      simpa using (hs.1 b hb).le
    | succ k =>
      simp only [List.getElem_cons_succ]
      have hk' : k < t.length := by simpa using hk
      rw [List.filter_cons_of_pos (by simpa using hs.1 _ (List.getElem_mem hk'))]
      rw [List.length_cons, ih hs.2 k hk']

/-- C63. For distinct data the result of `get_ranks` is the inverse of the rank vector, not the rank vector: at position
`rank(i)` it holds `i`. -/
theorem C63_inverse (vec : List ℝ) (hd : vec.Nodup) (p : List Nat) (h : GetRanks vec p) (i : Nat) (hi : i < vec.length) :
    p[rank vec i]? = some i := by
  obtain ⟨hp, hs⟩ := h
  have hlen : p.length = vec.length := by rw [hp.length_eq]; simp
  have hmem : ∀ j ∈ p, j < vec.length := fun j hj => List.mem_range.1 (hp.mem_iff.1 hj)
  have hnd : p.Nodup := hp.nodup_iff.2 List.nodup_range
  have hget : ∀ j (hj : j < vec.length), vec.getD j 0 = vec[j] := by
    intro j hj; rw [List.getD_eq_getElem?_getD, List.getElem?_eq_getElem hj, Option.getD_some]
  -- along p the values increase strictly
  have hstrict : (p.map fun j => vec.getD j 0).Pairwise (· < ·) := by
    rw [List.pairwise_map]
    have h2 : p.Pairwise (fun i j => ¬ vec.getD j 0 < vec.getD i 0 ∧ i ≠ j ∧ i ∈ p ∧ j ∈ p) := by
      rw [List.pairwise_iff_getElem] at hs ⊢
      intro a b ha hb hab
      refine ⟨hs a b ha hb hab, ?_, List.getElem_mem ha, List.getElem_mem hb⟩
      intro heq
      have := (hnd.getElem_inj_iff (hi := ha) (hj := hb)).1 heq
      omega
    refine h2.imp ?_
    rintro a b ⟨h1, h2, h3, h4⟩
    refine lt_of_le_of_ne (not_lt.1 h1) ?_
    intro heq
    rw [hget a (hmem a h3), hget b (hmem b h4)] at heq
    exact h2 ((hd.getElem_inj_iff (hi := hmem a h3) (hj := hmem b h4)).1 heq)
  obtain ⟨k, hk, hpk⟩ := List.getElem_of_mem (hp.mem_iff.2 (List.mem_range.2 hi))
  have hvk : (p.map fun j => vec.getD j 0)[k]'(by simpa using hk) = vec.getD i 0 := by
    rw [List.getElem_map, hpk]
  have hc := strict_count _ hstrict k (by simpa using hk)
  rw [hvk] at hc
  have hvals : (p.map fun j => vec.getD j 0).Perm vec := by
    refine (hp.map _).trans ?_
    have : (List.range vec.length).map (fun j => vec.getD j 0) = vec := by
      apply List.ext_getElem (by simp)
      intro j h1 h2
      simp only [List.getElem_map, List.getElem_range]
      exact hget j h2
    rw [this]
  have hrank : rank vec i = k := by
    unfold rank
    rw [← hc]
    exact ((hvals.filter _).length_eq).symm
  rw [hrank, List.getElem?_eq_getElem hk, hpk]

/-- C63. For distinct data the result is unique. -/
theorem C63_unique (vec : List ℝ) (hd : vec.Nodup) (p q : List Nat) (hp : GetRanks vec p) (hq : GetRanks vec q) : p = q := by
  have hlp : p.length = vec.length := by rw [hp.1.length_eq]; simp
  have hlq : q.length = vec.length := by rw [hq.1.length_eq]; simp
  apply List.ext_getElem (by rw [hlp, hlq])
  intro k h1 h2
  have hi : p[k] < vec.length := List.mem_range.1 (hp.1.mem_iff.1 (List.getElem_mem h1))
  have e1 := C63_inverse vec hd p hp p[k] hi
  have e2 := C63_inverse vec hd q hq p[k] hi
  obtain ⟨hr, hr'⟩ := List.getElem?_eq_some_iff.1 e1
  have hnd : p.Nodup := hp.1.nodup_iff.2 List.nodup_range
  have hk : rank vec p[k] = k := (hnd.getElem_inj_iff (hi := hr) (hj := h1)).1 hr'
  rw [hk, List.getElem?_eq_getElem h2] at e2
  exact (Option.some.inj e2).symm

/-! ### Spearman -/

private theorem mean_scale (c : ℝ) (l : List ℝ) : mean (l.map fun x => x * c) = mean l * c := by
  unfold mean
  rw [List.sum_map_mul_right]
  simp only [List.map_id', List.length_map]
  ring

private theorem coSum_scale (c : ℝ) (xs ys : List ℝ) :
    coSum (xs.map fun x => x * c) (ys.map fun x => x * c) = coSum xs ys * c ^ 2 := by
  unfold coSum
  rw [mean_scale, mean_scale, List.zip_map, List.map_map]
  rw [← List.sum_map_mul_right]
  congr 1
  apply List.map_congr_left
  rintro ⟨x, y⟩ _
  simp only [Function.comp, Prod.map]
  ring

private theorem pearson_scale (c : ℝ) (hc : 0 < c) (xs ys : List ℝ) :
    pearsonR (xs.map fun x => x * c) (ys.map fun x => x * c) = pearsonR xs ys := by
  unfold pearsonR
  rw [coSum_scale, coSum_scale, coSum_scale, Real.sqrt_mul (coSum_self_nonneg _), Real.sqrt_mul (coSum_self_nonneg _),
    Real.sqrt_sq hc.le]
  have : Real.sqrt (coSum xs xs) * c * (Real.sqrt (coSum ys ys) * c) = Real.sqrt (coSum xs xs) * Real.sqrt (coSum ys ys) * c ^ 2 := by
    ring
  rw [this, mul_div_mul_right _ _ (by positivity)]

/-- A permutation of 0 … n-1, rescaled. -/
private theorem rescale_perm (n : Nat) (hn : 2 ≤ n) (p : List Nat) (hp : p.Perm (List.range n)) :
    rescaleVecTo01 p = (p.map (Nat.cast (R := ℝ))).map fun x => x * (1 / ((n : ℝ) - 1)) := by
  have hmin : p.min? = some 0 := by
    rw [List.min?_eq_some_iff]
    exact ⟨hp.mem_iff.2 (List.mem_range.2 (by omega)), fun _ _ => Nat.zero_le _⟩
  have hmax : p.max? = some (n - 1) := by
    rw [List.max?_eq_some_iff]
    refine ⟨hp.mem_iff.2 (List.mem_range.2 (by omega)), fun b hb => ?_⟩
    have := List.mem_range.1 (hp.mem_iff.1 hb)
    omega
  have hn1 : ((n - 1 : ℕ) : ℝ) = (n : ℝ) - 1 := by rw [Nat.cast_sub (by omega)]; norm_num
  have hn2 : (2 : ℝ) ≤ n := by exact_mod_cast hn
  unfold rescaleVecTo01
  rw [hmin, hmax, List.map_map]
  apply List.map_congr_left
  intro k _
  simp only [Option.getD_some, Function.comp, Nat.cast_zero]
  unfold rescaleTo01
  have : ¬ isNearR 0 ((n - 1 : ℕ) : ℝ) = true := by
    rw [isNearR_iff, hn1, zero_sub, abs_neg, abs_of_nonneg (by linarith)]
    intro h; norm_num at h; linarith
  rw [if_neg this, hn1]
  ring

private theorem perm_spread (n : Nat) (hn : 2 ≤ n) (p : List Nat) (hp : p.Perm (List.range n)) :
    1 / 10 ^ 6 < coSum (rescaleVecTo01 p) (rescaleVecTo01 p) := by
  rw [rescale_perm n hn p hp]
  set c : ℝ := 1 / ((n : ℝ) - 1) with hc
  have hn2 : (2 : ℝ) ≤ n := by exact_mod_cast hn
  rw [coSum_self]
  set m := mean ((p.map (Nat.cast (R := ℝ))).map fun x => x * c)
  rw [List.map_map, List.map_map, (hp.map _).sum_eq]
  simp only [Function.comp_def]
  have hsum : ((List.range n).map fun k : ℕ => ((k : ℝ) * c - m) ^ 2).sum = ∑ k ∈ range n, ((k : ℝ) * c - m) ^ 2 := by
    rw [← List.sum_toFinset _ List.nodup_range, List.toFinset_range]
  rw [hsum]
  have hsub : ({0, n - 1} : Finset ℕ) ⊆ range n := by
    intro x hx
    simp only [mem_insert, mem_singleton] at hx
    rw [mem_range]; omega
  have hle := sum_le_sum_of_subset_of_nonneg hsub (f := fun k : ℕ => ((k : ℝ) * c - m) ^ 2) (fun i _ _ => sq_nonneg _)
  rw [sum_pair (by omega)] at hle
  refine lt_of_lt_of_le ?_ hle
  have hn1 : ((n - 1 : ℕ) : ℝ) = (n : ℝ) - 1 := by rw [Nat.cast_sub (by omega)]; norm_num
  have h1 : ((n - 1 : ℕ) : ℝ) * c = 1 := by
    rw [hn1, hc]
    have : (n : ℝ) - 1 ≠ 0 := by linarith
    field_simp
  rw [h1, Nat.cast_zero, zero_mul]
  nlinarith [sq_nonneg (2 * m - 1)]

/-- C63. Spearman's statistic of two vectors of the same length `n ≥ 3`, whatever the sort does with ties: the z-score is
`artanh(r) √((n-3)/1.06)` where `r` is Pearson's coefficient of the two sorting permutations. -/
theorem C63_spearman (xs ys : List ℝ) (h : xs.length = ys.length) (h3 : 3 ≤ xs.length) (r : R (Option (Statistic ℝ)))
    (hr : SpearmanStats xs ys r) :
    ∃ p q s, GetRanks xs p ∧ GetRanks ys q ∧ r = .ok (some s) ∧ s.type = .zScore ∧ s.df = xs.length ∧
      s.value = Real.artanh (fisherArg (pearsonR (p.map (Nat.cast (R := ℝ))) (q.map (Nat.cast (R := ℝ))))) *
        Real.sqrt (((xs.length : ℝ) - 3) / (106 / 100)) ∧
      s.pValue = normalTwoTailedCdf s.value := by
  obtain ⟨p, q, hp, hq, rfl⟩ := hr
  have hlp : p.length = xs.length := by rw [hp.1.length_eq]; simp
  have hlq : q.length = xs.length := by rw [hq.1.length_eq]; simp [h]
  have hlen : ∀ l : List Nat, (rescaleVecTo01 l).length = l.length := fun l => by simp [rescaleVecTo01]
  obtain ⟨s, hs, ht, hdf, -, hv⟩ := (C62_pearson (rescaleVecTo01 p) (rescaleVecTo01 q) (106 / 100)
    (by rw [hlen, hlen, hlp, hlq])).2 (by rw [hlen, hlp]; exact h3)
  obtain ⟨v1, v2⟩ := hv (perm_spread xs.length (by omega) p hp.1) (perm_spread xs.length (by omega) q (by rw [h]; exact hq.1))
  refine ⟨p, q, s, hp, hq, hs, ht, by rw [hdf, hlen, hlp], ?_, v2⟩
  have hn2 : (3 : ℝ) ≤ xs.length := by exact_mod_cast h3
  rw [v1, hlen, hlp, rescale_perm xs.length (by omega) p hp.1, rescale_perm xs.length (by omega) q (by rw [h]; exact hq.1),
    pearson_scale _ (by apply div_pos <;> linarith)]

private theorem ranks_eq (vec : List ℝ) (hd : vec.Nodup) (p : List Nat) (h : p.Perm (List.range vec.length))
    (hs : p.Pairwise (fun i j => ¬ vec.getD j 0 < vec.getD i 0)) (q : List Nat) (hq : GetRanks vec q) : q = p :=
  C63_unique vec hd q p hq ⟨h, hs⟩

/-- C63. The value is not Spearman's coefficient: on `xs = 2, 3, 4, 1` and `ys = 8, 7, 6, 9`, where every pair of observations is
ordered oppositely (`ys = 10 - xs`, textbook coefficient -1), the z-score is positive, that of a coefficient of 3/5. -/
theorem C63_not_spearman (r : R (Option (Statistic ℝ))) (hr : SpearmanStats [2, 3, 4, 1] [8, 7, 6, 9] r) :
    (∃ s, r = .ok (some s) ∧ s.value = Real.artanh (3 / 5) * Real.sqrt (1 / (106 / 100)) ∧ 0 < s.value) ∧
    pearsonR ([0, 1, 2, 3].map fun i : Nat => (rank [2, 3, 4, 1] i : ℝ)) ([0, 1, 2, 3].map fun i : Nat => (rank [8, 7, 6, 9] i : ℝ)) = -1 := by
  constructor
  · obtain ⟨p, q, s, hp, hq, hs, -, -, hv, -⟩ := C63_spearman [2, 3, 4, 1] [8, 7, 6, 9] rfl (by decide) r hr
    have ep : p = [3, 0, 1, 2] := ranks_eq _ (by norm_num) [3, 0, 1, 2] (by decide) (by norm_num) p hp
    have eq : q = [2, 1, 0, 3] := ranks_eq _ (by norm_num) [2, 1, 0, 3] (by decide) (by norm_num) q hq
    subst ep eq
    have c1 : coSum [3, 0, 1, 2] [3, 0, 1, 2] = 5 := by simp [coSum, mean]; norm_num
    have c2 : coSum [2, 1, 0, 3] [2, 1, 0, 3] = 5 := by simp [coSum, mean]; norm_num
    have c3 : coSum [3, 0, 1, 2] [2, 1, 0, 3] = 3 := by simp [coSum, mean]; norm_num
    have hpe : pearsonR [3, 0, 1, 2] [2, 1, 0, 3] = 3 / 5 := by
      unfold pearsonR
      rw [c1, c2, c3, Real.mul_self_sqrt (by norm_num)]
    have hfa : fisherArg (3 / 5) = 3 / 5 := by
      unfold fisherArg; rw [if_neg (by norm_num), if_neg (by norm_num)]
    have hval : s.value = Real.artanh (3 / 5) * Real.sqrt (1 / (106 / 100)) := by
      rw [hv]
      simp only [List.map_cons, List.map_nil, List.length_cons, List.length_nil]
      norm_num at hpe hfa ⊢
      rw [hpe, hfa]
    refine ⟨s, hs, hval, ?_⟩
    rw [hval]
    exact mul_pos (Real.artanh_pos (by norm_num)) (Real.sqrt_pos.2 (by norm_num))
  · have r0 : rank [2, 3, 4, 1] 0 = 1 := by simp [rank]; norm_num
    have r1 : rank [2, 3, 4, 1] 1 = 2 := by simp [rank]; norm_num
    have r2 : rank [2, 3, 4, 1] 2 = 3 := by simp [rank]; norm_num
    have r3 : rank [2, 3, 4, 1] 3 = 0 := by simp [rank]
    have t0 : rank [8, 7, 6, 9] 0 = 2 := by simp [rank]; norm_num
    have t1 : rank [8, 7, 6, 9] 1 = 1 := by simp [rank]; norm_num
    have t2 : rank [8, 7, 6, 9] 2 = 0 := by simp [rank]; norm_num
    have t3 : rank [8, 7, 6, 9] 3 = 3 := by simp [rank]; norm_num
    simp only [List.map_cons, List.map_nil, r0, r1, r2, r3, t0, t1, t2, t3]
    have c1 : coSum [1, 2, 3, 0] [1, 2, 3, 0] = 5 := by simp [coSum, mean]; norm_num
    have c2 : coSum [2, 1, 0, 3] [2, 1, 0, 3] = 5 := by simp [coSum, mean]; norm_num
    have c3 : coSum [1, 2, 3, 0] [2, 1, 0, 3] = -5 := by simp [coSum, mean]; norm_num
    have hpe : pearsonR [1, 2, 3, 0] [2, 1, 0, 3] = -1 := by
      unfold pearsonR
      rw [c1, c2, c3, Real.mul_self_sqrt (by norm_num)]; norm_num
    norm_num at hpe ⊢
    exact hpe

end TFR
