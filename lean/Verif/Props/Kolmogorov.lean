import Verif.Model.RealStats
import Mathlib.Order.Bounds.Basic
/-
C60: the Kolmogorov-Smirnov distance (exact arithmetic).
-/
namespace TFR

theorem clamp01_mem (x : ℝ) : 0 ≤ clamp01 x ∧ clamp01 x ≤ 1 := by
  unfold clamp01
  by_cases h : x < 0
  · rw [if_pos h]; norm_num
  · rw [if_neg h]
    by_cases h1 : 1 < x
    · rw [if_pos h1]; norm_num
    · rw [if_neg h1]; exact ⟨not_lt.1 h, not_lt.1 h1⟩

theorem sortReals_perm (l : List ℝ) : (sortReals l).Perm l := List.mergeSort_perm _ _

theorem sortReals_sorted (l : List ℝ) : (sortReals l).Pairwise (· ≤ ·) := by
  have := List.pairwise_mergeSort (le := fun (a b : ℝ) => @decide (a ≤ b) (Classical.propDecidable _))
    (by intro a b c h1 h2; simp only [decide_eq_true_eq] at *; exact h1.trans h2)
    (by intro a b; simp only [Bool.or_eq_true, decide_eq_true_eq]; exact le_total a b) l
  refine List.Pairwise.imp ?_ this
  intro a b h
  simpa using h

open Classical in
/-- In a sorted list the elements at most `x` are exactly the first ones. -/
theorem ks_sorted_le_iff (s : List ℝ) (hs : s.Pairwise (· ≤ ·)) (x : ℝ) (i : Nat) (hi : i < s.length) :
    s[i] ≤ x ↔ i < s.countP (fun d => d ≤ x) := by
  induction s generalizing i with
  | nil => simp at hi
  | cons a t ih =>
    rw [List.pairwise_cons] at hs
    by_cases ha : a ≤ x
    · rw [List.countP_cons_of_pos (by simpa using ha)]
      cases i with
      | zero => simpa using ha
      | succ i =>
        simp only [List.getElem_cons_succ]
        rw [ih hs.2 i (by simpa using hi)]
        omega
    · have h0 : (a :: t).countP (fun d => decide (d ≤ x)) = 0 := by
        rw [List.countP_eq_zero]
        intro d hd
        rcases List.mem_cons.1 hd with rfl | hd
        · simpa using ha
        · simp only [decide_eq_true_eq]
          exact fun h => ha ((hs.1 d hd).trans h)
      rw [h0]
      constructor
      · intro h
        exfalso
        cases i with
        | zero => exact ha (by simpa using h)
        | succ i =>
          simp only [List.getElem_cons_succ] at h
          exact ha ((hs.1 _ (List.getElem_mem _)).trans h)
      · intro h; exact absurd h (Nat.not_lt_zero _)

private theorem foldl_max {α : Type} (f : α → ℝ) (l : List α) (m0 : ℝ) :
    m0 ≤ l.foldl (fun m a => max (f a) m) m0 ∧ (∀ a ∈ l, f a ≤ l.foldl (fun m a => max (f a) m) m0) ∧
    ∀ B, m0 ≤ B → (∀ a ∈ l, f a ≤ B) → l.foldl (fun m a => max (f a) m) m0 ≤ B := by
  induction l generalizing m0 with
  | nil => exact ⟨le_rfl, by simp, fun B h _ => h⟩
  | cons a l ih =>
    obtain ⟨h1, h2, h3⟩ := ih (max (f a) m0)
    rw [List.foldl_cons]
    refine ⟨(le_max_right _ _).trans h1, ?_, ?_⟩
    · intro b hb
      rcases List.mem_cons.1 hb with rfl | hb
      · exact (le_max_left _ _).trans h1
      · exact h2 b hb
    · intro B hB hall
      exact h3 B (max_le (hall a (by simp)) hB) (fun b hb => hall b (by simp [hb]))

private theorem ksDistance_spec (s : List ℝ) :
    0 ≤ ksDistance s ∧
    (∀ i (hi : i < s.length), |(i : ℝ) / s.length - s[i]| ≤ ksDistance s ∧ |((i : ℝ) + 1) / s.length - s[i]| ≤ ksDistance s) ∧
    ∀ B, 0 ≤ B → (∀ i (hi : i < s.length), |(i : ℝ) / s.length - s[i]| ≤ B ∧ |((i : ℝ) + 1) / s.length - s[i]| ≤ B) →
      ksDistance s ≤ B := by
  unfold ksDistance
  dsimp only
  obtain ⟨h1, h2, h3⟩ := foldl_max (fun di : ℝ × ℕ => max |(di.2 : ℝ) / (s.length : ℝ) - di.1| |((di.2 : ℝ) + 1) / (s.length : ℝ) - di.1|)
    s.zipIdx 0
  refine ⟨h1, ?_, ?_⟩
  · intro i hi
    have hm : (s[i], i) ∈ s.zipIdx := by
      rw [List.mem_zipIdx_iff_getElem?]; exact List.getElem?_eq_getElem hi
    exact max_le_iff.1 (h2 _ hm)
  · intro B hB hall
    apply h3 B hB
    rintro ⟨d, i⟩ hm
    rw [List.mem_zipIdx_iff_getElem?] at hm
    obtain ⟨hi, hd⟩ := List.getElem?_eq_some_iff.1 hm
    simp only at hi hd
    subst hd
    exact max_le (hall i hi).1 (hall i hi).2

open Classical in
/-- The empirical distribution function: the proportion of the data at most `x`. -/
noncomputable def Spec.empiricalCdf (data : List ℝ) (x : ℝ) : ℝ := (data.countP (fun d => d ≤ x) : ℝ) / data.length

/-- C60. For every non-empty data in [0,1], the distance reported by `kolmogorov_smirnov_stats` is the supremum over `x` in [0,1] of
the distance between the empirical distribution function and that of the uniform law, `|F_n(x) - x|`; the reported degrees
of freedom are the number of samples and the p-value is between 0 and 1. -/
theorem C60_ks (data : List ℝ) (hne : data ≠ []) (h01 : ∀ d ∈ data, 0 ≤ d ∧ d ≤ 1) :
    IsLUB {y | ∃ x, 0 ≤ x ∧ x ≤ 1 ∧ y = |Spec.empiricalCdf data x - x|} (kolmogorovSmirnovStats data).value ∧
    (kolmogorovSmirnovStats data).type = .kolmogorovSmirnovD ∧ (kolmogorovSmirnovStats data).df = data.length ∧
    0 ≤ (kolmogorovSmirnovStats data).pValue ∧ (kolmogorovSmirnovStats data).pValue ≤ 1 := by
  refine ⟨?_, rfl, rfl, (clamp01_mem _).1, (clamp01_mem _).2⟩
  show IsLUB _ (ksDistance (sortReals data))
  set s := sortReals data with hs
  have hperm := sortReals_perm data
  have hsort := sortReals_sorted data
  rw [← hs] at hperm hsort
  have hlen : s.length = data.length := hperm.length_eq
  have hn : 0 < s.length := by rw [hlen]; exact List.length_pos_of_ne_nil hne
  have hnR : (0 : ℝ) < s.length := by exact_mod_cast hn
  have hF : ∀ x, Spec.empiricalCdf data x = (s.countP (fun d => @decide (d ≤ x) (Classical.propDecidable _)) : ℝ) / s.length := by
    intro x
    unfold Spec.empiricalCdf
    rw [hperm.countP_eq, hlen]
  have hs01 : ∀ i (hi : i < s.length), 0 ≤ s[i] ∧ s[i] ≤ 1 := fun i hi => h01 _ (hperm.mem_iff.1 (List.getElem_mem hi))
  have hle := ks_sorted_le_iff s hsort
  obtain ⟨hD0, hDi, hDB⟩ := ksDistance_spec s
  constructor
  · rintro y ⟨x, hx0, hx1, rfl⟩
    rw [hF x]
    have hmle : s.countP (fun d => @decide (d ≤ x) (Classical.propDecidable _)) ≤ s.length := List.countP_le_length
    have hlex := hle x
    generalize s.countP (fun d => @decide (d ≤ x) (Classical.propDecidable _)) = m at hmle hlex
    rw [abs_le]
    constructor
    · by_cases hm : m = s.length
      · rw [hm, div_self hnR.ne']; linarith
      · have hlt : m < s.length := by omega
        have h1 : ¬ s[m] ≤ x := by rw [hlex m hlt]; omega
        have h2 := (abs_le.1 (hDi m hlt).1).1
        have h3 := not_le.1 h1
        linarith
    · by_cases hm : m = 0
      · rw [hm]; simp; linarith
      · have hlt : m - 1 < s.length := by omega
        have h1 : s[m - 1] ≤ x := (hlex (m - 1) hlt).2 (by omega)
        have h2 := (abs_le.1 (hDi (m - 1) hlt).2).2
        have h3 : ((m - 1 : ℕ) : ℝ) + 1 = m := by
          rw [Nat.cast_sub (by omega)]; push_cast; ring
        rw [h3] at h2
        linarith
  · intro B hB
    have hB' : ∀ x, 0 ≤ x → x ≤ 1 → |Spec.empiricalCdf data x - x| ≤ B := fun x h0 h1 => hB ⟨x, h0, h1, rfl⟩
    have hB0 : 0 ≤ B := (abs_nonneg _).trans (hB' 0 le_rfl zero_le_one)
    apply hDB B hB0
    intro i hi
    obtain ⟨hi0, hi1⟩ := hs01 i hi
    -- from above: at the data point itself
    have hup : ((i : ℝ) + 1) / s.length - s[i] ≤ B := by
      have h1 := (abs_le.1 (hB' s[i] hi0 hi1)).2
      have h2 := (hle s[i] i hi).1 le_rfl
      have h3 : ((i : ℝ) + 1) / s.length ≤ Spec.empiricalCdf data s[i] := by
        rw [hF]
        apply div_le_div_of_nonneg_right _ hnR.le
        exact_mod_cast h2
      linarith
    -- from below: just before the data point
    have hdown : s[i] - (i : ℝ) / s.length ≤ B := by
      by_contra hlt
      have hlt := not_le.1 hlt
      have hnn : 0 ≤ (i : ℝ) / s.length := by positivity
      -- a point between
      obtain ⟨x, hx1, hx2⟩ := exists_between (show B + (i : ℝ) / s.length < s[i] by linarith)
      have hx0 : 0 ≤ x := by linarith
      have h1 := (abs_le.1 (hB' x hx0 (by linarith))).1
      have h2 : ¬ i < s.countP (fun d => @decide (d ≤ x) (Classical.propDecidable _)) := by
        rw [← hle x i hi]; exact not_le.2 hx2
      have h3 : Spec.empiricalCdf data x ≤ (i : ℝ) / s.length := by
        rw [hF]
        apply div_le_div_of_nonneg_right _ hnR.le
        exact_mod_cast not_lt.1 h2
      linarith
    have hstep : (i : ℝ) / s.length ≤ ((i : ℝ) + 1) / s.length := by
      apply div_le_div_of_nonneg_right _ hnR.le; linarith
    constructor
    · rw [abs_le]; constructor <;> linarith
    · rw [abs_le]; constructor <;> linarith

/-- C60. The result depends only on the values and their multiplicities, not on their order. -/
theorem C60_order (data data' : List ℝ) (h : data.Perm data') : kolmogorovSmirnovStats data = kolmogorovSmirnovStats data' := by
  have hs : sortReals data = sortReals data' :=
    List.Perm.eq_of_pairwise (le := (· ≤ ·)) (fun a b _ _ h1 h2 => le_antisymm h1 h2) (sortReals_sorted data) (sortReals_sorted data')
      (((sortReals_perm data).trans h).trans (sortReals_perm data').symm)
  unfold kolmogorovSmirnovStats
  rw [hs, h.length_eq]

/-- C60, non-vacuity: a single sample at 1/4 has distance 3/4. -/
example : (kolmogorovSmirnovStats [1 / 4]).value = 3 / 4 := by
  have hs : sortReals [1 / 4] = [1 / 4] := by simp [sortReals]
  show ksDistance (sortReals [1 / 4]) = 3 / 4
  rw [hs]
  unfold ksDistance
  simp
  norm_num [abs_of_nonneg, abs_of_neg]

/-- The p-value of distance zero is one. -/
theorem C60_zero (df : ℝ) : kolmogorovSmirnovCdf 0 df 100 = 1 := by
  unfold kolmogorovSmirnovCdf clamp01
  simp only [zero_mul, mul_zero, Real.exp_zero, mul_one]
  have : (List.range 100).foldl (fun (res : ℝ) (j : ℕ) =>
      if j + 1 = 100 then res + 1 / 2 * (if (j + 1) % 2 = 1 then 1 else -1) else res + (if (j + 1) % 2 = 1 then 1 else -1)) 0 = 1 / 2 := by
    simp [List.range, List.range.loop]
    norm_num
  rw [this]
  norm_num

end TFR
