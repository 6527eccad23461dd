import Verif.Model.RealStats
import Verif.Props.ChiSquare
import Verif.Props.Normal
import Mathlib.Algebra.BigOperators.Fin
import Mathlib.Algebra.BigOperators.Group.Finset.Basic
import Mathlib.Algebra.Order.BigOperators.Ring.Finset
import Mathlib.Data.List.FinRange
/-
C62: Pearson and Kendall correlation (exact arithmetic).
-/
namespace TFR
open Finset

private theorem hbind {α β : Type} (x : α) (f : α → R β) : ((Except.ok x : R α) >>= f) = f x := rfl

namespace Spec
/-- The arithmetic mean. -/
noncomputable def mean (l : List ℝ) : ℝ := l.sum / l.length
/-- The sum of the products of the deviations from the means. -/
noncomputable def coSum (xs ys : List ℝ) : ℝ := ((xs.zip ys).map fun p => (p.1 - mean xs) * (p.2 - mean ys)).sum
/-- Pearson's correlation coefficient. -/
noncomputable def pearsonR (xs ys : List ℝ) : ℝ := coSum xs ys / (Real.sqrt (coSum xs xs) * Real.sqrt (coSum ys ys))
/-- The coefficient as handed to the inverse hyperbolic tangent: moved to 1e-16 inside the interval when it is within 1e-6 of an end. -/
noncomputable def fisherArg (r : ℝ) : ℝ :=
  if r ≤ -1 + 1 / 10 ^ 6 then -1 + 1 / 10 ^ 16 else if 1 - 1 / 10 ^ 6 ≤ r then 1 - 1 / 10 ^ 16 else r
end Spec
open Spec

theorem zip_sum_swap (xs ys : List ℝ) (a b : ℝ) :
    ((xs.zip ys).map fun p => (p.1 - a) * (p.2 - b)).sum = ((ys.zip xs).map fun p => (p.1 - b) * (p.2 - a)).sum := by
  induction xs generalizing ys with
  | nil => simp
  | cons x xs ih =>
    cases ys with
    | nil => simp
    | cons y ys => simp [ih, mul_comm]

theorem zip_self_sum (xs : List ℝ) (f : ℝ × ℝ → ℝ) : ((xs.zip xs).map f).sum = (xs.map fun x => f (x, x)).sum := by
  induction xs with
  | nil => simp
  | cons x xs ih => simp [ih]

theorem zip_fst_sum {β : Type} (xs : List ℝ) (ys : List β) (h : xs.length = ys.length) (f : ℝ → ℝ) :
    ((xs.zip ys).map fun p => f p.1).sum = (xs.map f).sum := by
  induction xs generalizing ys with
  | nil => simp
  | cons x xs ih =>
    cases ys with
    | nil => simp at h
    | cons y ys => simp [ih ys (by simpa using h)]

theorem zip_snd_sum {β : Type} (xs : List β) (ys : List ℝ) (h : xs.length = ys.length) (f : ℝ → ℝ) :
    ((xs.zip ys).map fun p => f p.2).sum = (ys.map f).sum := by
  induction xs generalizing ys with
  | nil =>
    cases ys with
    | nil => simp
    | cons y ys => simp at h
  | cons x xs ih =>
    cases ys with
    | nil => simp at h
    | cons y ys => simp [ih ys (by simpa using h)]

theorem coSum_comm (xs ys : List ℝ) : coSum xs ys = coSum ys xs := zip_sum_swap xs ys _ _

theorem coSum_self (xs : List ℝ) : coSum xs xs = (xs.map fun x => (x - mean xs) ^ 2).sum := by
  unfold coSum
  rw [zip_self_sum]
  congr 1
  apply List.map_congr_left
  intro x _
  ring

theorem coSum_self_nonneg (xs : List ℝ) : 0 ≤ coSum xs xs := by
  rw [coSum_self]
  apply List.sum_nonneg
  intro y hy
  obtain ⟨x, _, rfl⟩ := List.mem_map.1 hy
  positivity

/-- Cauchy-Schwarz for a list of pairs. -/
private theorem list_cs (l : List (ℝ × ℝ)) (f g : ℝ × ℝ → ℝ) :
    (l.map fun p => f p * g p).sum ^ 2 ≤ (l.map fun p => f p ^ 2).sum * (l.map fun p => g p ^ 2).sum := by
  have key : ∀ h : ℝ × ℝ → ℝ, (l.map h).sum = ∑ i : Fin l.length, h (l[i]) := by
    intro h
    rw [← List.sum_ofFn]
    congr 1
    exact (List.ofFn_getElem_eq_map l h).symm
  rw [key, key, key]
  exact sum_mul_sq_le_sq_mul_sq univ (fun i => f l[i]) (fun i => g l[i])

theorem coSum_sq_le (xs ys : List ℝ) (h : xs.length = ys.length) : coSum xs ys ^ 2 ≤ coSum xs xs * coSum ys ys := by
  have := list_cs (xs.zip ys) (fun p => p.1 - mean xs) (fun p => p.2 - mean ys)
  rw [zip_fst_sum xs ys h (fun x => (x - mean xs) ^ 2), zip_snd_sum xs ys h (fun x => (x - mean ys) ^ 2), ← coSum_self,
    ← coSum_self] at this
  exact this

/-- C62. Pearson's coefficient lies in [-1,1] for all data, is symmetric, and is 1 for identical non-constant data. -/
theorem C62_pearson_range (xs ys : List ℝ) (h : xs.length = ys.length) :
    -1 ≤ pearsonR xs ys ∧ pearsonR xs ys ≤ 1 ∧ pearsonR xs ys = pearsonR ys xs ∧ (coSum xs xs ≠ 0 → pearsonR xs xs = 1) := by
  have h0 := coSum_self_nonneg xs
  have h1 := coSum_self_nonneg ys
  have habs : |coSum xs ys| ≤ Real.sqrt (coSum xs xs) * Real.sqrt (coSum ys ys) := by
    rw [← Real.sqrt_mul h0]
    exact Real.abs_le_sqrt (coSum_sq_le xs ys h)
  have hab : |pearsonR xs ys| ≤ 1 := by
    unfold pearsonR
    rw [abs_div, abs_of_nonneg (mul_nonneg (Real.sqrt_nonneg (coSum xs xs)) (Real.sqrt_nonneg (coSum ys ys)))]
    exact div_le_one_of_le₀ habs (by positivity)
  refine ⟨(abs_le.1 hab).1, (abs_le.1 hab).2, ?_, ?_⟩
  · unfold pearsonR
    rw [coSum_comm xs ys, mul_comm]
  · intro hne
    unfold pearsonR
    rw [Real.mul_self_sqrt h0, div_self hne]

private theorem fold_means (l : List (ℝ × ℝ)) (a : ℝ × ℝ) :
    l.foldl (fun (a : ℝ × ℝ) p => (a.1 + p.1, a.2 + p.2)) a = (a.1 + (l.map fun p => p.1).sum, a.2 + (l.map fun p => p.2).sum) := by
  induction l generalizing a with
  | nil => simp
  | cons p l ih => rw [List.foldl_cons, ih]; simp [add_assoc]

private theorem fold_devs (l : List (ℝ × ℝ)) (xm ym : ℝ) (a : ℝ × ℝ × ℝ) :
    l.foldl (fun (a : ℝ × ℝ × ℝ) p =>
      let xDev := p.1 - xm
      let yDev := p.2 - ym
      (a.1 + xDev * xDev, a.2.1 + yDev * yDev, a.2.2 + xDev * yDev)) a =
    (a.1 + (l.map fun p => (p.1 - xm) ^ 2).sum, a.2.1 + (l.map fun p => (p.2 - ym) ^ 2).sum,
      a.2.2 + (l.map fun p => (p.1 - xm) * (p.2 - ym)).sum) := by
  induction l generalizing a with
  | nil => simp
  | cons p l ih =>
    rw [List.foldl_cons, ih]
    simp only [List.map_cons, List.sum_cons, Prod.mk.injEq]
    refine ⟨?_, ?_, ?_⟩ <;> ring

private theorem fisher_eq (r : ℝ) (h0 : -1 ≤ r) (h1 : r ≤ 1) : fishersTransformationSafe r = Real.artanh (fisherArg r) := by
  unfold fishersTransformationSafe fisherArg
  dsimp only
  have e1 : (isNearR r (-1) = true) ↔ r ≤ -1 + 1 / 10 ^ 6 := by
    rw [isNearR_iff, abs_of_nonneg (by linarith)]
    constructor <;> intro h <;> linarith
  have e2 : (isNearR r 1 = true) ↔ 1 - 1 / 10 ^ 6 ≤ r := by
    rw [isNearR_iff, abs_of_nonpos (by linarith)]
    constructor <;> intro h <;> linarith
  simp only [e1, e2]

/-- C62. `pearson_correlation_stats` on two vectors of the same length `n`: nothing for `n < 3`; z-score 0 with p-value 1 when a
sum of squared deviations is at most 1e-6; otherwise the z-score is `artanh(r) √((n-3)/adj)` with `r` Pearson's coefficient
(moved inside (-1,1) at the ends) and the p-value is that of the z-score. -/
theorem C62_pearson (xs ys : List ℝ) (adj : ℝ) (h : xs.length = ys.length) :
    (xs.length < 3 → pearsonStats xs ys adj = .ok none) ∧
    (3 ≤ xs.length → ∃ s, pearsonStats xs ys adj = .ok (some s) ∧ s.type = .zScore ∧ s.df = xs.length ∧
      (coSum xs xs ≤ 1 / 10 ^ 6 ∨ coSum ys ys ≤ 1 / 10 ^ 6 → s.value = 0 ∧ s.pValue = 1) ∧
      (1 / 10 ^ 6 < coSum xs xs → 1 / 10 ^ 6 < coSum ys ys →
        s.value = Real.artanh (fisherArg (pearsonR xs ys)) * Real.sqrt (((xs.length : ℝ) - 3) / adj) ∧
        s.pValue = normalTwoTailedCdf s.value)) := by
  constructor
  · intro hlt
    unfold pearsonStats
    dsimp only
    rw [if_pos hlt]
  · intro hge
    have hm1 : (0 + ((xs.zip ys).map fun p => p.1).sum) / (xs.length : ℝ) = mean xs := by
      rw [zero_add, zip_fst_sum xs ys h (fun x => x)]; simp [mean]
    have hm2 : (0 + ((xs.zip ys).map fun p => p.2).sum) / (xs.length : ℝ) = mean ys := by
      rw [zero_add, zip_snd_sum xs ys h (fun x => x)]; simp [mean, h]
    have hs1 : 0 + ((xs.zip ys).map fun p => (p.1 - mean xs) ^ 2).sum = coSum xs xs := by
      rw [zero_add, coSum_self, zip_fst_sum xs ys h (fun x => (x - mean xs) ^ 2)]
    have hs2 : 0 + ((xs.zip ys).map fun p => (p.2 - mean ys) ^ 2).sum = coSum ys ys := by
      rw [zero_add, coSum_self, zip_snd_sum xs ys h (fun x => (x - mean ys) ^ 2)]
    have hs3 : 0 + ((xs.zip ys).map fun p => (p.1 - mean xs) * (p.2 - mean ys)).sum = coSum xs ys := by
      rw [zero_add]; rfl
    have n1 : (isNearR (coSum xs xs) 0 = true) ↔ coSum xs xs ≤ 1 / 10 ^ 6 := by
      rw [isNearR_iff, sub_zero, abs_of_nonneg (coSum_self_nonneg xs)]
    have n2 : (isNearR (coSum ys ys) 0 = true) ↔ coSum ys ys ≤ 1 / 10 ^ 6 := by
      rw [isNearR_iff, sub_zero, abs_of_nonneg (coSum_self_nonneg ys)]
    unfold pearsonStats
    dsimp only
    rw [if_neg (by omega), if_neg (by omega), fold_means]
    dsimp only
    rw [hm1, hm2, fold_devs]
    dsimp only
    rw [hs1, hs2, hs3]
    simp only [n1, n2]
    by_cases hv : coSum xs xs ≤ 1 / 10 ^ 6 ∨ coSum ys ys ≤ 1 / 10 ^ 6
    · rw [if_pos hv]
      refine ⟨_, rfl, rfl, rfl, fun _ => ⟨rfl, rfl⟩, ?_⟩
      intro a b
      rcases hv with hv | hv <;> linarith
    · rw [if_neg hv]
      obtain ⟨hr0, hr1, -, -⟩ := C62_pearson_range xs ys h
      have hadj : adjustCorrelation (coSum xs ys / (Real.sqrt (coSum xs xs) * Real.sqrt (coSum ys ys))) = pearsonR xs ys := by
        unfold adjustCorrelation
        rw [if_pos ⟨hr0, hr1⟩]; rfl
      rw [hadj, fisher_eq _ hr0 hr1]
      refine ⟨_, rfl, rfl, rfl, fun h' => absurd h' hv, ?_⟩
      intro _ _
      refine ⟨?_, rfl⟩
      dsimp only
      rw [Nat.cast_sub hge]; norm_num

/-- C62. `pearson_correlation_stats` is symmetric in its two data vectors. -/
theorem C62_pearson_symm (xs ys : List ℝ) (adj : ℝ) (h : xs.length = ys.length) : pearsonStats xs ys adj = pearsonStats ys xs adj := by
  obtain ⟨a1, a2⟩ := C62_pearson xs ys adj h
  obtain ⟨b1, b2⟩ := C62_pearson ys xs adj h.symm
  by_cases hlt : xs.length < 3
  · rw [a1 hlt, b1 (by omega)]
  · obtain ⟨s, hs, t1, d1, z1, v1⟩ := a2 (by omega)
    obtain ⟨s', hs', t2, d2, z2, v2⟩ := b2 (by omega)
    rw [hs, hs']
    congr 2
    obtain ⟨ty, va, pv, df⟩ := s
    obtain ⟨ty', va', pv', df'⟩ := s'
    simp only at t1 t2 d1 d2 z1 z2 v1 v2
    subst t1 t2 d1 d2
    by_cases hx : coSum xs xs ≤ 1 / 10 ^ 6 ∨ coSum ys ys ≤ 1 / 10 ^ 6
    · obtain ⟨rfl, rfl⟩ := z1 hx
      obtain ⟨rfl, rfl⟩ := z2 hx.symm
      rw [h]
    · rw [not_or, not_le, not_le] at hx
      obtain ⟨e1, e2⟩ := v1 hx.1 hx.2
      obtain ⟨e3, e4⟩ := v2 hx.2 hx.1
      have hv : va = va' := by rw [e1, e3, (C62_pearson_range xs ys h).2.2.1, h]
      rw [e2, e4, hv, h]

/-- C62. For identical data which is not (nearly) constant the z-score is `artanh(1 - 1e-16) √((n-3)/adj)`. -/
theorem C62_pearson_identical (xs : List ℝ) (adj : ℝ) (h3 : 3 ≤ xs.length) (hv : 1 / 10 ^ 6 < coSum xs xs) :
    ∃ s, pearsonStats xs xs adj = .ok (some s) ∧ s.value = Real.artanh (1 - 1 / 10 ^ 16) * Real.sqrt (((xs.length : ℝ) - 3) / adj) := by
  obtain ⟨s, hs, -, -, -, v⟩ := (C62_pearson xs xs adj rfl).2 h3
  refine ⟨s, hs, ?_⟩
  have hr : pearsonR xs xs = 1 := (C62_pearson_range xs xs rfl).2.2.2 (by
    intro h0; rw [h0] at hv; norm_num at hv)
  rw [(v hv hv).1, hr]
  unfold fisherArg
  rw [if_neg (by norm_num), if_pos (by norm_num)]

/-- C62. The argument of the inverse hyperbolic tangent is strictly inside (-1,1) for every coefficient in [-1,1], and also for
the double 1 - 1e-16: it rounds to 1 - 2^-53, not to 1. -/
theorem C62_fisher_finite (r : ℝ) (h0 : -1 ≤ r) (h1 : r ≤ 1) :
    -1 < fisherArg r ∧ fisherArg r < 1 ∧ Fl.sub 1 (Fl.rnd (1 / 10 ^ 16)) = 1 - 1 / 2 ^ 53 := by
  refine ⟨?_, ?_, by decide +kernel⟩
  all_goals
    unfold fisherArg
    by_cases a : r ≤ -1 + 1 / 10 ^ 6
    · rw [if_pos a]; norm_num
    · rw [if_neg a]
      by_cases b : 1 - 1 / 10 ^ 6 ≤ r
      · rw [if_pos b]; norm_num
      · rw [if_neg b]
        norm_num at a b ⊢
        linarith

/-- C62. A second vector shorter than the first is read past its end. -/
theorem C62_pearson_short (xs ys : List ℝ) (adj : ℝ) (h3 : 3 ≤ xs.length) (h : ys.length < xs.length) :
    pearsonStats xs ys adj = .error .oobIndex := by
  unfold pearsonStats
  dsimp only
  rw [if_neg (by omega), if_pos h]

/-- C62, non-vacuity: 0, 0, 1, 1 against 0, 1, 0, 1 are uncorrelated: z-score 0. -/
example : ∃ s, pearsonStats [0, 0, 1, 1] [0, 1, 0, 1] 1 = .ok (some s) ∧ s.value = 0 ∧ s.df = 4 := by
  obtain ⟨s, hs, -, hdf, -, v⟩ := (C62_pearson [0, 0, 1, 1] [0, 1, 0, 1] 1 rfl).2 (by simp)
  refine ⟨s, hs, ?_, by rw [hdf]; norm_num⟩
  have c1 : coSum [0, 0, 1, 1] [0, 0, 1, 1] = 1 := by simp [coSum, mean]; norm_num
  have c2 : coSum [0, 1, 0, 1] [0, 1, 0, 1] = 1 := by simp [coSum, mean]; norm_num
  have c3 : coSum [0, 0, 1, 1] [0, 1, 0, 1] = 0 := by simp [coSum, mean]; norm_num
  rw [(v (by rw [c1]; norm_num) (by rw [c2]; norm_num)).1]
  have : pearsonR [0, 0, 1, 1] [0, 1, 0, 1] = 0 := by unfold pearsonR; rw [c3]; simp
  rw [this]
  have : fisherArg 0 = 0 := by unfold fisherArg; rw [if_neg (by norm_num), if_neg (by norm_num)]
  rw [this, Real.artanh_zero, zero_mul]

/-! ### Kendall -/

/-- The pairs the loops visit. -/
private def pairList (n : Nat) : List (Nat × Nat) :=
  (List.range (n - 1)).flatMap fun j => (List.range' (j + 1) (n - (j + 1))).map fun k => (j, k)

private theorem mem_pairList (n : Nat) (p : Nat × Nat) : p ∈ pairList n ↔ p.1 < p.2 ∧ p.2 < n := by
  obtain ⟨j, k⟩ := p
  simp only [pairList, List.mem_flatMap, List.mem_range, List.mem_map, List.mem_range'_1, Prod.mk.injEq]
  constructor
  · rintro ⟨a, ha, b, hb, rfl, rfl⟩; omega
  · intro h; exact ⟨j, by omega, k, by omega, rfl, rfl⟩

private theorem nodup_pairList (n : Nat) : (pairList n).Nodup := by
  unfold pairList
  rw [List.nodup_flatMap]
  constructor
  · intro j _
    apply List.Nodup.map
    · intro a b h; simpa using h
    · exact List.nodup_range'
  · apply List.Pairwise.imp _ List.nodup_range
    intro a b hab
    simp only [Function.onFun, List.Disjoint, List.mem_map]
    rintro p ⟨k, _, rfl⟩ ⟨k', _, h⟩
    rw [Prod.mk.injEq] at h
    exact hab h.1.symm

private theorem kendall_fold (x y : Nat → ℝ) (l : List (Nat × Nat)) (st : KendallState) :
    l.foldl (fun st p => kendallStep x y st p.1 p.2) st =
      ⟨st.n1 + l.countP (fun p => decide (x p.1 ≠ x p.2)), st.n2 + l.countP (fun p => decide (y p.1 ≠ y p.2)),
       st.is + l.countP (fun p => decide (0 < (x p.1 - x p.2) * (y p.1 - y p.2)))
        - l.countP (fun p => decide ((x p.1 - x p.2) * (y p.1 - y p.2) < 0))⟩ := by
  induction l generalizing st with
  | nil => simp
  | cons p l ih =>
    rw [List.foldl_cons, ih]
    unfold kendallStep
    dsimp only
    simp only [List.countP_cons, decide_eq_true_eq]
    by_cases hxy : (x p.1 - x p.2) * (y p.1 - y p.2) = 0
    · rw [if_neg (fun h => h hxy), hxy]
      have e1 : (x p.1 - x p.2 ≠ 0) ↔ (x p.1 ≠ x p.2) := by rw [sub_ne_zero]
      have e2 : (y p.1 - y p.2 ≠ 0) ↔ (y p.1 ≠ y p.2) := by rw [sub_ne_zero]
      simp only [e1, e2, lt_irrefl, if_false, KendallState.mk.injEq]
      refine ⟨?_, ?_, ?_⟩
      · split_ifs <;> omega
      · split_ifs <;> omega
      · push_cast; ring
    · rw [if_pos hxy]
      have h1 : x p.1 ≠ x p.2 := by
        intro h; rw [h] at hxy; simp at hxy
      have h2 : y p.1 ≠ y p.2 := by
        intro h; rw [h] at hxy; simp at hxy
      rw [if_pos h1, if_pos h2]
      simp only [KendallState.mk.injEq]
      refine ⟨by omega, by omega, ?_⟩
      rcases lt_or_gt_of_ne hxy with h | h
      · rw [if_neg (not_lt.2 h.le), if_neg (not_lt.2 h.le), if_pos h]; push_cast; ring
      · rw [if_pos h, if_pos h, if_neg (not_lt.2 h.le)]; push_cast; ring

open Classical in
/-- The number of pairs `j < k < n` with a property. -/
noncomputable def Spec.pairCount (n : Nat) (P : Nat → Nat → Prop) : Nat :=
  (((range n) ×ˢ (range n)).filter fun p => p.1 < p.2 ∧ P p.1 p.2).card

private theorem countP_pairs (n : Nat) (P : Nat → Nat → Prop) [∀ p : Nat × Nat, Decidable (P p.1 p.2)] :
    (pairList n).countP (fun p => decide (P p.1 p.2)) = pairCount n P := by
  rw [List.countP_eq_length_filter, ← List.toFinset_card_of_nodup ((nodup_pairList n).filter _)]
  unfold pairCount
  congr 1
  ext p
  simp only [List.mem_toFinset, List.mem_filter, mem_pairList, decide_eq_true_eq, mem_filter, mem_product, mem_range]
  constructor
  · rintro ⟨⟨a, b⟩, c⟩; exact ⟨⟨by omega, b⟩, a, c⟩
  · rintro ⟨⟨a, b⟩, c, d⟩; exact ⟨⟨c, b⟩, d⟩

private theorem pairCount_mono (n : Nat) (P Q : Nat → Nat → Prop) (h : ∀ j k, P j k → Q j k) : pairCount n P ≤ pairCount n Q := by
  classical
  unfold pairCount
  apply card_le_card
  intro p hp
  rw [mem_filter] at hp ⊢
  exact ⟨hp.1, hp.2.1, h _ _ hp.2.2⟩

/-- Kendall's coefficient (tau-b): concordant minus discordant pairs over the geometric mean of the numbers of pairs not tied in
each vector. -/
noncomputable def Spec.kendallTau (n : Nat) (x y : Nat → ℝ) : ℝ :=
  ((pairCount n (fun j k => 0 < (x j - x k) * (y j - y k)) : ℝ) - (pairCount n (fun j k => (x j - x k) * (y j - y k) < 0) : ℝ)) /
    (Real.sqrt (pairCount n (fun j k => x j ≠ x k)) * Real.sqrt (pairCount n (fun j k => y j ≠ y k)))

private theorem sum_pairs_le (n : Nat) (x y : Nat → ℝ) :
    pairCount n (fun j k => 0 < (x j - x k) * (y j - y k)) + pairCount n (fun j k => (x j - x k) * (y j - y k) < 0) ≤
      pairCount n (fun j k => x j ≠ x k) := by
  classical
  have hd : Disjoint (((range n) ×ˢ (range n)).filter fun p => p.1 < p.2 ∧ 0 < (x p.1 - x p.2) * (y p.1 - y p.2))
      (((range n) ×ˢ (range n)).filter fun p => p.1 < p.2 ∧ (x p.1 - x p.2) * (y p.1 - y p.2) < 0) := by
    rw [disjoint_left]
    intro p h1 h2
    rw [mem_filter] at h1 h2
    exact lt_asymm h1.2.2 h2.2.2
  unfold pairCount
  have h2 := card_union_of_disjoint hd
  have h3 : ((((range n) ×ˢ (range n)).filter fun p => p.1 < p.2 ∧ 0 < (x p.1 - x p.2) * (y p.1 - y p.2)) ∪
      (((range n) ×ˢ (range n)).filter fun p => p.1 < p.2 ∧ (x p.1 - x p.2) * (y p.1 - y p.2) < 0)).card ≤
      (((range n) ×ˢ (range n)).filter fun p => p.1 < p.2 ∧ x p.1 ≠ x p.2).card := by
    apply card_le_card
    intro p hp
    rw [mem_union, mem_filter, mem_filter] at hp
    rw [mem_filter]
    rcases hp with hp | hp
    · refine ⟨hp.1, hp.2.1, ?_⟩
      intro h; rw [h] at hp; simp at hp
    · refine ⟨hp.1, hp.2.1, ?_⟩
      intro h; rw [h] at hp; simp at hp
  rw [h2] at h3
  convert h3

theorem kendallTau_comm (n : Nat) (x y : Nat → ℝ) : kendallTau n x y = kendallTau n y x := by
  unfold kendallTau
  rw [mul_comm (Real.sqrt _)]
  have h : ∀ j k, (x j - x k) * (y j - y k) = (y j - y k) * (x j - x k) := fun j k => mul_comm _ _
  simp only [h]

/-- C62. Kendall's coefficient lies in [-1,1], is symmetric, and is 1 for identical data with at least one untied pair. -/
theorem C62_kendall_range (n : Nat) (x y : Nat → ℝ) : -1 ≤ kendallTau n x y ∧ kendallTau n x y ≤ 1 ∧
    kendallTau n x y = kendallTau n y x ∧ (0 < pairCount n (fun j k => x j ≠ x k) → kendallTau n x x = 1) := by
  have h1 := sum_pairs_le n x y
  have h2 : pairCount n (fun j k => 0 < (x j - x k) * (y j - y k)) + pairCount n (fun j k => (x j - x k) * (y j - y k) < 0) ≤
      pairCount n (fun j k => y j ≠ y k) := by
    have := sum_pairs_le n y x
    have h : ∀ j k, (x j - x k) * (y j - y k) = (y j - y k) * (x j - x k) := fun j k => mul_comm _ _
    simp only [h]
    exact this
  have hab : |kendallTau n x y| ≤ 1 := by
    unfold kendallTau
    generalize pairCount n (fun j k => 0 < (x j - x k) * (y j - y k)) = C at h1 h2
    generalize pairCount n (fun j k => (x j - x k) * (y j - y k) < 0) = D at h1 h2
    generalize pairCount n (fun j k => x j ≠ x k) = n1 at h1
    generalize pairCount n (fun j k => y j ≠ y k) = n2 at h2
    rw [abs_div, abs_of_nonneg (mul_nonneg (Real.sqrt_nonneg _) (Real.sqrt_nonneg _))]
    apply div_le_one_of_le₀ _ (by positivity)
    have hCD : (0 : ℝ) ≤ (C : ℝ) + D := by positivity
    have e1 : (C : ℝ) + D ≤ n1 := by exact_mod_cast h1
    have e2 : (C : ℝ) + D ≤ n2 := by exact_mod_cast h2
    calc |(C : ℝ) - D| ≤ (C : ℝ) + D := by
          rw [abs_le]
          have : (0 : ℝ) ≤ C := by positivity
          have : (0 : ℝ) ≤ D := by positivity
          constructor <;> linarith
      _ = Real.sqrt ((C : ℝ) + D) * Real.sqrt ((C : ℝ) + D) := (Real.mul_self_sqrt hCD).symm
      _ ≤ Real.sqrt n1 * Real.sqrt n2 :=
          mul_le_mul (Real.sqrt_le_sqrt e1) (Real.sqrt_le_sqrt e2) (Real.sqrt_nonneg _) (Real.sqrt_nonneg _)
  refine ⟨(abs_le.1 hab).1, (abs_le.1 hab).2, kendallTau_comm n x y, ?_⟩
  intro hpos
  unfold kendallTau
  have e1 : pairCount n (fun j k => 0 < (x j - x k) * (x j - x k)) = pairCount n (fun j k => x j ≠ x k) := by
    apply le_antisymm
    · apply pairCount_mono
      intro j k h heq; rw [heq] at h; simp at h
    · apply pairCount_mono
      intro j k h
      exact mul_self_pos.2 (sub_ne_zero.2 h)
  have e2 : pairCount n (fun j k => (x j - x k) * (x j - x k) < 0) = 0 := by
    unfold pairCount
    rw [card_eq_zero, filter_eq_empty_iff]
    intro p _ h
    have := mul_self_nonneg (x p.1 - x p.2)
    linarith [h.2]
  rw [e1, e2, Real.mul_self_sqrt (by positivity)]
  have : (0 : ℝ) < (pairCount n (fun j k => x j ≠ x k) : ℝ) := by exact_mod_cast hpos
  rw [Nat.cast_zero, sub_zero, div_self this.ne']

/-- C62. `kendall_correlation_stats` on two vectors of the same length `n`: nothing for `n < 2` or when all pairs of one vector are
tied; otherwise the z-score is Kendall's tau-b divided by the standard deviation `√((4n+10)/(9n(n-1)))`. -/
theorem C62_kendall (xs ys : List ℝ) (h : xs.length = ys.length) :
    (xs.length < 2 ∨ pairCount xs.length (fun j k => xs.getD j 0 ≠ xs.getD k 0) = 0 ∨
      pairCount xs.length (fun j k => ys.getD j 0 ≠ ys.getD k 0) = 0 → kendallStats xs ys = .ok none) ∧
    (2 ≤ xs.length → 0 < pairCount xs.length (fun j k => xs.getD j 0 ≠ xs.getD k 0) →
      0 < pairCount xs.length (fun j k => ys.getD j 0 ≠ ys.getD k 0) →
      ∃ s, kendallStats xs ys = .ok (some s) ∧ s.type = .zScore ∧ s.df = xs.length ∧
        s.value = kendallTau xs.length (fun i => xs.getD i 0) (fun i => ys.getD i 0) /
          Real.sqrt ((4 * (xs.length : ℝ) + 10) / (9 * xs.length * ((xs.length : ℝ) - 1))) ∧
        s.pValue = normalTwoTailedCdf s.value) := by
  classical
  by_cases hlt : xs.length < 2
  · refine ⟨fun _ => ?_, fun h2 => by omega⟩
    unfold kendallStats
    dsimp only
    rw [if_pos hlt]
  · have hfold : (List.range (xs.length - 1)).foldl (fun st j =>
        (List.range' (j + 1) (xs.length - (j + 1))).foldl
          (fun st k => kendallStep (fun i => xs.getD i 0) (fun i => ys.getD i 0) st j k) st) ⟨0, 0, 0⟩ =
        (⟨pairCount xs.length (fun j k => xs.getD j 0 ≠ xs.getD k 0), pairCount xs.length (fun j k => ys.getD j 0 ≠ ys.getD k 0),
          (pairCount xs.length (fun j k => 0 < (xs.getD j 0 - xs.getD k 0) * (ys.getD j 0 - ys.getD k 0)) : ℤ) -
          (pairCount xs.length (fun j k => (xs.getD j 0 - xs.getD k 0) * (ys.getD j 0 - ys.getD k 0) < 0) : ℤ)⟩ : KendallState) := by
      have e : ∀ st : KendallState, (List.range (xs.length - 1)).foldl (fun st j =>
          (List.range' (j + 1) (xs.length - (j + 1))).foldl
          (fun st k => kendallStep (fun i => xs.getD i 0) (fun i => ys.getD i 0) st j k) st) st =
          (pairList xs.length).foldl (fun st p => kendallStep (fun i => xs.getD i 0) (fun i => ys.getD i 0) st p.1 p.2) st := by
        intro st
        unfold pairList
        rw [List.foldl_flatMap]
        congr 1
        funext st j
        rw [List.foldl_map]
      rw [e, kendall_fold]
      have c1 := countP_pairs xs.length (fun j k => xs.getD j 0 ≠ xs.getD k 0)
      have c2 := countP_pairs xs.length (fun j k => ys.getD j 0 ≠ ys.getD k 0)
      have c3 := countP_pairs xs.length (fun j k => 0 < (xs.getD j 0 - xs.getD k 0) * (ys.getD j 0 - ys.getD k 0))
      have c4 := countP_pairs xs.length (fun j k => (xs.getD j 0 - xs.getD k 0) * (ys.getD j 0 - ys.getD k 0) < 0)
      simp only [zero_add, KendallState.mk.injEq]
      refine ⟨?_, ?_, ?_⟩
      · rw [← c1]
      · rw [← c2]
      · rw [← c3, ← c4]
    have hmodel : kendallStats xs ys = (if pairCount xs.length (fun j k => xs.getD j 0 ≠ xs.getD k 0) = 0 ∨
        pairCount xs.length (fun j k => ys.getD j 0 ≠ ys.getD k 0) = 0 then .ok none
        else .ok (some ⟨.zScore, kendallTau xs.length (fun i => xs.getD i 0) (fun i => ys.getD i 0) /
          Real.sqrt ((4 * (xs.length : ℝ) + 10) / (9 * xs.length * ((xs.length : ℝ) - 1))),
          normalTwoTailedCdf (kendallTau xs.length (fun i => xs.getD i 0) (fun i => ys.getD i 0) /
          Real.sqrt ((4 * (xs.length : ℝ) + 10) / (9 * xs.length * ((xs.length : ℝ) - 1)))), (xs.length : ℝ)⟩)) := by
      unfold kendallStats
      dsimp only
      rw [if_neg hlt, if_neg (by omega), hfold]
      dsimp only
      obtain ⟨r0, r1, -, -⟩ := C62_kendall_range xs.length (fun i => xs.getD i 0) (fun i => ys.getD i 0)
      have hadj : adjustCorrelation ((((pairCount xs.length (fun j k => 0 < (xs.getD j 0 - xs.getD k 0) * (ys.getD j 0 - ys.getD k 0)) : ℤ) -
          (pairCount xs.length (fun j k => (xs.getD j 0 - xs.getD k 0) * (ys.getD j 0 - ys.getD k 0) < 0) : ℤ) : ℤ) : ℝ) /
          (Real.sqrt (pairCount xs.length (fun j k => xs.getD j 0 ≠ xs.getD k 0)) *
           Real.sqrt (pairCount xs.length (fun j k => ys.getD j 0 ≠ ys.getD k 0)))) =
          kendallTau xs.length (fun i => xs.getD i 0) (fun i => ys.getD i 0) := by
        push_cast
        unfold adjustCorrelation
        exact if_pos ⟨r0, r1⟩
      rw [hadj]
    rw [hmodel]
    constructor
    · rintro (h0 | h0)
      · exact absurd h0 hlt
      · rw [if_pos h0]
    · intro _ hp1 hp2
      rw [if_neg (by omega)]
      exact ⟨_, rfl, rfl, rfl, rfl, rfl⟩

/-- C62, non-vacuity: 1, 2 against 5, 3: the only pair is discordant. -/
example : ∃ s, kendallStats [1, 2] [5, 3] = .ok (some s) ∧ s.value = -1 / Real.sqrt ((4 * 2 + 10) / (9 * 2 * (2 - 1))) := by
  have hp : ∀ P : Nat → Nat → Prop, P 0 1 → pairCount 2 P = 1 := by
    intro P h
    unfold pairCount
    rw [card_eq_one]
    refine ⟨(0, 1), ?_⟩
    ext ⟨a, b⟩
    simp only [mem_filter, mem_product, mem_range, mem_singleton, Prod.mk.injEq]
    constructor
    · rintro ⟨⟨h1, h2⟩, h3, -⟩; omega
    · rintro ⟨rfl, rfl⟩; exact ⟨⟨by omega, by omega⟩, by omega, h⟩
  have hz : ∀ P : Nat → Nat → Prop, ¬ P 0 1 → pairCount 2 P = 0 := by
    intro P h
    classical
    unfold pairCount
    rw [card_eq_zero, filter_eq_empty_iff]
    rintro ⟨a, b⟩ hab ⟨h1, h2⟩
    simp only [mem_product, mem_range] at hab
    simp only at h1 h2
    obtain ⟨rfl, rfl⟩ : a = 0 ∧ b = 1 := by omega
    exact h h2
  have p1 : pairCount 2 (fun j k => ([1, 2] : List ℝ).getD j 0 ≠ ([1, 2] : List ℝ).getD k 0) = 1 := hp _ (by simp)
  have p2 : pairCount 2 (fun j k => ([5, 3] : List ℝ).getD j 0 ≠ ([5, 3] : List ℝ).getD k 0) = 1 := hp _ (by simp)
  obtain ⟨s, hs, -, -, hv, -⟩ := (C62_kendall [1, 2] [5, 3] rfl).2 (by simp)
    (lt_of_lt_of_eq Nat.one_pos p1.symm) (lt_of_lt_of_eq Nat.one_pos p2.symm)
  refine ⟨s, hs, ?_⟩
  rw [hv]
  have ht : kendallTau 2 (fun i => ([1, 2] : List ℝ).getD i 0) (fun i => ([5, 3] : List ℝ).getD i 0) = -1 := by
    unfold kendallTau
    rw [p1, p2, hz _ (by simp; norm_num), hp _ (by simp; norm_num)]
    simp
  simp only [List.length_cons, List.length_nil]
  norm_num at ht ⊢
  rw [ht]

/-- C62. The guard against rounding: a computed coefficient in [-1,1] is used as it is, one that is off by at most 1e-6 becomes the
nearest end, and only one further outside stays outside. -/
theorem C62_adjust (d : ℝ) :
    (-1 ≤ d → d ≤ 1 → adjustCorrelation d = d) ∧
    (1 < d → d ≤ 1 + 1 / 10 ^ 6 → adjustCorrelation d = 1) ∧
    (d < -1 → -1 - 1 / 10 ^ 6 ≤ d → adjustCorrelation d = -1) ∧
    (1 + 1 / 10 ^ 6 < |d| → adjustCorrelation d = d) := by
  have hn : ∀ a b : ℝ, isNearR a b = true ↔ |a - b| ≤ 1 / 10 ^ 6 := fun a b => isNearR_iff a b _
  have he : (1 : ℝ) / 10 ^ 6 = 0.000001 := by norm_num
  unfold adjustCorrelation
  rw [he] at hn ⊢
  refine ⟨fun h1 h2 => if_pos ⟨h1, h2⟩, fun h1 h2 => ?_, fun h1 h2 => ?_, fun h => ?_⟩
  · rw [if_neg (by intro h; linarith [h.2]), if_neg (by rw [hn, abs_le]; intro h; linarith [h.2]),
      if_pos (by rw [hn, abs_le]; constructor <;> linarith)]
  · rw [if_neg (by intro h; linarith [h.1]), if_pos (by rw [hn, abs_le]; constructor <;> linarith)]
  · rw [lt_abs] at h
    split
    · rfl
    · rw [if_neg, if_neg]
      · rw [hn, abs_le]; intro h'; rcases h with h | h <;> linarith [h'.1, h'.2]
      · rw [hn, abs_le]; intro h'; rcases h with h | h <;> linarith [h'.1, h'.2]

example : adjustCorrelation 1.0000001 = 1 := (C62_adjust 1.0000001).2.1 (by norm_num) (by norm_num)

end TFR
