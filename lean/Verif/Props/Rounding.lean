import Verif.Lemmas.Rounding
import Verif.Props.ChiSquare
import Verif.Props.Power
/-
C120. Rounding errors of the statistics computed in doubles.
-/
namespace TFR
open Fl

private theorem hbind {α β : Type} (x : α) (f : α → R β) : ((Except.ok x : R α) >>= f) = f x := rfl

private theorem term_near (o e : ℚ) (he : 0 < e) :
    Near 4 ((Fl.div (Fl.mul (Fl.sub o e) (Fl.sub o e)) e : ℚ) : ℝ) (((o : ℝ) - e) * ((o : ℝ) - e) / e) := by
  have h1 : Near 1 ((|Fl.sub o e| : ℚ) : ℝ) |(o : ℝ) - e| := by
    unfold Fl.sub; rw [abs_rnd]
    have := near_rnd (x := |o - e|) (abs_nonneg _)
    push_cast at this ⊢; exact this
  have h2 := h1.mul h1
  rw [abs_mul_abs_self] at h2
  have h3 : Near 2 ((Fl.sub o e * Fl.sub o e : ℚ) : ℝ) (((o : ℝ) - e) * ((o : ℝ) - e)) := by
    have : ((|Fl.sub o e| : ℚ) : ℝ) * ((|Fl.sub o e| : ℚ) : ℝ) = ((Fl.sub o e * Fl.sub o e : ℚ) : ℝ) := by
      rw [← Rat.cast_mul, abs_mul_abs_self]
    rwa [this] at h2
  have h4 := h3.rnd
  have he' : (0 : ℝ) < (e : ℝ) := by exact_mod_cast he
  have h5 := h4.div (Near.refl he'.le) he'
  have h6 : Near 3 ((Fl.mul (Fl.sub o e) (Fl.sub o e) / e : ℚ) : ℝ) (((o : ℝ) - e) * ((o : ℝ) - e) / e) := by
    push_cast; exact h5
  exact h6.rnd

/-- The loop of `chi2_stats`, chi2.h:47-53, in exact arithmetic. -/
private noncomputable def exactStep (observed expected : Nat → ℝ) (threshold : ℝ) (st : ℝ × ℝ) (i : Nat) : ℝ × ℝ :=
  let e := expected i
  if e ≤ threshold then st
  else
    let diff := observed i - e
    (st.1 + diff * diff / e, st.2 + 1)

private theorem exact_eq (cdf : ℝ → ℝ → ℝ) (n : Nat) (observed expected : Nat → ℝ) (threshold : ℝ) :
    chi2Stats cdf n observed expected threshold =
      let st := (List.range n).foldl (exactStep observed expected threshold) (0, 0)
      let df := max (st.2 - 1) 0
      if isNearR df 0 then none else some ⟨.chi2, st.1, cdf st.1 df, df⟩ := rfl

private theorem fold_near (observed expected : Nat → ℚ) (threshold : ℚ) (ht : 0 ≤ threshold) (n : Nat) (hn : n ≤ 2 ^ 53) :
    ∃ m ≤ n, (((List.range n).foldl (chi2StepFl observed expected threshold) (0, 0)).2 = m ∧
      ((List.range n).foldl (exactStep (fun i => observed i) (fun i => expected i) threshold) (0, 0)).2 = m) ∧
      Near (n + 4) ((((List.range n).foldl (chi2StepFl observed expected threshold) (0, 0)).1 : ℚ) : ℝ)
        ((List.range n).foldl (exactStep (fun i => observed i) (fun i => expected i) threshold) (0, 0)).1 := by
  induction n with
  | zero => exact ⟨0, le_rfl, by simp, by simpa using (Near.refl (x := 0) le_rfl).mono (by omega)⟩
  | succ n ih =>
    obtain ⟨m, hm, ⟨h1, h2⟩, h3⟩ := ih (by omega)
    rw [List.range_succ, List.foldl_append, List.foldl_append]
    set P := (List.range n).foldl (chi2StepFl observed expected threshold) (0, 0) with hP
    set Q := (List.range n).foldl (exactStep (fun i => observed i) (fun i => expected i) threshold) (0, 0) with hQ
    clear_value P Q
    simp only [List.foldl_cons, List.foldl_nil]
    by_cases he : expected n ≤ threshold
    · refine ⟨m, by omega, ?_, ?_⟩
      · unfold chi2StepFl exactStep
        rw [if_pos he, if_pos (show (expected n : ℝ) ≤ (threshold : ℝ) from Rat.cast_le.2 he)]
        exact ⟨h1, h2⟩
      · unfold chi2StepFl exactStep
        rw [if_pos he, if_pos (show (expected n : ℝ) ≤ (threshold : ℝ) from Rat.cast_le.2 he)]
        exact h3.mono (by omega)
    · have he' : ¬ ((expected n : ℝ) ≤ (threshold : ℝ)) := by exact_mod_cast he
      refine ⟨m + 1, by omega, ⟨?_, ?_⟩, ?_⟩
      · unfold chi2StepFl
        rw [if_neg he]
        show Fl.add P.2 1 = _
        rw [h1, Fl.add, show ((m : ℚ) + 1) = ((m + 1 : ℕ) : ℚ) by push_cast; ring, rnd_natCast (by omega)]
      · unfold exactStep
        rw [if_neg he']
        show Q.2 + 1 = _
        rw [h2]; push_cast; ring
      · unfold chi2StepFl exactStep
        rw [if_neg he, if_neg he']
        have ht' := (term_near (observed n) (expected n) (lt_of_le_of_lt ht (not_le.1 he))).mono (show 4 ≤ n + 4 by omega)
        have := h3.add ht'
        rw [← Rat.cast_add] at this
        have := this.rnd
        rw [show n + 1 + 4 = n + 4 + 1 by omega]
        exact this

private theorem near_zero_iff (m : ℕ) (hm : m ≤ 2 ^ 53) :
    (isNear (max (Fl.sub (m : ℚ) 1) 0) 0 (Fl.rnd (1 / 10 ^ 6)) = true ↔ m ≤ 1) ∧ max (Fl.sub (m : ℚ) 1) 0 = ((m - 1 : ℕ) : ℚ) ∧
    (isNearR (max ((m : ℝ) - 1) 0) 0 = true ↔ m ≤ 1) ∧ max ((m : ℝ) - 1) 0 = ((m - 1 : ℕ) : ℝ) := by
  have hr : Fl.rnd (1 / 10 ^ 6) < 1 := by
    have := abs_rnd_sub_le_rel (x := 1 / 10 ^ 6) (by norm_num)
    have := (abs_le.1 this).2
    norm_num at this ⊢; linarith
  have hr0 : 0 ≤ Fl.rnd (1 / 10 ^ 6) := rnd_nonneg (by norm_num)
  rcases Nat.eq_zero_or_pos m with h | h
  · subst h
    have e1 : max (Fl.sub ((0 : ℕ) : ℚ) 1) 0 = 0 := by
      unfold Fl.sub
      rw [show (((0 : ℕ) : ℚ) - 1) = -1 by norm_num, rnd_neg, rnd_one]; norm_num
    have e2 : max (((0 : ℕ) : ℝ) - 1) 0 = 0 := by norm_num
    rw [e1, e2]
    refine ⟨?_, by simp, ?_, by simp⟩
    · simp only [isNear, Fl.sub, sub_zero, rnd_zero, abs_zero, hr0, decide_true, zero_le]
    · simp [isNearR]
  · have e1 : max (Fl.sub (m : ℚ) 1) 0 = ((m - 1 : ℕ) : ℚ) := by
      unfold Fl.sub
      rw [show ((m : ℚ) - 1) = ((m - 1 : ℕ) : ℚ) by rw [Nat.cast_sub h]; simp, rnd_natCast (by omega)]
      exact max_eq_left (by positivity)
    have e2 : max ((m : ℝ) - 1) 0 = ((m - 1 : ℕ) : ℝ) := by
      rw [show ((m : ℝ) - 1) = ((m - 1 : ℕ) : ℝ) by rw [Nat.cast_sub h]; simp]
      exact max_eq_left (by positivity)
    rw [e1, e2]
    refine ⟨?_, rfl, ?_, rfl⟩
    · simp only [isNear, Fl.sub, sub_zero, decide_eq_true_eq]
      rw [rnd_natCast (by omega), abs_of_nonneg (by positivity)]
      constructor
      · intro hh
        have : ((m - 1 : ℕ) : ℚ) < 1 := lt_of_le_of_lt hh hr
        have : m - 1 < 1 := by exact_mod_cast this
        omega
      · intro hh
        have : m - 1 = 0 := by omega
        rw [this]; simpa using hr0
    · simp only [isNearR, sub_zero, decide_eq_true_eq]
      rw [abs_of_nonneg (by positivity)]
      constructor
      · intro hh
        have : ((m - 1 : ℕ) : ℝ) < 1 := lt_of_le_of_lt hh (by norm_num)
        have : m - 1 < 1 := by exact_mod_cast this
        omega
      · intro hh
        have : m - 1 = 0 := by omega
        rw [this]; simp

/-- C120. The chi-square statistic of n classes, computed in doubles from given observed and expected counts, has exactly the degrees of
freedom of exact arithmetic, is missing exactly if it would be, and has a relative error of at most (n+4)/2^51. -/
theorem C120_chi_square (cdf : ℝ → ℝ → ℝ) (n : Nat) (hn : n ≤ 2 ^ 51) (observed expected : Nat → ℚ) (threshold : ℚ) (ht : 0 ≤ threshold) :
    (chi2StatsFl n observed expected threshold = none ∧
      chi2Stats cdf n (fun i => (observed i : ℝ)) (fun i => (expected i : ℝ)) (threshold : ℝ) = none) ∨
    ∃ (X df : ℚ) (st : Statistic ℝ), chi2StatsFl n observed expected threshold = some (X, df) ∧
      chi2Stats cdf n (fun i => (observed i : ℝ)) (fun i => (expected i : ℝ)) (threshold : ℝ) = some st ∧ (df : ℝ) = st.df ∧ 0 ≤ st.value ∧
      |(X : ℝ) - st.value| ≤ st.value * ((n + 4 : ℕ) / 2 ^ 51) := by
  obtain ⟨m, hm, ⟨h1, h2⟩, h3⟩ := fold_near observed expected threshold ht n (by omega)
  obtain ⟨z1, z2, z3, z4⟩ := near_zero_iff m (by omega)
  rw [exact_eq]
  unfold chi2StatsFl
  simp only [h1, h2]
  by_cases hm1 : m ≤ 1
  · left
    rw [if_pos (z1.2 hm1), if_pos (z3.2 hm1)]
    exact ⟨rfl, rfl⟩
  · right
    rw [if_neg (fun h => hm1 (z1.1 h)), if_neg (fun h => hm1 (z3.1 h))]
    refine ⟨_, _, _, rfl, rfl, ?_, h3.2.1, ?_⟩
    · show ((max (Fl.sub (m : ℚ) 1) 0 : ℚ) : ℝ) = max ((m : ℝ) - 1) 0
      rw [z2, z4]; simp
    · exact h3.abs_le (by omega)


/-- C120, non-vacuity: counts 3, 7, 5 against expectation 5. -/
example : chi2StatsFl 3 (fun i => [3, 7, 5].getD i 0) (fun _ => 5) 0 = some (Fl.add (Fl.div 4 5) (Fl.div 4 5), 2) := by decide +kernel

open Finset in
private theorem minkowski {ι : Type} (S : Finset ι) (a b : ι → ℝ) :
    Real.sqrt (∑ i ∈ S, (a i + b i) ^ 2) ≤ Real.sqrt (∑ i ∈ S, a i ^ 2) + Real.sqrt (∑ i ∈ S, b i ^ 2) := by
  have hA : 0 ≤ ∑ i ∈ S, a i ^ 2 := sum_nonneg fun i _ => sq_nonneg _
  have hB : 0 ≤ ∑ i ∈ S, b i ^ 2 := sum_nonneg fun i _ => sq_nonneg _
  rw [Real.sqrt_le_left (add_nonneg (Real.sqrt_nonneg _) (Real.sqrt_nonneg _)), add_sq, Real.sq_sqrt hA, Real.sq_sqrt hB]
  have h1 : ∑ i ∈ S, (a i + b i) ^ 2 = ∑ i ∈ S, a i ^ 2 + 2 * ∑ i ∈ S, a i * b i + ∑ i ∈ S, b i ^ 2 := by
    rw [mul_sum, ← sum_add_distrib, ← sum_add_distrib]
    exact sum_congr rfl fun i _ => by ring
  have h2 : ∑ i ∈ S, a i * b i ≤ Real.sqrt (∑ i ∈ S, a i ^ 2) * Real.sqrt (∑ i ∈ S, b i ^ 2) := by
    rw [← Real.sqrt_mul hA]
    exact Real.le_sqrt_of_sq_le (sum_mul_sq_le_sq_mul_sq S a b)
  rw [h1]; linarith

open Finset in
/-- Pearson's statistic against two vectors of expectations that differ by a relative error of at most δ. -/
private theorem perturb (S : Finset ℕ) (o e e' : ℕ → ℝ) (δ : ℝ) (h0 : 0 ≤ δ) (h1 : δ ≤ 1 / 2) (he : ∀ i ∈ S, 0 < e i)
    (h : ∀ i ∈ S, |e' i - e i| ≤ δ * e i) :
    |Real.sqrt (∑ i ∈ S, (o i - e' i) ^ 2 / e' i) - Real.sqrt (∑ i ∈ S, (o i - e i) ^ 2 / e i)| ≤
      δ * Real.sqrt (∑ i ∈ S, (o i - e i) ^ 2 / e i) + 2 * δ * Real.sqrt (∑ i ∈ S, e i) := by
  have he' : ∀ i ∈ S, 0 < e' i := fun i hi => by
    have := (abs_le.1 (h i hi)).1
    nlinarith [he i hi]
  set X := ∑ i ∈ S, (o i - e i) ^ 2 / e i with hX
  set X' := ∑ i ∈ S, (o i - e' i) ^ 2 / e' i with hX'
  set E := ∑ i ∈ S, e i with hE
  have sX : 0 ≤ X := sum_nonneg fun i hi => div_nonneg (sq_nonneg _) (he i hi).le
  have sX' : 0 ≤ X' := sum_nonneg fun i hi => div_nonneg (sq_nonneg _) (he' i hi).le
  have hdev : Real.sqrt (∑ i ∈ S, ((e' i - e i) / Real.sqrt (e i)) ^ 2) ≤ δ * Real.sqrt E := by
    rw [show δ * Real.sqrt E = Real.sqrt (δ ^ 2 * E) by rw [Real.sqrt_mul (sq_nonneg δ), Real.sqrt_sq h0]]
    apply Real.sqrt_le_sqrt
    rw [hE, mul_sum]
    refine sum_le_sum fun i hi => ?_
    rw [div_pow, Real.sq_sqrt (he i hi).le, div_le_iff₀ (he i hi)]
    have := h i hi
    calc (e' i - e i) ^ 2 = |e' i - e i| ^ 2 := (sq_abs _).symm
      _ ≤ (δ * e i) ^ 2 := pow_le_pow_left₀ (abs_nonneg _) this 2
      _ = _ := by ring
  -- upper bound
  have hup : Real.sqrt X' ≤ (1 + δ) * (Real.sqrt X + δ * Real.sqrt E) := by
    have hm := minkowski S (fun i => (o i - e i) / Real.sqrt (e i)) (fun i => -((e' i - e i) / Real.sqrt (e i)))
    have e1 : ∑ i ∈ S, ((o i - e i) / Real.sqrt (e i)) ^ 2 = X := sum_congr rfl fun i hi => by
      rw [div_pow, Real.sq_sqrt (he i hi).le]
    have e2 : ∑ i ∈ S, (-((e' i - e i) / Real.sqrt (e i))) ^ 2 = ∑ i ∈ S, ((e' i - e i) / Real.sqrt (e i)) ^ 2 :=
      sum_congr rfl fun i _ => by rw [neg_sq]
    have e3 : ∑ i ∈ S, ((o i - e i) / Real.sqrt (e i) + -((e' i - e i) / Real.sqrt (e i))) ^ 2 = ∑ i ∈ S, (o i - e' i) ^ 2 / e i :=
      sum_congr rfl fun i hi => by
        rw [← sub_eq_add_neg, ← sub_div, div_pow, Real.sq_sqrt (he i hi).le]; congr 1; ring
    rw [e1, e2, e3] at hm
    have hle : Real.sqrt X' ≤ (1 + δ) * Real.sqrt (∑ i ∈ S, (o i - e' i) ^ 2 / e i) := by
      rw [show (1 + δ) * Real.sqrt (∑ i ∈ S, (o i - e' i) ^ 2 / e i) = Real.sqrt ((1 + δ) ^ 2 * ∑ i ∈ S, (o i - e' i) ^ 2 / e i) by
        rw [Real.sqrt_mul (sq_nonneg _), Real.sqrt_sq (by linarith)]]
      apply Real.sqrt_le_sqrt
      rw [hX', mul_sum]
      refine sum_le_sum fun i hi => ?_
      have hlo : (1 - δ) * e i ≤ e' i := by linarith [(abs_le.1 (h i hi)).1]
      rw [← mul_div_assoc, div_le_div_iff₀ (he' i hi) (he i hi)]
      have : e i ≤ (1 + δ) ^ 2 * e' i := by
        have : e i ≤ (1 + δ) ^ 2 * ((1 - δ) * e i) := by
          have h3 : 1 ≤ (1 + δ) ^ 2 * (1 - δ) := by nlinarith [mul_nonneg h0 h0, mul_nonneg h0 (mul_nonneg h0 h0)]
          nlinarith [he i hi]
        exact this.trans (mul_le_mul_of_nonneg_left hlo (sq_nonneg _))
      nlinarith [sq_nonneg (o i - e' i)]
    have : Real.sqrt (∑ i ∈ S, (o i - e' i) ^ 2 / e i) ≤ Real.sqrt X + δ * Real.sqrt E := by linarith
    exact hle.trans (mul_le_mul_of_nonneg_left this (by linarith))
  -- lower bound
  have hlow : Real.sqrt X ≤ (1 + δ) * Real.sqrt X' + δ * Real.sqrt E := by
    have hm := minkowski S (fun i => (o i - e' i) / Real.sqrt (e i)) (fun i => (e' i - e i) / Real.sqrt (e i))
    have e1 : ∑ i ∈ S, ((o i - e' i) / Real.sqrt (e i)) ^ 2 = ∑ i ∈ S, (o i - e' i) ^ 2 / e i := sum_congr rfl fun i hi => by
      rw [div_pow, Real.sq_sqrt (he i hi).le]
    have e3 : ∑ i ∈ S, ((o i - e' i) / Real.sqrt (e i) + (e' i - e i) / Real.sqrt (e i)) ^ 2 = X :=
      sum_congr rfl fun i hi => by
        rw [← add_div, div_pow, Real.sq_sqrt (he i hi).le]; congr 1; ring
    rw [e1, e3] at hm
    have hle : Real.sqrt (∑ i ∈ S, (o i - e' i) ^ 2 / e i) ≤ (1 + δ) * Real.sqrt X' := by
      rw [show (1 + δ) * Real.sqrt X' = Real.sqrt ((1 + δ) ^ 2 * X') by
        rw [Real.sqrt_mul (sq_nonneg _), Real.sqrt_sq (by linarith)]]
      apply Real.sqrt_le_sqrt
      rw [hX', mul_sum]
      refine sum_le_sum fun i hi => ?_
      have hhi : e' i ≤ (1 + δ) * e i := by linarith [(abs_le.1 (h i hi)).2]
      rw [← mul_div_assoc, div_le_div_iff₀ (he i hi) (he' i hi)]
      have : e' i ≤ (1 + δ) ^ 2 * e i := by nlinarith [he i hi, mul_nonneg h0 (he i hi).le]
      nlinarith [sq_nonneg (o i - e' i)]
    linarith
  have r1 := Real.sqrt_nonneg X
  have r2 := Real.sqrt_nonneg X'
  have r3 := Real.sqrt_nonneg E
  have p3 : 0 ≤ δ * Real.sqrt E := mul_nonneg h0 r3
  rw [abs_le]
  constructor
  · by_cases hc : Real.sqrt X' ≤ Real.sqrt X
    · nlinarith
    · nlinarith [mul_nonneg h0 r1]
  · nlinarith

/-- C120. If the expected counts themselves are known up to a relative error of δ only (they were computed in doubles), the square root of the
statistic is off by at most (δ + 2(n+4)/2^51) of itself plus 3δ times the square root of the total expected count. -/
theorem C120_expected (cdf : ℝ → ℝ → ℝ) (n : Nat) (hn : n ≤ 2 ^ 49) (observed expected : Nat → ℚ) (exact : Nat → ℝ) (threshold : ℚ)
    (ht : 0 ≤ threshold) (δ : ℝ) (h0 : 0 ≤ δ) (h1 : δ ≤ 1 / 2) (hδ : ∀ i < n, |(expected i : ℝ) - exact i| ≤ δ * exact i)
    (hsame : ∀ i < n, (threshold : ℝ) < expected i ↔ (threshold : ℝ) < exact i) :
    (chi2StatsFl n observed expected threshold = none ∧ chi2Stats cdf n (fun i => (observed i : ℝ)) exact (threshold : ℝ) = none) ∨
    ∃ (X df : ℚ) (st : Statistic ℝ), chi2StatsFl n observed expected threshold = some (X, df) ∧
      chi2Stats cdf n (fun i => (observed i : ℝ)) exact (threshold : ℝ) = some st ∧ (df : ℝ) = st.df ∧
      |Real.sqrt (X : ℝ) - Real.sqrt st.value| ≤ (δ + 2 * ((n + 4 : ℕ) / 2 ^ 51)) * Real.sqrt st.value +
        3 * δ * Real.sqrt (∑ i ∈ Finset.range n, if (threshold : ℝ) < exact i then exact i else 0) := by
  set used := (Finset.range n).filter fun i => (threshold : ℝ) < exact i with hused
  have hu : ∀ i, i ∈ used ↔ i < n ∧ (threshold : ℝ) < exact i := fun i => by simp [hused]
  have hu' : ∀ i, i ∈ used ↔ i < n ∧ (threshold : ℝ) < (expected i : ℝ) := fun i => by
    rw [hu]; constructor
    · rintro ⟨a, b⟩; exact ⟨a, (hsame i a).2 b⟩
    · rintro ⟨a, b⟩; exact ⟨a, (hsame i a).1 b⟩
  obtain ⟨a1, a2⟩ := C58_chi2 cdf n (fun i => (observed i : ℝ)) exact threshold used hu
  obtain ⟨b1, b2⟩ := C58_chi2 cdf n (fun i => (observed i : ℝ)) (fun i => (expected i : ℝ)) threshold used hu'
  have ht' : (0 : ℝ) ≤ threshold := by exact_mod_cast ht
  rcases C120_chi_square cdf n (by omega) observed expected threshold ht with ⟨c1, c2⟩ | ⟨X, df, st', c1, c2, c3, c4, c5⟩
  · exact Or.inl ⟨c1, a1.2 (b1.1 c2)⟩
  · right
    obtain ⟨-, d1, d2, -, -⟩ := b2 st' c2
    cases hs : chi2Stats cdf n (fun i => (observed i : ℝ)) exact (threshold : ℝ) with
    | none => rw [b1.2 (a1.1 hs)] at c2; simp at c2
    | some st =>
      obtain ⟨-, g1, g2, -, g3⟩ := a2 st hs
      refine ⟨X, df, st, c1, rfl, by rw [c3, d1, g1], ?_⟩
      have hp := perturb used (fun i => (observed i : ℝ)) exact (fun i => (expected i : ℝ)) δ h0 h1
        (fun i hi => lt_of_le_of_lt ht' ((hu i).1 hi).2) (fun i hi => hδ i ((hu i).1 hi).1)
      rw [← d2, ← g2] at hp
      have hE : ∑ i ∈ used, exact i = ∑ i ∈ Finset.range n, if (threshold : ℝ) < exact i then exact i else 0 := by
        rw [hused, Finset.sum_filter]
      rw [hE] at hp
      set E := ∑ i ∈ Finset.range n, if (threshold : ℝ) < exact i then exact i else 0
      set η : ℝ := ((n + 4 : ℕ) : ℝ) / 2 ^ 51 with hη
      have hη0 : 0 ≤ η := by positivity
      have hη1 : η ≤ 1 / 2 := by
        rw [hη, div_le_iff₀ (by norm_num)]
        have : ((n + 4 : ℕ) : ℝ) ≤ 2 ^ 50 := by
          have : n + 4 ≤ 2 ^ 50 := by omega
          exact_mod_cast this
        linarith
      have hsq : |Real.sqrt (X : ℝ) - Real.sqrt st'.value| ≤ η * Real.sqrt st'.value := by
        obtain ⟨u1, u2⟩ := abs_le.1 c5
        rw [abs_le]
        have hs0 := Real.sqrt_nonneg st'.value
        have hss := Real.sq_sqrt c4
        constructor
        · have : (1 - η) * Real.sqrt st'.value ≤ Real.sqrt (X : ℝ) := by
            apply Real.le_sqrt_of_sq_le
            rw [mul_pow, hss]
            nlinarith
          linarith
        · have : Real.sqrt (X : ℝ) ≤ (1 + η) * Real.sqrt st'.value := by
            rw [Real.sqrt_le_left (by positivity), mul_pow, hss]
            nlinarith
          linarith
      have r1 := Real.sqrt_nonneg st.value
      have r2 := Real.sqrt_nonneg E
      have htri : |Real.sqrt (X : ℝ) - Real.sqrt st.value| ≤ |Real.sqrt (X : ℝ) - Real.sqrt st'.value| +
          |Real.sqrt st'.value - Real.sqrt st.value| := abs_sub_le _ _ _
      have hle : Real.sqrt st'.value ≤ (1 + δ) * Real.sqrt st.value + 2 * δ * Real.sqrt E := by linarith [(abs_le.1 hp).2]
      have : η * Real.sqrt st'.value ≤ η * ((1 + δ) * Real.sqrt st.value + 2 * δ * Real.sqrt E) := mul_le_mul_of_nonneg_left hle hη0
      have k1 : η * δ * Real.sqrt st.value ≤ η * Real.sqrt st.value := by nlinarith [mul_nonneg hη0 r1]
      have k2 : η * (2 * δ * Real.sqrt E) ≤ 1 / 2 * (2 * δ * Real.sqrt E) := mul_le_mul_of_nonneg_right hη1 (by positivity)
      nlinarith

/-- C120. The uniformity test of up to 2^53 words: in doubles the statistic has the same degrees of freedom and a relative error of at
most 2^-22. -/
theorem C120_uniform (cdf : ℝ → ℝ → ℝ) (t : WT) (data : List (BitVec t.bits)) (hne : data ≠ []) (hlen : data.length ≤ 2 ^ 53) :
    ∃ (X df : ℚ) (st : Statistic ℝ), uniformStatsFl data = .ok (some (X, df)) ∧ uniformStats cdf data = .ok (some st) ∧ (df : ℝ) = st.df ∧
      |(X : ℝ) - st.value| ≤ st.value / 2 ^ 22 := by
  have hpos : 0 < data.length := List.length_pos_of_ne_nil hne
  obtain ⟨k, hk, hkt, hk1, hlt, -⟩ := C57_bin_count t data.length hpos (by omega)
  have hk28 : (2 : ℕ) ^ k ≤ 2 ^ 28 := by
    have hn : (data.length : ℝ) ^ (4 / 10 : ℝ) ≤ 2 ^ 26 := by
      have h1 : (data.length : ℝ) ≤ 2 ^ (65 : ℝ) := by
        have : (data.length : ℝ) ≤ 2 ^ 65 := by
          have h' : data.length ≤ 2 ^ 65 := by omega
          exact_mod_cast h'
        exact_mod_cast this
      have h2 : (data.length : ℝ) ^ (4 / 10 : ℝ) ≤ ((2 : ℝ) ^ (65 : ℝ)) ^ (4 / 10 : ℝ) :=
        Real.rpow_le_rpow (by positivity) h1 (by norm_num)
      rw [← Real.rpow_mul (by norm_num)] at h2
      have h3 : ((2 : ℝ) ^ ((65 : ℝ) * (4 / 10))) = 2 ^ 26 := by
        rw [← Real.rpow_natCast]; norm_num
      rwa [h3] at h2
    have h4 : (2 : ℝ) ^ k < 2 ^ 29 := by
      have : (2 : ℝ) ^ k < 2 * (2 * 2 ^ 26 + 1) := by linarith
      norm_num at this ⊢
      linarith
    have : k < 29 := by
      by_contra hc
      have : (2 : ℝ) ^ 29 ≤ 2 ^ k := pow_le_pow_right₀ (by norm_num) (by omega)
      linarith
    exact Nat.pow_le_pow_right (by norm_num) (by omega)
  obtain ⟨counts, hc, hcl, -, hck, -⟩ := C57_bins (2 ^ k) (by positivity) (by omega) data
  have hval : uniformStats cdf data = .ok (chi2Stats cdf counts.length (toData counts)
      (fun _ => (data.length : ℝ) / (counts.length : ℝ)) 0) := by
    unfold uniformStats
    rw [hk, hbind, hc, hbind]
  have hvalF : uniformStatsFl data = .ok (chi2StatsFl counts.length (fun i => Fl.ofNat (counts.getD i 0#64).toNat)
      (fun _ => Fl.div (Fl.ofNat data.length) (Fl.ofNat counts.length)) 0) := by
    unfold uniformStatsFl
    rw [hk, hbind, hc, hbind]
  have hexp : Fl.div (Fl.ofNat data.length) (Fl.ofNat counts.length) = (data.length : ℚ) / (counts.length : ℚ) := by
    rw [hcl, ofNat_eq hlen, ofNat_eq (by omega), Fl.div, div_eq_mul_inv,
      show (((2 ^ k : ℕ) : ℚ))⁻¹ = 2 ^ (-(k : ℤ)) by rw [zpow_neg]; simp, rnd_exact hlen]
  have hobs : (fun i => Fl.ofNat (counts.getD i 0#64).toNat) = fun i => (((counts.getD i 0#64).toNat : ℕ) : ℚ) := by
    funext i
    apply ofNat_eq
    by_cases hi : i < 2 ^ k
    · rw [List.getD_eq_getElem?_getD, hck i hi, Option.getD_some, BitVec.toNat_ofNat]
      exact (Nat.mod_le _ _).trans (List.countP_le_length.trans hlen)
    · rw [List.getD_eq_default _ _ (by omega)]; simp
  rw [hval, hvalF, hexp, hobs]
  obtain ⟨k', s, -, hk', hs, -, -⟩ := C58_uniform cdf t data hne (by omega)
  rw [hval] at hs
  have h1 := C120_chi_square cdf counts.length (by omega) (fun i => (((counts.getD i 0#64).toNat : ℕ) : ℚ))
    (fun _ => (data.length : ℚ) / (counts.length : ℚ)) 0 le_rfl
  have e1 : (fun i => (((((counts.getD i 0#64).toNat : ℕ) : ℚ)) : ℝ)) = toData counts := by
    funext i; unfold toData; simp
  have e2 : (fun _ : ℕ => (((data.length : ℚ) / (counts.length : ℚ) : ℚ) : ℝ)) = fun _ => (data.length : ℝ) / (counts.length : ℝ) := by
    funext i; push_cast; rfl
  rw [e1, e2, Rat.cast_zero] at h1
  rcases h1 with ⟨-, h1⟩ | ⟨X, df, st, c1, c2, c3, c4, c5⟩
  · rw [h1] at hs; simp at hs
  · refine ⟨X, df, st, by rw [c1], by rw [c2], c3, c5.trans ?_⟩
    rw [div_eq_mul_one_div st.value]
    refine mul_le_mul_of_nonneg_left ?_ c4
    have : ((counts.length + 4 : ℕ) : ℝ) ≤ 2 ^ 29 := by
      have : counts.length + 4 ≤ 2 ^ 29 := by omega
      exact_mod_cast this
    rw [div_le_iff₀ (by norm_num)]
    norm_num at this ⊢
    linarith

/-! ### the mean test -/

theorem Fl.near_of_rel {x y : ℝ} {c : ℕ} (hx : 0 ≤ x) (hy : 0 ≤ y) (hc : c ≤ 2 ^ 48) (h : |x - y| ≤ y * (c / 2 ^ 51)) : Near (4 * c) x y := by
  obtain ⟨h1, h2⟩ := abs_le.1 h
  have hc' : (c : ℝ) ≤ 2 ^ 48 := by exact_mod_cast hc
  have hb : 1 + ((4 * c : ℕ) : ℝ) * (1 / 2 ^ 52) ≤ B ^ (4 * c) := by
    have := one_add_mul_le_pow (a := (1 : ℝ) / 2 ^ 52) (by norm_num) (4 * c)
    unfold B; linarith
  push_cast at hb
  have ec : 4 * (c : ℝ) * (1 / 2 ^ 52) = 2 * (c / 2 ^ 51) := by ring
  rw [ec] at hb
  have hq0 : (0 : ℝ) ≤ c / 2 ^ 51 := by positivity
  have hq1 : (c : ℝ) / 2 ^ 51 ≤ 1 / 8 := by
    rw [div_le_iff₀ (by norm_num)]; linarith
  refine ⟨hx, hy, ?_, ?_⟩
  · calc x ≤ y * (1 + 2 * (c / 2 ^ 51)) := by nlinarith
      _ ≤ _ := mul_le_mul_of_nonneg_left hb hy
  · have h3 : y * (1 - c / 2 ^ 51) ≤ x := by linarith
    calc y ≤ y * ((1 - c / 2 ^ 51) * (1 + 2 * (c / 2 ^ 51))) := by
            have : 1 ≤ (1 - (c : ℝ) / 2 ^ 51) * (1 + 2 * (c / 2 ^ 51)) := by nlinarith
            nlinarith
      _ = y * (1 - c / 2 ^ 51) * (1 + 2 * (c / 2 ^ 51)) := by ring
      _ ≤ x * (1 + 2 * (c / 2 ^ 51)) := mul_le_mul_of_nonneg_right h3 (by linarith)
      _ ≤ _ := mul_le_mul_of_nonneg_left hb hx

private theorem rescale_near {w : Nat} (hw : 0 < w) (x : BitVec w) :
    Near 3 ((rescaleTypeTo01 x : ℚ) : ℝ) ((x.toNat : ℝ) / ((2 ^ w - 1 : ℕ) : ℝ)) := by
  have h2 : 0 < 2 ^ w - 1 := by have := Nat.one_lt_two_pow hw.ne'; omega
  have h2' : (0 : ℝ) < ((2 ^ w - 1 : ℕ) : ℝ) := by exact_mod_cast h2
  have := (near_ofNat x.toNat).div (near_ofNat (2 ^ w - 1)) h2'
  rw [← Rat.cast_div] at this
  exact this.rnd

private theorem sum_near {w : Nat} (hw : 0 < w) (data : List (BitVec w)) :
    Near (data.length + 3) ((data.foldl (fun sum v => Fl.add sum (rescaleTypeTo01 v)) 0 : ℚ) : ℝ)
      (data.foldl (fun sum v => sum + (v.toNat : ℝ) / ((2 ^ w - 1 : ℕ) : ℝ)) 0) := by
  induction data using List.reverseRecOn with
  | nil => simpa using (Near.refl (x := 0) le_rfl).mono (Nat.zero_le 3)
  | append_singleton l v ih =>
    rw [List.foldl_append, List.foldl_append, List.length_append]
    simp only [List.foldl_cons, List.foldl_nil, List.length_singleton]
    have h2 := (rescale_near hw v).mono (show 3 ≤ l.length + 3 by omega)
    have h3 := ih.add h2
    rw [← Rat.cast_add] at h3
    rw [show l.length + 1 + 3 = l.length + 3 + 1 by omega]
    exact h3.rnd

private theorem mean_near {w : Nat} (hw : 0 < w) (data : List (BitVec w)) (hne : 0 < data.length) :
    Near (data.length + 5) ((meanRescale01Fl data : ℚ) : ℝ) (meanRescale01 data) := by
  have h := (sum_near hw data).div (near_ofNat data.length) (by exact_mod_cast hne)
  rw [← Rat.cast_div] at h
  exact h.rnd

private theorem mean_le_one {w : Nat} (hw : 0 < w) (data : List (BitVec w)) (hne : 0 < data.length) : meanRescale01 data ≤ 1 := by
  unfold meanRescale01
  have h2 : 0 < 2 ^ w - 1 := by have := Nat.one_lt_two_pow hw.ne'; omega
  have h2' : (0 : ℝ) < ((2 ^ w - 1 : ℕ) : ℝ) := by exact_mod_cast h2
  have : data.foldl (fun sum v => sum + (v.toNat : ℝ) / ((2 ^ w - 1 : ℕ) : ℝ)) 0 ≤ data.length := by
    clear hne
    induction data using List.reverseRecOn with
    | nil => simp
    | append_singleton l v ih =>
      rw [List.foldl_append, List.length_append]
      simp only [List.foldl_cons, List.foldl_nil, List.length_singleton]
      have : (v.toNat : ℝ) / ((2 ^ w - 1 : ℕ) : ℝ) ≤ 1 := by
        rw [div_le_one h2']
        have := v.isLt
        exact_mod_cast (show v.toNat ≤ 2 ^ w - 1 by omega)
      push_cast
      linarith
  rw [div_le_one (by exact_mod_cast hne)]
  exact this

private theorem not_near {x : ℚ} (hx : 4 / 100 ≤ x) : ¬ (isNear x 0 (Fl.rnd (1 / 10 ^ 6)) = true) := by
  have hr : Fl.rnd (1 / 10 ^ 6) < 1 / 100 := by
    have := abs_rnd_sub_le_rel (x := 1 / 10 ^ 6) (by norm_num)
    have := (abs_le.1 this).2
    norm_num at this ⊢; linarith
  unfold isNear
  rw [decide_eq_true_eq, not_le, Fl.sub, sub_zero]
  have h1 := abs_rnd_sub_le_rel (x := x) (by linarith)
  have h2 := (abs_le.1 h1).1
  have h3 : 3 / 100 ≤ Fl.rnd x := by
    have : x / 2 ^ 53 ≤ x / 100 := by
      apply div_le_div_of_nonneg_left (by linarith) (by norm_num) (by norm_num)
    linarith
  rw [abs_of_nonneg (by linarith)]
  linarith

/-- The z-score `(d / se)` in doubles: `d` up to an absolute error `ε`, `se` up to `k` roundings. -/
private theorem quotient (d se : ℝ) (d' se' : ℚ) (ε : ℝ) (k : ℕ) (hk : k ≤ 2 ^ 20) (hse : 0 < se) (hd : |(d' : ℝ) - d| ≤ ε)
    (hn : Near k (se' : ℝ) se) :
    |((Fl.div d' se' : ℚ) : ℝ) - d / se| ≤ ((k + 1 : ℕ) / 2 ^ 51) * |d / se| + 2 * (ε / se) := by
  have hε : 0 ≤ ε := (abs_nonneg _).trans hd
  have hinv := (hn.inv hse).abs_le (by omega)
  have hk' : (k : ℝ) ≤ 2 ^ 20 := by exact_mod_cast hk
  set η : ℝ := (k : ℝ) / 2 ^ 51 with hη
  have hη0 : 0 ≤ η := by positivity
  have hη1 : η ≤ 1 / 1000 := by
    rw [hη, div_le_iff₀ (by norm_num)]
    have : (2 : ℝ) ^ 20 ≤ 1 / 1000 * 2 ^ 51 := by norm_num
    linarith
  set i : ℝ := se⁻¹ with hi
  set i' : ℝ := (se' : ℝ)⁻¹ with hi'
  have hi0 : 0 < i := inv_pos.2 hse
  have hi'0 : 0 ≤ i' := (hn.inv hse).1
  have hi'1 : i' ≤ i * (1 + η) := by linarith [(abs_le.1 hinv).2]
  have hq : ((d' / se' : ℚ) : ℝ) = (d' : ℝ) * i' := by push_cast; rw [div_eq_mul_inv]
  have hz : d / se = d * i := div_eq_mul_inv _ _
  have h1 : |(d' : ℝ) * i' - d * i| ≤ ε * (i * (1 + η)) + |d| * (i * η) := by
    have : (d' : ℝ) * i' - d * i = ((d' : ℝ) - d) * i' + d * (i' - i) := by ring
    rw [this]
    refine (abs_add_le _ _).trans ?_
    rw [abs_mul, abs_mul, abs_of_nonneg hi'0]
    have a1 : |(d' : ℝ) - d| * i' ≤ ε * (i * (1 + η)) := mul_le_mul hd hi'1 hi'0 hε
    have a2 : |d| * |i' - i| ≤ |d| * (i * η) := mul_le_mul_of_nonneg_left hinv (abs_nonneg _)
    linarith
  have h2 := abs_rnd_sub_le_real (d' / se')
  rw [hq] at h2
  have h3 : |((Fl.div d' se' : ℚ) : ℝ) - d * i| ≤ |(d' : ℝ) * i'| / 2 ^ 53 + |(d' : ℝ) * i' - d * i| := by
    refine (abs_sub_le _ ((d' : ℝ) * i') _).trans ?_
    have : ((Fl.div d' se' : ℚ) : ℝ) = ((Fl.rnd (d' / se') : ℚ) : ℝ) := rfl
    rw [this]; linarith
  have h4 : |(d' : ℝ) * i'| ≤ |d * i| + |(d' : ℝ) * i' - d * i| := by
    have := abs_sub_abs_le_abs_sub ((d' : ℝ) * i') (d * i); linarith
  have h5 : |d * i| = |d| * i := by rw [abs_mul, abs_of_pos hi0]
  rw [hz, h5]
  rw [h5] at h4
  have e1 : ε / se = ε * i := div_eq_mul_inv _ _
  rw [e1]
  have hdi : 0 ≤ |d| * i := mul_nonneg (abs_nonneg _) hi0.le
  have hεi : 0 ≤ ε * i := mul_nonneg hε hi0.le
  have ek : ((k + 1 : ℕ) : ℝ) / 2 ^ 51 = η + 1 / 2 ^ 51 := by rw [hη]; push_cast; ring
  rw [ek]
  have hfin : |(d' : ℝ) * i'| / 2 ^ 53 ≤ (|d| * i + (ε * (i * (1 + η)) + |d| * (i * η))) / 2 ^ 53 :=
    div_le_div_of_nonneg_right (h4.trans (by linarith)) (by norm_num)
  have c1 : |d| * (i * η) = (|d| * i) * η := by ring
  have c2 : ε * (i * (1 + η)) = (ε * i) * (1 + η) := by ring
  rw [c1, c2] at h1 hfin
  have d1 : (|d| * i) * η ≤ |d| * i := by nlinarith
  have d2 : (ε * i) * (1 + η) ≤ 1.001 * (ε * i) := by nlinarith
  have : (|d| * i + (ε * i * (1 + η) + |d| * i * η)) / 2 ^ 53 ≤ (2 * (|d| * i) + 1.001 * (ε * i)) / 2 ^ 53 :=
    div_le_div_of_nonneg_right (by linarith) (by norm_num)
  have f1 : (2 * (|d| * i) + 1.001 * (ε * i)) / 2 ^ 53 = (|d| * i) * (1 / 2 ^ 52) + (ε * i) * (1.001 / 2 ^ 53) := by ring
  have f2 : (|d| * i) * (1 / 2 ^ 52) ≤ (|d| * i) * (1 / 2 ^ 51) := mul_le_mul_of_nonneg_left (by norm_num) hdi
  have f3 : (ε * i) * (1.001 / 2 ^ 53) ≤ (ε * i) * (1 / 1000) := mul_le_mul_of_nonneg_left (by norm_num) hεi
  linarith

/-- C120. The mean test of up to 2^45 words: in doubles the z-score is off by at most sqrt(12 n) (2n + 20)/2^51. -/
theorem C120_mean {w : Nat} (hw : 0 < w) (sqrtD : ℚ → ℚ) (hs : SqrtOk sqrtD) (n : BitVec 64) (hn : n ≠ 0#64) (hmax : n.toNat ≤ 2 ^ 45)
    (s : Stream (BitVec w)) :
    ∃ (z : ℚ) (st : Statistic ℝ), meanTestFl sqrtD n s = some z ∧ meanTest n s = .ok [⟨"", some st⟩] ∧
      |(z : ℝ) - st.value| ≤ Real.sqrt (12 * n.toNat) * ((2 * n.toNat + 20) / 2 ^ 51) := by
  have hn0 : 0 < n.toNat := Nat.pos_of_ne_zero fun h => hn (BitVec.eq_of_toNat_eq (by simpa using h))
  have hlen : (s.take n.toNat).length = n.toNat := Stream.length_take ..
  set N := n.toNat with hN
  have hNr : (0 : ℝ) < N := by exact_mod_cast hn0
  have hN1 : (1 : ℝ) ≤ N := by exact_mod_cast hn0
  have hNmax : (N : ℝ) ≤ 2 ^ 45 := by exact_mod_cast hmax
  have hmn := mean_near hw (s.take N) (by omega)
  rw [hlen] at hmn
  have hm1 := mean_le_one hw (s.take N) (by omega)
  have habs := hmn.abs_le (by omega)
  set m' := meanRescale01Fl (s.take N) with hm'
  set m := meanRescale01 (s.take N) with hm
  clear_value m' m
  have hofn : Fl.ofNat N = N := ofNat_eq (by omega)
  -- the exact test
  have hex : meanTest n s = .ok [⟨"", some ⟨.zScore, (m - 1 / 2) / Real.sqrt (1 / 12 / N), normalTwoTailedCdf ((m - 1 / 2) / Real.sqrt (1 / 12 / N)), N⟩⟩] := by
    unfold meanTest
    rw [← hN, ← hm]
    have h1 : ¬ (isNearR (1 / 12) 0 = true) := by unfold isNearR; rw [decide_eq_true_eq]; norm_num
    have h2 : ¬ (isNearR (N : ℝ) 0 = true) := by
      unfold isNearR; rw [decide_eq_true_eq, sub_zero, abs_of_pos hNr]; norm_num; linarith
    unfold zTest
    rw [if_neg h1, if_neg h2]
    rfl
  have hvar : 4 / 100 ≤ Fl.div 1 12 := by
    have := abs_rnd_sub_le_rel (x := 1 / 12) (by norm_num)
    have := (abs_le.1 this).1
    unfold Fl.div
    norm_num at this ⊢; linarith
  have hfl : meanTestFl sqrtD n s = some (Fl.div (Fl.sub m' (1 / 2)) (sqrtD (Fl.div (Fl.div 1 12) N))) := by
    unfold meanTestFl
    rw [← hN, ← hm', hofn]
    unfold zTestFl
    have hNq : (1 : ℚ) ≤ N := by exact_mod_cast hn0
    rw [if_neg (not_near hvar), if_neg (not_near (by linarith))]
  refine ⟨_, _, hfl, hex, ?_⟩
  show |((Fl.div (Fl.sub m' (1 / 2)) (sqrtD (Fl.div (Fl.div 1 12) N)) : ℚ) : ℝ) - (m - 1 / 2) / Real.sqrt (1 / 12 / N)| ≤ _
  -- the denominator
  have hv1 : Near 1 ((Fl.div 1 12 : ℚ) : ℝ) (1 / 12 : ℝ) := by
    have := near_rnd (x := 1 / 12) (by norm_num)
    push_cast at this; exact this
  have hv2 : Near 2 ((Fl.div (Fl.div 1 12) N : ℚ) : ℝ) (1 / 12 / N : ℝ) := by
    have := hv1.div (Near.refl hNr.le) hNr
    have h3 : ((Fl.div 1 12 / N : ℚ) : ℝ) = ((Fl.div 1 12 : ℚ) : ℝ) / (N : ℝ) := by push_cast; rfl
    rw [← h3] at this
    exact this.rnd
  have hse := hv2.sqrtD hs
  have hse0 : 0 < Real.sqrt (1 / 12 / N) := Real.sqrt_pos.2 (by positivity)
  -- the numerator
  have hε : |((Fl.sub m' (1 / 2) : ℚ) : ℝ) - (m - 1 / 2)| ≤ (N + 6) / 2 ^ 51 := by
    have h1 : |(m' : ℝ) - m| ≤ (N + 5) / 2 ^ 51 := by
      refine habs.trans ?_
      push_cast
      have : m * ((N + 5 : ℝ) / 2 ^ 51) ≤ 1 * ((N + 5) / 2 ^ 51) := mul_le_mul_of_nonneg_right hm1 (by positivity)
      linarith
    have h2 := abs_rnd_sub_le_real (m' - 1 / 2)
    have h3 : |((m' - 1 / 2 : ℚ) : ℝ)| ≤ 4 := by
      push_cast
      have hsmall : ((N : ℝ) + 5) / 2 ^ 51 ≤ 1 := by
        rw [div_le_one (by norm_num)]
        have : (2 : ℝ) ^ 45 + 5 ≤ 2 ^ 51 := by norm_num
        linarith
      have := abs_le.1 h1
      have hm0 := hmn.2.1
      rw [abs_le]; constructor <;> linarith
    have h4 : |((Fl.sub m' (1 / 2) : ℚ) : ℝ) - (m - 1 / 2)| ≤ |((Fl.rnd (m' - 1 / 2) : ℚ) : ℝ) - ((m' - 1 / 2 : ℚ) : ℝ)| +
        |((m' - 1 / 2 : ℚ) : ℝ) - (m - 1 / 2)| := abs_sub_le _ _ _
    have h5 : ((m' - 1 / 2 : ℚ) : ℝ) - (m - 1 / 2) = (m' : ℝ) - m := by push_cast; ring
    rw [h5] at h4
    have h6 : |((m' - 1 / 2 : ℚ) : ℝ)| / 2 ^ 53 ≤ 4 / 2 ^ 53 := div_le_div_of_nonneg_right h3 (by norm_num)
    have h7 : (4 : ℝ) / 2 ^ 53 = 1 / 2 ^ 51 := by norm_num
    have h8 : ((N : ℝ) + 6) / 2 ^ 51 = (N + 5) / 2 ^ 51 + 1 / 2 ^ 51 := by ring
    linarith
  refine (quotient (m - 1 / 2) _ _ _ _ 3 (by norm_num) hse0 hε hse).trans ?_
  have hinv : (Real.sqrt (1 / 12 / N))⁻¹ = Real.sqrt (12 * N) := by
    rw [← Real.sqrt_inv]; congr 1; field_simp
  rw [div_eq_mul_inv (m - 1 / 2), div_eq_mul_inv (((N : ℝ) + 6) / 2 ^ 51), hinv, abs_mul, abs_of_nonneg (Real.sqrt_nonneg _)]
  have hd : |m - 1 / 2| ≤ 1 / 2 := by rw [abs_le]; constructor <;> linarith [hmn.2.1]
  have hsq := Real.sqrt_nonneg (12 * (N : ℝ))
  have a1 : |m - 1 / 2| * Real.sqrt (12 * N) ≤ 1 / 2 * Real.sqrt (12 * N) := mul_le_mul_of_nonneg_right hd hsq
  have a2 : ((3 + 1 : ℕ) : ℝ) / 2 ^ 51 * (|m - 1 / 2| * Real.sqrt (12 * N)) ≤ 4 / 2 ^ 51 * (1 / 2 * Real.sqrt (12 * N)) := by
    push_cast
    exact mul_le_mul (by norm_num) a1 (by positivity) (by positivity)
  refine (add_le_add_left a2 _).trans ?_
  have : 4 / 2 ^ 51 * (1 / 2 * Real.sqrt (12 * N)) + 2 * ((N + 6) / 2 ^ 51 * Real.sqrt (12 * N)) =
    Real.sqrt (12 * N) * ((2 * N + 14) / 2 ^ 51) := by ring
  rw [this]
  refine mul_le_mul_of_nonneg_left ?_ hsq
  apply div_le_div_of_nonneg_right _ (by norm_num)
  linarith

private theorem sqrt_le_of_sq {x y : ℝ} (hy : 0 ≤ y) (h : x ≤ y ^ 2) : Real.sqrt x ≤ y := (Real.sqrt_le_left hy).2 h

/-- C120. For up to 2^27 words the z-score of the mean test in doubles is off by less than 0.005, and the test on doubles rejects every
sequence whose mean is off the centre of the range by at least 1.92/sqrt n of the range (C107: 1.91 in exact arithmetic). -/
theorem C120_mean_verdict {w : Nat} (hw : 0 < w) (sqrtD : ℚ → ℚ) (hs : SqrtOk sqrtD) (n : BitVec 64) (hn : n ≠ 0#64) (hmax : n.toNat ≤ 2 ^ 27)
    (s : Stream (BitVec w)) :
    ∃ (z : ℚ) (st : Statistic ℝ), meanTestFl sqrtD n s = some z ∧ meanTest n s = .ok [⟨"", some st⟩] ∧ |(z : ℝ) - st.value| < 5 / 1000 ∧
      (1.92 / Real.sqrt n.toNat ≤ |(∑ i ∈ Finset.range n.toNat, ((s.nth i).toNat : ℝ) / (2 ^ w - 1)) / n.toNat - 1 / 2| →
        statPass ⟨.zScore, (z : ℝ), (ProbabilityTheory.gaussianReal 0 1).real {x | |(z : ℝ)| ≤ |x|}, (n.toNat : ℝ)⟩ = false) := by
  obtain ⟨z, st, h1, h2, h3⟩ := C120_mean hw sqrtD hs n hn (by omega) s
  have hn0 : 0 < n.toNat := Nat.pos_of_ne_zero fun h => hn (BitVec.eq_of_toNat_eq (by simpa using h))
  have hNr : (0 : ℝ) < n.toNat := by exact_mod_cast hn0
  have hN : (n.toNat : ℝ) ≤ 2 ^ 27 := by exact_mod_cast hmax
  have hclose : |(z : ℝ) - st.value| < 5 / 1000 := by
    refine lt_of_le_of_lt h3 ?_
    have a1 : Real.sqrt (12 * n.toNat) ≤ 40200 := sqrt_le_of_sq (by norm_num) (by
      have : (12 : ℝ) * 2 ^ 27 ≤ 40200 ^ 2 := by norm_num
      linarith)
    have a2 : (2 * (n.toNat : ℝ) + 20) / 2 ^ 51 ≤ (2 * 2 ^ 27 + 20) / 2 ^ 51 := div_le_div_of_nonneg_right (by linarith) (by norm_num)
    calc _ ≤ 40200 * ((2 * 2 ^ 27 + 20) / 2 ^ 51 : ℝ) := mul_le_mul a1 a2 (by positivity) (by norm_num)
      _ < _ := by norm_num
  refine ⟨z, st, h1, h2, hclose, fun hdev => (C107_z_score _ _ ?_).2⟩
  have hval : st.value = ((∑ i ∈ Finset.range n.toNat, ((s.nth i).toNat : ℝ) / (2 ^ w - 1)) / n.toNat - 1 / 2) * Real.sqrt (12 * n.toNat) := by
    have h4 := h2
    rw [C78_mean, if_neg hn] at h4
    have h5 := Except.ok.inj h4
    have h6 : st.value = Spec.meanZ s.nth n.toNat := by
      have := List.head_eq_of_cons_eq h5
      injection this with _ h7
      rw [← Option.some.inj h7]
    rw [h6]; rfl
  have habs : 6.65 ≤ |st.value| := by
    rw [hval, abs_mul, abs_of_nonneg (Real.sqrt_nonneg _)]
    have e : Real.sqrt (12 * n.toNat) = Real.sqrt 12 * Real.sqrt n.toNat := Real.sqrt_mul (by norm_num) _
    have h12 : 3.464 ≤ Real.sqrt 12 := Real.le_sqrt_of_sq_le (by norm_num)
    have hsn : 0 < Real.sqrt n.toNat := Real.sqrt_pos.2 hNr
    rw [e]
    calc (6.65 : ℝ) ≤ 1.92 / Real.sqrt n.toNat * (3.464 * Real.sqrt n.toNat) := by
          rw [div_mul_eq_mul_div, le_div_iff₀ hsn]; nlinarith
      _ ≤ _ := mul_le_mul hdev (mul_le_mul_of_nonneg_right h12 hsn.le) (by positivity) (abs_nonneg _)
  have := abs_sub_abs_le_abs_sub st.value (z : ℝ)
  rw [abs_sub_comm] at this
  norm_num at habs ⊢
  linarith

/-! ### the runs test -/

private theorem runs_facts (a b : ℝ) (h : (1 ≤ a ∧ 2 ≤ b) ∨ (2 ≤ a ∧ 1 ≤ b)) : 4 / 3 ≤ 2 * a * b / (a + b) := by
  rcases h with ⟨h1, h2⟩ | ⟨h1, h2⟩
  · rw [le_div_iff₀ (by linarith)]; nlinarith
  · rw [le_div_iff₀ (by linarith)]; nlinarith

/-- C120. The runs test: in doubles there is no z-score exactly if there is none in exact arithmetic, and otherwise it is off by at most
(120 |z| + 60 sqrt n)/2^51. -/
theorem C120_runs (sqrtD : ℚ → ℚ) (hs : SqrtOk sqrtD) (r : RunsData) (hp : r.nPlus.toNat ≤ 2 ^ 51) (hm : r.nMinus.toNat ≤ 2 ^ 51)
    (hr : r.runs.toNat ≤ 2 ^ 53) :
    (runsStatsFl sqrtD r = none ∧ runsStats r = none) ∨
    ∃ (z : ℚ) (st : Statistic ℝ), runsStatsFl sqrtD r = some z ∧ runsStats r = some st ∧
      |(z : ℝ) - st.value| ≤ (120 * |st.value| + 60 * Real.sqrt (r.nPlus.toNat + r.nMinus.toNat)) / 2 ^ 51 := by
  unfold runsStatsFl runsStats
  rw [ofNat_eq (show r.nPlus.toNat ≤ 2 ^ 53 by omega), ofNat_eq (show r.nMinus.toNat ≤ 2 ^ 53 by omega), ofNat_eq hr]
  generalize r.nPlus.toNat = a at *
  generalize r.nMinus.toNat = b at *
  generalize r.runs.toNat = c at *
  have hadd : Fl.add (a : ℚ) b = ((a + b : ℕ) : ℚ) := by
    rw [Fl.add, ← Nat.cast_add, rnd_natCast (by omega)]
  have hmul2 : Fl.mul 2 (a : ℚ) = ((2 * a : ℕ) : ℚ) := by
    rw [Fl.mul, show (2 : ℚ) * a = ((2 * a : ℕ) : ℚ) by push_cast; ring, rnd_natCast (by omega)]
  simp only [hadd, hmul2]
  have hr6 : 0 ≤ Fl.rnd (1 / 10 ^ 6) := rnd_nonneg (by norm_num)
  have hz0 : isNear 0 0 (Fl.rnd (1 / 10 ^ 6)) = true := by
    unfold isNear; rw [decide_eq_true_eq, Fl.sub, sub_zero, rnd_zero, abs_zero]; exact hr6
  have hz0R : isNearR 0 0 = true := by unfold isNearR; rw [decide_eq_true_eq]; norm_num
  by_cases hN : a + b = 0
  · left
    have ha : a = 0 := by omega
    have hb : b = 0 := by omega
    subst ha hb
    refine ⟨if_pos (by simpa using hz0), if_pos (by simpa using hz0R)⟩
  · have hN1 : 1 ≤ a + b := by omega
    have hNq : (1 : ℚ) ≤ ((a + b : ℕ) : ℚ) := by exact_mod_cast hN1
    have hNr : (1 : ℝ) ≤ (a : ℝ) + b := by exact_mod_cast hN1
    have hnn : ¬ (isNearR ((a : ℝ) + b) 0 = true) := by
      unfold isNearR; rw [decide_eq_true_eq, sub_zero, abs_of_pos (by linarith)]; norm_num; linarith
    have hnnq : ¬ (isNear ((a + b : ℕ) : ℚ) 0 (Fl.rnd (1 / 10 ^ 6)) = true) := not_near (by linarith)
    rw [if_neg hnnq, if_neg hnn]
    by_cases hab : a = 0 ∨ b = 0
    · left
      have e1 : Fl.mul ((2 * a : ℕ) : ℚ) b = 0 := by
        unfold Fl.mul; rcases hab with h | h <;> subst h <;> simp
      have e2 : 2 * (a : ℝ) * b = 0 := by rcases hab with h | h <;> subst h <;> simp
      have e3 : Fl.add (Fl.div 0 ((a + b : ℕ) : ℚ)) 1 = 1 := by
        unfold Fl.add Fl.div; rw [zero_div, rnd_zero, zero_add, rnd_one]
      have e4 : Fl.mul (Fl.sub 1 1) (Fl.sub 1 2) = 0 := by
        unfold Fl.mul Fl.sub; rw [sub_self, rnd_zero, zero_mul, rnd_zero]
      rw [e1, e3, e4, e2, zero_div, zero_add, sub_self, zero_mul]
      unfold zTestFl zTest
      exact ⟨if_pos hz0, if_pos hz0R⟩
    · push Not at hab
      by_cases h11 : a = 1 ∧ b = 1
      · left
        obtain ⟨rfl, rfl⟩ := h11
        have e1 : Fl.mul (Fl.sub (Fl.add (Fl.div (Fl.mul ((2 * 1 : ℕ) : ℚ) ((1 : ℕ) : ℚ)) ((1 + 1 : ℕ) : ℚ)) 1) 1)
            (Fl.sub (Fl.add (Fl.div (Fl.mul ((2 * 1 : ℕ) : ℚ) ((1 : ℕ) : ℚ)) ((1 + 1 : ℕ) : ℚ)) 1) 2) = 0 := by decide +kernel
        have e2 : (2 * ((1 : ℕ) : ℝ) * ((1 : ℕ) : ℝ) / (((1 : ℕ) : ℝ) + ((1 : ℕ) : ℝ)) + 1 - 1) *
            (2 * ((1 : ℕ) : ℝ) * ((1 : ℕ) : ℝ) / (((1 : ℕ) : ℝ) + ((1 : ℕ) : ℝ)) + 1 - 2) = 0 := by norm_num
        rw [e1, e2]
        unfold zTestFl zTest
        exact ⟨if_pos hz0, if_pos hz0R⟩
      · right
        have ha1 : 1 ≤ a := by omega
        have hb1 : 1 ≤ b := by omega
        have hcase : (1 ≤ (a : ℝ) ∧ 2 ≤ (b : ℝ)) ∨ (2 ≤ (a : ℝ) ∧ 1 ≤ (b : ℝ)) := by
          by_cases h : 2 ≤ a
          · exact Or.inr ⟨by exact_mod_cast h, by exact_mod_cast hb1⟩
          · exact Or.inl ⟨by exact_mod_cast ha1, by have : 2 ≤ b := by omega
                                                    exact_mod_cast this⟩
        have hfact := runs_facts a b hcase
        -- the expected number of runs
        have hm1 : Near 2 ((Fl.div (Fl.mul ((2 * a : ℕ) : ℚ) b) ((a + b : ℕ) : ℚ) : ℚ) : ℝ) (2 * a * b / (a + b) : ℝ) := by
          have h1 : Near 1 ((Fl.mul ((2 * a : ℕ) : ℚ) b : ℚ) : ℝ) (2 * a * b : ℝ) := by
            have := near_rnd (x := ((2 * a : ℕ) : ℚ) * b) (by positivity)
            push_cast at this ⊢; exact this
          have h2 := h1.div (Near.refl (x := (a : ℝ) + b) (by positivity)) (by linarith)
          have h3 : ((Fl.mul ((2 * a : ℕ) : ℚ) b / ((a + b : ℕ) : ℚ) : ℚ) : ℝ) =
            ((Fl.mul ((2 * a : ℕ) : ℚ) b : ℚ) : ℝ) / ((a : ℝ) + b) := by push_cast; rfl
          rw [← h3] at h2
          exact h2.rnd
        have hM : Near 3 ((Fl.add (Fl.div (Fl.mul ((2 * a : ℕ) : ℚ) b) ((a + b : ℕ) : ℚ)) 1 : ℚ) : ℝ) (2 * a * b / (a + b) + 1 : ℝ) := by
          have h1 := hm1.add ((Near.refl (x := (1 : ℝ)) (by norm_num)).mono (Nat.zero_le 2))
          have h3 : ((Fl.div (Fl.mul ((2 * a : ℕ) : ℚ) b) ((a + b : ℕ) : ℚ) + 1 : ℚ) : ℝ) =
            ((Fl.div (Fl.mul ((2 * a : ℕ) : ℚ) b) ((a + b : ℕ) : ℚ) : ℚ) : ℝ) + 1 := by push_cast; rfl
          rw [← h3] at h1
          exact h1.rnd
        set M' := Fl.add (Fl.div (Fl.mul ((2 * a : ℕ) : ℚ) b) ((a + b : ℕ) : ℚ)) 1 with hM'
        set m : ℝ := 2 * a * b / (a + b) with hmdef
        have hMabs := hM.abs_le (by norm_num)
        push_cast at hMabs
        clear_value M' m
        have hMq : |(M' : ℝ) - (m + 1)| ≤ (m + 1) * (3 / 2 ^ 51) := hMabs
        -- the factors of the variance
        have hsmall : (m + 1) * (3 / 2 ^ 51) ≤ m / 100 := by
          have : (m + 1) ≤ 2 * m := by linarith
          have h3 : (3 : ℝ) / 2 ^ 51 ≤ 1 / 200 := by norm_num
          calc _ ≤ (2 * m) * (1 / 200) := mul_le_mul this h3 (by norm_num) (by linarith)
            _ = _ := by ring
        have hbounds := abs_le.1 hMq
        have hn1 : Near 24 ((M' - 1 : ℚ) : ℝ) m := by
          refine near_of_rel (c := 6) ?_ (by linarith) (by norm_num) ?_
          · push_cast; linarith
          · push_cast
            rw [show (M' : ℝ) - 1 - m = (M' : ℝ) - (m + 1) by ring]
            refine hMq.trans ?_
            nlinarith [show (0 : ℝ) < 1 / 2 ^ 51 by norm_num]
        have hn2 : Near 84 ((M' - 2 : ℚ) : ℝ) (m - 1) := by
          refine near_of_rel (c := 21) ?_ (by linarith) (by norm_num) ?_
          · push_cast; nlinarith
          · push_cast
            rw [show (M' : ℝ) - 2 - (m - 1) = (M' : ℝ) - (m + 1) by ring]
            refine hMq.trans ?_
            nlinarith [show (0 : ℝ) < 1 / 2 ^ 51 by norm_num]
        have hvar : Near 111 ((Fl.mul (Fl.sub M' 1) (Fl.sub M' 2) : ℚ) : ℝ) (m * (m - 1)) := by
          have h1 := (Near.rnd hn1).mul (Near.rnd hn2)
          rw [← Rat.cast_mul] at h1
          exact Near.rnd h1
        set V' := Fl.mul (Fl.sub M' 1) (Fl.sub M' 2) with hV'
        clear_value V'
        have hV4 : 4 / 9 ≤ m * (m - 1) := by nlinarith
        have hVnear := hvar.abs_le (by norm_num)
        have hV'4 : (4 / 100 : ℚ) ≤ V' := by
          have h1 := (abs_le.1 hVnear).1
          have h2 : m * (m - 1) * (((111 : ℕ) : ℝ) / 2 ^ 51) ≤ m * (m - 1) * (1 / 10) :=
            mul_le_mul_of_nonneg_left (by norm_num) (by linarith)
          have : (4 / 100 : ℝ) ≤ (V' : ℝ) := by linarith
          have : ((4 / 100 : ℚ) : ℝ) ≤ (V' : ℝ) := by push_cast; exact this
          exact_mod_cast this
        have hvR : ¬ (isNearR (m * (m - 1)) 0 = true) := by
          unfold isNearR; rw [decide_eq_true_eq, sub_zero, abs_of_pos (by linarith), not_le]; norm_num; linarith
        have em : (m + 1 - 1) * (m + 1 - 2) = m * (m - 1) := by ring
        rw [em]
        unfold zTestFl zTest
        rw [if_neg (not_near hV'4), if_neg hnnq, if_neg hvR, if_neg hnn]
        refine ⟨_, _, rfl, rfl, ?_⟩
        show |((Fl.div (Fl.sub c M') (sqrtD (Fl.div V' ((a + b : ℕ) : ℚ))) : ℚ) : ℝ) - ((c : ℝ) - (m + 1)) / Real.sqrt (m * (m - 1) / (a + b))| ≤
          (120 * |((c : ℝ) - (m + 1)) / Real.sqrt (m * (m - 1) / (a + b))| + 60 * Real.sqrt (a + b)) / 2 ^ 51
        have hN0 : (0 : ℝ) < (a : ℝ) + b := by linarith
        have hse : Near 113 ((sqrtD (Fl.div V' ((a + b : ℕ) : ℚ)) : ℚ) : ℝ) (Real.sqrt (m * (m - 1) / (a + b))) := by
          have h2 := hvar.div (Near.refl (x := (a : ℝ) + b) hN0.le) hN0
          have h3 : ((V' / ((a + b : ℕ) : ℚ) : ℚ) : ℝ) = (V' : ℝ) / ((a : ℝ) + b) := by push_cast; rfl
          rw [← h3] at h2
          exact (Near.rnd h2).sqrtD hs
        have hse0 : 0 < Real.sqrt (m * (m - 1) / (a + b)) := Real.sqrt_pos.2 (div_pos (by linarith) hN0)
        set se := Real.sqrt (m * (m - 1) / (a + b)) with hsedef
        set d : ℝ := (c : ℝ) - (m + 1) with hd
        have hdev : |((Fl.sub c M' : ℚ) : ℝ) - d| ≤ (m + 1) * (4 / 2 ^ 51) + |d| / 2 ^ 53 := by
          have h2 := abs_rnd_sub_le_real (c - M')
          have h3 : |((c - M' : ℚ) : ℝ) - d| ≤ (m + 1) * (3 / 2 ^ 51) := by
            push_cast
            rw [show (c : ℝ) - M' - d = -((M' : ℝ) - (m + 1)) by rw [hd]; ring, abs_neg]; exact hMq
          have h4 : |((c - M' : ℚ) : ℝ)| ≤ |d| + (m + 1) * (3 / 2 ^ 51) := by
            have := abs_sub_abs_le_abs_sub ((c - M' : ℚ) : ℝ) d; linarith
          have h5 : |((Fl.sub c M' : ℚ) : ℝ) - d| ≤ |((Fl.rnd (c - M') : ℚ) : ℝ) - ((c - M' : ℚ) : ℝ)| + |((c - M' : ℚ) : ℝ) - d| :=
            abs_sub_le _ _ _
          have h6 : |((c - M' : ℚ) : ℝ)| / 2 ^ 53 ≤ (|d| + (m + 1) * (3 / 2 ^ 51)) / 2 ^ 53 := div_le_div_of_nonneg_right h4 (by norm_num)
          have h7 : (m + 1) * (3 / 2 ^ 51) / 2 ^ 53 ≤ (m + 1) * (1 / 2 ^ 51) := by
            rw [mul_div_assoc]; exact mul_le_mul_of_nonneg_left (by norm_num) (by linarith)
          have h8 : (|d| + (m + 1) * (3 / 2 ^ 51)) / 2 ^ 53 = |d| / 2 ^ 53 + (m + 1) * (3 / 2 ^ 51) / 2 ^ 53 := by ring
          have h9 : (m + 1) * (4 / 2 ^ 51) = (m + 1) * (3 / 2 ^ 51) + (m + 1) * (1 / 2 ^ 51) := by ring
          linarith
        refine (quotient d se _ _ _ 113 (by norm_num) hse0 hdev hse).trans ?_
        -- the mean in units of the standard error
        have hratio : (m + 1) / se ≤ 7 / 2 * Real.sqrt (a + b) := by
          rw [div_le_iff₀ hse0, hsedef, mul_assoc, ← Real.sqrt_mul hN0.le, mul_div_cancel₀ _ hN0.ne']
          have : m / 2 ≤ Real.sqrt (m * (m - 1)) := Real.le_sqrt_of_sq_le (by nlinarith)
          linarith
        have habsd : |d / se| = |d| / se := by rw [abs_div, abs_of_pos hse0]
        rw [habsd, add_div]
        have e1 : (m + 1) * (4 / 2 ^ 51) / se = (m + 1) / se * (4 / 2 ^ 51) := by ring
        have e2 : |d| / 2 ^ 53 / se = |d| / se * (1 / 2 ^ 53) := by ring
        rw [e1, e2]
        have hds : 0 ≤ |d| / se := div_nonneg (abs_nonneg _) hse0.le
        have f1 : (m + 1) / se * (4 / 2 ^ 51) ≤ 7 / 2 * Real.sqrt (a + b) * (4 / 2 ^ 51) := mul_le_mul_of_nonneg_right hratio (by norm_num)
        have f2 : |d| / se * (1 / 2 ^ 53) ≤ |d| / se * (1 / 2 ^ 51) := mul_le_mul_of_nonneg_left (by norm_num) hds
        have f3 : 0 ≤ Real.sqrt ((a : ℝ) + b) * (1 / 2 ^ 51) := by positivity
        have f4 : 0 ≤ |d| / se * (1 / 2 ^ 51) := mul_nonneg hds (by norm_num)
        have g1 : ((113 + 1 : ℕ) : ℝ) / 2 ^ 51 * (|d| / se) = 114 * (|d| / se * (1 / 2 ^ 51)) := by push_cast; ring
        have g2 : 7 / 2 * Real.sqrt ((a : ℝ) + b) * (4 / 2 ^ 51) = 14 * (Real.sqrt ((a : ℝ) + b) * (1 / 2 ^ 51)) := by ring
        have g3 : (120 * (|d| / se) + 60 * Real.sqrt ((a : ℝ) + b)) / 2 ^ 51 =
          120 * (|d| / se * (1 / 2 ^ 51)) + 60 * (Real.sqrt ((a : ℝ) + b) * (1 / 2 ^ 51)) := by ring
        rw [g1, g3]
        rw [g2] at f1
        linarith

private theorem runs_bound {w : Nat} (data : List (BitVec w)) (cutoff : BitVec w) (h : data.length ≤ 2 ^ 51) :
    (generateRunsData data cutoff).nPlus.toNat ≤ data.length ∧ (generateRunsData data cutoff).nMinus.toNat ≤ data.length ∧
    (generateRunsData data cutoff).nPlus.toNat + (generateRunsData data cutoff).nMinus.toNat ≤ data.length ∧
    (generateRunsData data cutoff).runs.toNat ≤ 2 ^ 53 := by
  cases data with
  | nil => rw [C49_empty]; simp
  | cons first rest =>
    rw [C49_runs]
    have h1 : Spec.blocks (Spec.signs (first :: rest) cutoff) ≤ (first :: rest).length := by
      refine (List.countP_le_length).trans ?_
      rw [List.length_range]
      unfold Spec.signs
      rw [List.length_map]
      exact List.length_filter_le _ _
    have h2 : (first :: rest).countP (fun v => decide (cutoff < v)) ≤ (first :: rest).length := List.countP_le_length
    have h3 : (first :: rest).countP (fun v => decide (v < cutoff)) ≤ (first :: rest).length := List.countP_le_length
    have h4 : (first :: rest).countP (fun v => decide (cutoff < v)) + (first :: rest).countP (fun v => decide (v < cutoff)) ≤
        (first :: rest).length := by
      have key : ∀ l : List (BitVec w), l.countP (fun v => decide (cutoff < v)) + l.countP (fun v => decide (v < cutoff)) ≤ l.length := by
        intro l
        induction l with
        | nil => simp
        | cons x l ih =>
          rw [List.countP_cons, List.countP_cons, List.length_cons]
          have : (if decide (cutoff < x) = true then 1 else 0) + (if decide (x < cutoff) = true then 1 else 0) ≤ 1 := by
            by_cases hx : cutoff < x
            · have : ¬ x < cutoff := by rw [BitVec.lt_def] at *; omega
              simp [hx, this]
            · by_cases hy : x < cutoff <;> simp [hx, hy]
          omega
      exact key _
    generalize (first :: rest).length = L at *
    generalize (first :: rest).countP (fun v => decide (cutoff < v)) = A at *
    generalize (first :: rest).countP (fun v => decide (v < cutoff)) = C at *
    generalize Spec.blocks (Spec.signs (first :: rest) cutoff) = K at *
    simp only [BitVec.toNat_ofNat]
    rw [Nat.mod_eq_of_lt (show A < 2 ^ 64 by omega), Nat.mod_eq_of_lt (show C < 2 ^ 64 by omega)]
    refine ⟨h2, h3, h4, (Nat.mod_le _ _).trans ?_⟩
    split_ifs <;> omega

/-- C120. The runs test of up to 2^51 words: in doubles there is a z-score exactly if there is one in exact arithmetic, and it is off by at
most (120 |z| + 60 sqrt n)/2^51. -/
theorem C120_runs_test {w : Nat} (sqrtD : ℚ → ℚ) (hs : SqrtOk sqrtD) (n : BitVec 64) (hn : n.toNat ≤ 2 ^ 51) (s : Stream (BitVec w)) :
    (runsTestFl sqrtD n s = none ∧ runsTest n s = .ok [⟨"", none⟩]) ∨
    ∃ (z : ℚ) (st : Statistic ℝ), runsTestFl sqrtD n s = some z ∧ runsTest n s = .ok [⟨"", some st⟩] ∧
      |(z : ℝ) - st.value| ≤ (120 * |st.value| + 60 * Real.sqrt n.toNat) / 2 ^ 51 := by
  have hlen : (s.take n.toNat).length = n.toNat := Stream.length_take ..
  obtain ⟨h1, h2, h3, h4⟩ := runs_bound (s.take n.toNat) (BitVec.ofNat w ((2 ^ w - 1) / 2)) (by omega)
  rw [hlen] at h1 h2 h3
  unfold runsTestFl runsTest
  rcases C120_runs sqrtD hs (generateRunsData (s.take n.toNat) (BitVec.ofNat w ((2 ^ w - 1) / 2))) (by omega) (by omega) h4 with
    ⟨a1, a2⟩ | ⟨z, st, a1, a2, a3⟩
  · exact Or.inl ⟨a1, by rw [a2]; rfl⟩
  · refine Or.inr ⟨z, st, a1, by rw [a2]; rfl, a3.trans ?_⟩
    apply div_le_div_of_nonneg_right _ (by norm_num)
    have : Real.sqrt (((generateRunsData (s.take n.toNat) (BitVec.ofNat w ((2 ^ w - 1) / 2))).nPlus.toNat : ℝ) +
        (generateRunsData (s.take n.toNat) (BitVec.ofNat w ((2 ^ w - 1) / 2))).nMinus.toNat) ≤ Real.sqrt n.toNat := by
      apply Real.sqrt_le_sqrt
      exact_mod_cast h3
    linarith

/-! ### the Kolmogorov-Smirnov distance -/

private theorem fold_max (l : List (ℚ × ℕ)) (f : ℚ × ℕ → ℚ) (g : ℝ × ℕ → ℝ) (ε : ℝ) (h : ∀ x ∈ l, |((f x : ℚ) : ℝ) - g (x.1, x.2)| ≤ ε)
    (m : ℚ) (m' : ℝ) (hm : |(m : ℝ) - m'| ≤ ε) :
    |((l.foldl (fun m di => max (f di) m) m : ℚ) : ℝ) - ((l.map fun x => ((x.1 : ℝ), x.2)).foldl (fun m di => max (g di) m) m')| ≤ ε := by
  induction l generalizing m m' with
  | nil => simpa using hm
  | cons x l ih =>
    simp only [List.foldl_cons, List.map_cons]
    refine ih (fun y hy => h y (List.mem_cons_of_mem _ hy)) _ _ ?_
    have h1 := h x List.mem_cons_self
    rw [Rat.cast_max]
    rw [abs_le] at h1 hm ⊢
    constructor
    · have : max (g ((x.1 : ℝ), x.2)) m' ≤ max ((f x : ℚ) : ℝ) (m : ℝ) + ε := by
        apply max_le
        · linarith [le_max_left ((f x : ℚ) : ℝ) (m : ℝ)]
        · linarith [le_max_right ((f x : ℚ) : ℝ) (m : ℝ)]
      linarith
    · have : max ((f x : ℚ) : ℝ) (m : ℝ) ≤ max (g ((x.1 : ℝ), x.2)) m' + ε := by
        apply max_le
        · linarith [le_max_left (g ((x.1 : ℝ), x.2)) m']
        · linarith [le_max_right (g ((x.1 : ℝ), x.2)) m']
      linarith

private theorem ks_term (i n : ℕ) (d : ℚ) (hi : i ≤ n) (hn : 0 < n) (hmax : n ≤ 2 ^ 53) (h0 : 0 ≤ d) (h1 : d ≤ 1) :
    |((|Fl.sub (Fl.div (Fl.ofNat i) (Fl.ofNat n)) d| : ℚ) : ℝ) - (|(i : ℝ) / n - d|)| ≤ 1 / 2 ^ 51 := by
  rw [ofNat_eq (by omega), ofNat_eq hmax]
  have hnr : (0 : ℝ) < n := by exact_mod_cast hn
  have hq0 : (0 : ℝ) ≤ (i : ℝ) / n := by positivity
  have hq1 : (i : ℝ) / n ≤ 1 := by rw [div_le_one hnr]; exact_mod_cast hi
  have e : ((((i : ℚ) / n : ℚ)) : ℝ) = (i : ℝ) / n := by push_cast; rfl
  have a1 := abs_rnd_sub_le_real ((i : ℚ) / n)
  rw [e, abs_of_nonneg hq0] at a1
  have a1' : |((Fl.div (i : ℚ) n : ℚ) : ℝ) - (i : ℝ) / n| ≤ 1 / 2 ^ 53 := a1.trans (div_le_div_of_nonneg_right hq1 (by norm_num))
  set q := Fl.div (i : ℚ) n
  have a2 := abs_rnd_sub_le_real (q - d)
  have hd0 : (0 : ℝ) ≤ (d : ℝ) := by exact_mod_cast h0
  have hd1 : (d : ℝ) ≤ 1 := by exact_mod_cast h1
  have a3 : |((q - d : ℚ) : ℝ)| ≤ 2 := by
    push_cast
    have := abs_le.1 a1'
    rw [abs_le]; constructor <;> norm_num at this ⊢ <;> linarith
  have a4 : |((Fl.sub q d : ℚ) : ℝ) - ((q : ℝ) - d)| ≤ 2 / 2 ^ 53 := by
    have := a2.trans (div_le_div_of_nonneg_right a3 (by norm_num))
    push_cast at this; exact this
  rw [Rat.cast_abs]
  refine (abs_abs_sub_abs_le_abs_sub _ _).trans ?_
  have : ((Fl.sub q d : ℚ) : ℝ) - ((i : ℝ) / n - d) = (((Fl.sub q d : ℚ) : ℝ) - ((q : ℝ) - d)) + ((q : ℝ) - (i : ℝ) / n) := by ring
  rw [this]
  refine (abs_add_le _ _).trans ?_
  have : (2 : ℝ) / 2 ^ 53 + 1 / 2 ^ 53 ≤ 1 / 2 ^ 51 := by norm_num
  linarith

/-- C120. The Kolmogorov-Smirnov distance of up to 2^53 sorted doubles in [0,1], computed in doubles, is off by at most 2^-51. -/
theorem C120_kolmogorov (sorted : List ℚ) (hmax : sorted.length ≤ 2 ^ 53) (h01 : ∀ d ∈ sorted, 0 ≤ d ∧ d ≤ 1) :
    |((ksDistanceFl sorted : ℚ) : ℝ) - ksDistance (sorted.map fun d : ℚ => (d : ℝ))| ≤ 1 / 2 ^ 51 := by
  unfold ksDistanceFl ksDistance
  rw [List.length_map, List.zipIdx_map]
  have key := fold_max sorted.zipIdx
    (fun di => max |Fl.sub (Fl.div (Fl.ofNat di.2) (Fl.ofNat sorted.length)) di.1| |Fl.sub (Fl.div (Fl.ofNat (di.2 + 1)) (Fl.ofNat sorted.length)) di.1|)
    (fun di => max |(di.2 : ℝ) / sorted.length - di.1| |((di.2 : ℝ) + 1) / sorted.length - di.1|) (1 / 2 ^ 51) ?_ 0 0 (by simp)
  · exact key
  · intro x hx
    obtain ⟨hi, hd⟩ := List.mem_zipIdx' hx
    have hmem : x.1 ∈ sorted := by rw [hd]; exact List.getElem_mem _
    obtain ⟨h0, h1⟩ := h01 _ hmem
    have t1 := ks_term x.2 sorted.length x.1 (by omega) (by omega) hmax h0 h1
    have t2 := ks_term (x.2 + 1) sorted.length x.1 (by omega) (by omega) hmax h0 h1
    rw [Nat.cast_add, Nat.cast_one] at t2
    rw [Rat.cast_max]
    exact (abs_max_sub_max_le_max _ _ _ _).trans (max_le t1 t2)

/-- C120, non-vacuity: a square root as asked for exists; the uniformity test of three bytes, the runs test of six bytes with four runs, and
the distance of three values. -/
example : ∃ sqrtD, SqrtOk sqrtD := exists_sqrtOk
example (cdf : ℝ → ℝ → ℝ) : ∃ (X df : ℚ) (st : Statistic ℝ), uniformStatsFl (w := WT.u8.bits) [1#8, 200#8, 77#8] = .ok (some (X, df)) ∧
    uniformStats cdf (w := WT.u8.bits) [1#8, 200#8, 77#8] = .ok (some st) ∧ (df : ℝ) = st.df ∧ |(X : ℝ) - st.value| ≤ st.value / 2 ^ 22 :=
  C120_uniform cdf .u8 [1#8, 200#8, 77#8] (by simp) (by simp)
example (sqrtD : ℚ → ℚ) : runsStatsFl sqrtD ⟨4#64, 4#64, 2#64⟩ ≠ none := by
  have : runsStatsFl sqrtD ⟨4#64, 4#64, 2#64⟩ = some (Fl.div (Fl.sub 4 (Fl.add (Fl.div 16 6) 1))
    (sqrtD (Fl.div (Fl.mul (Fl.sub (Fl.add (Fl.div 16 6) 1) 1) (Fl.sub (Fl.add (Fl.div 16 6) 1) 2)) 6))) := by
    unfold runsStatsFl zTestFl
    rw [if_neg (by decide +kernel), if_neg (by decide +kernel), if_neg (by decide +kernel)]
    refine congrArg some (congrArg₂ Fl.div ?_ (congrArg sqrtD ?_)) <;> decide +kernel
  rw [this]; simp
/-- C120_expected: the counts 3, 4, 3 against 10/3, which no double represents. -/
example (cdf : ℝ → ℝ → ℝ) : ∃ (X df : ℚ) (st : Statistic ℝ),
    chi2StatsFl 3 (fun i => [3, 4, 3].getD i 0) (fun _ => Fl.div 10 3) 0 = some (X, df) ∧
      chi2Stats cdf 3 (fun i => (([3, 4, 3].getD i 0 : ℚ) : ℝ)) (fun _ => 10 / 3) ((0 : ℚ) : ℝ) = some st ∧ (df : ℝ) = st.df := by
  have he : |((Fl.div 10 3 : ℚ) : ℝ) - 10 / 3| ≤ 1 / 2 ^ 52 * (10 / 3) := by
    have h : |(Fl.div 10 3 : ℚ) - 10 / 3| ≤ 1 / 2 ^ 52 * (10 / 3) := by decide +kernel
    have h' := (Rat.cast_le (K := ℝ)).2 h
    push_cast at h'
    exact h'
  have h := C120_expected cdf 3 (by norm_num) (fun i => [3, 4, 3].getD i 0) (fun _ => Fl.div 10 3) (fun _ => 10 / 3) 0 le_rfl (1 / 2 ^ 52)
    (by norm_num) (by norm_num) (fun _ _ => he) (fun _ _ => by
      constructor
      · intro; norm_num
      · intro; have : (0 : ℚ) < Fl.div 10 3 := by decide +kernel
        exact_mod_cast this)
  rcases h with ⟨h, -⟩ | ⟨X, df, st, h1, h2, h3, -⟩
  · exact absurd h (by decide +kernel)
  · exact ⟨X, df, st, h1, h2, h3⟩
example : ksDistanceFl [1 / 4, 1 / 2, 3 / 4] = Fl.sub (Fl.div 3 3) (3 / 4) := by decide +kernel

end TFR
