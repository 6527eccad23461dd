import Verif.Lemmas.RunsReal
/-
C124: how often random input fails the runs test.
-/
namespace TFR
open Spec Finset ProbabilityTheory
variable {w : Nat}

theorem length_signVals (xs : List (BitVec w)) : (signVals xs).length ≤ xs.length := by
  unfold signVals signs
  rw [List.length_map, List.length_map]
  exact List.length_filter_le _ _

/-- Few words are skipped. -/
theorem skip_mgf (hw : 8 ≤ w) (n : Nat) :
    average (fun x : Fin n → BitVec w => Real.exp (2 * ((n : ℝ) - (signVals (List.ofFn x)).length))) ≤ Real.exp (n / 39) := by
  induction n with
  | zero => simp [average, signVals, signs]
  | succ n ih =>
    rw [average_succ n fun xs : List (BitVec w) => Real.exp (2 * (((n + 1 : ℕ) : ℝ) - (signVals xs).length))]
    set A := average (fun x : Fin n → BitVec w => Real.exp (2 * ((n : ℝ) - (signVals (List.ofFn x)).length))) with hA
    have hA0 : 0 ≤ A := by rw [hA]; unfold average; positivity
    rw [average_congr _ (fun o : BitVec w => if o = BitVec.intMax w then Real.exp 2 * A else if BitVec.intMax w < o then A else A) fun o => ?_]
    · rw [word_three (by omega)]
      have h8 : (2 : ℝ) ^ 8 ≤ 2 ^ w := pow_le_pow_right₀ (by norm_num) hw
      have hbits : (2 : ℝ) ^ w = 2 * 2 ^ (w - 1) := by
        obtain ⟨v, rfl⟩ : ∃ v, w = v + 1 := ⟨w - 1, by omega⟩
        rw [Nat.add_sub_cancel, pow_succ]; ring
      have he : Real.exp 2 ≤ 15 / 2 := by
        have : Real.exp 2 = Real.exp 1 ^ 2 := by rw [← Real.exp_nat_mul]; norm_num
        rw [this]
        refine (pow_le_pow_left₀ (Real.exp_pos 1).le Real.exp_one_lt_d9.le 2).trans ?_
        norm_num
      have h1 : (Real.exp 2 * A + 2 ^ (w - 1) * A + (2 ^ (w - 1) - 1) * A) / 2 ^ w ≤ (1 / 39 + 1) * A := by
        rw [div_le_iff₀ (by positivity)]
        have : Real.exp 2 * A ≤ 15 / 2 * A := mul_le_mul_of_nonneg_right he hA0
        have h3 : (2 : ℝ) ^ 8 * A ≤ 2 ^ w * A := mul_le_mul_of_nonneg_right h8 hA0
        have e : (2 : ℝ) ^ (w - 1) * A = 2 ^ w * A / 2 := by rw [hbits]; ring
        have e2 : (1 / 39 + 1 : ℝ) * A * 2 ^ w = (1 / 39 + 1) * (2 ^ w * A) := by ring
        rw [sub_mul, e, e2]
        nlinarith
      refine h1.trans ?_
      push_cast
      rw [add_div, Real.exp_add, mul_comm]
      exact mul_le_mul ih (Real.add_one_le_exp _) (by norm_num) (Real.exp_pos _).le
    · simp only [signVals_cons]
      split_ifs
      · rw [hA, ← average_mul_left]
        apply average_congr
        intro x
        rw [← Real.exp_add]; congr 1; push_cast; ring
      · apply average_congr
        intro x
        rw [List.length_cons]; congr 1; push_cast; ring
      · apply average_congr
        intro x
        rw [List.length_cons]; congr 1; push_cast; ring

open Classical in
theorem skip_tail (hw : 8 ≤ w) (n : Nat) (hn : 1024 ≤ n) :
    fraction (fun x : Fin n → BitVec w => ((signVals (List.ofFn x)).length : ℝ) < 9 / 10 * n) ≤ 1 / 10 ^ 9 := by
  have h := chernoff (fun x : Fin n → BitVec w => (n : ℝ) - (signVals (List.ofFn x)).length)
    (fun x => ((signVals (List.ofFn x)).length : ℝ) < 9 / 10 * n) (n / 10) 2 (by norm_num) (fun x hx => by linarith)
  refine h.trans ((mul_le_mul_of_nonneg_left (skip_mgf hw n) (Real.exp_pos _).le).trans ?_)
  rw [← Real.exp_add]
  have hn' : (1024 : ℝ) ≤ n := by exact_mod_cast hn
  calc Real.exp (-(2 * (n / 10 : ℝ)) + n / 39) ≤ Real.exp (-30) := Real.exp_le_exp.2 (by linarith)
    _ = (Real.exp 1 ^ 30)⁻¹ := by rw [← Real.exp_nat_mul, ← Real.exp_neg]; norm_num
    _ ≤ 1 / 10 ^ 9 := by
      rw [inv_le_comm₀ (by positivity) (by norm_num)]
      refine le_trans ?_ (pow_le_pow_left₀ (by norm_num) Real.exp_one_gt_d9.le 30)
      norm_num

/-- The tail of a quantity that is sub-Gaussian with the number of words that count. -/
theorem super_tail {α : Type} [Fintype α] [Nonempty α] (X M : α → ℝ) (κ t n : ℝ) (hκ : 1 ≤ κ) (ht : 0 ≤ t) (hn : 0 < n) (hM : ∀ x, M x ≤ n)
    (hs : ∀ l : ℝ, average (fun x => Real.exp (l * X x - l ^ 2 / 2 * κ * M x)) ≤ 1) (p : α → Prop) [DecidablePred p]
    (hp : ∀ x, p x → t * Real.sqrt (M x) ≤ X x ∧ 9 / 10 * n ≤ M x) :
    fraction p ≤ Real.exp (-(t ^ 2 * (498 / 1000 - (κ - 1) / 2))) := by
  set l := t / Real.sqrt n with hl
  have hsn : 0 < Real.sqrt n := Real.sqrt_pos.2 hn
  have hsn2 : Real.sqrt n ^ 2 = n := Real.sq_sqrt hn.le
  have h := chernoff (fun x => l * X x - l ^ 2 / 2 * κ * M x) p (t ^ 2 * (498 / 1000 - (κ - 1) / 2)) 1 (by norm_num) ?_
  · simp only [one_mul] at h
    exact h.trans (mul_le_of_le_one_right (Real.exp_pos _).le (hs l))
  · intro x hx
    obtain ⟨h1, h2⟩ := hp x hx
    have hM0 : 0 ≤ M x := by linarith
    set y := Real.sqrt (M x) / Real.sqrt n with hy
    have hy2 : y ^ 2 = M x / n := by rw [hy, div_pow, hsn2, Real.sq_sqrt hM0]
    have hy0 : 0 ≤ y := by positivity
    have hy1 : y ≤ 1 := by
      rw [hy, div_le_one hsn]; exact Real.sqrt_le_sqrt (hM x)
    have hy9 : 9 / 10 ≤ y ^ 2 := by rw [hy2, le_div_iff₀ hn]; exact h2
    have hy94 : 94 / 100 ≤ y := by nlinarith
    have e1 : t ^ 2 * y ≤ l * X x := by
      have : t ^ 2 * y = l * (t * Real.sqrt (M x)) := by rw [hl, hy]; field_simp
      rw [this]
      exact mul_le_mul_of_nonneg_left h1 (by positivity)
    have e2 : l ^ 2 / 2 * κ * M x = t ^ 2 * (κ * y ^ 2 / 2) := by
      rw [hy2, hl, div_pow, hsn2]; field_simp
    rw [e2]
    have h3 : 498 / 1000 - (κ - 1) / 2 ≤ y - κ * y ^ 2 / 2 := by
      have a1 : (1 - y) ^ 2 ≤ (6 / 100) ^ 2 := pow_le_pow_left₀ (by linarith) (by linarith) 2
      have a2 : y ^ 2 ≤ 1 := by nlinarith
      have a3 : (κ - 1) * y ^ 2 ≤ (κ - 1) * 1 := mul_le_mul_of_nonneg_left a2 (by linarith)
      linarith
    have := mul_le_mul_of_nonneg_left h3 (sq_nonneg t)
    linarith

theorem pairSum_zero (l : List ℝ) : pairSum (0 :: l) = pairSum l := by
  cases l with
  | nil => rfl
  | cons a l => rw [pairSum]; ring

theorem signs_counts (hw : 0 < w) (xs : List (BitVec w)) :
    (signs xs (BitVec.intMax w)).countP id = xs.countP (fun v => v.msb) ∧
      (signs xs (BitVec.intMax w)).countP (!·) = xs.countP (fun v => decide (v.toNat < 2 ^ (w - 1) - 1)) := by
  have hbits : 2 ^ w = 2 * 2 ^ (w - 1) := by
    obtain ⟨v, rfl⟩ : ∃ v, w = v + 1 := ⟨w - 1, by omega⟩
    rw [Nat.add_sub_cancel, pow_succ]; ring
  have hp : 0 < 2 ^ (w - 1) := by positivity
  induction xs with
  | nil => exact ⟨rfl, rfl⟩
  | cons o xs ih =>
    rw [signs_cons, List.countP_cons, List.countP_cons, ← ih.1, ← ih.2]
    have e1 : (o = BitVec.intMax w) ↔ (o.toNat = 2 ^ (w - 1) - 1) := by
      rw [← BitVec.toNat_inj, BitVec.toNat_intMax]
    have e2 : (BitVec.intMax w < o) ↔ (2 ^ (w - 1) - 1 < o.toNat) := by
      rw [BitVec.lt_def, BitVec.toNat_intMax]
    have e3 : o.msb = decide (2 ^ (w - 1) ≤ o.toNat) := BitVec.msb_eq_decide o
    rw [e3]
    have hlt := o.isLt
    split_ifs with h h1 h2 h2
    all_goals simp only [decide_eq_true_eq, e1] at *
    all_goals try omega
    all_goals rw [List.countP_cons, List.countP_cons]
    all_goals simp only [e2]
    all_goals simp
    all_goals omega

/-- What the runs test sees. -/
theorem runs_z (hw : 8 ≤ w) (n : BitVec 64) (hn : n ≠ 0#64) (s : Stream (BitVec w)) (st : Statistic ℝ)
    (h : runsTest n s = .ok [⟨"", some st⟩]) (h2 g S0 : ℝ) (hh : 0 ≤ h2) (hS0 : 30 ≤ S0)
    (hnum : g * S0 + 12 * (h2 + 1) / S0 + h2 + 2 ≤ (6 - 1 / 1000) * S0) (hg6 : g ≤ 59 / 10) (hsmall : 12 * (h2 + 1) ≤ S0 ^ 2)
    (hl : S0 ^ 2 ≤ (signVals (s.take n.toNat)).length) (hH : (signVals (s.take n.toNat)).sum ^ 2 ≤ h2 * (signVals (s.take n.toNat)).length)
    (hz : 6 ≤ |st.value|) : g * Real.sqrt (signVals (s.take n.toNat)).length ≤ |pairSum (signVals (s.take n.toNat))| := by
  obtain ⟨a, b, r, ha, hb, hr, hrun⟩ := C80_runs (by omega) n s
  obtain ⟨hb0, hb1⟩ := signBias_bounds hw
  rw [hrun] at h
  simp only [Except.ok.injEq, List.cons.injEq, SubTest.mk.injEq, true_and, and_true] at h
  have hc := signs_counts (by omega : 0 < w) (s.take n.toNat)
  split_ifs at h with hnone
  simp only [Option.some.injEq] at h
  subst h
  have hlen : (signVals (s.take n.toNat)).length = (signs (s.take n.toNat) (BitVec.intMax w)).length := by
    unfold signVals; rw [List.length_map]
  rw [hlen] at hl hH ⊢
  refine runs_pairs (signBias w) hb0 hb1 _ a b r (by rw [ha, hc.1]) (by rw [hb, hc.2]) _ ?_ (hr hn) h2 g S0 hh hS0 hnum hg6 hsmall hl hH hz
  split_ifs <;> omega

open Classical in
/-- A bound of the rate of large z-scores of the runs test. -/
theorem runs_tail (hw : 8 ≤ w) (n : BitVec 64) (hn : 1024 ≤ n.toNat) (N : Nat) (hnN : n.toNat ≤ N) (src : (Fin N → BitVec w) → Stream (BitVec w))
    (hsrc : Continues src) (h g S0 : ℝ) (hh : 0 ≤ h) (hg : 0 ≤ g) (hS0 : 30 ≤ S0)
    (hnum : g * S0 + 12 * (h ^ 2 + 1) / S0 + h ^ 2 + 2 ≤ (6 - 1 / 1000) * S0) (hg6 : g ≤ 59 / 10) (hsmall : 12 * (h ^ 2 + 1) ≤ S0 ^ 2)
    (hl : S0 ^ 2 ≤ 9 / 10 * n.toNat) :
    fraction (fun x => ∃ st, runsTest n (src x) = .ok [⟨"", some st⟩] ∧ 6 ≤ |st.value|) ≤
      1 / 10 ^ 9 + 2 * Real.exp (-(h ^ 2 * (498 / 1000))) + 2 * Real.exp (-(g ^ 2 * (494 / 1000))) := by
  have hn0 : n ≠ 0#64 := by rintro rfl; simp at hn
  have hnr : (0 : ℝ) < n.toNat := by exact_mod_cast (by omega : 0 < n.toNat)
  obtain ⟨hb0, hb1⟩ := signBias_bounds hw
  have htake : ∀ x, (src x).take n.toNat = List.ofFn fun i : Fin n.toNat => x (Fin.castLE hnN i) := by
    intro x
    rw [Stream.take_eq_map]
    apply List.ext_getElem (by simp)
    intro i h1 h2
    have hi : i < n.toNat := by simpa using h1
    simp only [List.getElem_map, List.getElem_range, List.getElem_ofFn]
    exact hsrc x ⟨i, hi.trans_le hnN⟩
  set H : (Fin n.toNat → BitVec w) → ℝ := fun x => (signVals (List.ofFn x)).sum with hHd
  set G : (Fin n.toNat → BitVec w) → ℝ := fun x => pairSum (signVals (List.ofFn x)) with hGd
  set M : (Fin n.toNat → BitVec w) → ℝ := fun x => ((signVals (List.ofFn x)).length : ℝ) with hMd
  have hMn : ∀ x, M x ≤ n.toNat := by
    intro x
    have := length_signVals (List.ofFn x)
    rw [List.length_ofFn] at this
    show ((signVals (List.ofFn x)).length : ℝ) ≤ n.toNat
    exact_mod_cast this
  set κ : ℝ := (1 + signBias w) ^ 2 with hκ
  have hκ1 : 1 ≤ κ := by rw [hκ]; nlinarith
  have hκ2 : κ ≤ 1008 / 1000 := by rw [hκ]; nlinarith
  have sH : ∀ l : ℝ, average (fun x => Real.exp (l * H x - l ^ 2 / 2 * 1 * M x)) ≤ 1 := by
    intro l; rw [mul_one]; exact sum_supermartingale hw l n.toNat
  have sH' : ∀ l : ℝ, average (fun x => Real.exp (l * -H x - l ^ 2 / 2 * 1 * M x)) ≤ 1 := by
    intro l
    have := sH (-l)
    rw [neg_sq] at this
    simpa only [mul_neg, neg_mul] using this
  have sG : ∀ l : ℝ, average (fun x => Real.exp (l * G x - l ^ 2 / 2 * κ * M x)) ≤ 1 := by
    intro l
    have := pair_supermartingale hw l n.toNat 0 (by rw [abs_zero]; linarith)
    simp only [pairSum_zero] at this
    exact this
  have sG' : ∀ l : ℝ, average (fun x => Real.exp (l * -G x - l ^ 2 / 2 * κ * M x)) ≤ 1 := by
    intro l
    have := sG (-l)
    rw [neg_sq] at this
    simpa only [mul_neg, neg_mul] using this
  have t1 := super_tail H M 1 h n.toNat le_rfl hh hnr hMn sH (fun x => h * Real.sqrt (M x) ≤ H x ∧ 9 / 10 * (n.toNat : ℝ) ≤ M x) (fun x hx => hx)
  have t2 := super_tail (fun x => -H x) M 1 h n.toNat le_rfl hh hnr hMn sH' (fun x => h * Real.sqrt (M x) ≤ -H x ∧ 9 / 10 * (n.toNat : ℝ) ≤ M x) (fun x hx => hx)
  have t3 := super_tail G M κ g n.toNat hκ1 hg hnr hMn sG (fun x => g * Real.sqrt (M x) ≤ G x ∧ 9 / 10 * (n.toNat : ℝ) ≤ M x) (fun x hx => hx)
  have t4 := super_tail (fun x => -G x) M κ g n.toNat hκ1 hg hnr hMn sG' (fun x => g * Real.sqrt (M x) ≤ -G x ∧ 9 / 10 * (n.toNat : ℝ) ≤ M x) (fun x hx => hx)
  have t0 := skip_tail hw n.toNat hn
  have hu : fraction (fun x => ∃ st, runsTest n (src x) = .ok [⟨"", some st⟩] ∧ 6 ≤ |st.value|) ≤
      fraction (fun x : Fin n.toNat → BitVec w => (M x < 9 / 10 * n.toNat) ∨ ((h * Real.sqrt (M x) ≤ H x ∧ 9 / 10 * (n.toNat : ℝ) ≤ M x) ∨
        ((h * Real.sqrt (M x) ≤ -H x ∧ 9 / 10 * (n.toNat : ℝ) ≤ M x) ∨ ((g * Real.sqrt (M x) ≤ G x ∧ 9 / 10 * (n.toNat : ℝ) ≤ M x) ∨
        (g * Real.sqrt (M x) ≤ -G x ∧ 9 / 10 * (n.toNat : ℝ) ≤ M x))))) := by
    rw [← fraction_first n.toNat N hnN]
    apply fraction_mono
    rintro x ⟨st, h1, hz⟩
    set y : Fin n.toNat → BitVec w := fun i => x (Fin.castLE hnN i) with hy
    have ht := htake x
    by_cases hM : M y < 9 / 10 * n.toNat
    · exact Or.inl hM
    rw [not_lt] at hM
    have hM0 : 0 ≤ M y := by linarith
    right
    by_cases hH1 : h * Real.sqrt (M y) ≤ H y
    · exact Or.inl ⟨hH1, hM⟩
    by_cases hH2 : h * Real.sqrt (M y) ≤ -H y
    · exact Or.inr (Or.inl ⟨hH2, hM⟩)
    right; right
    rw [not_le] at hH1 hH2
    have hHsq : H y ^ 2 ≤ h ^ 2 * M y := by
      rw [← Real.sq_sqrt hM0, ← mul_pow]
      apply sq_le_sq'
      · linarith
      · linarith
    have := runs_z hw n hn0 (src x) st h1 (h ^ 2) g S0 (sq_nonneg h) hS0 hnum hg6 hsmall (by rw [ht]; exact hl.trans hM) (by rw [ht]; exact hHsq) hz
    rw [ht] at this
    rcases le_abs.1 this with h3 | h3
    · exact Or.inl ⟨h3, hM⟩
    · exact Or.inr ⟨h3, hM⟩
  have o1 := fraction_or (fun x : Fin n.toNat → BitVec w => M x < 9 / 10 * n.toNat) (fun x => (h * Real.sqrt (M x) ≤ H x ∧ 9 / 10 * (n.toNat : ℝ) ≤ M x) ∨
        ((h * Real.sqrt (M x) ≤ -H x ∧ 9 / 10 * (n.toNat : ℝ) ≤ M x) ∨ ((g * Real.sqrt (M x) ≤ G x ∧ 9 / 10 * (n.toNat : ℝ) ≤ M x) ∨
        (g * Real.sqrt (M x) ≤ -G x ∧ 9 / 10 * (n.toNat : ℝ) ≤ M x))))
  have o2 := fraction_or (fun x : Fin n.toNat → BitVec w => (h * Real.sqrt (M x) ≤ H x ∧ 9 / 10 * (n.toNat : ℝ) ≤ M x)) (fun x =>
        ((h * Real.sqrt (M x) ≤ -H x ∧ 9 / 10 * (n.toNat : ℝ) ≤ M x) ∨ ((g * Real.sqrt (M x) ≤ G x ∧ 9 / 10 * (n.toNat : ℝ) ≤ M x) ∨
        (g * Real.sqrt (M x) ≤ -G x ∧ 9 / 10 * (n.toNat : ℝ) ≤ M x))))
  have o3 := fraction_or (fun x : Fin n.toNat → BitVec w => (h * Real.sqrt (M x) ≤ -H x ∧ 9 / 10 * (n.toNat : ℝ) ≤ M x)) (fun x =>
        ((g * Real.sqrt (M x) ≤ G x ∧ 9 / 10 * (n.toNat : ℝ) ≤ M x) ∨ (g * Real.sqrt (M x) ≤ -G x ∧ 9 / 10 * (n.toNat : ℝ) ≤ M x)))
  have o4 := fraction_or (fun x : Fin n.toNat → BitVec w => (g * Real.sqrt (M x) ≤ G x ∧ 9 / 10 * (n.toNat : ℝ) ≤ M x)) (fun x =>
        (g * Real.sqrt (M x) ≤ -G x ∧ 9 / 10 * (n.toNat : ℝ) ≤ M x))
  have e1 : Real.exp (-(h ^ 2 * (498 / 1000 - (1 - 1) / 2))) = Real.exp (-(h ^ 2 * (498 / 1000))) := by norm_num
  have e2 : Real.exp (-(g ^ 2 * (498 / 1000 - (κ - 1) / 2))) ≤ Real.exp (-(g ^ 2 * (494 / 1000))) := by
    apply Real.exp_le_exp.2
    have := sq_nonneg g
    nlinarith
  rw [e1] at t1 t2
  refine hu.trans ?_
  linarith

theorem runs_statistic (hw : 0 < w) (n : BitVec 64) (s : Stream (BitVec w)) (st : Statistic ℝ) (h : runsTest n s = .ok [⟨"", some st⟩]) :
    comparableP st = (gaussianReal 0 1).real {x | |st.value| ≤ |x|} := by
  obtain ⟨a, b, r, _, _, _, hrun⟩ := C80_runs hw n s
  rw [hrun] at h
  simp only [Except.ok.injEq, List.cons.injEq, SubTest.mk.injEq, true_and, and_true] at h
  split_ifs at h
  simp only [Option.some.injEq] at h
  subst h
  rfl

theorem runs_fails (hw : 0 < w) (n : BitVec 64) (s : Stream (BitVec w)) (st : Statistic ℝ) (h : runsTest n s = .ok [⟨"", some st⟩])
    (hp : statPass st = false) : 6 ≤ |st.value| := by
  by_contra hlt
  rw [not_le] at hlt
  have h1 := normal_accept st.value hlt.le
  rw [← runs_statistic hw n _ st h] at h1
  have h2 : comparableP st ≤ 1 := by rw [runs_statistic hw n _ st h]; exact MeasureTheory.measureReal_le_one
  rw [(C66_classes st h2).1.2 h1] at hp
  exact Bool.noConfusion hp

theorem exp_bound (k : Nat) (x c : ℝ) (hx : 0 ≤ x) (hc : 0 < c) (h : c⁻¹ ≤ 2.7182818283 ^ k * (1 + x + x ^ 2 / 2)) : Real.exp (-(k + x)) ≤ c := by
  rw [Real.exp_neg, inv_le_comm₀ (Real.exp_pos _) hc, Real.exp_add]
  have e : Real.exp (k : ℝ) = Real.exp 1 ^ k := by rw [← Real.exp_nat_mul, mul_one]
  rw [e]
  refine h.trans (mul_le_mul (pow_le_pow_left₀ (by norm_num) Real.exp_one_gt_d9.le k) (Real.quadratic_le_exp_of_nonneg hx) (by positivity) (by positivity))

/-! ### C124 -/

open Classical in
/-- C124. At most one in 10000 random inputs fails the runs test, for any number of samples from 1024 on. -/
theorem C124_runs_false_alarm (hw : 8 ≤ w) (n : BitVec 64) (hn : 1024 ≤ n.toNat) (N : Nat) (hnN : n.toNat ≤ N)
    (src : (Fin N → BitVec w) → Stream (BitVec w)) (hsrc : Continues src) :
    fraction (fun x => ∃ st, runsTest n (src x) = .ok [⟨"", some st⟩] ∧ statPass st = false) ≤ 1 / 10 ^ 4 := by
  have hnr : (1024 : ℝ) ≤ n.toNat := by exact_mod_cast hn
  have h21 : Real.sqrt 21 ^ 2 = 21 := Real.sq_sqrt (by norm_num)
  refine (fraction_mono _ _ ?_).trans ((runs_tail hw n hn N hnN src hsrc (Real.sqrt 21) (49 / 10) 30 (Real.sqrt_nonneg _) (by norm_num) le_rfl
    (by rw [h21]; norm_num) (by norm_num) (by rw [h21]; norm_num) (by linarith)).trans ?_)
  · rintro x ⟨st, h, hp⟩
    exact ⟨st, h, runs_fails (by omega) n _ st h hp⟩
  · rw [h21]
    have b1 := exp_bound 10 (458 / 1000) (3 / 10 ^ 5) (by norm_num) (by norm_num) (by norm_num)
    have b2 := exp_bound 11 (86 / 100) (8 / 10 ^ 6) (by norm_num) (by norm_num) (by norm_num)
    have c1 : Real.exp (-(21 * (498 / 1000))) ≤ Real.exp (-((10 : ℕ) + 458 / 1000)) := Real.exp_le_exp.2 (by norm_num)
    have c2 : Real.exp (-((49 / 10) ^ 2 * (494 / 1000))) ≤ Real.exp (-((11 : ℕ) + 86 / 100)) := Real.exp_le_exp.2 (by norm_num)
    linarith

open Classical in
/-- C124. And at most one in a million from 2^16 samples on. -/
theorem C124_runs_large (hw : 8 ≤ w) (n : BitVec 64) (hn : 2 ^ 16 ≤ n.toNat) (N : Nat) (hnN : n.toNat ≤ N)
    (src : (Fin N → BitVec w) → Stream (BitVec w)) (hsrc : Continues src) :
    fraction (fun x => ∃ st, runsTest n (src x) = .ok [⟨"", some st⟩] ∧ statPass st = false) ≤ 1 / 10 ^ 6 := by
  have hnr : (65536 : ℝ) ≤ n.toNat := by exact_mod_cast hn
  have h30 : Real.sqrt 30 ^ 2 = 30 := Real.sq_sqrt (by norm_num)
  refine (fraction_mono _ _ ?_).trans ((runs_tail hw n (by omega) N hnN src hsrc (Real.sqrt 30) (58 / 10) 240 (Real.sqrt_nonneg _) (by norm_num) (by norm_num)
    (by rw [h30]; norm_num) (by norm_num) (by rw [h30]; norm_num) (by linarith)).trans ?_)
  · rintro x ⟨st, h, hp⟩
    exact ⟨st, h, runs_fails (by omega) n _ st h hp⟩
  · rw [h30]
    have b1 := exp_bound 14 (94 / 100) (36 / 10 ^ 8) (by norm_num) (by norm_num) (by norm_num)
    have b2 := exp_bound 16 (61 / 100) (7 / 10 ^ 8) (by norm_num) (by norm_num) (by norm_num)
    have c1 : Real.exp (-(30 * (498 / 1000))) ≤ Real.exp (-((14 : ℕ) + 94 / 100)) := Real.exp_le_exp.2 (by norm_num)
    have c2 : Real.exp (-((58 / 10) ^ 2 * (494 / 1000))) ≤ Real.exp (-((16 : ℕ) + 61 / 100)) := Real.exp_le_exp.2 (by norm_num)
    linarith

open Classical in
theorem fraction_range {α : Type} [Fintype α] (bad : Nat → α → Prop) (a len : Nat) (b : ℝ) (h : ∀ k, a ≤ k → k < a + len → fraction (bad k) ≤ b) :
    fraction (fun x => ∃ k, a ≤ k ∧ k < a + len ∧ bad k x) ≤ len * b := by
  have h := fraction_exists ((List.range len).map fun j => bad (a + j)) b (by
    intro p hp
    obtain ⟨j, hj, rfl⟩ := List.mem_map.1 hp
    have hj := List.mem_range.1 hj
    exact h _ (by omega) (by omega))
  rw [List.length_map, List.length_range] at h
  refine (fraction_mono _ _ ?_).trans h
  rintro x ⟨k, h1, h2, hx⟩
  refine ⟨_, List.mem_map.2 ⟨k - a, List.mem_range.2 (by omega), rfl⟩, ?_⟩
  rw [show a + (k - a) = k by omega]
  exact hx

open Classical in
theorem fraction_two_ranges {α : Type} [Fintype α] (bad : Nat → α → Prop) (h1 : ∀ k, 10 ≤ k → k < 16 → fraction (bad k) ≤ 1 / 10 ^ 4)
    (h2 : ∀ k, 16 ≤ k → k ≤ 40 → fraction (bad k) ≤ 1 / 10 ^ 6) : fraction (fun x => ∃ k, 10 ≤ k ∧ k ≤ 40 ∧ bad k x) ≤ 7 / 10 ^ 4 := by
  have hsmall := fraction_range bad 10 6 (1 / 10 ^ 4) fun k a b => h1 k a (by omega)
  have hlarge := fraction_range bad 16 25 (1 / 10 ^ 6) fun k a b => h2 k a (by omega)
  refine (fraction_mono _ (fun x => (∃ k, 10 ≤ k ∧ k < 10 + 6 ∧ bad k x) ∨ (∃ k, 16 ≤ k ∧ k < 16 + 25 ∧ bad k x)) ?_).trans ((fraction_or _ _).trans
    ((add_le_add hsmall hlarge).trans (by norm_num)))
  rintro x ⟨k, h1, h2, hx⟩
  by_cases hk : k < 16
  · exact Or.inl ⟨k, h1, by omega, hx⟩
  · exact Or.inr ⟨k, by omega, by omega, hx⟩

open Classical in
/-- C124. At most 7 of 10000 random inputs fail the runs test with `2^k` samples for any `k` from 10 to 40. -/
theorem C124_runs_all_powers (hw : 8 ≤ w) (N : Nat) (hN : 2 ^ 40 ≤ N) (src : (Fin N → BitVec w) → Stream (BitVec w)) (hsrc : Continues src) :
    fraction (fun x => ∃ k, 10 ≤ k ∧ k ≤ 40 ∧ ∃ st, runsTest (BitVec.ofNat 64 (2 ^ k)) (src x) = .ok [⟨"", some st⟩] ∧ statPass st = false) ≤
      7 / 10 ^ 4 := by
  have hpow : ∀ k, k ≤ 40 → (BitVec.ofNat 64 (2 ^ k)).toNat = 2 ^ k := by
    intro k hk
    have h1 : 2 ^ k ≤ 2 ^ 40 := Nat.pow_le_pow_right (by norm_num) hk
    rw [BitVec.toNat_ofNat]; exact Nat.mod_eq_of_lt (h1.trans_lt (by norm_num))
  have hle : ∀ k, k ≤ 40 → (BitVec.ofNat 64 (2 ^ k)).toNat ≤ N := by
    intro k hk
    rw [hpow k hk]
    exact (Nat.pow_le_pow_right (by norm_num) hk).trans hN
  exact fraction_two_ranges (fun k (x : Fin N → BitVec w) => ∃ st, runsTest (BitVec.ofNat 64 (2 ^ k)) (src x) = .ok [⟨"", some st⟩] ∧ statPass st = false)
    (fun k h1 h2 => C124_runs_false_alarm hw _ (by
      rw [hpow _ (by omega)]
      exact (Nat.pow_le_pow_right (by norm_num) h1 : 2 ^ 10 ≤ 2 ^ k)) N (hle _ (by omega)) src hsrc)
    (fun k h1 h2 => C124_runs_large hw _ (by
      rw [hpow _ (by omega)]
      exact Nat.pow_le_pow_right (by norm_num) h1) N (hle _ (by omega)) src hsrc)

/-- The hypotheses can be met, and the events are not empty: bytes that alternate between 0 and 255 fail. -/
example : Continues (thenZeros (w := 8) (2 ^ 40)) ∧ ∃ st, runsTest 1024#64 (thenZeros (w := 8) (2 ^ 40) fun i => if i.val % 2 = 0 then 0 else 255) =
    .ok [⟨"", some st⟩] ∧ statPass st = false := by
  have hv : ∀ i, i < 1024 → (thenZeros (w := 8) (2 ^ 40) fun i => if i.val % 2 = 0 then 0 else 255).nth i = if i % 2 = 0 then 0 else 255 := by
    intro i hi
    exact thenZeros_continues (w := 8) (2 ^ 40) (fun i => if i.val % 2 = 0 then 0 else 255) ⟨i, hi.trans (by norm_num)⟩
  refine ⟨thenZeros_continues _, ?_⟩
  obtain ⟨st, h1, _, h2⟩ := C111_alternating (w := 8) (by norm_num) 1024#64 (by decide) _
    (fun i hi => by rw [hv i hi]; split_ifs <;> decide)
    (fun i hi => by
      have hi : i + 1 < 1024 := hi
      rw [hv i (by omega), hv (i + 1) hi]
      by_cases h : i % 2 = 0
      · rw [if_pos h, if_neg (by omega)]; decide
      · rw [if_neg h, if_pos (by omega)]; decide)
  exact ⟨st, h1, h2⟩

end TFR
