import Verif.Props.SelfCheckPermutation
/-
C135. What the coupon test rejects, and what the self-check of `-inspect-test` prints about it.
-/
namespace TFR
open Spec Finset
variable {w : Nat}

/-- The `L` values from position `i` on show all five coupons. -/
def Spec.showsAll (v : Nat → BitVec w) (i L : Nat) : Prop := ∀ c < 5, ∃ d < L, Spec.coupon 5 (v (i + d)) = c

/-! ### Segments and positions -/

theorem segment_at (v : Nat → BitVec w) (n : Nat) (done : List (BitVec w) → Prop) (segs : List (List (BitVec w))) (rest : List (BitVec w))
    (h : IsSegmentation done ((List.range n).map v) segs rest) (s : List (BitVec w)) (hs : s ∈ segs) :
    ∃ i, i + s.length ≤ n ∧ s = (List.range s.length).map fun d => v (i + d) := by
  obtain ⟨A, B, rfl⟩ := List.append_of_mem hs
  have hc := h.cover
  rw [List.flatten_append, List.flatten_cons, List.append_assoc, List.append_assoc] at hc
  have hlen : n = A.flatten.length + (s.length + (B.flatten ++ rest).length) := by
    have := congrArg List.length hc
    simpa using this
  refine ⟨A.flatten.length, by omega, ?_⟩
  apply List.ext_getElem (by simp)
  intro k h1 h2
  have e : ((List.range n).map v)[A.flatten.length + k]? = some s[k] := by
    rw [hc, List.getElem?_append_right (by omega), Nat.add_sub_cancel_left, List.getElem?_append_left h1, List.getElem?_eq_getElem h1]
  rw [List.getElem?_map, List.getElem?_range (by omega)] at e
  simp only [Option.map_some, Option.some.injEq] at e
  rw [← e, List.getElem_map, List.getElem_range]

theorem done_showsAll (v : Nat → BitVec w) (i L : Nat) :
    (∀ c, c < 5 → ∃ x ∈ (List.range L).map fun d => v (i + d), Spec.coupon 5 x = c) ↔ showsAll v i L := by
  unfold showsAll
  simp

theorem no_long_segment (v : Nat → BitVec w) (n L : Nat) (hL : 0 < L) (segs rest)
    (h : IsSegmentation (fun s => ∀ c, c < 5 → ∃ v ∈ s, Spec.coupon 5 v = c) ((List.range n).map v) segs rest)
    (hA : ∀ i, i + L ≤ n → showsAll v i L) (s : List (BitVec w)) (hs : s ∈ segs) : s.length ≤ L := by
  by_contra hlt
  obtain ⟨i, h1, h2⟩ := segment_at v n _ segs rest h s hs
  refine h.minimal s hs (s.take L) (List.take_prefix _ _) ?_ ?_ ?_
  · intro e
    have := congrArg List.length e
    simp at this
    rcases this with rfl | rfl
    · omega
    · simp at hlt
  · intro e
    have := congrArg List.length e
    simp at this
    omega
  · have e : s.take L = (List.range L).map fun d => v (i + d) := by
      conv_lhs => rw [h2]
      rw [← List.map_take, List.take_range, Nat.min_eq_left (by omega)]
    rw [e]
    exact (done_showsAll v i L).2 (hA i (by omega))

theorem no_short_segment (v : Nat → BitVec w) (n L : Nat) (segs rest)
    (h : IsSegmentation (fun s => ∀ c, c < 5 → ∃ v ∈ s, Spec.coupon 5 v = c) ((List.range n).map v) segs rest)
    (hC : ∀ i l, l ≤ L → i + l ≤ n → ¬ showsAll v i l) (s : List (BitVec w)) (hs : s ∈ segs) : L < s.length := by
  by_contra hlt
  obtain ⟨i, h1, h2⟩ := segment_at v n _ segs rest h s hs
  have hd := (h.complete s hs).2
  rw [h2] at hd
  exact hC i s.length (by omega) h1 ((done_showsAll v i _).1 hd)

theorem few_segments (v : Nat → BitVec w) (n : Nat) (segs rest) (M : Nat → Bool)
    (h : IsSegmentation (fun s => ∀ c, c < 5 → ∃ v ∈ s, Spec.coupon 5 v = c) ((List.range n).map v) segs rest)
    (hM : ∀ i l, i + l ≤ n → showsAll v i l → ∃ d < l, M (i + d) = true) : segs.length ≤ (List.range n).countP M := by
  have hc := h.cover
  have hcomp := fun s hs => (h.complete s hs).2
  clear h
  have gen : ∀ (segs : List (List (BitVec w))) (off m : Nat), off + m ≤ n → (List.range m).map (fun d => v (off + d)) = segs.flatten ++ rest →
      (∀ s ∈ segs, ∀ c, c < 5 → ∃ v ∈ s, Spec.coupon 5 v = c) → segs.length ≤ (List.range m).countP fun d => M (off + d) := by
    intro segs
    induction segs with
    | nil => intros; simp
    | cons s segs ih =>
      intro off m hm hcov hdone
      rw [List.flatten_cons, List.append_assoc] at hcov
      have hlen : m = s.length + (segs.flatten ++ rest).length := by
        have := congrArg List.length hcov
        simpa using this
      obtain ⟨m', rfl⟩ : ∃ m', m = s.length + m' := ⟨_, hlen⟩
      rw [List.range_add, List.map_append, List.map_map] at hcov
      obtain ⟨e1, e2⟩ := List.append_inj hcov (by simp)
      have h1 := ih (off + s.length) m' (by omega) (by
        rw [← e2]
        apply List.map_congr_left
        intro d _
        simp [Nat.add_assoc]) fun s hs => hdone s (List.mem_cons_of_mem _ hs)
      have hd := hdone s List.mem_cons_self
      rw [← e1] at hd
      obtain ⟨d, hd1, hd2⟩ := hM off s.length (by omega) ((done_showsAll v off _).1 hd)
      rw [List.range_add, List.countP_append, List.countP_map, List.length_cons]
      have h2 : 0 < (List.range s.length).countP fun d => M (off + d) := List.countP_pos_iff.2 ⟨d, List.mem_range.2 hd1, hd2⟩
      have h3 : (List.range m').countP ((fun d => M (off + d)) ∘ fun x => s.length + x) = (List.range m').countP fun d => M (off + s.length + d) := by
        apply List.countP_congr
        intro d _
        simp [Nat.add_assoc]
      rw [h3]
      omega
  have := gen segs 0 n (by omega) (by simpa using hc) hcomp
  simpa using this

/-! ### The statistic -/

theorem coupon_table : (couponProbabilities 5).length = 25 ∧ ∀ i < 25, 2 / 1000 < (couponProbabilities 5).getD i 0 := by decide +kernel
theorem coupon_short : 21 / 100 < ((List.range 3).map fun i => (couponProbabilities 5).getD i 0).sum := by decide +kernel
theorem coupon_long : 25 / 100 < ((List.range 16).map fun i => (couponProbabilities 5).getD (9 + i) 0).sum := by decide +kernel

theorem coupon_share' (i : Nat) (hi : i < 25) : (((couponProbabilities 5).getD i 0 : ℚ) : ℝ) = couponShare i := by
  obtain ⟨k, -, hk, h1, h2, -⟩ := C47_probabilities 5 (by norm_num) (by norm_num) (C47_no_overflow 5 (by norm_num))
  have hk24 : k = 24 := by have := hk.symm.trans coupon_table.1; omega
  subst hk24
  unfold couponShare
  rw [List.getD_eq_getElem?_getD]
  by_cases h : i < 24
  · rw [if_pos h, h1 i h, Option.getD_some, show 5 + i = 4 + i + 1 by omega,
      C47_probability 5 (4 + i) (by norm_num) (C47_no_overflow 5 (by norm_num) _ (by omega))]
    push_cast
    rfl
  · have : i = 24 := by omega
    subst this
    rw [if_neg h, h2, Option.getD_some]
    push_cast
    rfl

theorem share_pos (i : Nat) (hi : i < 25) : 2 / 1000 < couponShare i := by
  rw [← coupon_share' i hi]
  have := (Rat.cast_lt (K := ℝ)).2 (coupon_table.2 i hi)
  push_cast at this
  exact this

theorem share_sum (f : Nat → Nat) (hf : ∀ i, f i < 25) (m : Nat) (r : ℚ) (h : r < ((List.range m).map fun i => (couponProbabilities 5).getD (f i) 0).sum) :
    (r : ℝ) < ∑ i ∈ range m, couponShare (f i) := by
  have h1 := (Rat.cast_lt (K := ℝ)).2 h
  refine lt_of_lt_of_eq h1 ?_
  clear h h1
  induction m with
  | zero => simp
  | succ m ih =>
    rw [List.range_succ, List.map_append, List.sum_append, Rat.cast_add, ih, sum_range_succ]
    rw [List.map_singleton, List.sum_singleton, coupon_share' (f m) (hf m)]

/-- Pearson's statistic from below, by cells that received too little. -/
theorem pearson_short (cdf : ℝ → ℝ → ℝ) (m : Nat) (O E : Nat → ℝ) (thr : ℝ) (hthr : 0 ≤ thr) (st : Statistic ℝ)
    (h : pearson cdf ((List.range m).map fun i => (O i, E i)) thr = some st) (S : Finset Nat) (hS : S ⊆ range m) (hE : ∀ i ∈ S, thr < E i) :
    ∑ i ∈ S, (E i - 2 * O i) ≤ st.value := by
  unfold pearson at h
  split at h
  · cases h
  obtain rfl := Option.some.inj h
  show _ ≤ chiSquare _
  have key : ∀ l : List Nat, l.Nodup → ∀ S : Finset Nat, S ⊆ l.toFinset → (∀ i ∈ S, thr < E i) →
      ∑ i ∈ S, (E i - 2 * O i) ≤ chiSquare (usedCells thr (l.map fun i => (O i, E i))) := by
    intro l
    induction l with
    | nil =>
      intro _ S hS _
      have : S = ∅ := by simpa using hS
      subst this
      simp [chiSquare, usedCells]
    | cons a l ih =>
      intro hn S hS hE
      have hterm : 0 < E a → E a - 2 * O a ≤ (O a - E a) ^ 2 / E a := by
        intro h0
        rw [le_div_iff₀ h0]
        nlinarith [sq_nonneg (O a)]
      have hrec := ih (List.nodup_cons.1 hn).2 (S.erase a) (by
        intro x hx
        obtain ⟨h1, h2⟩ := mem_erase.1 hx
        have := hS h2
        simp only [List.toFinset_cons, mem_insert] at this
        exact this.resolve_left h1) (fun i hi => hE i (mem_erase.1 hi).2)
      by_cases hu : thr < E a
      · have e : chiSquare (usedCells thr ((a :: l).map fun i => (O i, E i))) =
            (O a - E a) ^ 2 / E a + chiSquare (usedCells thr (l.map fun i => (O i, E i))) := by
          unfold chiSquare usedCells
          rw [List.map_cons, List.filter_cons, if_pos (by simpa using hu), List.map_cons, List.sum_cons]
        rw [e]
        have h0 : 0 < E a := lt_of_le_of_lt hthr hu
        by_cases ha : a ∈ S
        · rw [← add_sum_erase S _ ha]
          exact add_le_add (hterm h0) hrec
        · rw [erase_eq_of_notMem ha] at hrec
          have : 0 ≤ (O a - E a) ^ 2 / E a := div_nonneg (sq_nonneg _) h0.le
          linarith
      · have e : chiSquare (usedCells thr ((a :: l).map fun i => (O i, E i))) = chiSquare (usedCells thr (l.map fun i => (O i, E i))) := by
          unfold chiSquare usedCells
          rw [List.map_cons, List.filter_cons, if_neg (by simpa using hu)]
        rw [e]
        have ha : a ∉ S := fun ha => hu (hE a ha)
        rw [erase_eq_of_notMem ha] at hrec
        exact hrec
  exact key (List.range m) List.nodup_range S (by rwa [List.toFinset_range]) hE

/-- The coupon test rejects when the bins of `S` receive too few segments. -/
theorem coupon_reject (n : BitVec 64) (hn : 7000 ≤ n.toNat) (s : Stream (BitVec w)) (S : Finset Nat) (hS : S ⊆ range 25)
    (h : ∀ segs rest, IsSegmentation (fun s => ∀ c, c < 5 → ∃ v ∈ s, Spec.coupon 5 v = c) ((List.range n.toNat).map s.nth) segs rest →
      118 + 2 * ∑ i ∈ S, (binCount (fun s => min 24 (s.length - 5)) segs i : ℝ) ≤ (∑ i ∈ S, couponShare i) * (12 * n.toNat / 137)) :
    ∃ st : Statistic ℝ, couponTest chi2DistributionCdf n s = .ok [⟨"", some st⟩] ∧ st.pValue ≤ 1 / 10 ^ 9 ∧ statPass st = false := by
  obtain ⟨segs, rest, h1, h2⟩ := C83_coupon chi2DistributionCdf n s
  obtain ⟨-, st, h3, h4, h5, h6, h7⟩ := C83_reported chi2DistributionCdf n (by omega) s
  refine ⟨st, h3, reject_of_value st h4 h7 h5 ?_⟩
  rw [Stream.take_eq_map] at h1
  have hb := h segs rest h1
  have hst : pearson chi2DistributionCdf ((List.range 25).map fun i =>
        ((binCount (fun s => min 24 (s.length - 5)) segs i : ℝ), couponShare i * (12 * n.toNat / 137))) 1 = some st := by
    rw [h2] at h3
    simpa using h3
  have hn' : (7000 : ℝ) ≤ n.toNat := by exact_mod_cast hn
  have hv := pearson_short _ 25 (fun i => (binCount (fun s => min 24 (s.length - 5)) segs i : ℝ)) (fun i => couponShare i * (12 * n.toNat / 137))
    1 (by norm_num) st hst S hS (fun i hi => by
      have := share_pos i (mem_range.1 (hS hi))
      show 1 < couponShare i * (12 * n.toNat / 137)
      nlinarith)
  rw [sum_sub_distrib, ← sum_mul, ← mul_sum] at hv
  linarith

theorem binCount_zero {α : Type} (bin : List α → Nat) (segs : List (List α)) (b : Nat) (h : ∀ s ∈ segs, bin s ≠ b) : binCount bin segs b = 0 := by
  unfold binCount
  rw [List.count_eq_zero]
  intro hb
  obtain ⟨s, hs, e⟩ := List.mem_map.1 hb
  exact h s hs e

/-- C135. The coupon test rejects, from 7000 values on, every sequence in which any 13 values in a row show all five coupons. -/
theorem C135_too_regular (n : BitVec 64) (hn : 7000 ≤ n.toNat) (s : Stream (BitVec w)) (h : ∀ i, i + 13 ≤ n.toNat → showsAll s.nth i 13) :
    ∃ st : Statistic ℝ, couponTest chi2DistributionCdf n s = .ok [⟨"", some st⟩] ∧ st.pValue ≤ 1 / 10 ^ 9 ∧ statPass st = false := by
  refine coupon_reject n hn s ((range 16).image fun i => 9 + i) (by decide) fun segs rest hseg => ?_
  have hn' : (7000 : ℝ) ≤ n.toNat := by exact_mod_cast hn
  rw [sum_image (by intro a _ b _ h; simpa using h), sum_image (by intro a _ b _ h; simpa using h)]
  rw [sum_eq_zero (fun i hi => ?_)]
  · have := share_sum (fun i => min 24 (9 + i)) (fun i => by omega) 16 (25 / 100) (by
      refine lt_of_lt_of_eq coupon_long ?_
      refine congrArg List.sum (List.map_congr_left fun i hi => ?_)
      rw [Nat.min_eq_right (by have := List.mem_range.1 hi; omega)])
    rw [sum_congr rfl (fun i hi => by rw [Nat.min_eq_right (by have := mem_range.1 hi; omega)])] at this
    push_cast at this
    nlinarith
  · rw [binCount_zero, Nat.cast_zero]
    intro q hq
    have := no_long_segment s.nth n.toNat 13 (by norm_num) segs rest hseg h q hq
    omega

/-- C135. The coupon test rejects, from 7000 values on, every sequence in which no 7 or fewer values in a row show all five coupons. -/
theorem C135_too_slow (n : BitVec 64) (hn : 7000 ≤ n.toNat) (s : Stream (BitVec w)) (h : ∀ i l, l ≤ 7 → i + l ≤ n.toNat → ¬ showsAll s.nth i l) :
    ∃ st : Statistic ℝ, couponTest chi2DistributionCdf n s = .ok [⟨"", some st⟩] ∧ st.pValue ≤ 1 / 10 ^ 9 ∧ statPass st = false := by
  refine coupon_reject n hn s (range 3) (by decide) fun segs rest hseg => ?_
  have hn' : (7000 : ℝ) ≤ n.toNat := by exact_mod_cast hn
  rw [sum_eq_zero (fun i hi => ?_)]
  · have := share_sum (fun i => min 24 i) (fun i => by omega) 3 (21 / 100) (by
      refine lt_of_lt_of_eq coupon_short ?_
      refine congrArg List.sum (List.map_congr_left fun i hi => ?_)
      rw [Nat.min_eq_right (by have := List.mem_range.1 hi; omega)])
    rw [sum_congr rfl (fun i hi => by rw [Nat.min_eq_right (by have := mem_range.1 hi; omega)])] at this
    push_cast at this
    nlinarith
  · rw [binCount_zero, Nat.cast_zero]
    intro q hq
    have := no_short_segment s.nth n.toNat 7 segs rest hseg h q hq
    have := mem_range.1 hi
    omega

/-- C135. From 40000 values on it is enough that no 5 values in a row show all five coupons. -/
theorem C135_no_five (n : BitVec 64) (hn : 40000 ≤ n.toNat) (s : Stream (BitVec w)) (h : ∀ i l, l ≤ 5 → i + l ≤ n.toNat → ¬ showsAll s.nth i l) :
    ∃ st : Statistic ℝ, couponTest chi2DistributionCdf n s = .ok [⟨"", some st⟩] ∧ st.pValue ≤ 1 / 10 ^ 9 ∧ statPass st = false := by
  refine coupon_reject n (by omega) s {0} (by decide) fun segs rest hseg => ?_
  have hn' : (40000 : ℝ) ≤ n.toNat := by exact_mod_cast hn
  rw [sum_singleton, sum_singleton, binCount_zero]
  · have e0 : couponShare 0 = 24 / 625 := by
      rw [← coupon_share' 0 (by norm_num)]
      have : (couponProbabilities 5).getD 0 0 = 24 / 625 := by decide +kernel
      rw [this]; norm_num
    rw [e0]
    push_cast
    nlinarith
  · intro q hq
    have := no_short_segment s.nth n.toNat 5 segs rest hseg h q hq
    omega

/-- C135. The coupon test rejects every sequence in which each stretch that shows all five coupons contains one of few marked positions. -/
theorem C135_few_sets (n : BitVec 64) (hn : 7000 ≤ n.toNat) (s : Stream (BitVec w)) (M : Nat → Bool)
    (hM : ∀ i l, i + l ≤ n.toNat → showsAll s.nth i l → ∃ d < l, M (i + d) = true) (hfew : 30 * (List.range n.toNat).countP M ≤ n.toNat) :
    ∃ st : Statistic ℝ, couponTest chi2DistributionCdf n s = .ok [⟨"", some st⟩] ∧ st.pValue ≤ 1 / 10 ^ 9 ∧ statPass st = false := by
  refine coupon_reject n hn s (range 25) subset_rfl fun segs rest hseg => ?_
  have hn' : (7000 : ℝ) ≤ n.toNat := by exact_mod_cast hn
  have hone := (C83_reported chi2DistributionCdf n (by omega) s).1
  have e : ∑ i ∈ range 25, couponShare i = 1 := by
    have gen : ∀ m, ∑ i ∈ range m, couponShare i = ((List.range m).map couponShare).sum := by
      intro m
      induction m with
      | zero => simp
      | succ m ih => rw [sum_range_succ, ih, List.range_succ, List.map_append, List.sum_append, List.map_singleton, List.sum_singleton]
    rw [gen, hone]
  rw [e, one_mul]
  have h1 := few_segments s.nth n.toNat segs rest M hseg hM
  have h2 : ∑ i ∈ range 25, binCount (fun s => min 24 (s.length - 5)) segs i ≤ segs.length := by
    unfold binCount
    have : ∀ l : List Nat, (∑ i ∈ range 25, l.count i) ≤ l.length := by
      intro l
      induction l with
      | nil => simp
      | cons a l ih =>
        simp only [List.count_cons, sum_add_distrib, List.length_cons]
        refine add_le_add ih ?_
        rw [sum_congr rfl (fun i _ => show (if (a == i) = true then 1 else 0) = if a = i then 1 else 0 by simp)]
        rw [sum_ite_eq]
        split <;> omega
    simpa using this (segs.map fun s => min 24 (s.length - 5))
  have h3 : (30 : ℝ) * ∑ i ∈ range 25, (binCount (fun s => min 24 (s.length - 5)) segs i : ℝ) ≤ n.toNat := by
    have : 30 * ∑ i ∈ range 25, binCount (fun s => min 24 (s.length - 5)) segs i ≤ n.toNat := by omega
    exact_mod_cast this
  nlinarith


/-! ### Coupons from the leading bits -/

theorem scale_lower (hw : w ≤ 53 ∨ w = 64) (hw0 : 0 < w) (r q : Nat) (hr : r ≤ w) (hr2 : r ≤ 16) (v : BitVec w) (hq : q * 2 ^ (w - r) ≤ v.toNat) :
    (q : ℚ) / 2 ^ r ≤ rescaleTypeTo01 v ∧ q < 2 ^ r := by
  have hqlt : q < 2 ^ r := by
    have h1 := lt_of_le_of_lt hq v.isLt
    have h2 : (2 : ℕ) ^ w = 2 ^ r * 2 ^ (w - r) := by rw [← Nat.pow_add]; congr 1; omega
    rw [h2] at h1
    exact Nat.lt_of_mul_lt_mul_right h1
  refine ⟨?_, hqlt⟩
  have h16 : (2 : ℕ) ^ r ≤ 2 ^ 16 := Nat.pow_le_pow_right (by norm_num) hr2
  have hex : (q : ℚ) / 2 ^ r = Fl.rnd ((q : ℚ) / 2 ^ r) := by
    have e : (q : ℚ) / 2 ^ r = (q : ℚ) * 2 ^ (-(r : ℤ)) := by rw [zpow_neg, zpow_natCast, div_eq_mul_inv]
    rw [e, Fl.rnd_exact (by omega)]
  rw [hex]
  unfold rescaleTypeTo01 Fl.div
  apply Fl.rnd_mono
  have hden : Fl.ofNat (2 ^ w - 1) ≤ 2 ^ w := by
    unfold Fl.ofNat
    rw [← Fl.rnd_two_pow w]
    apply Fl.rnd_mono
    have : ((2 ^ w - 1 : ℕ) : ℚ) ≤ ((2 ^ w : ℕ) : ℚ) := Nat.cast_le.2 (by omega)
    rwa [Nat.cast_pow] at this
  have hden0 : 0 < Fl.ofNat (2 ^ w - 1) := by
    refine lt_of_lt_of_le one_pos ?_
    unfold Fl.ofNat
    rw [← Fl.rnd_one]
    apply Fl.rnd_mono
    have : 1 ≤ 2 ^ w - 1 := by
      have : 2 ^ 1 ≤ 2 ^ w := Nat.pow_le_pow_right (by norm_num) hw0
      omega
    exact_mod_cast this
  have hnum : (q : ℚ) * 2 ^ (w - r) ≤ Fl.ofNat v.toNat := by
    have e : (q : ℚ) * 2 ^ (w - r) = Fl.rnd ((q : ℚ) * 2 ^ (w - r)) := by
      have := Fl.rnd_exact (m := q) (e := ((w - r : ℕ) : ℤ)) (by omega)
      rw [zpow_natCast] at this
      exact this.symm
    rw [e]
    unfold Fl.ofNat
    apply Fl.rnd_mono
    have : ((q * 2 ^ (w - r) : ℕ) : ℚ) ≤ v.toNat := Nat.cast_le.2 hq
    rwa [Nat.cast_mul, Nat.cast_pow] at this
  rw [le_div_iff₀ hden0]
  have hpw : (2 : ℚ) ^ w = 2 ^ r * 2 ^ (w - r) := by rw [← pow_add]; congr 1; omega
  calc (q : ℚ) / 2 ^ r * Fl.ofNat (2 ^ w - 1) ≤ (q : ℚ) / 2 ^ r * 2 ^ w := mul_le_mul_of_nonneg_left hden (by positivity)
    _ = (q : ℚ) * 2 ^ (w - r) := by rw [hpw]; field_simp
    _ ≤ _ := hnum

theorem scale_upper (hw : w ≤ 53 ∨ w = 64) (hw0 : 0 < w) (r q : Nat) (hr : r ≤ w) (hr2 : r ≤ 16) (v : BitVec w) (hq : v.toNat < (q + 1) * 2 ^ (w - r))
    (hqr : q < 2 ^ r) : rescaleTypeTo01 v ≤ ((q + 1 : ℕ) : ℚ) / 2 ^ r := by
  have h16 : (2 : ℕ) ^ r ≤ 2 ^ 16 := Nat.pow_le_pow_right (by norm_num) hr2
  have hex : ((q + 1 : ℕ) : ℚ) / 2 ^ r = Fl.rnd (((q + 1 : ℕ) : ℚ) / 2 ^ r) := by
    have e : ((q + 1 : ℕ) : ℚ) / 2 ^ r = ((q + 1 : ℕ) : ℚ) * 2 ^ (-(r : ℤ)) := by rw [zpow_neg, zpow_natCast, div_eq_mul_inv]
    rw [e, Fl.rnd_exact (by omega)]
  rw [hex]
  unfold rescaleTypeTo01 Fl.div
  apply Fl.rnd_mono
  have hpw : (2 : ℚ) ^ w = 2 ^ r * 2 ^ (w - r) := by rw [← pow_add]; congr 1; omega
  have ha : ((q + 1 : ℕ) : ℚ) * 2 ^ (w - r) ≤ 2 ^ w := by
    rw [hpw]
    refine mul_le_mul_of_nonneg_right ?_ (by positivity)
    have : ((q + 1 : ℕ) : ℚ) ≤ ((2 ^ r : ℕ) : ℚ) := Nat.cast_le.2 hqr
    rwa [Nat.cast_pow] at this
  have hpos2 : (2 : ℚ) ≤ 2 ^ w := by
    calc (2 : ℚ) = 2 ^ 1 := by norm_num
      _ ≤ _ := pow_le_pow_right₀ (by norm_num) hw0
  have hqe : ((q + 1 : ℕ) : ℚ) / 2 ^ r = ((q + 1 : ℕ) : ℚ) * 2 ^ (w - r) / 2 ^ w := by rw [hpw]; field_simp
  have hv1 : (v.toNat : ℚ) + 1 ≤ ((q + 1 : ℕ) : ℚ) * 2 ^ (w - r) := by
    have : ((v.toNat + 1 : ℕ) : ℚ) ≤ (((q + 1) * 2 ^ (w - r) : ℕ) : ℚ) := Nat.cast_le.2 hq
    rw [Nat.cast_mul, Nat.cast_pow] at this
    simpa using this
  rw [hqe]
  rcases hw with hw | rfl
  · have h53 : (2 : ℕ) ^ w ≤ 2 ^ 53 := Nat.pow_le_pow_right (by norm_num) hw
    have e1 : Fl.ofNat (2 ^ w - 1) = 2 ^ w - 1 := by
      unfold Fl.ofNat
      rw [Fl.rnd_natCast (by omega), Nat.cast_sub Nat.one_le_two_pow]
      push_cast
      rfl
    have e2 : Fl.ofNat v.toNat = v.toNat := by
      unfold Fl.ofNat
      rw [Fl.rnd_natCast (by have := v.isLt; omega)]
    rw [e1, e2]
    generalize ((q + 1 : ℕ) : ℚ) * 2 ^ (w - r) = a at *
    generalize (2 : ℚ) ^ w = b at *
    rw [div_le_div_iff₀ (by linarith) (by linarith)]
    nlinarith
  · have e1 : Fl.ofNat (2 ^ 64 - 1) = 2 ^ 64 := by decide +kernel
    rw [e1]
    refine div_le_div_of_nonneg_right ?_ (by positivity)
    have e : ((q + 1 : ℕ) : ℚ) * 2 ^ (64 - r) = Fl.rnd (((q + 1 : ℕ) : ℚ) * 2 ^ (64 - r)) := by
      have := Fl.rnd_exact (m := q + 1) (e := ((64 - r : ℕ) : ℤ)) (by omega)
      rw [zpow_natCast] at this
      exact this.symm
    rw [e]
    unfold Fl.ofNat
    apply Fl.rnd_mono
    linarith

/-- The leading `r` bits of a value, as a number. -/
def leading (r : Nat) (v : BitVec w) : Nat := v.toNat / 2 ^ (w - r)

/-- The coupon of a value lies between those of the ends of the interval its leading bits tell. -/
theorem coupon_between (hw : w ≤ 53 ∨ w = 64) (hw0 : 0 < w) (r : Nat) (hr : r ≤ w) (hr2 : r ≤ 16) (v : BitVec w) :
    5 * leading r v / 2 ^ r ≤ Spec.coupon 5 v ∧ Spec.coupon 5 v ≤ min 4 (5 * (leading r v + 1) / 2 ^ r) ∧ leading r v < 2 ^ r := by
  have h1 : leading r v * 2 ^ (w - r) ≤ v.toNat := Nat.div_mul_le_self _ _
  have h2 : v.toNat < (leading r v + 1) * 2 ^ (w - r) := Nat.lt_mul_of_div_lt (Nat.lt_succ_self _) (by positivity)
  obtain ⟨g1, g2⟩ := scale_lower hw hw0 r _ hr hr2 v h1
  have g3 := scale_upper hw hw0 r _ hr hr2 v h2 g2
  generalize leading r v = q at *
  clear h1 h2
  have h16 : (2 : ℕ) ^ r ≤ 2 ^ 16 := Nat.pow_le_pow_right (by norm_num) hr2
  have e5 : Fl.ofNat 5 = 5 := by
    unfold Fl.ofNat
    rw [Fl.rnd_natCast (by norm_num)]; norm_num
  have hex : ∀ m : ℕ, m ≤ 2 ^ 53 → Fl.rnd ((m : ℚ) / 2 ^ r) = (m : ℚ) / 2 ^ r := by
    intro m hm
    have e : (m : ℚ) / 2 ^ r = (m : ℚ) * 2 ^ (-(r : ℤ)) := by rw [zpow_neg, zpow_natCast, div_eq_mul_inv]
    rw [e, Fl.rnd_exact hm]
  have hlo : ((5 * q : ℕ) : ℚ) / 2 ^ r ≤ Fl.mul (Fl.ofNat 5) (rescaleTypeTo01 v) := by
    rw [← hex (5 * q) (by omega), e5]
    unfold Fl.mul
    apply Fl.rnd_mono
    push_cast
    rw [mul_div_assoc]
    linarith
  have hhi : Fl.mul (Fl.ofNat 5) (rescaleTypeTo01 v) ≤ ((5 * (q + 1) : ℕ) : ℚ) / 2 ^ r := by
    rw [← hex (5 * (q + 1)) (by omega), e5]
    unfold Fl.mul
    apply Fl.rnd_mono
    push_cast at g3 ⊢
    rw [mul_div_assoc]
    linarith
  have hfl : ∀ m : ℕ, ⌊((m : ℕ) : ℚ) / 2 ^ r⌋ = ((m / 2 ^ r : ℕ) : ℤ) := by
    intro m
    have := Rat.floor_natCast_div_natCast m (2 ^ r)
    rw [Nat.cast_pow] at this
    push_cast at this ⊢
    exact this
  have f1 := Int.floor_mono hlo
  have f2 := Int.floor_mono hhi
  rw [hfl] at f1 f2
  unfold Spec.coupon
  generalize ⌊Fl.mul (Fl.ofNat 5) (rescaleTypeTo01 v)⌋ = z at *
  have h4 : 5 * q / 2 ^ r ≤ 4 := by
    have : 5 * q / 2 ^ r < 5 := Nat.div_lt_of_lt_mul (by omega)
    omega
  generalize 5 * q / 2 ^ r = a at *
  generalize 5 * (q + 1) / 2 ^ r = b at *
  omega

theorem leading_testBit (r : Nat) (hr : r ≤ w) (v : BitVec w) (k : Nat) (hk : k < r) : (leading r v).testBit k = v.getLsbD (w - r + k) := by
  unfold leading
  rw [Nat.testBit_div_two_pow, testBit_toNat, Nat.add_comm]


def couponMask (r q : Nat) : Nat := 2 ^ (5 * q / 2 ^ r) ||| 2 ^ (min 4 (5 * (q + 1) / 2 ^ r))
def sureMask (r q : Nat) : Nat := if 5 * q / 2 ^ r = min 4 (5 * (q + 1) / 2 ^ r) then 2 ^ (5 * q / 2 ^ r) else 0
def orUpto (f : Nat → Nat) : Nat → Nat
  | 0 => 0
  | L + 1 => orUpto f L ||| f L
def full (m : Nat) : Bool := (List.range 5).all fun c => m.testBit c

theorem orUpto_testBit (f : Nat → Nat) (L c : Nat) : (orUpto f L).testBit c = true ↔ ∃ d < L, (f d).testBit c = true := by
  induction L with
  | zero => simp [orUpto]
  | succ L ih =>
    rw [orUpto, Nat.testBit_or, Bool.or_eq_true, ih]
    constructor
    · rintro (⟨d, h1, h2⟩ | h)
      · exact ⟨d, by omega, h2⟩
      · exact ⟨L, by omega, h⟩
    · rintro ⟨d, h1, h2⟩
      by_cases e : d = L
      · exact Or.inr (e ▸ h2)
      · exact Or.inl ⟨d, by omega, h2⟩

theorem full_iff (m : Nat) : full m = true ↔ ∀ c < 5, m.testBit c = true := by
  unfold full
  simp

theorem mask_mem (hw : w ≤ 53 ∨ w = 64) (hw0 : 0 < w) (r : Nat) (hr0 : 3 ≤ r) (hr : r ≤ w) (hr2 : r ≤ 16) (v : BitVec w) :
    (couponMask r (leading r v)).testBit (Spec.coupon 5 v) = true := by
  obtain ⟨h1, h2, h3⟩ := coupon_between hw hw0 r hr hr2 v
  unfold couponMask
  rw [Nat.testBit_or, Bool.or_eq_true, Nat.testBit_two_pow, Nat.testBit_two_pow, decide_eq_true_iff, decide_eq_true_iff]
  have h8 : 2 ^ 3 ≤ 2 ^ r := Nat.pow_le_pow_right (by norm_num) hr0
  have hstep : 5 * (leading r v + 1) / 2 ^ r ≤ 5 * leading r v / 2 ^ r + 1 := by
    rw [← Nat.add_div_right _ (by omega)]
    exact Nat.div_le_div_right (by omega)
  omega

theorem sure_eq (hw : w ≤ 53 ∨ w = 64) (hw0 : 0 < w) (r : Nat) (hr : r ≤ w) (hr2 : r ≤ 16) (v : BitVec w) (c : Nat)
    (h : (sureMask r (leading r v)).testBit c = true) : Spec.coupon 5 v = c := by
  obtain ⟨h1, h2, h3⟩ := coupon_between hw hw0 r hr hr2 v
  unfold sureMask at h
  split at h
  · rw [Nat.testBit_two_pow, decide_eq_true_iff] at h
    omega
  · simp at h

theorem not_shows (v : Nat → BitVec w) (i l L : Nat) (hl : l ≤ L) (f : Nat → Nat) (hf : ∀ d < l, ∃ e < L, (f e).testBit (Spec.coupon 5 (v (i + d))) = true)
    (h : full (orUpto f L) = false) : ¬ showsAll v i l := by
  intro hs
  have : full (orUpto f L) = true := by
    rw [full_iff]
    intro c hc
    obtain ⟨d, hd, e⟩ := hs c hc
    rw [orUpto_testBit]
    obtain ⟨e', h1, h2⟩ := hf d hd
    exact ⟨e', h1, e ▸ h2⟩
  rw [h] at this
  exact Bool.noConfusion this

theorem does_show (v : Nat → BitVec w) (i L : Nat) (f : Nat → Nat) (hf : ∀ d < L, ∀ c, (f d).testBit c = true → Spec.coupon 5 (v (i + d)) = c)
    (h : full (orUpto f L) = true) : showsAll v i L := by
  intro c hc
  obtain ⟨d, h1, h2⟩ := (orUpto_testBit f L c).1 ((full_iff _).1 h c hc)
  exact ⟨d, h1, hf d h1 c h2⟩

/-! ### Views of the counter -/

def flipBits (c : Bool) (r B : Nat) : Nat := if c then 2 ^ r - 1 - B else B

theorem leading_view (t : WT) (ty : RrcType) (rot : Nat) (x : Nat) (r : Nat) (hr : r ≤ t.bits) (B : Nat) (hB : B < 2 ^ r)
    (hbits : ∀ k < r, B.testBit k = x.testBit (fromBit t.bits rot ty (t.bits - r + k))) :
    leading r (permute t (BitVec.ofNat t.bits x) rot ty) = flipBits (complements ty) r B := by
  have hw : 0 < t.bits := by cases t <;> decide
  have hlt : leading r (permute t (BitVec.ofNat t.bits x) rot ty) < 2 ^ r := by
    unfold leading
    refine Nat.div_lt_of_lt_mul ?_
    rw [← Nat.pow_add, show t.bits - r + r = t.bits by omega]
    exact BitVec.isLt _
  apply Nat.eq_of_testBit_eq
  intro k
  by_cases hk : k < r
  · rw [leading_testBit r hr _ k hk, permute_bit t _ rot ty _ (by omega), BitVec.getLsbD_ofNat]
    have h1 := hbits k hk
    have h2 := fromBit_lt t.bits rot hw ty (t.bits - r + k)
    rw [decide_eq_true h2, Bool.true_and, ← h1]
    unfold flipBits
    cases complements ty
    · simp
    · simp only [if_true]
      rw [show 2 ^ r - 1 - B = 2 ^ r - (B + 1) by omega, Nat.testBit_two_pow_sub_succ hB]
      simp [hk]
  · have hp : 2 ^ r ≤ 2 ^ k := Nat.pow_le_pow_right (by norm_num) (by omega)
    rw [Nat.testBit_lt_two_pow (by omega), Nat.testBit_lt_two_pow]
    unfold flipBits
    split <;> omega

/-- Position of the top bit. -/
theorem top_cases (w rot : Nat) (hw : 0 < w) (hrot : rot < w) : (w - 1 + rot) % w = if rot = 0 then w - 1 else rot - 1 := by
  split
  · subst_vars; rw [add_zero, Nat.mod_eq_of_lt (by omega)]
  · rw [show w - 1 + rot = rot - 1 + w by omega, Nat.add_mod_right, Nat.mod_eq_of_lt (by omega)]

theorem bits_ok (t : WT) : (t.bits ≤ 53 ∨ t.bits = 64) ∧ 8 ≤ t.bits := by cases t <;> decide

theorem sixteen_ok : ∀ c : Bool, ∀ b < 16, full (orUpto (fun e => couponMask 4 (flipBits c 4 ((b + e) % 16))) 7) = false := by decide +kernel

/-- A view that starts with the bits `j, j-1, j-2, j-3`, `j ≥ 3`, goes through the interval slowly. -/
theorem slow_view (t : WT) (ty : RrcType) (rot m : Nat) (v : Nat → BitVec t.bits) (hv : ∀ i, v i = permute t (BitVec.ofNat t.bits (i + 1)) rot ty)
    (hb : ∀ k < 4, fromBit t.bits rot ty (t.bits - 4 + k) = m + k) (i l : Nat) (hl : l ≤ 7) : ¬ showsAll v i l := by
  obtain ⟨h1, h2⟩ := bits_ok t
  have hlead : ∀ x, leading 4 (permute t (BitVec.ofNat t.bits x) rot ty) = flipBits (complements ty) 4 (x / 2 ^ m % 16) := by
    intro x
    refine leading_view t ty rot x 4 (by omega) _ (by omega) fun k hk => ?_
    rw [hb k hk, show 16 = 2 ^ 4 from rfl, Nat.testBit_mod_two_pow, decide_eq_true hk, Bool.true_and, Nat.testBit_div_two_pow, Nat.add_comm]
  refine not_shows v i l 7 hl (fun e => couponMask 4 (flipBits (complements ty) 4 (((i + 1) / 2 ^ m % 16 + e) % 16))) (fun d hd => ?_)
    (sixteen_ok _ _ (by omega))
  refine ⟨(i + 1 + d) / 2 ^ m - (i + 1) / 2 ^ m, ?_, ?_⟩
  · have : (i + 1 + d) / 2 ^ m ≤ (i + 1) / 2 ^ m + d := by
      rw [← Nat.add_mul_div_left _ _ (Nat.two_pow_pos m)]
      refine Nat.div_le_div_right ?_
      have := Nat.le_mul_of_pos_left d (Nat.two_pow_pos m)
      omega
    omega
  · have hmono : (i + 1) / 2 ^ m ≤ (i + 1 + d) / 2 ^ m := Nat.div_le_div_right (by omega)
    have e : ((i + 1) / 2 ^ m % 16 + ((i + 1 + d) / 2 ^ m - (i + 1) / 2 ^ m)) % 16 = (i + 1 + d) / 2 ^ m % 16 := by omega
    show (couponMask 4 (flipBits (complements ty) 4 (((i + 1) / 2 ^ m % 16 + ((i + 1 + d) / 2 ^ m - (i + 1) / 2 ^ m)) % 16))).testBit _ = true
    rw [e, ← hlead, hv, show i + d + 1 = i + 1 + d by omega]
    exact mask_mem h1 (by omega) 4 (by norm_num) (by omega) (by norm_num) _

/-- A value that never crosses the middle. -/
theorem half_view (hw : w ≤ 53 ∨ w = 64) (hw0 : 0 < w) (v : Nat → BitVec w) (i l : Nat) (b : Bool) (h : ∀ d < l, (v (i + d)).getLsbD (w - 1) = b) :
    ¬ showsAll v i l := by
  intro hs
  have hl : ∀ d < l, leading 1 (v (i + d)) = b.toNat := by
    intro d hd
    have h1 := leading_testBit 1 hw0 (v (i + d)) 0 (by norm_num)
    rw [add_zero, h d hd] at h1
    have h2 := (coupon_between hw hw0 1 hw0 (by norm_num) (v (i + d))).2.2
    generalize leading 1 (v (i + d)) = q at *
    obtain rfl | rfl : q = 0 ∨ q = 1 := by omega
    · simp at h1; rw [h1]; rfl
    · simp at h1; rw [h1]; rfl
  cases b
  · obtain ⟨d, hd, e⟩ := hs 4 (by norm_num)
    have := (coupon_between hw hw0 1 hw0 (by norm_num) (v (i + d))).2.1
    rw [hl d hd, e] at this
    revert this
    decide
  · obtain ⟨d, hd, e⟩ := hs 0 (by norm_num)
    have := (coupon_between hw hw0 1 hw0 (by norm_num) (v (i + d))).1
    rw [hl d hd, e] at this
    revert this
    decide

def revBits : Nat → Nat → Nat
  | 0, _ => 0
  | r + 1, x => (x.testBit 0).toNat * 2 ^ r + revBits r (x / 2)

theorem revBits_lt (r x : Nat) : revBits r x < 2 ^ r := by
  induction r generalizing x with
  | zero => simp [revBits]
  | succ r ih =>
    have := ih (x / 2)
    have hb : (x.testBit 0).toNat ≤ 1 := Bool.toNat_le _
    have : (x.testBit 0).toNat * 2 ^ r ≤ 1 * 2 ^ r := Nat.mul_le_mul_right _ hb
    rw [revBits, Nat.pow_succ]
    omega

theorem revBits_testBit (r x k : Nat) (hk : k < r) : (revBits r x).testBit k = x.testBit (r - 1 - k) := by
  induction r generalizing x with
  | zero => omega
  | succ r ih =>
    rw [revBits, Nat.mul_comm, Nat.testBit_two_pow_mul_add _ (revBits_lt r (x / 2))]
    split
    · rename_i h
      rw [ih _ h, Nat.testBit_div_two]
      congr 1
      omega
    · have : k = r := by omega
      subst this
      rw [show k + 1 - 1 - k = 0 by omega, Nat.sub_self]
      cases x.testBit 0 <;> simp

theorem revBits_dvd (r s x : Nat) (h : x < 2 ^ r) : 2 ^ s ∣ revBits (r + s) x := by
  induction r generalizing x with
  | zero =>
    have : x = 0 := by omega
    subst this
    have : ∀ s, revBits s 0 = 0 := by
      intro s
      induction s with
      | zero => rfl
      | succ s ih => rw [revBits, Nat.zero_div, ih]; simp
    rw [this]
    exact Nat.dvd_zero _
  | succ r ih =>
    rw [show r + 1 + s = (r + s) + 1 by omega, revBits]
    refine Nat.dvd_add ?_ (ih _ (by rw [Nat.pow_succ] at h; omega))
    refine Dvd.dvd.mul_left (Nat.pow_dvd_pow 2 (by omega)) _

/-- A leading number that is a multiple of 8, or one less, tells the coupon. -/
theorem coupon_sure (r B : Nat) (c : Bool) (hr : 3 ≤ r) (hB : B < 2 ^ r) (h8 : 8 ∣ B) :
    5 * flipBits c r B / 2 ^ r = min 4 (5 * (flipBits c r B + 1) / 2 ^ r) := by
  obtain ⟨m, rfl⟩ := h8
  have hp : (2 : ℕ) ^ r = 8 * 2 ^ (r - 3) := by
    rw [show (8 : ℕ) = 2 ^ 3 from rfl, ← Nat.pow_add]
    congr 1
    omega
  rw [hp] at hB ⊢
  have hP : 0 < 2 ^ (r - 3) := Nat.two_pow_pos _
  unfold flipBits
  rw [hp]
  generalize hPe : 2 ^ (r - 3) = P at *
  have key : ∀ a b, a / 8 = b / 8 → a / (8 * P) = b / (8 * P) := by
    intro a b h
    rw [← Nat.div_div_eq_div_mul, ← Nat.div_div_eq_div_mul, h]
  have hlt : ∀ a, a < 40 * P → a / (8 * P) ≤ 4 := by
    intro a ha
    have : a / (8 * P) < 5 := Nat.div_lt_of_lt_mul (by omega)
    omega
  cases c
  · simp only [Bool.false_eq_true, if_false]
    have e : 5 * (8 * m) / (8 * P) = 5 * (8 * m + 1) / (8 * P) := key _ _ (by omega)
    rw [← e]
    exact (Nat.min_eq_right (hlt _ (by omega))).symm
  · simp only [if_true]
    have e1 : 5 * (8 * P - 1 - 8 * m + 1) = 8 * (5 * (P - m)) := by omega
    rw [e1, Nat.mul_div_mul_left _ _ (by norm_num)]
    rw [← Nat.div_div_eq_div_mul]
    have e2 : 5 * (8 * P - 1 - 8 * m) / 8 = 5 * (P - m) - 1 := by omega
    rw [e2]
    have hm : m < P := by omega
    rcases Nat.eq_zero_or_pos m with rfl | hm0
    · rw [Nat.sub_zero, Nat.mul_div_cancel _ hP]
      have : (5 * P - 1) / P = 4 := by
        rw [Nat.div_eq_iff hP]
        constructor <;> omega
      rw [this]
      rfl
    · have hdvd : ¬ P ∣ 5 * (P - m) := by
        intro hd
        have hc : Nat.Coprime P 5 := hPe ▸ Nat.Coprime.pow_left _ (by norm_num)
        have := Nat.le_of_dvd (by omega) (hc.dvd_of_dvd_mul_left hd)
        omega
      have e3 := Nat.succ_div (a := 5 * (P - m) - 1) (b := P)
      rw [show 5 * (P - m) - 1 + 1 = 5 * (P - m) by omega, if_neg hdvd, add_zero] at e3
      rw [e3]
      have : (5 * (P - m) - 1) / P < 5 := Nat.div_lt_of_lt_mul (by omega)
      omega

/-- A view that starts with the bits `j, j+1, ...`, `1 ≤ j ≤ 12`, stays twice on each coupon. -/
theorem doubled_view (t : WT) (ht : 16 ≤ t.bits) (ty : RrcType) (rot j : Nat) (hj1 : 1 ≤ j) (hj2 : j ≤ 12) (v : Nat → BitVec t.bits)
    (hv : ∀ i, v i = permute t (BitVec.ofNat t.bits (i + 1)) rot ty)
    (hb : ∀ k < 16 - j, fromBit t.bits rot ty (t.bits - (16 - j) + k) = j + (16 - j - 1 - k)) (i l : Nat) (hl : l ≤ 7) (hi : i + l < 2 ^ 13) :
    ¬ showsAll v i l := by
  obtain ⟨h1, -⟩ := bits_ok t
  have hlead : ∀ x, leading (16 - j) (permute t (BitVec.ofNat t.bits x) rot ty) = flipBits (complements ty) (16 - j) (revBits (16 - j) (x / 2 ^ j)) := by
    intro x
    refine leading_view t ty rot x (16 - j) (by omega) _ (revBits_lt _ _) fun k hk => ?_
    rw [hb k hk, revBits_testBit _ _ _ hk, Nat.testBit_div_two_pow, Nat.add_comm]
  have hco : ∀ d < l, Spec.coupon 5 (v (i + d)) = 5 * flipBits (complements ty) (16 - j) (revBits (16 - j) ((i + 1 + d) / 2 ^ j)) / 2 ^ (16 - j) := by
    intro d hd
    obtain ⟨g1, g2, -⟩ := coupon_between h1 (by omega) (16 - j) (by omega) (by omega) (v (i + d))
    have hx : leading (16 - j) (v (i + d)) = flipBits (complements ty) (16 - j) (revBits (16 - j) ((i + 1 + d) / 2 ^ j)) := by
      rw [hv, hlead, show i + d + 1 = i + 1 + d by omega]
    have hs := coupon_sure (16 - j) (revBits (16 - j) ((i + 1 + d) / 2 ^ j)) (complements ty) (by omega) (revBits_lt _ _) (by
      have := revBits_dvd (13 - j) 3 ((i + 1 + d) / 2 ^ j) (by
        refine Nat.div_lt_of_lt_mul ?_
        rw [← Nat.pow_add, show j + (13 - j) = 13 by omega]
        omega)
      rwa [show 13 - j + 3 = 16 - j by omega] at this)
    rw [hx] at g1 g2
    rw [← hs] at g2
    omega
  intro hs
  have hsub : range 5 ⊆ (range 4).image fun e => 5 * flipBits (complements ty) (16 - j) (revBits (16 - j) ((i + 1) / 2 ^ j + e)) / 2 ^ (16 - j) := by
    intro c hc
    obtain ⟨d, hd, e⟩ := hs c (mem_range.1 hc)
    rw [hco d hd] at e
    have hmono : (i + 1) / 2 ^ j ≤ (i + 1 + d) / 2 ^ j := Nat.div_le_div_right (by omega)
    have hup : (i + 1 + d) / 2 ^ j ≤ (i + 1) / 2 ^ j + 3 := by
      rw [← Nat.add_mul_div_left _ _ (Nat.two_pow_pos j)]
      refine Nat.div_le_div_right ?_
      have : 2 ^ 1 ≤ 2 ^ j := Nat.pow_le_pow_right (by norm_num) hj1
      omega
    refine mem_image.2 ⟨(i + 1 + d) / 2 ^ j - (i + 1) / 2 ^ j, mem_range.2 (by omega), ?_⟩
    rw [← e, Nat.add_sub_cancel' hmono]
  have := card_le_card hsub
  have h2 := card_image_le (s := range 4) (f := fun e => 5 * flipBits (complements ty) (16 - j) (revBits (16 - j) ((i + 1) / 2 ^ j + e)) / 2 ^ (16 - j))
  rw [card_range] at this h2
  omega

theorem two_ok : ∀ c : Bool, ∀ b < 2, full (orUpto (fun e => couponMask 4 (flipBits c 4 ((b + e) % 2 * 8))) 7) = false := by decide +kernel
theorem four_ok : ∀ c : Bool, ∀ b < 4, full (orUpto (fun e => couponMask 5 (flipBits c 5 ((b + e) % 4 * 8))) 7) = false := by decide +kernel
theorem eight_ok : ∀ c : Bool, ∀ b < 8, full (orUpto (fun e => sureMask 5 (flipBits c 5 ((b + e) % 8 * 4))) 13) = true := by decide +kernel
theorem reverse_ok : ∀ c : Bool, ∀ b < 16, full (orUpto (fun e => sureMask 4 (flipBits c 4 (revBits 4 ((b + e) % 16)))) 13) = true := by decide +kernel

/-- A view whose leading bits are the `a` lowest bits of the counter and then zeros. -/
theorem leading_low (t : WT) (ty : RrcType) (rot a z x : Nat) (haz : a + z ≤ t.bits) (hx : x < 2 ^ 13)
    (hlow : ∀ k < a, fromBit t.bits rot ty (t.bits - (a + z) + (z + k)) = k)
    (hhigh : ∀ k < z, 13 ≤ fromBit t.bits rot ty (t.bits - (a + z) + k)) :
    leading (a + z) (permute t (BitVec.ofNat t.bits x) rot ty) = flipBits (complements ty) (a + z) (x % 2 ^ a * 2 ^ z) := by
  refine leading_view t ty rot x (a + z) haz _ ?_ fun k hk => ?_
  · rw [Nat.pow_add]
    exact Nat.mul_lt_mul_of_pos_right (Nat.mod_lt _ (by positivity)) (by positivity)
  · rw [Nat.testBit_mul_two_pow]
    by_cases hkz : z ≤ k
    · obtain ⟨k', rfl⟩ := Nat.exists_eq_add_of_le hkz
      rw [hlow k' (by omega), decide_eq_true hkz, Bool.true_and, Nat.add_sub_cancel_left, Nat.testBit_mod_two_pow, decide_eq_true (by omega : k' < a),
        Bool.true_and]
    · rw [decide_eq_false hkz, Bool.false_and]
      refine (Nat.testBit_lt_two_pow (lt_of_lt_of_le hx ?_)).symm
      exact Nat.pow_le_pow_right (by norm_num) (hhigh k (by omega))

/-- C135. Every view of a counter of 16, 32 or 64 bits is rejected with 7000 to 8191 values. -/
theorem C135_counter (t : WT) (ht : t ≠ .u8) (ty : RrcType) (rot : Nat) (hrot : rot < t.bits) (n : BitVec 64) (hn1 : 7000 ≤ n.toNat)
    (hn2 : n.toNat ≤ 8191) (s : Stream (BitVec t.bits)) (hs : ∀ i, s.nth i = permute t (BitVec.ofNat t.bits (i + 1)) rot ty) :
    ∃ st : Statistic ℝ, couponTest chi2DistributionCdf n s = .ok [⟨"", some st⟩] ∧ st.pValue ≤ 1 / 10 ^ 9 ∧ statPass st = false := by
  have h16 : 16 ≤ t.bits := by cases t <;> first | exact absurd rfl ht | decide
  obtain ⟨h1, -⟩ := bits_ok t
  by_cases hrev : ty = .identity ∨ ty = .complement
  · have hfrom : ∀ p, fromBit t.bits rot ty p = (p + rot) % t.bits := by
      intro p
      rcases hrev with rfl | rfl <;> rfl
    have hmod : ∀ p, p < t.bits → fromBit t.bits rot ty p = if p + rot < t.bits then p + rot else p + rot - t.bits := by
      intro p hp
      rw [hfrom]
      split
      · exact Nat.mod_eq_of_lt ‹_›
      · rw [Nat.mod_eq_sub_mod (by omega), Nat.mod_eq_of_lt (by omega)]
    by_cases h4 : rot = 0 ∨ 4 ≤ rot
    · refine C135_too_slow n hn1 s fun i l hl _ => ?_
      refine slow_view t ty rot (if rot = 0 then t.bits - 4 else rot - 4) s.nth hs (fun k hk => ?_) i l hl
      rw [hmod _ (by omega)]
      split <;> split <;> omega
    · obtain rfl | rfl | rfl : rot = 1 ∨ rot = 2 ∨ rot = 3 := by omega
      · refine C135_too_slow n hn1 s fun i l hl hi => ?_
        refine not_shows s.nth i l 7 hl (fun e => couponMask 4 (flipBits (complements ty) 4 (((i + 1) % 2 + e) % 2 * 8))) (fun d hd => ⟨d, by omega, ?_⟩)
          (two_ok _ _ (by omega))
        have := leading_low t ty 1 1 3 (i + d + 1) (by omega) (by omega) (fun k hk => by rw [hmod _ (by omega)]; split <;> omega)
          (fun k hk => by rw [hmod _ (by omega)]; split <;> omega)
        rw [show (i + d + 1) % 2 ^ 1 * 2 ^ 3 = ((i + 1) % 2 + d) % 2 * 8 by omega, ← hs] at this
        show (couponMask 4 (flipBits (complements ty) 4 (((i + 1) % 2 + d) % 2 * 8))).testBit _ = true
        rw [← this]
        exact mask_mem h1 (by omega) 4 (by norm_num) (by omega) (by norm_num) _
      · refine C135_too_slow n hn1 s fun i l hl hi => ?_
        refine not_shows s.nth i l 7 hl (fun e => couponMask 5 (flipBits (complements ty) 5 (((i + 1) % 4 + e) % 4 * 8))) (fun d hd => ⟨d, by omega, ?_⟩)
          (four_ok _ _ (by omega))
        have := leading_low t ty 2 2 3 (i + d + 1) (by omega) (by omega) (fun k hk => by rw [hmod _ (by omega)]; split <;> omega)
          (fun k hk => by rw [hmod _ (by omega)]; split <;> omega)
        rw [show (i + d + 1) % 2 ^ 2 * 2 ^ 3 = ((i + 1) % 4 + d) % 4 * 8 by omega, ← hs] at this
        show (couponMask 5 (flipBits (complements ty) 5 (((i + 1) % 4 + d) % 4 * 8))).testBit _ = true
        rw [← this]
        exact mask_mem h1 (by omega) 5 (by norm_num) (by omega) (by norm_num) _
      · refine C135_too_regular n hn1 s fun i hi => ?_
        refine does_show s.nth i 13 (fun e => sureMask 5 (flipBits (complements ty) 5 (((i + 1) % 8 + e) % 8 * 4))) (fun d hd c hc => ?_)
          (eight_ok _ _ (by omega))
        have := leading_low t ty 3 3 2 (i + d + 1) (by omega) (by omega) (fun k hk => by rw [hmod _ (by omega)]; split <;> omega)
          (fun k hk => by rw [hmod _ (by omega)]; split <;> omega)
        rw [show (i + d + 1) % 2 ^ 3 * 2 ^ 2 = ((i + 1) % 8 + d) % 8 * 4 by omega, ← hs] at this
        change (sureMask 5 (flipBits (complements ty) 5 (((i + 1) % 8 + d) % 8 * 4))).testBit _ = true at hc
        rw [← this] at hc
        exact sure_eq h1 (by omega) 5 (by omega) (by norm_num) _ c hc
  · have hfrom : ∀ p, fromBit t.bits rot ty p = t.bits - 1 - (p + rot) % t.bits := by
      intro p
      cases ty <;> first | rfl | exact absurd (by simp) hrev
    have hmod : ∀ p, p < t.bits → fromBit t.bits rot ty p = if p + rot < t.bits then t.bits - 1 - (p + rot) else t.bits - 1 - (p + rot - t.bits) := by
      intro p hp
      rw [hfrom]
      split
      · rw [Nat.mod_eq_of_lt ‹_›]
      · rw [Nat.mod_eq_sub_mod (by omega), Nat.mod_eq_of_lt (by omega)]
    by_cases h0 : rot = 0
    · subst h0
      refine C135_too_regular n hn1 s fun i hi => ?_
      refine does_show s.nth i 13 (fun e => sureMask 4 (flipBits (complements ty) 4 (revBits 4 (((i + 1) % 16 + e) % 16)))) (fun d hd c hc => ?_)
        (reverse_ok _ _ (by omega))
      have := leading_view t ty 0 (i + d + 1) 4 (by omega) (revBits 4 (((i + 1) % 16 + d) % 16)) (revBits_lt _ _) (fun k hk => by
        rw [revBits_testBit _ _ _ hk, show ((i + 1) % 16 + d) % 16 = (i + d + 1) % 2 ^ 4 by omega, Nat.testBit_mod_two_pow,
          decide_eq_true (by omega : 4 - 1 - k < 4), Bool.true_and, hmod _ (by omega)]
        congr 1
        split <;> omega)
      rw [← hs] at this
      change (sureMask 4 (flipBits (complements ty) 4 (revBits 4 (((i + 1) % 16 + d) % 16)))).testBit _ = true at hc
      rw [← this] at hc
      exact sure_eq h1 (by omega) 4 (by omega) (by norm_num) _ c hc
    · refine C135_too_slow n hn1 s fun i l hl hi => ?_
      by_cases hj : t.bits - rot ≤ 12
      · refine doubled_view t h16 ty rot (t.bits - rot) (by omega) hj s.nth hs (fun k hk => ?_) i l hl (by omega)
        rw [hmod _ (by omega)]
        split <;> omega
      · refine half_view h1 (by omega) s.nth i l (complements ty) fun d hd => ?_
        rw [hs, permute_bit t _ rot ty _ (by omega), BitVec.getLsbD_ofNat]
        have : (i + d + 1).testBit (fromBit t.bits rot ty (t.bits - 1)) = false := by
          apply Nat.testBit_lt_two_pow
          calc i + d + 1 < 2 ^ 13 := by omega
            _ ≤ _ := Nat.pow_le_pow_right (by norm_num) (by rw [hmod _ (by omega)]; split <;> omega)
        rw [this]
        simp


/-! ### Views of the counter of 8 bits -/

def viewOf8 (ty : RrcType) (rot p : Nat) : Nat := (permute .u8 (BitVec.ofNat 8 p) rot ty).toNat
def noFive8 (ty : RrcType) (rot : Nat) : Bool :=
  (List.range 256).all fun p => !full (orUpto (fun d => couponMask 8 (viewOf8 ty rot ((p + d) % 256))) 5)
def regular8 (ty : RrcType) (rot : Nat) : Bool :=
  (List.range 256).all fun p => full (orUpto (fun d => sureMask 8 (viewOf8 ty rot ((p + d) % 256))) 13)
def marked8 (ty : RrcType) (rot : Nat) : Bool :=
  (List.range 256).all fun p => decide (51 ∣ p) || !(couponMask 8 (viewOf8 ty rot p)).testBit (if complements ty then p / 51 else 4 - p / 51)

theorem all_views8 : ∀ ty ∈ [RrcType.identity, .reverse, .complement, .reverseComplement], ∀ rot < 8,
    noFive8 ty rot || regular8 ty rot || marked8 ty rot := by decide +kernel

/-- C135. Every view of a counter of 8 bits is rejected with 40000 values or more. -/
theorem C135_counter_8 (ty : RrcType) (rot : Nat) (hrot : rot < 8) (n : BitVec 64) (hn1 : 40000 ≤ n.toNat) (s : Stream (BitVec WT.u8.bits))
    (hs : ∀ i, s.nth i = permute .u8 (BitVec.ofNat WT.u8.bits (i + 1)) rot ty) :
    ∃ st : Statistic ℝ, couponTest chi2DistributionCdf n s = .ok [⟨"", some st⟩] ∧ st.pValue ≤ 1 / 10 ^ 9 ∧ statPass st = false := by
  have hty : ty ∈ [RrcType.identity, .reverse, .complement, .reverseComplement] := by cases ty <;> decide
  have hlead : ∀ i, leading 8 (s.nth i) = viewOf8 ty rot ((i + 1) % 256) := by
    intro i
    unfold leading viewOf8
    rw [hs, show WT.u8.bits - 8 = 0 from rfl, Nat.pow_zero, Nat.div_one]
    congr 2
    apply BitVec.eq_of_toNat_eq
    rw [BitVec.toNat_ofNat, BitVec.toNat_ofNat]
    show (i + 1) % 2 ^ 8 = (i + 1) % 256 % 2 ^ 8
    omega
  have hcouponMask : ∀ i, (couponMask 8 (viewOf8 ty rot ((i + 1) % 256))).testBit (Spec.coupon 5 (s.nth i)) = true := fun i =>
    hlead i ▸ mask_mem (by decide) (by decide) 8 (by norm_num) (by decide) (by norm_num) (s.nth i)
  have h := all_views8 ty hty rot hrot
  rw [Bool.or_eq_true, Bool.or_eq_true] at h
  rcases h with (h | h) | h
  · refine C135_no_five n hn1 s fun i l hl _ => ?_
    have h1 := List.all_eq_true.1 h ((i + 1) % 256) (List.mem_range.2 (by omega))
    refine not_shows s.nth i l 5 hl (fun d => couponMask 8 (viewOf8 ty rot (((i + 1) % 256 + d) % 256))) (fun d hd => ⟨d, by omega, ?_⟩) (by simpa using h1)
    have := hcouponMask (i + d)
    rwa [show (i + d + 1) % 256 = ((i + 1) % 256 + d) % 256 by omega] at this
  · refine C135_too_regular n (by omega) s fun i _ => ?_
    have h1 := List.all_eq_true.1 h ((i + 1) % 256) (List.mem_range.2 (by omega))
    refine does_show s.nth i 13 (fun d => sureMask 8 (viewOf8 ty rot (((i + 1) % 256 + d) % 256))) (fun d hd c hc => ?_) h1
    have e := hlead (i + d)
    rw [show (i + d + 1) % 256 = ((i + 1) % 256 + d) % 256 by omega] at e
    change (sureMask 8 (viewOf8 ty rot (((i + 1) % 256 + d) % 256))).testBit c = true at hc
    rw [← e] at hc
    exact sure_eq (by decide) (by decide) 8 (by decide) (by norm_num) _ c hc
  · have hmiss : ∀ i, ¬ 51 ∣ (i + 1) % 256 → Spec.coupon 5 (s.nth i) ≠ if complements ty then (i + 1) % 256 / 51 else 4 - (i + 1) % 256 / 51 := by
      intro i hi e
      have h1 := List.all_eq_true.1 h ((i + 1) % 256) (List.mem_range.2 (by omega))
      have h2 := hcouponMask i
      rw [e] at h2
      simp only [hi, h2, decide_false, Bool.not_true, Bool.or_false] at h1
      exact Bool.noConfusion h1
    refine C135_few_sets n (by omega) s (fun i => decide (51 ∣ (i + 1) % 256)) (fun i l _ hall => ?_) ?_
    · by_contra hno
      push Not at hno
      have hno' : ∀ d < l, ¬ 51 ∣ (i + 1 + d) % 256 := by
        intro d hd hdv
        refine hno d hd (decide_eq_true ?_)
        rwa [show i + d + 1 = i + 1 + d by omega]
      have hconst : ∀ d < l, (i + 1 + d) % 256 / 51 = (i + 1) % 256 / 51 := by
        intro d
        induction d with
        | zero => intro _; rfl
        | succ d ih =>
          intro hd
          have h1 := ih (by omega)
          have h2 := hno' (d + 1) hd
          omega
      have h5 : (i + 1) % 256 / 51 ≤ 5 := by omega
      have hl0 : 0 < l := by
        obtain ⟨d, hd, -⟩ := hall 0 (by norm_num)
        omega
      have h4 : (i + 1) % 256 / 51 ≤ 4 := by
        have := hno' 0 hl0
        omega
      obtain ⟨d, hd, e⟩ := hall (if complements ty then (i + 1) % 256 / 51 else 4 - (i + 1) % 256 / 51) (by split <;> omega)
      refine hmiss (i + d) (by have := hno' d hd; rwa [show i + d + 1 = i + 1 + d by omega]) ?_
      rw [e, show i + d + 1 = i + 1 + d by omega, hconst d hd]
    · have hup : ∀ m, (List.range m).countP (fun i => decide (51 ∣ (i + 1) % 256)) ≤ 6 * (m / 256 + 1) := by
        intro m
        have h1 : (List.range m).countP (fun i => decide (51 ∣ (i + 1) % 256)) ≤ (List.range (256 * (m / 256 + 1))).countP (fun i => decide (51 ∣ (i + 1) % 256)) :=
          List.Sublist.countP_le (List.range_sublist.2 (by omega))
        refine h1.trans ?_
        have h2 : ∀ a, (List.range (256 * a)).countP (fun i => decide (51 ∣ (i + 1) % 256)) = 6 * a := by
          intro a
          induction a with
          | zero => rfl
          | succ a ih =>
            rw [Nat.mul_succ, List.range_add, List.countP_append, ih, List.countP_map, Nat.mul_succ]
            congr 1
            have : (List.range 256).countP (fun i => decide (51 ∣ (i + 1) % 256)) = 6 := by decide +kernel
            refine Eq.trans (List.countP_congr fun i _ => ?_) this
            have : (256 * a + i + 1) % 256 = (i + 1) % 256 := by omega
            simp only [Function.comp, this]
        rw [h2]
      have := hup n.toNat
      omega

/-! ### The self-check -/

/-- The slower budget between `2^(27k/38)` and `2^(18k/25)`. -/
theorem slower_between (k : Nat) (hk : k < 64) (m M : Nat) (hm : 1024 ≤ m) (h1 : m ^ 38 ≤ 2 ^ (27 * k)) (h2 : 2 ^ (18 * k) < (M + 1) ^ 25) :
    ∃ n', limitNSlower (BitVec.ofNat 64 (2 ^ k)) = some n' ∧ m ≤ n'.toNat ∧ n'.toNat ≤ M := by
  have hnat : (BitVec.ofNat 64 (2 ^ k)).toNat = 2 ^ k := by
    rw [BitVec.toNat_ofNat, Nat.mod_eq_of_lt (Nat.pow_lt_pow_right (by norm_num) hk)]
  have hcast : (((2 ^ k : ℕ) : ℝ)) = (2 : ℝ) ^ k := by push_cast; rfl
  have hlow : (m : ℝ) ≤ ((2 : ℝ) ^ k) ^ expSlower := le_rpow_of k 27 38 m (by norm_num) _ (by unfold expSlower; norm_num) h1
  have hup : ((2 : ℝ) ^ k) ^ expSlower < ((M + 1 : ℕ) : ℝ) := rpow_lt_of k 18 25 (M + 1) (by norm_num) _ (by unfold expSlower; norm_num) h2
  clear h1 h2
  rw [← hcast] at hlow hup
  have hfl : m ≤ ⌊((2 ^ k : ℕ) : ℝ) ^ expSlower⌋₊ := Nat.le_floor hlow
  have hfu : ⌊((2 ^ k : ℕ) : ℝ) ^ expSlower⌋₊ < M + 1 := (Nat.floor_lt (by positivity)).2 hup
  have hb : Spec.budget .coupon (BitVec.ofNat 64 (2 ^ k)).toNat = some ⌊((2 ^ k : ℕ) : ℝ) ^ expSlower⌋₊ := by
    rw [hnat]
    show (if 1024 ≤ ⌊((2 ^ k : ℕ) : ℝ) ^ expSlower⌋₊ then some ⌊((2 ^ k : ℕ) : ℝ) ^ expSlower⌋₊ else none) = _
    rw [if_pos (hm.trans hfl)]
  have hl := (C40_catalogue .coupon (BitVec.ofNat 64 (2 ^ k))).1.trans hb
  obtain ⟨n', h4, h5⟩ := Option.map_eq_some_iff.1 hl
  refine ⟨n', h4, by rw [h5]; exact hfl, by rw [h5]; exact Nat.le_of_lt_succ hfu⟩

/-- C135. A constant sequence never shows two coupons. -/
theorem C135_constant (n : BitVec 64) (hn : 7000 ≤ n.toNat) (s : Stream (BitVec w)) (c : BitVec w) (h : ∀ i, s.nth i = c) :
    ∃ st : Statistic ℝ, couponTest chi2DistributionCdf n s = .ok [⟨"", some st⟩] ∧ st.pValue ≤ 1 / 10 ^ 9 ∧ statPass st = false := by
  refine C135_too_slow n hn s fun i l _ _ hs => ?_
  obtain ⟨d, -, e⟩ := hs 0 (by norm_num)
  obtain ⟨d', -, e'⟩ := hs 1 (by norm_num)
  rw [h] at e e'
  omega

/-- C135. The self-check prints `PASS` for the coupon test. -/
theorem C135_self_check (t : WT) (hw : BitVec 32) (analyse : Battery ℝ → List ResultAnalysis) (ha : Analyses analyse)
    (eval : TestRow → Stream (BitVec t.bits) → BitVec 64 → Battery ℝ) (h : SelfCheckRuns t hw eval) (sources : List (Stream (BitVec t.bits)))
    (hs : createFailSources t = .ok sources) (lines : List InspectLine) (hl : inspectTests t analyse eval sources false = .ok lines) :
    lines.filter (fun l => decide (lineTest l = "coupon")) = [.pass "coupon"] := by
  have hth := defaultMaxThreads_pos hw
  refine pass_of_none t hw analyse ha eval h sources lines hl ⟨.coupon, true, false, .slower, "coupon"⟩ (by decide) fun s hmem => ?_
  rw [if_neg (by decide)] at hmem
  obtain ⟨ty, rot, hrot, hsrc⟩ := fail_source_cases t sources hs s hmem
  have hrej : ∃ e, 10 ≤ e ∧ e ≤ 25 ∧ ∃ n', limitNSlower (BitVec.ofNat 64 (2 ^ e)) = some n' ∧ ∃ st : Statistic ℝ,
      couponTest chi2DistributionCdf n' (mixerStream s ⟨"identity", fun x => x⟩) = .ok [⟨"", some st⟩] ∧ st.pValue ≤ 1 / 10 ^ 9 := by
    rcases hsrc with rfl | ⟨c, rfl⟩
    · have hnth : ∀ i, (mixerStream (addRrc t (counterStream t.bits 1 0) rot ty) ⟨"identity", fun x => x⟩).nth i =
          permute t (BitVec.ofNat t.bits (i + 1)) rot ty := fun i => mixed_nth t ⟨"identity", fun x => x⟩ ty rot i
      by_cases ht : t = .u8
      · subst ht
        obtain ⟨n', h1, h2, h3⟩ := slower_between 25 (by norm_num) 200000 300000 (by norm_num) (by decide +kernel) (by decide +kernel)
        obtain ⟨st, g1, g2, -⟩ := C135_counter_8 ty rot hrot n' (by omega) _ hnth
        exact ⟨25, by norm_num, le_rfl, n', h1, st, g1, g2⟩
      · obtain ⟨n', h1, h2, h3⟩ := slower_between 18 (by norm_num) 7000 8191 (by norm_num) (by decide +kernel) (by decide +kernel)
        obtain ⟨st, g1, g2, -⟩ := C135_counter t ht ty rot hrot n' h2 h3 _ hnth
        exact ⟨18, by norm_num, by norm_num, n', h1, st, g1, g2⟩
    · obtain ⟨n', h1, h2, h3⟩ := slower_between 18 (by norm_num) 7000 8191 (by norm_num) (by decide +kernel) (by decide +kernel)
      obtain ⟨st, g1, g2, -⟩ := C135_constant n' h2 (mixerStream (addRrc t (constantStream c) rot ty) ⟨"identity", fun x => x⟩) _
        (view_constant t ty rot c)
      exact ⟨18, by norm_num, by norm_num, n', h1, st, g1, g2⟩
  obtain ⟨e, he1, he2, n', h1, st, g1, g2⟩ := hrej
  refine not_accepted _ e he1 he2 ?_
  refine battery_rejects chi2DistributionCdf .coupon _ (inspectSetup (defaultMaxThreads hw) ⟨.coupon, true, false, .slower, "coupon"⟩ s)
    (by show 0 < defaultMaxThreads hw; omega) _ (h _ s e he1 he2) List.mem_cons_self s List.mem_cons_self _ rfl [⟨"", some st⟩] ?_ _ st
    List.mem_cons_self g2
  dsimp only
  rw [show (getTestDefinition .coupon).limiter.limit (BitVec.ofNat 64 (2 ^ e)) = some n' from h1]
  exact congrArg some g1


-- C135, non-vacuity: every view of a 16 bit counter exists, and so does a constant; each criterion is met by a sequence.
example : ∃ s : Stream (BitVec WT.u16.bits), (∀ i, s.nth i = permute .u16 (BitVec.ofNat WT.u16.bits (i + 1)) 5 .identity) ∧
    ∀ i l, l ≤ 7 → i + l ≤ (7000#64).toNat → ¬ showsAll s.nth i l := by
  refine ⟨mixerStream (addRrc .u16 (counterStream WT.u16.bits 1 0) 5 .identity) ⟨"identity", fun x => x⟩,
    fun i => mixed_nth .u16 ⟨"identity", fun x => x⟩ .identity 5 i, fun i l hl _ => ?_⟩
  exact slow_view .u16 .identity 5 1 _ (fun i => mixed_nth .u16 ⟨"identity", fun x => x⟩ .identity 5 i) (by decide) i l hl

-- C135, non-vacuity: the reversed counter shows all five coupons in any 13 values in a row.
example (i : Nat) : showsAll (fun i => permute .u16 (BitVec.ofNat WT.u16.bits (i + 1)) 0 .reverse) i 13 := by
  refine does_show _ i 13 (fun e => sureMask 4 (flipBits false 4 (revBits 4 (((i + 1) % 16 + e) % 16)))) (fun d hd c hc => ?_)
    (reverse_ok _ _ (by omega))
  have := leading_view .u16 .reverse 0 (i + d + 1) 4 (by decide) (revBits 4 (((i + 1) % 16 + d) % 16)) (revBits_lt _ _) (fun k hk => by
    rw [revBits_testBit _ _ _ hk, show ((i + 1) % 16 + d) % 16 = (i + d + 1) % 2 ^ 4 by omega, Nat.testBit_mod_two_pow,
      decide_eq_true (by omega : 4 - 1 - k < 4), Bool.true_and]
    congr 1
    revert k
    decide)
  exact sure_eq (by decide) (by decide) 4 (by decide) (by norm_num) _ c (this ▸ hc)

-- C135, non-vacuity: a sequence whose complete stretches all contain one of few marked positions.
example (c : BitVec 16) : (∀ i l, i + l ≤ (7000#64).toNat → showsAll (constantStream c).nth i l → ∃ d < l, (fun _ => false) (i + d) = true) ∧
    30 * (List.range (7000#64).toNat).countP (fun _ => false) ≤ (7000#64).toNat := by
  refine ⟨fun i l _ hs => ?_, by simp⟩
  obtain ⟨d, -, e⟩ := hs 0 (by norm_num)
  obtain ⟨d', -, e'⟩ := hs 1 (by norm_num)
  rw [constantStream_nth] at e e'
  omega

-- C135, non-vacuity: the sources exist for every size, and so do runs of the self-check on them.
example (t : WT) (hw : BitVec 32) (analyse : Battery ℝ → List ResultAnalysis) (ha : Analyses analyse) :
    ∃ sources eval lines, createFailSources t = .ok sources ∧ SelfCheckRuns t hw eval ∧ inspectTests t analyse eval sources false = .ok lines := by
  obtain ⟨c, s0, s1, s2, s3, hs, -⟩ := C97_fail_sources t
  choose f hf using fun (test : TestRow) (s : Stream (BitVec t.bits)) n =>
    C35_terminates (suiteDef chi2DistributionCdf) n (inspectSetup (defaultMaxThreads hw) test s)
  exact ⟨_, f, _, hs, fun test s k _ _ => hf test s _, (C97_inspect chi2DistributionCdf t hw analyse ha f (fun test s k _ _ => hf test s _) _).1⟩

end TFR
