import Verif.Model.TestSuite
import Verif.Lemmas.Pearson
import Verif.Lemmas.Streams
import Verif.Props.Coupon
import Verif.Props.DrawProbs
/-
C82, C83, C84: the gap, coupon and divisibility tests from the stream to the reported statistics.
-/
namespace TFR
open Spec
variable {w : Nat}

private theorem hbind {α β : Type} (x : α) (f : α → R β) : ((Except.ok x : R α) >>= f) = f x := rfl

private theorem seg_length_le {α : Type} {done : List α → Prop} {l : List α} {segs : List (List α)} {rest : List α}
    (h : IsSegmentation done l segs rest) : segs.length ≤ l.length := by
  rw [h.cover, List.length_append]
  have h1 : segs.length ≤ segs.flatten.length := by
    have := fun s hs => (h.complete s hs).1
    clear h
    induction segs with
    | nil => simp
    | cons s segs ih =>
      rw [List.length_cons, List.flatten_cons, List.length_append]
      have h2 := List.length_pos_iff.2 (this s (by simp))
      have h3 := ih (fun t ht => this t (List.mem_cons_of_mem _ ht))
      omega
  omega

private theorem binCount_lt {α : Type} (bin : List α → Nat) (segs : List (List α)) (b N : Nat) (h : segs.length < N) :
    binCount bin segs b < N := by
  unfold binCount
  exact lt_of_le_of_lt List.count_le_length (by rwa [List.length_map])

/-! ### C82 -/

/-- The words counted as lower half by the gap test: those with top bit 0, except the last 512 of the 64-bit ones. -/
def Spec.lowHalf (t : WT) (x : BitVec t.bits) : Prop := x.toNat < 2 ^ (t.bits - 1) - (if t = .u64 then 512 else 0)

/-- One half of the gap test. -/
private theorem gap_half (cdf : ℝ → ℝ → ℝ) (n : BitVec 64) (s : Stream (BitVec w)) (a b : ℚ) (hit : BitVec w → Prop)
    (hhit : ∀ v, hit v ↔ a ≤ rescaleTypeTo01 v ∧ rescaleTypeTo01 v < (if |Fl.sub b 1| ≤ Fl.rnd (1 / 10 ^ 14) then 2 else b)) :
    ∃ segs rest gaps, IsSegmentation (fun s => ∃ v ∈ s, hit v) (s.take n.toNat) segs rest ∧
      generateGaps 8 a b (s.take n.toNat) = .ok gaps ∧
      chi2Stats cdf gaps.length (toData gaps) (fun i =>
        ([1/2, 1/4, 1/8, 1/16, 1/32, 1/64, 1/128, 1/128] : List ℝ).getD i 0 * ((n / 2#64).toNat : ℝ)) 5 =
        pearson cdf ((List.range 8).map fun g => ((binCount (fun s => min (s.length - 1) 7) segs g : ℝ),
          ((n.toNat / 2 : ℕ) : ℝ) / 2 ^ min (g + 1) 7)) 5 := by
  obtain ⟨hit', segs, rest, gaps, h1, h2, h3, h4, h5, h6⟩ := C45_gaps 8 (by norm_num) a b (s.take n.toNat)
  have hh : (fun s : List (BitVec w) => ∃ v ∈ s, hit' v = true) = fun s => ∃ v ∈ s, hit v := by
    funext s
    apply propext
    exact exists_congr fun v => and_congr_right fun _ => (h1 v).trans (hhit v).symm
  rw [hh] at h2
  refine ⟨segs, rest, gaps, h2, h4, ?_⟩
  rw [chi2Stats_counts cdf gaps 8 (fun g => binCount (fun s => min (s.length - 1) 7) segs g) _ 5 h5 h6 (by
    intro i _
    apply binCount_lt
    refine lt_of_le_of_lt (seg_length_le h2) ?_
    rw [Stream.length_take]; exact n.isLt)]
  congr 1
  apply List.map_congr_left
  intro g hg
  have hg := List.mem_range.1 hg
  have hn : (n / 2#64).toNat = n.toNat / 2 := by rw [BitVec.toNat_udiv]; rfl
  rw [hn, Prod.mk.injEq]
  refine ⟨rfl, ?_⟩
  interval_cases g <;> norm_num <;> ring

/-- C82. For every stream of 8-, 16-, 32- or 64-bit words and every `n`, the gap test ends without a fault.  Sub test `1/2` cuts the
first `n` values after each value in the lower half, sub test `2/2` after each value in the upper half; each is Pearson's test
of the numbers of segments with `0, 1, ..., 6` and with `7` or more misses, expected in the proportions
1/2, 1/4, ..., 1/128, 1/128 of `⌊n/2⌋`, over the cells with expectation above 5. -/
theorem C82_gap (cdf : ℝ → ℝ → ℝ) (t : WT) (n : BitVec 64) (s : Stream (BitVec t.bits)) :
    ∃ low restL high restH,
      IsSegmentation (fun s => ∃ v ∈ s, lowHalf t v) (s.take n.toNat) low restL ∧
      IsSegmentation (fun s => ∃ v ∈ s, ¬ lowHalf t v) (s.take n.toNat) high restH ∧
      gapTest cdf n s = some (.ok ([("1/2", low), ("2/2", high)].filterMap fun p =>
        (pearson cdf ((List.range 8).map fun g => ((binCount (fun s => min (s.length - 1) 7) p.2 g : ℝ),
          ((n.toNat / 2 : ℕ) : ℝ) / 2 ^ min (g + 1) 7)) 5).map fun st => ⟨p.1, some st⟩)) := by
  obtain ⟨low, restL, gl, hl1, hl2, hl3⟩ := gap_half cdf n s 0 (1 / 2) (lowHalf t) (by
    intro v
    have : ¬ |Fl.sub (1 / 2) 1| ≤ Fl.rnd (1 / 10 ^ 14) := by decide +kernel
    rw [if_neg this]
    exact (C45_lower_half t v).symm)
  obtain ⟨high, restH, gh, hh1, hh2, hh3⟩ := gap_half cdf n s (1 / 2) 1 (fun v => ¬ lowHalf t v) (by
    intro v
    have : |Fl.sub 1 1| ≤ Fl.rnd (1 / 10 ^ 14) := by decide +kernel
    rw [if_pos this, C45_halves_partition]
    exact not_congr (C45_lower_half t v).symm)
  refine ⟨low, restL, high, restH, hl1, hh1, ?_⟩
  have e0 : Fl.div 1 ((2 : ℕ) : ℚ) = 1/2 := by decide +kernel
  have e1 : snapTo01 (Fl.mul ((0 : ℕ) : ℚ) (1/2)) = 0 := by decide +kernel
  have e2 : snapTo01 (Fl.add 0 (1/2)) = 1/2 := by decide +kernel
  have e3 : snapTo01 (Fl.mul ((1 : ℕ) : ℚ) (1/2)) = 1/2 := by decide +kernel
  have e4 : snapTo01 (Fl.add (1/2) (1/2)) = 1 := by decide +kernel
  have hp0 := C45_probabilities_half ((0 : ℚ) : ℝ) ((1 / 2 : ℚ) : ℝ) (by norm_num)
  have hp1 := C45_probabilities_half ((1 / 2 : ℚ) : ℝ) ((1 : ℚ) : ℝ) (by norm_num)
  unfold gapTest
  dsimp only
  rw [e0, show List.range 2 = [0, 1] from rfl, List.foldl_cons, List.foldl_cons, List.foldl_nil]
  have hsome : ∀ {α β : Type} (x : α) (f : α → Option β), (some x >>= f) = f x := fun _ _ => rfl
  rw [hsome, e1, e2, hp0, hsome, hsome, e3, e4, hp1, hsome]
  congr 1
  simp only [List.length_cons, List.length_nil, Nat.zero_add, Nat.reduceAdd, hbind]
  rw [hl2, hbind, hh2]
  simp only [hbind]
  rw [hl3, hh3]
  simp only [List.filterMap_cons, List.filterMap_nil]
  generalize pearson cdf ((List.range 8).map fun g => ((binCount (fun s => min (s.length - 1) 7) low g : ℝ),
          ((n.toNat / 2 : ℕ) : ℝ) / 2 ^ min (g + 1) 7)) 5 = A
  generalize pearson cdf ((List.range 8).map fun g => ((binCount (fun s => min (s.length - 1) 7) high g : ℝ),
          ((n.toNat / 2 : ℕ) : ℝ) / 2 ^ min (g + 1) 7)) 5 = B
  cases A <;> cases B <;> rfl

/-- C82. From 42 values on both sub tests are reported, below that none. -/
theorem C82_reported (cdf : ℝ → ℝ → ℝ) (t : WT) (n : BitVec 64) (s : Stream (BitVec t.bits)) :
    ∃ res, gapTest cdf n s = some (.ok res) ∧ res.map SubTest.name = if 42 ≤ n.toNat then ["1/2", "2/2"] else [] := by
  obtain ⟨low, restL, high, restH, -, -, h⟩ := C82_gap cdf t n s
  refine ⟨_, h, ?_⟩
  have key : ∀ segs : List (List (BitVec t.bits)), (42 ≤ n.toNat → ∃ st, pearson cdf ((List.range 8).map fun g =>
      ((binCount (fun s => min (s.length - 1) 7) segs g : ℝ), ((n.toNat / 2 : ℕ) : ℝ) / 2 ^ min (g + 1) 7)) 5 = some st) ∧
      (¬ 42 ≤ n.toNat → pearson cdf ((List.range 8).map fun g =>
      ((binCount (fun s => min (s.length - 1) 7) segs g : ℝ), ((n.toNat / 2 : ℕ) : ℝ) / 2 ^ min (g + 1) 7)) 5 = none) := by
    intro segs
    constructor
    · intro hn
      have : (21 : ℝ) ≤ ((n.toNat / 2 : ℕ) : ℝ) := by
        have : 21 ≤ n.toNat / 2 := by omega
        exact_mod_cast this
      apply pearson_isSome cdf 8 _ (fun g => ((n.toNat / 2 : ℕ) : ℝ) / 2 ^ min (g + 1) 7) 5 0 1 (by norm_num) (by norm_num)
      · norm_num; linarith
      · norm_num; linarith
    · intro hn
      have h20 : ((n.toNat / 2 : ℕ) : ℝ) ≤ 20 := by
        have : n.toNat / 2 ≤ 20 := by omega
        exact_mod_cast this
      unfold pearson
      rw [if_pos]
      unfold usedCells
      rw [show List.range 8 = 0 :: (List.range 7).map (· + 1) from rfl, List.map_cons, List.filter_cons]
      have h0 : List.filter (fun c : ℝ × ℝ => @decide (5 < c.2) (Classical.propDecidable _))
          (((List.range 7).map (· + 1)).map fun (g : Nat) => ((binCount (fun s => min (s.length - 1) 7) segs g : ℝ),
          ((n.toNat / 2 : ℕ) : ℝ) / 2 ^ min (g + 1) 7)) = [] := by
        rw [List.filter_eq_nil_iff]
        intro c hc
        obtain ⟨g, hg, rfl⟩ := List.mem_map.1 hc
        obtain ⟨g', -, rfl⟩ := List.mem_map.1 hg
        simp only [decide_eq_true_eq, not_lt]
        rw [div_le_iff₀ (by positivity)]
        have h4 : (2 : ℝ) ^ 2 ≤ 2 ^ min (g' + 1 + 1) 7 := pow_le_pow_right₀ (by norm_num) (by omega)
        linarith
      rw [h0]
      split <;> simp
  by_cases hn : 42 ≤ n.toNat
  · obtain ⟨sl, hl⟩ := (key low).1 hn
    obtain ⟨sh, hh⟩ := (key high).1 hn
    simp only [List.filterMap_cons, List.filterMap_nil, hl, hh, Option.map_some, if_pos hn]
    rfl
  · simp only [List.filterMap_cons, List.filterMap_nil, (key low).2 hn, (key high).2 hn, Option.map_none, if_neg hn]
    rfl

/-- C82, non-vacuity: there are results for 1024 bytes. -/
example (cdf : ℝ → ℝ → ℝ) (s : Stream (BitVec 8)) : ∃ a b, gapTest cdf 1024#64 s = some (.ok [⟨"1/2", a⟩, ⟨"2/2", b⟩]) := by
  obtain ⟨res, h, hr⟩ := C82_reported cdf .u8 1024#64 s
  rw [if_pos (by decide)] at hr
  match res, hr with
  | [⟨x, a⟩, ⟨y, b⟩], hr =>
    simp at hr
    obtain ⟨rfl, rfl⟩ := hr
    exact ⟨a, b, h⟩

/-! ### C83 -/

/-- The probability that the coupon collector with 5 coupons needs exactly `5 + i` draws (for `i < 24`), or more than 28
(`i = 24`): the fraction of the draw sequences. -/
noncomputable def Spec.couponShare (i : Nat) : ℝ :=
  if i < 24 then
    ((Finset.univ.filter fun f : Fin (4 + i + 1) → Fin 5 =>
      (∀ c, ∃ j, f j = c) ∧ ¬ ∀ c, ∃ j : Fin (4 + i), f j.castSucc = c).card : ℝ) / 5 ^ (4 + i + 1)
  else ((Finset.univ.filter fun f : Fin 28 → Fin 5 => ¬ ∀ c, ∃ j, f j = c).card : ℝ) / 5 ^ 28

private theorem coupon_length : (couponProbabilities 5).length = 25 := by decide +kernel

private theorem coupon_share (i : Nat) (hi : i < 25) : (((couponProbabilities 5).getD i 0 : ℚ) : ℝ) = couponShare i := by
  obtain ⟨k, -, hk, h1, h2, -⟩ := C47_probabilities 5 (by norm_num) (by norm_num) (C47_no_overflow 5 (by norm_num))
  have hk24 : k = 24 := by have := hk.symm.trans coupon_length; omega
  subst hk24
  unfold couponShare
  rw [List.getD_eq_getElem?_getD]
  by_cases h : i < 24
  · rw [if_pos h, h1 i h, Option.getD_some, show 5 + i = 4 + i + 1 by omega,
      C47_probability 5 (4 + i) (by norm_num) (C47_no_overflow 5 (by norm_num) _ (by omega))]
    push_cast
    rfl
  · have : i = 24 := by omega
    subst this
    rw [if_neg h, h2, Option.getD_some]
    push_cast
    rfl

/-- C83. For every stream and every `n` the coupon test does not fault.  It cuts the first `n` values after each value that
completes a set of all five coupons; its one unnamed sub test is Pearson's test of the numbers of segments of length
5, 6, ..., 28 and longer, against the coupon collector's probabilities times `n / 5H_5 = 12n/137`, over the cells with
expectation above 1. -/
theorem C83_coupon (cdf : ℝ → ℝ → ℝ) (n : BitVec 64) (s : Stream (BitVec w)) :
    ∃ segs rest, IsSegmentation (fun s => ∀ c, c < 5 → ∃ v ∈ s, Spec.coupon 5 v = c) (s.take n.toNat) segs rest ∧
      couponTest cdf n s = .ok [⟨"", pearson cdf ((List.range 25).map fun i =>
        ((binCount (fun s => min 24 (s.length - 5)) segs i : ℝ), couponShare i * (12 * n.toNat / 137))) 1⟩] := by
  obtain ⟨segs, rest, hist, h1, -, h2, h3, h4⟩ := C46_coupons 5#64 (by decide) (by decide) 25 (by norm_num) (s.take n.toNat)
    (by rw [Stream.length_take]; exact n.isLt)
  refine ⟨segs, rest, h1, ?_⟩
  unfold couponTest
  dsimp only
  rw [coupon_length, show BitVec.ofNat 64 5 = 5#64 from rfl, h2, hbind, mainSubTest,
    chi2Stats_counts cdf hist 25 (fun i => binCount (fun s => min 24 (s.length - 5)) segs i) _ 1 h3 h4 (by
      intro i _
      apply binCount_lt
      refine lt_of_le_of_lt (seg_length_le h1) ?_
      rw [Stream.length_take]; exact n.isLt)]
  congr 4
  apply List.map_congr_left
  intro i hi
  rw [coupon_share i (List.mem_range.1 hi)]
  have : (((5 : ℕ) : ℚ) * harmonicQ 5 : ℚ) = 137 / 12 := by decide +kernel
  rw [this, Prod.mk.injEq]
  refine ⟨rfl, ?_⟩
  push_cast
  ring

/-- C83. The probabilities sum to one, and with at least 1024 values there is a statistic. -/
theorem C83_reported (cdf : ℝ → ℝ → ℝ) (n : BitVec 64) (hn : 1024 ≤ n.toNat) (s : Stream (BitVec w)) :
    ((List.range 25).map couponShare).sum = 1 ∧ ∃ st, couponTest cdf n s = .ok [⟨"", some st⟩] ∧ st.type = .chi2 ∧
      1 ≤ st.df ∧ st.df ≤ 24 ∧ st.pValue = cdf st.value st.df := by
  constructor
  · have h1 : (List.range 25).map couponShare = (couponProbabilities 5).map fun (q : ℚ) => (q : ℝ) := by
      apply List.ext_getElem (by simp [coupon_length])
      intro i hi1 hi2
      have hi : i < 25 := by simpa using hi1
      rw [List.getElem_map, List.getElem_map, List.getElem_range, ← coupon_share i hi, List.getD_eq_getElem?_getD,
        List.getElem?_eq_getElem (by rw [coupon_length]; exact hi), Option.getD_some]
    obtain ⟨k, -, -, -, -, -, -, -, hs⟩ := C47_probabilities 5 (by norm_num) (by norm_num) (C47_no_overflow 5 (by norm_num))
    rw [h1]
    have : ∀ l : List ℚ, (l.map fun (q : ℚ) => (q : ℝ)).sum = ((l.sum : ℚ) : ℝ) := by
      intro l
      induction l with
      | nil => simp
      | cons a l ih => rw [List.map_cons, List.sum_cons, ih, List.sum_cons]; push_cast; rfl
    rw [this, hs]; norm_num
  · obtain ⟨segs, rest, -, h⟩ := C83_coupon cdf n s
    have hn' : (1024 : ℝ) ≤ n.toNat := by exact_mod_cast hn
    have e0 : couponShare 0 = 24 / 625 := by
      rw [← coupon_share 0 (by norm_num)]
      have : (couponProbabilities 5).getD 0 0 = 24 / 625 := by decide +kernel
      rw [this]; norm_num
    have e1 : couponShare 1 = 48 / 625 := by
      rw [← coupon_share 1 (by norm_num)]
      have : (couponProbabilities 5).getD 1 0 = 48 / 625 := by decide +kernel
      rw [this]; norm_num
    obtain ⟨st, hst⟩ := pearson_isSome cdf 25 (fun i => (binCount (fun s => min 24 (s.length - 5)) segs i : ℝ))
      (fun i => couponShare i * (12 * n.toNat / 137)) 1 0 1 (by norm_num) (by norm_num)
      (by rw [e0]; linarith) (by rw [e1]; linarith)
    obtain ⟨p1, p2, p3, p4, p5⟩ := pearson_some cdf _ 1 (by norm_num) st hst
    rw [hst] at h
    refine ⟨st, h, p1, p2, ?_, p5⟩
    rw [List.length_map, List.length_range] at p3
    norm_num at p3
    exact p3

/-! ### C84 -/

/-- The probability that exactly `5 + i` values are needed to see five even ones (for `i < 15`), or at least 20 (`i = 15`). -/
noncomputable def Spec.evenShare (i : Nat) : ℝ :=
  if i < 15 then (Nat.choose (i + 4) 4 : ℝ) / 2 ^ (i + 5)
  else 1 - ∑ j ∈ Finset.range 15, (Nat.choose (j + 4) 4 : ℝ) / 2 ^ (j + 5)

/-- C84. For every stream and `n < 2^64 - 1`, the divisibility test ends without a fault.  Below 1000 values it reports nothing;
otherwise its one sub test, `d2`, cuts the first `n` values after every fifth even value and is Pearson's test of the numbers
of segments of length `5, 6, ..., 19` and longer, against the negative binomial probabilities times `⌊n/10⌋`, over the cells
with expectation above 5; it always has a statistic.  Only the lowest bit of each value is used. -/
theorem C84_divisibility (cdf : ℝ → ℝ → ℝ) (n : BitVec 64) (hmax : n.toNat < 2 ^ 64 - 1) (s : Stream (BitVec w)) :
    ∃ (segs : List (List (BitVec w))) (rest : List (BitVec w)),
      IsSegmentation (fun s => 5 ≤ s.countP (fun v => decide (2 ∣ v.toNat))) (s.take n.toNat) segs rest ∧
      (n.toNat < 1000 → divisibilityTest cdf n s = some (.ok [])) ∧
      (1000 ≤ n.toNat → ∃ st, divisibilityTest cdf n s = some (.ok [⟨"d2", some st⟩]) ∧
        pearson cdf ((List.range 16).map fun i =>
          ((binCount (fun s => min 15 (s.length - 5)) segs i : ℝ), evenShare i * ((n.toNat / 10 : ℕ) : ℝ))) 5 = some st) := by
  obtain ⟨k, ps, h1, h2, h3, h4, h5, h6, h7⟩ := C48_probabilities 2 4 (by norm_num)
  have hpi : ∀ i, i < k → ps.getD i 0 = (Nat.choose (i + 4) 4 : ℝ) / 2 ^ (i + 5) := by
    intro i hi
    rw [List.getD_eq_getElem?_getD, h3 i hi, Option.getD_some, negativeBinomialPdf]
    rw [show i + (4 + 1) - 1 = i + 4 by omega, show 4 + 1 - 1 = 4 from rfl]
    have : (1 - 1 / ((2 : ℕ) : ℝ)) = 1 / 2 := by norm_num
    rw [this]
    push_cast
    rw [mul_assoc, ← pow_add, one_div, inv_pow, div_eq_mul_inv]
  have htake : ∀ m, m ≤ k → (ps.take m).sum = ∑ i ∈ Finset.range m, (Nat.choose (i + 4) 4 : ℝ) / 2 ^ (i + 5) := by
    intro m hm
    induction m with
    | zero => simp
    | succ m ih =>
      rw [List.take_add_one, List.sum_append, ih (by omega), Finset.sum_range_succ, ← hpi m (by omega)]
      rw [List.getD_eq_getElem?_getD, h3 m (by omega)]; simp
  have hk : k = 15 := by
    rcases Nat.lt_trichotomy k 15 with hlt | heq | hgt
    · exfalso
      rw [htake k le_rfl] at h5
      have : ∑ i ∈ Finset.range k, (Nat.choose (i + 4) 4 : ℝ) / 2 ^ (i + 5) ≤
          ∑ i ∈ Finset.range 14, (Nat.choose (i + 4) 4 : ℝ) / 2 ^ (i + 5) :=
        Finset.sum_le_sum_of_subset_of_nonneg (Finset.range_mono (by omega)) (fun _ _ _ => by positivity)
      have h14 : ∑ i ∈ Finset.range 14, (Nat.choose (i + 4) 4 : ℝ) / 2 ^ (i + 5) < 99 / 100 := by
        norm_num [Finset.sum_range_succ, Nat.choose]
      linarith
    · exact heq
    · exfalso
      have := h4 15 hgt
      rw [htake 15 (by omega)] at this
      norm_num [Finset.sum_range_succ, Nat.choose] at this
  subst hk
  have hshare : ∀ i, i < 16 → ps.getD i 0 = evenShare i := by
    intro i hi
    unfold evenShare
    by_cases hi15 : i < 15
    · rw [if_pos hi15, hpi i hi15]
    · have : i = 15 := by omega
      subst this
      rw [if_neg hi15]
      have h8 : ps = ps.take 15 ++ [ps.getD 15 0] := by
        conv_lhs => rw [← List.take_append_drop 15 ps]
        congr 1
        rw [List.drop_eq_getElem_cons (by omega), List.drop_eq_nil_of_le (by omega), List.getD_eq_getElem?_getD,
          List.getElem?_eq_getElem (by omega), Option.getD_some]
      have h9 : ps.sum = (ps.take 15).sum + ps.getD 15 0 := by
        conv_lhs => rw [h8]
        rw [List.sum_append, List.sum_singleton]
      rw [h7, htake 15 le_rfl] at h9
      linarith
  obtain ⟨segs, rest, hist, g1, -, g2, g3, g4⟩ := C48_divisible 2#64 5#64 (by decide) ps.length (by omega) (s.take n.toNat)
    (by rw [Stream.length_take]; exact hmax)
  have hmx : max (5#64 : BitVec 64).toNat 1 = 5 := rfl
  have h2n : (2#64 : BitVec 64).toNat = 2 := rfl
  simp only [hmx, h2n] at g1
  have hdiv : (n / BitVec.ofNat 64 (2 * 5)).toNat = n.toNat / 10 := by rw [BitVec.toNat_udiv]; rfl
  have hlt : (n / BitVec.ofNat 64 (2 * 5) < 100#64) ↔ n.toNat < 1000 := by
    rw [BitVec.lt_def, hdiv]
    show n.toNat / 10 < 100 ↔ _
    omega
  have hsome : ∀ {α β : Type} (x : α) (f : α → Option β), (some x >>= f) = f x := fun _ _ => rfl
  refine ⟨segs, rest, g1, ?_, ?_⟩
  · intro hn
    unfold divisibilityTest
    dsimp only
    rw [h1, hsome, show BitVec.ofNat 64 2 = 2#64 from rfl, show BitVec.ofNat 64 5 = 5#64 from rfl, g2, hbind,
      if_pos (hlt.2 hn)]
  · intro hn
    have hcells : chi2Stats cdf hist.length (toData hist) (fun i => ps.getD i 0 * ((n / BitVec.ofNat 64 (2 * 5)).toNat : ℝ)) 5 =
        pearson cdf ((List.range 16).map fun i =>
          ((binCount (fun s => min 15 (s.length - 5)) segs i : ℝ), evenShare i * ((n.toNat / 10 : ℕ) : ℝ))) 5 := by
      rw [chi2Stats_counts cdf hist 16 (fun i => binCount (fun s => min 15 (s.length - 5)) segs i) _ 5 (g3.trans h2)
        (by
          intro i hi
          rw [g4 i (by omega), h2, Nat.add_sub_cancel]; rfl)
        (by
          intro i _
          apply binCount_lt
          refine lt_of_le_of_lt (seg_length_le g1) ?_
          rw [Stream.length_take]; exact n.isLt), hdiv]
      congr 1
      apply List.map_congr_left
      intro i hi
      rw [hshare i (List.mem_range.1 hi)]
    have h100 : (100 : ℝ) ≤ ((n.toNat / 10 : ℕ) : ℝ) := by
      have : 100 ≤ n.toNat / 10 := by omega
      exact_mod_cast this
    obtain ⟨st, hst⟩ := pearson_isSome cdf 16 (fun i => (binCount (fun s => min 15 (s.length - 5)) segs i : ℝ))
      (fun i => evenShare i * ((n.toNat / 10 : ℕ) : ℝ)) 5 1 2 (by norm_num) (by norm_num)
      (by norm_num [evenShare, Nat.choose]; linarith) (by norm_num [evenShare, Nat.choose]; linarith)
    refine ⟨st, ?_, hst⟩
    unfold divisibilityTest
    dsimp only
    rw [h1, hsome, show BitVec.ofNat 64 2 = 2#64 from rfl, show BitVec.ofNat 64 5 = 5#64 from rfl, g2, hbind,
      if_neg (fun h => absurd (hlt.1 h) (by omega)), hcells, hst]
    rfl

/-- C84. Two streams whose values have the same lowest bits get the same result. -/
theorem C84_lowest_bit (cdf : ℝ → ℝ → ℝ) (n : BitVec 64) (s s' : Stream (BitVec w))
    (h : ∀ i, i < n.toNat → (s.nth i).getLsbD 0 = (s'.nth i).getLsbD 0) : divisibilityTest cdf n s = divisibilityTest cdf n s' := by
  have hstep : ∀ (st : DivState) (v v' : BitVec w), v.getLsbD 0 = v'.getLsbD 0 → divStep 2#64 5#64 st v = divStep 2#64 5#64 st v' := by
    intro st v v' hv
    have h1 : ∀ v : BitVec w, v.toNat % 2 = (v.getLsbD 0).toNat := by
      intro v
      rw [BitVec.getLsbD, Nat.testBit_zero]
      rcases Nat.mod_two_eq_zero_or_one v.toNat with h | h <;> simp [h]
    have h2 : v.toNat % (2#64 : BitVec 64).toNat = v'.toNat % (2#64 : BitVec 64).toNat := by
      show v.toNat % 2 = v'.toNat % 2
      rw [h1, h1, hv]
    unfold divStep
    rw [h2]
  have hfold : ∀ (l : List Nat) (st : DivState), (∀ i ∈ l, i < n.toNat) →
      (l.map s.nth).foldlM (divStep 2#64 5#64) st = (l.map s'.nth).foldlM (divStep 2#64 5#64) st := by
    intro l
    induction l with
    | nil => intro st _; rfl
    | cons a l ih =>
      intro st hl
      rw [List.map_cons, List.map_cons, List.foldlM_cons, List.foldlM_cons, hstep st _ _ (h a (hl a (by simp)))]
      cases divStep 2#64 5#64 st (s'.nth a) with
      | error e => rfl
      | ok st' => exact ih st' (fun i hi => hl i (List.mem_cons_of_mem _ hi))
  have hcd : ∀ tracked, collectDivisible 2#64 5#64 tracked (s.take n.toNat) = collectDivisible 2#64 5#64 tracked (s'.take n.toNat) := by
    intro tracked
    unfold collectDivisible
    rw [Stream.take_eq_map, Stream.take_eq_map, hfold _ _ (fun i hi => List.mem_range.1 hi)]
  unfold divisibilityTest
  dsimp only
  simp only [show BitVec.ofNat 64 2 = 2#64 from rfl, show BitVec.ofNat 64 5 = 5#64 from rfl, hcd]

/-- C84, non-vacuity: the alternating bits 0, 1, 0, 1, ... with 1024 values. -/
example (cdf : ℝ → ℝ → ℝ) : ∃ st, divisibilityTest cdf 1024#64 (⟨BitVec 8, "c", 0#8, fun x => (x, x + 1#8)⟩ : Stream (BitVec 8)) =
    some (.ok [⟨"d2", some st⟩]) := by
  obtain ⟨segs, rest, -, -, h⟩ := C84_divisibility cdf 1024#64 (by decide) (⟨BitVec 8, "c", 0#8, fun x => (x, x + 1#8)⟩ : Stream (BitVec 8))
  obtain ⟨st, h, -⟩ := h (by decide)
  exact ⟨st, h⟩

end TFR
