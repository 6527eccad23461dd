import Verif.Model.TestSuite
import Verif.Lemmas.Pearson
import Verif.Props.RankProbs
import Verif.Props.LinearComplexity
import Mathlib.Tactic.Linarith
/-
C86 and C87: the binary rank test and the linear complexity test as a whole.
-/
namespace TFR
open Spec

private theorem hbind {α β : Type} (x : α) (f : α → R β) : (Except.ok x >>= f) = f x := rfl

/-! ### C86 -/

/-- The fraction of the `n × n` bit matrices that have rank `r`. -/
noncomputable def Spec.rankShare (n r : Nat) : ℝ :=
  (Nat.card {A : Matrix (Fin n) (Fin n) (ZMod 2) // A.rank = r} : ℝ) / (Nat.card (Matrix (Fin n) (Fin n) (ZMod 2)) : ℝ)

/-- For the ranks `n, n-1, ..., 0`: how many of the first `blocks` matrices have it, and how many are expected to. -/
noncomputable def Spec.rankCells (n blocks : Nat) (M : Nat → Matrix (Fin n) (Fin n) (ZMod 2)) : List (ℝ × ℝ) :=
  (List.range (n + 1)).map fun s => ((((List.range blocks).countP fun k => (M k).rank == n - s : ℕ) : ℝ), rankShare n (n - s) * blocks)

theorem rank_full (n : Nat) : (1 / 4 : ℝ) ≤ rankShare n n := by
  unfold rankShare
  rw [← C53_rank_probability]
  unfold getRankProbability
  dsimp only
  rw [foldl_mul_prod (fun i => (1 - (2 : ℝ) ^ ((i : ℤ) - n)) * (1 - (2 : ℝ) ^ ((i : ℤ) - n)) / (1 - (2 : ℝ) ^ ((i : ℤ) - n)))]
  have e : ∀ i ∈ Finset.range n, (1 - (2 : ℝ) ^ ((i : ℤ) - n)) * (1 - (2 : ℝ) ^ ((i : ℤ) - n)) / (1 - (2 : ℝ) ^ ((i : ℤ) - n)) =
      1 - (1 / 2) ^ (n - i) := by
    intro i hi
    have hi := Finset.mem_range.1 hi
    have e1 : (2 : ℝ) ^ ((i : ℤ) - n) = (1 / 2) ^ (n - i) := by
      rw [show ((i : ℤ) - n) = -((n - i : ℕ) : ℤ) by push_cast [hi.le]; ring, zpow_neg, zpow_natCast]
      simp
    rw [e1]
    have : (1 / 2 : ℝ) ^ (n - i) < 1 := pow_lt_one₀ (by norm_num) (by norm_num) (by omega)
    have hne : (1 - (1 / 2 : ℝ) ^ (n - i)) ≠ 0 := by linarith
    rw [mul_div_assoc, div_self hne, mul_one]
  rw [Finset.prod_congr rfl e]
  have e2 : ∏ i ∈ Finset.range n, (1 - (1 / 2 : ℝ) ^ (n - i)) = ∏ i ∈ Finset.range n, (1 - (1 / 2 : ℝ) ^ (i + 1)) := by
    rw [← Finset.prod_range_reflect (fun i => 1 - (1 / 2 : ℝ) ^ (i + 1))]
    apply Finset.prod_congr rfl
    intro i hi
    have hi := Finset.mem_range.1 hi
    rw [show n - 1 - i + 1 = n - i by omega]
  have key : ∀ m : ℕ, (1 / 4 : ℝ) + (1 / 2) ^ (m + 2) ≤ ∏ i ∈ Finset.range (m + 1), (1 - (1 / 2 : ℝ) ^ (i + 1)) := by
    intro m
    induction m with
    | zero => norm_num
    | succ m ih =>
      rw [Finset.prod_range_succ]
      have h1 : (0 : ℝ) < (1 / 2) ^ (m + 2) := by positivity
      have h2 : ((1 / 2 : ℝ)) ^ (m + 2) ≤ 1 / 4 := by
        calc ((1 / 2 : ℝ)) ^ (m + 2) ≤ (1 / 2) ^ 2 := pow_le_pow_of_le_one (by norm_num) (by norm_num) (by omega)
          _ = 1 / 4 := by norm_num
      have h3 : (1 / 2 : ℝ) ^ (m + 1 + 2) = (1 / 2) ^ (m + 2) * (1 / 2) := by rw [← pow_succ]
      rw [h3, show m + 1 + 1 = m + 2 from rfl]
      calc (1 / 4 : ℝ) + (1 / 2) ^ (m + 2) * (1 / 2) ≤ (1 / 4 + (1 / 2) ^ (m + 2)) * (1 - (1 / 2) ^ (m + 2)) := by nlinarith
        _ ≤ _ := mul_le_mul_of_nonneg_right ih (by linarith)
  rw [e2, sub_self, mul_zero, zpow_zero, one_mul]
  cases n with
  | zero => norm_num
  | succ m => have := key m; have h : (0 : ℝ) < (1 / 2) ^ (m + 2) := by positivity
              linarith

theorem rank_deficient (n : Nat) (hn : 1 ≤ n) : (1 / 2 : ℝ) ≤ rankShare n (n - 1) := by
  unfold rankShare
  rw [← C53_rank_probability]
  unfold getRankProbability
  dsimp only
  rw [foldl_mul_prod (fun i => (1 - (2 : ℝ) ^ ((i : ℤ) - n)) * (1 - (2 : ℝ) ^ ((i : ℤ) - n)) / (1 - (2 : ℝ) ^ ((i : ℤ) - (n - 1 : ℕ))))]
  have e : ∀ i ∈ Finset.range (n - 1), (1 : ℝ) ≤
      (1 - (2 : ℝ) ^ ((i : ℤ) - n)) * (1 - (2 : ℝ) ^ ((i : ℤ) - n)) / (1 - (2 : ℝ) ^ ((i : ℤ) - (n - 1 : ℕ))) := by
    intro i hi
    have hi := Finset.mem_range.1 hi
    have e1 : (2 : ℝ) ^ ((i : ℤ) - (n - 1 : ℕ)) = 2 * (2 : ℝ) ^ ((i : ℤ) - n) := by
      rw [show ((i : ℤ) - (n - 1 : ℕ)) = 1 + ((i : ℤ) - n) by push_cast [hn]; ring, zpow_add₀ (by norm_num), zpow_one]
    have h0 : (0 : ℝ) < (2 : ℝ) ^ ((i : ℤ) - n) := by positivity
    have h1 : (2 : ℝ) ^ ((i : ℤ) - (n - 1 : ℕ)) < 1 := zpow_lt_one_of_neg₀ (by norm_num) (by push_cast [hn]; omega)
    rw [le_div_iff₀ (by linarith), e1]
    nlinarith
  have hp : (1 : ℝ) ≤ ∏ i ∈ Finset.range (n - 1), (1 - (2 : ℝ) ^ ((i : ℤ) - n)) * (1 - (2 : ℝ) ^ ((i : ℤ) - n)) /
      (1 - (2 : ℝ) ^ ((i : ℤ) - (n - 1 : ℕ))) := by
    have := Finset.prod_le_prod (s := Finset.range (n - 1)) (f := fun _ => (1 : ℝ)) (fun _ _ => by norm_num) e
    simpa using this
  have hc : (2 : ℝ) ^ (-((n : ℤ) - (n - 1 : ℕ)) * ((n : ℤ) - (n - 1 : ℕ))) = 1 / 2 := by
    rw [show (-((n : ℤ) - (n - 1 : ℕ)) * ((n : ℤ) - (n - 1 : ℕ))) = -1 by push_cast [hn]; ring, zpow_neg_one]; norm_num
  rw [hc]
  linarith

private theorem rankCells_some (cdf : ℝ → ℝ → ℝ) (n blocks : Nat) (hn : 1 ≤ n) (hb : 21 ≤ blocks)
    (M : Nat → Matrix (Fin n) (Fin n) (ZMod 2)) : ∃ st, pearson cdf (rankCells n blocks M) 5 = some st := by
  have hbr : (21 : ℝ) ≤ blocks := by exact_mod_cast hb
  apply pearson_isSome cdf (n + 1) _ (fun s => rankShare n (n - s) * blocks) 5 0 1 (by norm_num) (by omega)
  · rw [Nat.sub_zero]
    have := rank_full n
    nlinarith
  · have := rank_deficient n hn
    nlinarith

/-- C86. For every stream of words of 8 to 64 bits and every `n ≥ 1024` with `n·w < 2^64` the binary rank test does not fault.
With a matrix size `m`, a power of two of at least 2 for which there are at least 954 matrices, and at least every power of two of
which there are 955, it reports two sub tests, both
with a statistic: `m` takes the bits of the first `n` values in order, `m:bit(0)` takes the lowest bit of as many values as
there are bits; each is Pearson's test of the ranks over GF(2) of the `⌊n·w/m²⌋` matrices against the fractions of all bit
matrices that have these ranks, over the cells with expectation above 5. -/
theorem C86_binary_rank (cdf : ℝ → ℝ → ℝ) (hw8 : 8 ≤ w) (hw64 : w ≤ 64) (n : BitVec 64) (hn : 1024 ≤ n.toNat)
    (hov : n.toNat * w < 2 ^ 64) :
    ∃ j, 1 ≤ j ∧ 954 ≤ n.toNat * w / (2 ^ j * 2 ^ j) ∧ (∀ k, 955 * (2 ^ k * 2 ^ k) ≤ n.toNat * w → k ≤ j) ∧ ∀ s : Stream (BitVec w), ∃ st₁ st₂,
      binaryRankTest cdf n s = .ok [⟨toString (2 ^ j), some st₁⟩, ⟨toString (2 ^ j) ++ ":bit(0)", some st₂⟩] ∧
      pearson cdf (rankCells (2 ^ j) (n.toNat * w / (2 ^ j * 2 ^ j)) (blockMatrix (s.take n.toNat) (2 ^ j))) 5 = some st₁ ∧
      pearson cdf (rankCells (2 ^ j) (n.toNat * w / (2 ^ j * 2 ^ j)) (bitMatrix s.nth 0 (2 ^ j))) 5 = some st₂ := by
  obtain ⟨m, hm, hpow, hblocks, h2, hmax⟩ := C52_matrix_size w hw64 n
  have h2 := h2 hn hw8
  have hm0 : m ≠ 0#64 := by rintro rfl; simp at h2
  obtain ⟨j, hj⟩ : ∃ j, m.toNat = 2 ^ j := by
    rcases hpow with h | h
    · exact absurd h hm0
    · exact h
  have hblocks := hblocks hm0
  have hj1 : 1 ≤ j := by
    rcases Nat.eq_zero_or_pos j with h | h
    · subst h; rw [hj] at h2; norm_num at h2
    · exact h
  rw [hj] at hblocks h2
  have hsq : m.toNat * m.toNat < 2 ^ 64 := by
    rw [hj]
    refine lt_of_le_of_lt ?_ hov
    by_contra hc
    rw [not_le] at hc
    rw [Nat.div_eq_of_lt hc] at hblocks
    omega
  refine ⟨j, hj1, hblocks, fun k hk => (Nat.pow_le_pow_iff_right (by norm_num)).1 (hj ▸ hmax k hk), fun s => ?_⟩
  have hlen : (s.take n.toNat).length = n.toNat := Stream.length_take _ _
  have hBlt : n.toNat * w / (2 ^ j * 2 ^ j) < 2 ^ 64 := lt_of_le_of_lt (Nat.div_le_self _ _) hov
  have hcell : ∀ (B : Nat) (M : Nat → Matrix (Fin (2 ^ j)) (Fin (2 ^ j)) (ZMod 2)) (counts : List (BitVec 64)), B < 2 ^ 64 →
      counts.length = 2 ^ j + 1 →
      (∀ i (h : i < counts.length), counts[i] = BitVec.ofNat 64 ((List.range B).countP fun k => (M k).rank == 2 ^ j - i)) →
      chi2Stats cdf counts.length (toData counts) (fun i => (getRankProbabilities (2 ^ j)).getD i 0 * ((B : ℕ) : ℝ)) 5 =
        pearson cdf (rankCells (2 ^ j) B M) 5 := by
    intro B M counts hB hl hc
    rw [chi2Stats_counts cdf counts (2 ^ j + 1) (fun i => (List.range B).countP fun k => (M k).rank == 2 ^ j - i) _ 5 hl
      (by intro i hi; rw [List.getElem?_eq_getElem (by omega), hc i (by omega)])
      (by intro i _
          refine lt_of_le_of_lt List.countP_le_length ?_
          rw [List.length_range]; exact hB)]
    unfold rankCells
    congr 1
    apply List.map_congr_left
    intro i hi
    have hi := List.mem_range.1 hi
    obtain ⟨p1, p2, -, -⟩ := C53_rank_probabilities (2 ^ j)
    have : (getRankProbabilities (2 ^ j)).getD i 0 = rankShare (2 ^ j) (2 ^ j - i) := by
      rw [List.getD_eq_getElem?_getD, List.getElem?_eq_getElem (by omega), Option.getD_some, p2 i (by omega), C53_rank_probability]
      rfl
    rw [this]
  obtain ⟨c1, h11, h12, h13⟩ := C53_rank_counts (s.take n.toNat) (2 ^ j) (by positivity)
  rw [hlen] at h11 h13
  obtain ⟨c2, b2, h21, h22, h23, h24⟩ := C53_isolated_rank_counts n s m 0 (by omega) hm0 hsq
  rw [hj] at h22 h23 h24
  rw [Nat.mul_comm w, Nat.mod_eq_of_lt hov] at h22
  rw [h22] at h24
  have hB1 : (BitVec.ofNat 64 (n.toNat * w / (2 ^ j * 2 ^ j))).toNat = n.toNat * w / (2 ^ j * 2 ^ j) := by
    rw [BitVec.toNat_ofNat, Nat.mod_eq_of_lt hBlt]
  have s1 : binaryRankStats cdf n s m = .ok (pearson cdf
      (rankCells (2 ^ j) (n.toNat * w / (2 ^ j * 2 ^ j)) (blockMatrix (s.take n.toNat) (2 ^ j))) 5) := by
    unfold binaryRankStats
    dsimp only
    rw [hj, h11, hbind]
    dsimp only
    rw [hB1]
    refine congrArg Except.ok (hcell _ _ c1 hBlt ?_ ?_)
    · rw [h12, (C53_rank_probabilities (2 ^ j)).1]
    · exact h13
  have s2 : binaryRankIsolatedStats cdf n s m 0 = .ok (pearson cdf
      (rankCells (2 ^ j) (n.toNat * w / (2 ^ j * 2 ^ j)) (bitMatrix s.nth 0 (2 ^ j))) 5) := by
    unfold binaryRankIsolatedStats
    dsimp only
    have h21' : isolatedRankCounts n s m 0 = _ := h21
    rw [h21', hbind]
    dsimp only
    rw [hj, h22]
    exact congrArg Except.ok (hcell _ _ c2 hBlt h23 h24)
  obtain ⟨st₁, e1⟩ := rankCells_some cdf (2 ^ j) (n.toNat * w / (2 ^ j * 2 ^ j)) Nat.one_le_two_pow (by omega)
    (blockMatrix (s.take n.toNat) (2 ^ j))
  obtain ⟨st₂, e2⟩ := rankCells_some cdf (2 ^ j) (n.toNat * w / (2 ^ j * 2 ^ j)) Nat.one_le_two_pow (by omega)
    (bitMatrix s.nth 0 (2 ^ j))
  refine ⟨st₁, st₂, ?_, e1, e2⟩
  unfold binaryRankTest
  rw [hm, hbind, s1, hbind, s2, hbind, e1, e2, hj]

-- 1024 words of 8 bits.
example (cdf : ℝ → ℝ → ℝ) (s : Stream (BitVec 8)) : ∃ j st₁ st₂, 1 ≤ j ∧
    binaryRankTest cdf 1024#64 s = .ok [⟨toString (2 ^ j), some st₁⟩, ⟨toString (2 ^ j) ++ ":bit(0)", some st₂⟩] := by
  obtain ⟨j, h1, -, -, h⟩ := C86_binary_rank (w := 8) cdf (by norm_num) (by norm_num) 1024#64 (by decide) (by decide)
  obtain ⟨st₁, st₂, h2, -⟩ := h s
  exact ⟨j, st₁, st₂, h1, h2⟩

/-! ### C87 -/

/-- The fraction of the bit strings of length `n` that have linear complexity `l`. -/
noncomputable def Spec.complexityShare (n l : Nat) : ℝ :=
  (Nat.card {u : Fin n → Bool // IsLinearComplexity (List.ofFn u) l} : ℝ) / (Nat.card (Fin n → Bool) : ℝ)

open Classical in
/-- For the complexities `0, ..., n`: how many of the first `blocks` bit strings have it, and how many are expected to. -/
noncomputable def Spec.complexityCells (n blocks : Nat) (u : Nat → List Bool) : List (ℝ × ℝ) :=
  (List.range (n + 1)).map fun l =>
    ((((List.range blocks).countP fun k => decide (IsLinearComplexity (u k) l) : ℕ) : ℝ), complexityShare n l * blocks)

/-- C87. For every stream (of words of at least one bit) and every `n` the linear complexity test does not fault.  Below 8192 values
it reports nothing.  Otherwise it cuts the lowest bits of the values into blocks of `b = ⌊n/1024⌋` bits, and its one sub test
`b:bit(0)`, always with a statistic, is Pearson's test of the linear complexities of the first `⌊n/b⌋` blocks against the
fractions of all bit strings of length `b` that have these complexities, over the cells with expectation above 5. -/
theorem C87_linear_complexity (cdf : ℝ → ℝ → ℝ) (hw : 0 < w) (n : BitVec 64) (s : Stream (BitVec w)) :
    (n.toNat < 8192 → linearComplexityTest cdf n s = .ok []) ∧
    (8192 ≤ n.toNat → ∃ st, linearComplexityTest cdf n s = .ok [⟨toString (n.toNat / 1024) ++ ":bit(0)", some st⟩] ∧
      pearson cdf (complexityCells (n.toNat / 1024) (n.toNat / (n.toNat / 1024)) (bitBlock s.nth 0 (n.toNat / 1024))) 5 = some st) := by
  have hbs : (n / 1024#64).toNat = n.toNat / 1024 := by rw [BitVec.toNat_udiv]; rfl
  have hcond : n / 1024#64 < 8#64 ↔ n.toNat < 8192 := by
    rw [BitVec.lt_def, hbs, show (8#64).toNat = 8 from rfl]; omega
  constructor
  · intro h
    unfold linearComplexityTest
    dsimp only
    rw [if_pos (hcond.2 h)]
  · intro h
    set b := n.toNat / 1024 with hb
    have hb8 : 8 ≤ b := by omega
    have hlt := n.isLt
    have hb63 : b < 2 ^ 63 := by omega
    have hbv : n / 1024#64 = BitVec.ofNat 64 b := BitVec.eq_of_toNat_eq (by
      rw [hbs, BitVec.toNat_ofNat, Nat.mod_eq_of_lt (by omega)])
    have hbn : (BitVec.ofNat 64 b).toNat = b := by rw [BitVec.toNat_ofNat, Nat.mod_eq_of_lt (by omega)]
    have hb0 : BitVec.ofNat 64 b ≠ 0#64 := by
      intro h; have := congrArg BitVec.toNat h; rw [hbn] at this; simp at this; omega
    obtain ⟨p1, p2, -⟩ := C55_lfsr_probabilities b hb63
    obtain ⟨counts, h1, h2, h3, -⟩ := C56_counts n s (BitVec.ofNat 64 b) 0 hw hb0
    rw [hbn] at h2 h3
    have hq : (n / BitVec.ofNat 64 b).toNat = n.toNat / b := by rw [BitVec.toNat_udiv, hbn]
    have hstat : linearComplexityStats cdf n s (BitVec.ofNat 64 b) 0 =
        .ok (pearson cdf (complexityCells b (n.toNat / b) (bitBlock s.nth 0 b)) 5) := by
      unfold linearComplexityStats
      dsimp only
      have h1' : linearComplexityCounts n s (BitVec.ofNat 64 b) 0 = _ := h1
      rw [h1', hbind]
      dsimp only
      rw [hq, chi2Stats_counts cdf counts (b + 1) (fun l => (List.range (n.toNat / b)).countP fun k =>
        @decide (IsLinearComplexity (bitBlock s.nth 0 b k) l) (Classical.propDecidable _)) _ 5 h2
        (by intro i hi; rw [List.getElem?_eq_getElem (by omega), h3 i (by omega)])
        (by intro i _
            refine lt_of_le_of_lt List.countP_le_length ?_
            rw [List.length_range]
            exact lt_of_le_of_lt (Nat.div_le_self _ _) hlt)]
      unfold complexityCells
      congr 2
      apply List.map_congr_left
      intro i hi
      have hi := List.mem_range.1 hi
      have : (lfsrProbabilities (BitVec.ofNat 64 b)).getD i 0 = complexityShare b i := by
        rw [List.getD_eq_getElem?_getD, List.getElem?_eq_getElem (by omega), Option.getD_some, p2 i (by omega)]
        rfl
      rw [this]
    have hshare : ∀ l, 1 ≤ l → l ≤ b → b ≤ 2 * l + 1 → 2 * l ≤ b + 2 → (1 / 4 : ℝ) ≤ complexityShare b l := by
      intro l hl1 hl hlo hhi
      unfold complexityShare
      rw [← C55_lfsr_probability b l hb63 hl, lfsrLog2Probability_closed b l hb63 hl, if_neg (by omega)]
      have : (1 / 4 : ℝ) = (2 : ℝ) ^ (-2 : ℤ) := by norm_num
      rw [this]
      split
      · exact zpow_le_zpow_right₀ (by norm_num) (by omega)
      · exact zpow_le_zpow_right₀ (by norm_num) (by omega)
    have hblk : (1024 : ℝ) ≤ ((n.toNat / b : ℕ) : ℝ) := by
      have : 1024 ≤ n.toNat / b := by
        rw [Nat.le_div_iff_mul_le (by omega)]
        omega
      exact_mod_cast this
    obtain ⟨st, hst⟩ : ∃ st, pearson cdf (complexityCells b (n.toNat / b) (bitBlock s.nth 0 b)) 5 = some st := by
      apply pearson_isSome cdf (b + 1) _ (fun l => complexityShare b l * ((n.toNat / b : ℕ) : ℝ)) 5 (b / 2) (b / 2 + 1) (by omega) (by omega)
      · have := hshare (b / 2) (by omega) (by omega) (by omega) (by omega)
        nlinarith
      · have := hshare (b / 2 + 1) (by omega) (by omega) (by omega) (by omega)
        nlinarith
    refine ⟨st, ?_, hst⟩
    unfold linearComplexityTest
    dsimp only
    rw [if_neg (fun h' => absurd (hcond.1 h') (by omega)), hbv, hstat, hbind, hst, hbn]

example (cdf : ℝ → ℝ → ℝ) (s : Stream (BitVec 16)) : ∃ st, linearComplexityTest cdf 10000#64 s = .ok [⟨"9:bit(0)", some st⟩] := by
  obtain ⟨st, h, -⟩ := (C87_linear_complexity cdf (by norm_num) 10000#64 s).2 (by decide)
  exact ⟨st, h⟩

end TFR
