import Verif.Model.TestSuite
import Verif.Lemmas.Pearson
import Verif.Lemmas.Streams
import Verif.Props.Normal
import Verif.Props.RunsPerm
/-
C78, C79, C80: the mean, uniformity and runs tests from the stream to the reported statistic.
-/
namespace TFR
open Spec Finset ProbabilityTheory
variable {w : Nat}

private theorem hbind {α β : Type} (x : α) (f : α → R β) : ((Except.ok x : R α) >>= f) = f x := rfl

private theorem near_nat (n : ℕ) : isNearR (n : ℝ) 0 = true ↔ n = 0 := by
  rw [isNearR_iff, sub_zero, abs_of_nonneg (Nat.cast_nonneg n)]
  constructor
  · intro h
    by_contra hn
    have : (1 : ℝ) ≤ n := by
      have : 1 ≤ n := by omega
      exact_mod_cast this
    norm_num at h
    linarith
  · rintro rfl; norm_num

/-! ### C78 -/

/-- The z-score of the mean of `n` values: distance of the mean of `v / (2^w - 1)` from one half in units of its standard
deviation `√(1/(12 n))`. -/
noncomputable def Spec.meanZ (v : Nat → BitVec w) (n : Nat) : ℝ :=
  ((∑ i ∈ range n, ((v i).toNat : ℝ) / (2 ^ w - 1)) / n - 1 / 2) * Real.sqrt (12 * n)

private theorem foldl_add_sum (f : Nat → ℝ) (n : Nat) (a : ℝ) :
    (List.range n).foldl (fun s i => s + f i) a = a + ∑ i ∈ range n, f i := by
  induction n with
  | zero => simp
  | succ n ih => rw [List.range_succ, List.foldl_append, ih, sum_range_succ]; simp [add_assoc]

/-- C78. For every stream: with no samples the mean test reports nothing; with `n ≥ 1` it reports one sub test without a name,
whose statistic is the z-score of the mean of the first `n` values and whose p-value is the two-tailed probability of the
standard normal law.  Nothing else of the stream is used. -/
theorem C78_mean (n : BitVec 64) (s : Stream (BitVec w)) :
    meanTest n s = .ok [⟨"", if n = 0#64 then none
      else some ⟨.zScore, meanZ s.nth n.toNat, (gaussianReal 0 1).real {x | |meanZ s.nth n.toNat| ≤ |x|}, (n.toNat : ℝ)⟩⟩] := by
  unfold meanTest mainSubTest zTest
  have h12 : isNearR (1 / 12 : ℝ) 0 = false := by
    rw [← Bool.not_eq_true, isNearR_iff]; norm_num [abs_of_pos]
  rw [h12]
  simp only [Bool.false_eq_true, if_false]
  by_cases hn : n = 0#64
  · subst hn
    rw [if_pos (show isNearR (((0#64 : BitVec 64).toNat : ℕ) : ℝ) 0 = true from (near_nat _).2 rfl), if_pos rfl]
  · have hn0 : n.toNat ≠ 0 := fun h => hn (BitVec.eq_of_toNat_eq (by simpa using h))
    rw [if_neg (fun h => hn0 ((near_nat _).1 h)), if_neg hn]
    have hpos : (0 : ℝ) < n.toNat := by exact_mod_cast Nat.pos_of_ne_zero hn0
    have hz : (meanRescale01 (s.take n.toNat) - 1 / 2) / Real.sqrt (1 / 12 / (n.toNat : ℝ)) = meanZ s.nth n.toNat := by
      have h1 : meanRescale01 (s.take n.toNat) = (∑ i ∈ range n.toNat, ((s.nth i).toNat : ℝ) / (2 ^ w - 1)) / (n.toNat : ℝ) := by
        unfold meanRescale01
        rw [Stream.length_take, Stream.take_eq_map, List.foldl_map, foldl_add_sum, zero_add]
        congr 1
        apply sum_congr rfl
        intro i _
        congr 1
        rw [Nat.cast_sub Nat.one_le_two_pow]; push_cast; ring
      rw [h1]
      unfold meanZ
      have h2 : (1 / 12 / (n.toNat : ℝ)) = (12 * (n.toNat : ℝ))⁻¹ := by field_simp
      rw [h2, Real.sqrt_inv, div_inv_eq_mul]
    rw [hz, C76_two_tailed]

/-- C78. The z-score is at most `√(3n)` in size; it is `-√(3n)` exactly if all values are zero and `√(3n)` exactly if all
values have all bits set. -/
theorem C78_range (hw : 0 < w) (v : Nat → BitVec w) (n : Nat) (hn : 0 < n) :
    |meanZ v n| ≤ Real.sqrt (3 * n) ∧ (meanZ v n = -Real.sqrt (3 * n) ↔ ∀ i, i < n → v i = 0#w) ∧
      (meanZ v n = Real.sqrt (3 * n) ↔ ∀ i, i < n → v i = BitVec.allOnes w) := by
  have hn' : (0 : ℝ) < n := by exact_mod_cast hn
  have hM : (0 : ℝ) < 2 ^ w - 1 := by
    have : (2 : ℝ) ^ 1 ≤ 2 ^ w := pow_le_pow_right₀ (by norm_num) hw
    linarith
  have hle : ∀ i, ((v i).toNat : ℝ) / (2 ^ w - 1) ≤ 1 := by
    intro i
    rw [div_le_one hM]
    have h := (v i).isLt
    have h' : (v i).toNat + 1 ≤ 2 ^ w := h
    have : ((v i).toNat : ℝ) + 1 ≤ 2 ^ w := by exact_mod_cast h'
    linarith
  have hge : ∀ i, 0 ≤ ((v i).toNat : ℝ) / (2 ^ w - 1) := fun i => div_nonneg (Nat.cast_nonneg _) hM.le
  have hsq : Real.sqrt (12 * n) = 2 * Real.sqrt (3 * n) := by
    rw [show (12 : ℝ) * n = 2 ^ 2 * (3 * n) by ring, Real.sqrt_mul (by positivity), Real.sqrt_sq (by norm_num)]
  have hs3 : 0 < Real.sqrt (3 * n) := Real.sqrt_pos.2 (by positivity)
  set S := ∑ i ∈ range n, ((v i).toNat : ℝ) / (2 ^ w - 1) with hS
  have hS1 : S ≤ n := by
    calc S ≤ ∑ _i ∈ range n, (1 : ℝ) := sum_le_sum fun i _ => hle i
      _ = n := by simp
  have hS0 : 0 ≤ S := sum_nonneg fun i _ => hge i
  have hz : meanZ v n = (2 * (S / n) - 1) * Real.sqrt (3 * n) := by
    unfold meanZ; rw [hsq, ← hS]; ring
  have hq0 : 0 ≤ S / n := div_nonneg hS0 hn'.le
  have hq1 : S / n ≤ 1 := by rw [div_le_one hn']; exact hS1
  refine ⟨?_, ?_, ?_⟩
  · rw [hz, abs_mul, abs_of_pos hs3]
    have : |2 * (S / n) - 1| ≤ 1 := by rw [abs_le]; constructor <;> linarith
    nlinarith
  · have h1 : meanZ v n = -Real.sqrt (3 * n) ↔ S = 0 := by
      rw [hz]
      constructor
      · intro h
        have : (2 * (S / n)) * Real.sqrt (3 * n) = 0 := by linarith
        rcases mul_eq_zero.1 this with h2 | h2
        · have h3 : S / n = 0 := by linarith
          rcases div_eq_zero_iff.1 h3 with h4 | h4
          · exact h4
          · exact absurd h4 hn'.ne'
        · exact absurd h2 hs3.ne'
      · intro h; rw [h]; simp
    rw [h1, hS, sum_eq_zero_iff_of_nonneg (fun i _ => hge i)]
    constructor
    · intro h i hi
      have := h i (mem_range.2 hi)
      rcases div_eq_zero_iff.1 this with h2 | h2
      · apply BitVec.eq_of_toNat_eq
        simpa using h2
      · exact absurd h2 hM.ne'
    · intro h i hi
      rw [h i (mem_range.1 hi)]; simp
  · have h1 : meanZ v n = Real.sqrt (3 * n) ↔ ∑ i ∈ range n, (1 - ((v i).toNat : ℝ) / (2 ^ w - 1)) = 0 := by
      rw [sum_sub_distrib, ← hS, hz]
      simp only [sum_const, card_range, nsmul_eq_mul, mul_one]
      constructor
      · intro h
        have : (2 * (S / n) - 2) * Real.sqrt (3 * n) = 0 := by linarith
        rcases mul_eq_zero.1 this with h2 | h2
        · have h3 : S / n = 1 := by linarith
          rw [div_eq_one_iff_eq hn'.ne'] at h3
          linarith
        · exact absurd h2 hs3.ne'
      · intro h
        have : S = n := by linarith
        rw [this, div_self hn'.ne']; ring
    rw [h1, sum_eq_zero_iff_of_nonneg (fun i _ => by linarith [hle i])]
    constructor
    · intro h i hi
      have h2 := h i (mem_range.2 hi)
      have h3 : ((v i).toNat : ℝ) / (2 ^ w - 1) = 1 := by linarith
      rw [div_eq_one_iff_eq hM.ne'] at h3
      apply BitVec.eq_of_toNat_eq
      rw [BitVec.toNat_allOnes]
      have h4 : (((v i).toNat + 1 : ℕ) : ℝ) = ((2 ^ w : ℕ) : ℝ) := by push_cast; linarith
      have h5 : (v i).toNat + 1 = 2 ^ w := by exact_mod_cast h4
      omega
    · intro h i hi
      rw [h i (mem_range.1 hi), BitVec.toNat_allOnes, Nat.cast_sub Nat.one_le_two_pow]
      push_cast
      rw [div_self hM.ne']; ring

/-- C78. Complementing every value changes the sign of the z-score and nothing else; in particular the p-values agree. -/
theorem C78_complement (hw : 0 < w) (n : BitVec 64) (hn : n ≠ 0#64) (s s' : Stream (BitVec w))
    (h : ∀ i, i < n.toNat → s'.nth i = ~~~ s.nth i) :
    ∃ st st', meanTest n s = .ok [⟨"", some st⟩] ∧ meanTest n s' = .ok [⟨"", some st'⟩] ∧
      st'.value = - st.value ∧ st'.pValue = st.pValue ∧ st'.df = st.df := by
  have hn0 : n.toNat ≠ 0 := fun h => hn (BitVec.eq_of_toNat_eq (by simpa using h))
  have hn' : (n.toNat : ℝ) ≠ 0 := by exact_mod_cast hn0
  have hM : (2 : ℝ) ^ w - 1 ≠ 0 := by
    have : (2 : ℝ) ^ 1 ≤ 2 ^ w := pow_le_pow_right₀ (by norm_num) hw
    linarith
  have hz : meanZ s'.nth n.toNat = - meanZ s.nth n.toNat := by
    unfold meanZ
    have : ∑ i ∈ range n.toNat, ((s'.nth i).toNat : ℝ) / (2 ^ w - 1) =
        (n.toNat : ℝ) - ∑ i ∈ range n.toNat, ((s.nth i).toNat : ℝ) / (2 ^ w - 1) := by
      have h1 : (n.toNat : ℝ) = ∑ _i ∈ range n.toNat, (1 : ℝ) := by simp
      rw [h1, ← sum_sub_distrib]
      apply sum_congr rfl
      intro i hi
      rw [h i (mem_range.1 hi), BitVec.toNat_not]
      have hlt := (s.nth i).isLt
      rw [Nat.sub_sub, Nat.cast_sub (by omega)]
      push_cast
      field_simp
      ring
    rw [this, sub_div, div_self hn']
    ring
  have e1 := C78_mean n s
  have e2 := C78_mean n s'
  rw [if_neg hn] at e1 e2
  refine ⟨_, _, e1, e2, hz, ?_, rfl⟩
  dsimp only
  rw [hz, abs_neg]

/-- C78, non-vacuity: three zeros have z-score -3. -/
example : meanZ (fun _ => 0#8) 3 = -3 := by
  have h := (C78_range (w := 8) (by norm_num) (fun _ => 0#8) 3 (by norm_num)).2.1.2 (fun _ _ => rfl)
  rw [h, show (3 * (3 : ℕ) : ℝ) = 3 ^ 2 by norm_num, Real.sqrt_sq (by norm_num)]

/-! ### C79 -/

/-- The number of the first `n` values that fall in bin `j` of `bins`. -/
def Spec.binHits (v : Nat → BitVec w) (n bins j : Nat) : Nat := (List.range n).countP fun i => Spec.bin bins (v i) = j

private theorem countP_take (s : Stream (BitVec w)) (n : Nat) (p : BitVec w → Bool) :
    (s.take n).countP p = (List.range n).countP fun i => p (s.nth i) := by
  rw [Stream.take_eq_map, List.countP_map]; rfl

private theorem uniform_eq (cdf : ℝ → ℝ → ℝ) (t : WT) (n : BitVec 64) (k : Nat)
    (hk : binCountPow2 t.bits n.toNat = .ok (2 ^ k)) (hup : (2 : ℝ) ^ k < 2 * (2 * (n.toNat : ℝ) ^ (4 / 10 : ℝ) + 1))
    (s : Stream (BitVec t.bits)) :
    uniformTest cdf n s = .ok [⟨"", pearson cdf
        ((List.range (2 ^ k)).map fun j => ((binHits s.nth n.toNat (2 ^ k) j : ℝ), (n.toNat : ℝ) / 2 ^ k)) 0⟩] := by
  have hk63 : (2 : ℕ) ^ k ≤ 2 ^ 63 := by
    have hn : (n.toNat : ℝ) ^ (4 / 10 : ℝ) ≤ 2 ^ 26 := by
      have h1 : (n.toNat : ℝ) ≤ 2 ^ (65 : ℝ) := by
        have : (n.toNat : ℝ) ≤ 2 ^ 65 := by
          have h' : n.toNat ≤ 2 ^ 65 := by have := n.isLt; omega
          exact_mod_cast h'
        exact_mod_cast this
      have h2 : (n.toNat : ℝ) ^ (4 / 10 : ℝ) ≤ ((2 : ℝ) ^ (65 : ℝ)) ^ (4 / 10 : ℝ) :=
        Real.rpow_le_rpow (by positivity) h1 (by norm_num)
      rw [← Real.rpow_mul (by norm_num)] at h2
      have h3 : ((2 : ℝ) ^ ((65 : ℝ) * (4 / 10))) = 2 ^ 26 := by
        rw [← Real.rpow_natCast]; norm_num
      rwa [h3] at h2
    have : (2 : ℝ) ^ k ≤ 2 ^ 63 := by
      have : (2 : ℝ) ^ k < 2 * (2 * 2 ^ 26 + 1) := by linarith
      norm_num at this ⊢
      linarith
    exact_mod_cast this
  obtain ⟨counts, hc, hcl, -, hck, -⟩ := C57_bins (2 ^ k) (by positivity) hk63 (s.take n.toNat)
  unfold uniformTest uniformStats
  rw [Stream.length_take, hk, hbind, hc, hbind, hbind, mainSubTest]
  rw [chi2Stats_counts cdf counts (2 ^ k) (fun j => binHits s.nth n.toNat (2 ^ k) j) _ 0 hcl
    (by intro i hi; rw [hck i hi, countP_take]; rfl)
    (by
      intro i _
      refine lt_of_le_of_lt (List.countP_le_length) ?_
      rw [List.length_range]; exact n.isLt)]
  rw [hcl]
  push_cast
  rfl

/-- C79. For every stream of 8-, 16-, 32- or 64-bit words and every `n ≥ 1` the uniformity test does not fault.  Its one, unnamed
sub test is Pearson's test of the first `n` values in a number of bins which is a power of two, at least 2 and at least
`2 n^0.4` (or the number of words, for narrow words), each bin being expected to receive the same share.  The number of bins depends on
`n` and the word size only. -/
theorem C79_uniform (cdf : ℝ → ℝ → ℝ) (t : WT) (n : BitVec 64) (hn : n ≠ 0#64) :
    ∃ k, 1 ≤ k ∧ k ≤ t.bits ∧ (2 : ℝ) ^ k < 2 * (2 * (n.toNat : ℝ) ^ (4 / 10 : ℝ) + 1) ∧
      (2 * (n.toNat : ℝ) ^ (4 / 10 : ℝ) ≤ 2 ^ k ∨ k = t.bits) ∧
      ∀ s : Stream (BitVec t.bits), uniformTest cdf n s = .ok [⟨"", pearson cdf
        ((List.range (2 ^ k)).map fun j => ((binHits s.nth n.toNat (2 ^ k) j : ℝ), (n.toNat : ℝ) / 2 ^ k)) 0⟩] := by
  have hn0 : 0 < n.toNat := Nat.pos_of_ne_zero fun h => hn (BitVec.eq_of_toNat_eq (by simpa using h))
  obtain ⟨k, hk, hkt, hk1, hup, hlo⟩ := C57_bin_count t n.toNat hn0 n.isLt
  exact ⟨k, hk1, hkt, hup, hlo, uniform_eq cdf t n k hk hup⟩

/-- C79. An empty sample is undefined behaviour (the logarithm of zero is converted to an integer). -/
theorem C79_empty (cdf : ℝ → ℝ → ℝ) (s : Stream (BitVec w)) : uniformTest cdf 0#64 s = .error .badCast := by
  unfold uniformTest uniformStats
  rw [Stream.length_take]
  show (binCountPow2 w 0 >>= _) >>= _ = _
  rw [C57_bin_count_zero]; rfl

/-- C79. The result does not depend on the order of the values. -/
theorem C79_order (cdf : ℝ → ℝ → ℝ) (t : WT) (n : BitVec 64) (s s' : Stream (BitVec t.bits))
    (h : (s.take n.toNat).Perm (s'.take n.toNat)) : uniformTest cdf n s = uniformTest cdf n s' := by
  by_cases hn : n = 0#64
  · subst hn; rw [C79_empty, C79_empty]
  · have hn0 : 0 < n.toNat := Nat.pos_of_ne_zero fun h => hn (BitVec.eq_of_toNat_eq (by simpa using h))
    obtain ⟨k, hk, -, -, hup, -⟩ := C57_bin_count t n.toNat hn0 n.isLt
    rw [uniform_eq cdf t n k hk hup s, uniform_eq cdf t n k hk hup s']
    have : ∀ j, binHits s.nth n.toNat (2 ^ k) j = binHits s'.nth n.toNat (2 ^ k) j := by
      intro j
      unfold binHits
      have h1 := h.countP_eq (fun x => decide (Spec.bin (2 ^ k) x = j))
      rwa [countP_take, countP_take] at h1
    simp only [this]

theorem used_all (m : Nat) (o : Nat → ℝ) (e : ℝ) (he : 0 < e) :
    usedCells 0 ((List.range m).map fun j => (o j, e)) = (List.range m).map fun j => (o j, e) := by
  unfold usedCells
  rw [List.filter_eq_self]
  intro c hc
  obtain ⟨j, -, rfl⟩ := List.mem_map.1 hc
  simpa using he

theorem chiSquare_range (m : Nat) (o : Nat → ℝ) (e : ℝ) :
    chiSquare ((List.range m).map fun j => (o j, e)) = ∑ j ∈ range m, (o j - e) ^ 2 / e := by
  unfold chiSquare
  rw [List.map_map]
  induction m with
  | zero => simp
  | succ m ih => rw [List.range_succ, List.map_append, List.sum_append, ih, sum_range_succ]; simp

theorem binHits_sum (v : Nat → BitVec w) (n m : Nat) (hm : 0 < m) : ∑ j ∈ range m, binHits v n m j = n := by
  have hlt : ∀ x : BitVec w, Spec.bin m x < m := by
    intro x; unfold Spec.bin; omega
  have := sum_count_range m ((List.range n).map fun i => Spec.bin m (v i)) (by
    intro i hi
    obtain ⟨q, -, rfl⟩ := List.mem_map.1 hi
    exact hlt _)
  rw [List.length_map, List.length_range] at this
  refine Eq.trans ?_ this
  have h2 : ∀ j, binHits v n m j = ((List.range n).map fun i => Spec.bin m (v i)).count j := by
    intro j
    unfold binHits
    rw [List.count, List.countP_map]
    apply List.countP_congr
    intro i _
    simp
  rw [sum_congr rfl (fun j _ => h2 j)]
  generalize (List.range n).map (fun i => Spec.bin m (v i)) = l
  clear this h2 hlt hm
  induction m with
  | zero => simp
  | succ m ih => rw [sum_range_succ, ih, List.range_succ, List.map_append, List.sum_append]; simp

/-- C79. There is always a statistic; with `B` bins it is chi-square with `B - 1` degrees of freedom, lies between 0 and
`n (B - 1)`, is 0 exactly if all bins were hit equally often, and `n (B - 1)` exactly if all values fell in the same bin. -/
theorem C79_range (cdf : ℝ → ℝ → ℝ) (n B : Nat) (hn : 0 < n) (hB : 2 ≤ B) (v : Nat → BitVec w) :
    ∃ st, pearson cdf ((List.range B).map fun j => ((binHits v n B j : ℝ), (n : ℝ) / B)) 0 = some st ∧
      st.type = .chi2 ∧ st.df = B - 1 ∧ st.pValue = cdf st.value st.df ∧ 0 ≤ st.value ∧ st.value ≤ n * (B - 1) ∧
      (st.value = 0 ↔ ∀ j, j < B → (binHits v n B j : ℝ) = n / B) ∧
      (st.value = n * (B - 1) ↔ ∃ b, ∀ i, i < n → Spec.bin B (v i) = b) := by
  have hn' : (0 : ℝ) < n := by exact_mod_cast hn
  have hB' : (0 : ℝ) < B := by exact_mod_cast (by omega : 0 < B)
  have he : (0 : ℝ) < (n : ℝ) / B := by positivity
  have hu := used_all B (fun j => (binHits v n B j : ℝ)) ((n : ℝ) / B) he
  have hval := chiSquare_range B (fun j => (binHits v n B j : ℝ)) ((n : ℝ) / B)
  have hsum : ∑ j ∈ range B, (binHits v n B j : ℝ) = n := by
    exact_mod_cast binHits_sum v n B (by omega)
  -- the statistic in terms of the sum of squares
  have hsq : chiSquare ((List.range B).map fun j => ((binHits v n B j : ℝ), (n : ℝ) / B)) =
      (B : ℝ) / n * ∑ j ∈ range B, (binHits v n B j : ℝ) ^ 2 - n := by
    rw [hval]
    have : ∀ j, ((binHits v n B j : ℝ) - n / B) ^ 2 / (n / B) =
        (B : ℝ) / n * (binHits v n B j : ℝ) ^ 2 - 2 * (binHits v n B j : ℝ) + n / B := by
      intro j; field_simp; ring
    simp only [this, sum_add_distrib, sum_sub_distrib, ← mul_sum, hsum]
    simp only [sum_const, card_range, nsmul_eq_mul]
    field_simp
    ring
  have hle : ∀ j ∈ range B, (binHits v n B j : ℝ) ^ 2 ≤ n * (binHits v n B j : ℝ) := by
    intro j hj
    have h1 : (binHits v n B j : ℝ) ≤ n := by
      have : binHits v n B j ≤ n := by
        unfold binHits
        exact le_trans List.countP_le_length (by simp)
      exact_mod_cast this
    have h2 : (0 : ℝ) ≤ (binHits v n B j : ℝ) := Nat.cast_nonneg _
    nlinarith
  have hss : ∑ j ∈ range B, (binHits v n B j : ℝ) ^ 2 ≤ n * n := by
    refine (sum_le_sum hle).trans ?_
    rw [← mul_sum, hsum]
  have heq : (∑ j ∈ range B, (binHits v n B j : ℝ) ^ 2 = n * n) ↔ ∃ b, ∀ i, i < n → Spec.bin B (v i) = b := by
    constructor
    · intro h
      have h1 : ∑ j ∈ range B, (n * (binHits v n B j : ℝ) - (binHits v n B j : ℝ) ^ 2) = 0 := by
        rw [sum_sub_distrib, ← mul_sum, hsum, h, sub_self]
      rw [sum_eq_zero_iff_of_nonneg (fun j hj => sub_nonneg.2 (hle j hj))] at h1
      -- the bin of the first value holds all values
      refine ⟨Spec.bin B (v 0), fun i hi => ?_⟩
      have hb : Spec.bin B (v 0) < B := by unfold Spec.bin; omega
      have h2 := h1 _ (mem_range.2 hb)
      have hpos : 0 < binHits v n B (Spec.bin B (v 0)) := by
        unfold binHits
        rw [List.countP_pos_iff]
        exact ⟨0, List.mem_range.2 hn, by simp⟩
      have hpos' : (0 : ℝ) < (binHits v n B (Spec.bin B (v 0)) : ℝ) := by exact_mod_cast hpos
      have h3 : (binHits v n B (Spec.bin B (v 0)) : ℝ) = n := by
        have : (binHits v n B (Spec.bin B (v 0)) : ℝ) * (n - (binHits v n B (Spec.bin B (v 0)) : ℝ)) = 0 := by linarith
        rcases mul_eq_zero.1 this with h4 | h4
        · exact absurd h4 hpos'.ne'
        · linarith
      have h4 : binHits v n B (Spec.bin B (v 0)) = n := by exact_mod_cast h3
      unfold binHits at h4
      have h5 := List.countP_eq_length.1 (h4.trans (List.length_range (n := n)).symm)
      have := h5 i (List.mem_range.2 hi)
      simpa using this
    · rintro ⟨b, hb⟩
      have hbB : b < B := by
        rw [← hb 0 hn]; unfold Spec.bin; omega
      have h1 : binHits v n B b = n := by
        unfold binHits
        rw [List.countP_eq_length.2, List.length_range]
        intro i hi
        simpa using hb i (List.mem_range.1 hi)
      have h2 : ∀ j ∈ range B, j ≠ b → (binHits v n B j : ℝ) ^ 2 = 0 := by
        intro j _ hjb
        have : binHits v n B j = 0 := by
          unfold binHits
          rw [List.countP_eq_zero]
          intro i hi
          have := hb i (List.mem_range.1 hi)
          simp only [decide_eq_true_eq]
          omega
        rw [this]; simp
      rw [sum_eq_single b h2 (fun h => absurd (mem_range.2 hbB) h), h1]; ring
  unfold pearson
  rw [hu, List.length_map, List.length_range, if_neg (by omega)]
  refine ⟨_, rfl, rfl, rfl, rfl, ?_, ?_, ?_, ?_⟩ <;> dsimp only
  · rw [hval]; exact sum_nonneg fun j _ => div_nonneg (sq_nonneg _) he.le
  · rw [hsq]
    have : (B : ℝ) / n * ∑ j ∈ range B, (binHits v n B j : ℝ) ^ 2 ≤ B / n * (n * n) :=
      mul_le_mul_of_nonneg_left hss (by positivity)
    have h2 : (B : ℝ) / n * (n * n) = B * n := by field_simp
    linarith
  · rw [hval, sum_eq_zero_iff_of_nonneg (fun j _ => div_nonneg (sq_nonneg _) he.le)]
    constructor
    · intro h j hj
      have := h j (mem_range.2 hj)
      rcases div_eq_zero_iff.1 this with h1 | h1
      · have := pow_eq_zero_iff (n := 2) (by norm_num) |>.1 h1
        linarith
      · exact absurd h1 he.ne'
    · intro h j hj
      rw [h j (mem_range.1 hj)]; simp
  · rw [← heq, hsq]
    constructor
    · intro h
      have h1 : (B : ℝ) / n * ∑ j ∈ range B, (binHits v n B j : ℝ) ^ 2 = B * n := by linarith
      field_simp at h1
      rw [h1]; ring
    · intro h
      rw [h]; field_simp

private theorem countP_sum (l : List (BitVec w)) (q : Nat → Prop) [DecidablePred q] :
    l.countP (fun x => decide (q x.toNat)) = ∑ m ∈ range (2 ^ w), if q m then l.count (BitVec.ofNat w m) else 0 := by
  induction l with
  | nil => simp
  | cons x l ih =>
    rw [List.countP_cons, ih]
    have h1 : ∀ m ∈ range (2 ^ w), (if q m then (x :: l).count (BitVec.ofNat w m) else 0) =
        (if q m then l.count (BitVec.ofNat w m) else 0) + (if m = x.toNat then (if q m then 1 else 0) else 0) := by
      intro m hm
      have hm := mem_range.1 hm
      rw [List.count_cons]
      have : (x == BitVec.ofNat w m) = decide (m = x.toNat) := by
        rw [Bool.eq_iff_iff]
        simp only [beq_iff_eq, decide_eq_true_eq]
        constructor
        · intro h; rw [h, BitVec.toNat_ofNat, Nat.mod_eq_of_lt hm]
        · intro h; rw [h]; simp
      rw [this]
      by_cases hx : m = x.toNat
      · subst hx
        by_cases hq : q x.toNat <;> simp [hq]
      · simp [hx]
    rw [sum_congr rfl h1, sum_add_distrib, sum_ite_eq' (range (2 ^ w)) x.toNat, if_pos (mem_range.2 x.isLt)]
    simp

/-- C79. A source that yields every 8-, 16- or 32-bit word equally often in its first `n ≤ 2^45` values (such as a full period
of a bijective counter) gets the statistic zero. -/
theorem C79_equidistributed (cdf : ℝ → ℝ → ℝ) (t : WT) (ht : t ≠ .u64) (n : BitVec 64) (hn : n ≠ 0#64) (hmax : n.toNat ≤ 2 ^ 45)
    (s : Stream (BitVec t.bits)) (c : Nat) (h : ∀ x, (s.take n.toNat).count x = c) :
    ∃ st, uniformTest cdf n s = .ok [⟨"", some st⟩] ∧ st.value = 0 := by
  obtain ⟨k, hk1, hkt, hup, -, hu⟩ := C79_uniform cdf t n hn
  replace hu := hu s
  have hn0 : 0 < n.toNat := Nat.pos_of_ne_zero fun h => hn (BitVec.eq_of_toNat_eq (by simpa using h))
  have h2k : 2 ≤ 2 ^ k := by
    calc 2 = 2 ^ 1 := rfl
      _ ≤ _ := Nat.pow_le_pow_right (by norm_num) hk1
  obtain ⟨st, hst, -, -, -, -, -, h0, -⟩ := C79_range cdf n.toNat (2 ^ k) hn0 h2k s.nth
  push_cast at hst
  rw [hst] at hu
  refine ⟨st, hu, h0.2 ?_⟩
  have hk21 : k < 21 := by
    by_contra hk
    have h1 : (2 : ℝ) ^ 21 ≤ 2 ^ k := pow_le_pow_right₀ (by norm_num) (by omega)
    have h2 : (n.toNat : ℝ) ^ (4 / 10 : ℝ) ≤ 2 ^ 18 := by
      have h1 : (n.toNat : ℝ) ≤ 2 ^ (45 : ℝ) := by
        have : (n.toNat : ℝ) ≤ 2 ^ 45 := by exact_mod_cast hmax
        exact_mod_cast this
      have h2 : (n.toNat : ℝ) ^ (4 / 10 : ℝ) ≤ ((2 : ℝ) ^ (45 : ℝ)) ^ (4 / 10 : ℝ) :=
        Real.rpow_le_rpow (by positivity) h1 (by norm_num)
      rw [← Real.rpow_mul (by norm_num)] at h2
      have h3 : ((2 : ℝ) ^ ((45 : ℝ) * (4 / 10))) = 2 ^ 18 := by
        rw [← Real.rpow_natCast]; norm_num
      rwa [h3] at h2
    norm_num at h1 h2
    linarith
  have hb32 : t.bits ≤ 32 := by cases t <;> simp_all [WT.bits]
  have hb0 : 0 < t.bits := by cases t <;> simp [WT.bits]
  have hbin : ∀ x : BitVec t.bits, Spec.bin (2 ^ k) x = x.toNat >>> (t.bits - k) := by
    intro x
    have h1 := C75_top_bits k hkt hb0 (by omega) x
    rw [chi2BinIndex_eq _ (Nat.pow_le_pow_right (by norm_num) (by omega))] at h1
    injection h1
  -- every bin receives `c * 2^(w - k)` values
  have hhits : ∀ j, j < 2 ^ k → binHits s.nth n.toNat (2 ^ k) j = c * 2 ^ (t.bits - k) := by
    intro j hj
    have h1 : binHits s.nth n.toNat (2 ^ k) j = (s.take n.toNat).countP (fun x => decide (x.toNat >>> (t.bits - k) = j)) := by
      rw [countP_take]
      unfold binHits
      simp only [hbin]
    rw [h1, countP_sum (s.take n.toNat) (fun m => m >>> (t.bits - k) = j)]
    simp only [h]
    rw [← sum_filter, sum_const, smul_eq_mul, mul_comm]
    congr 1
    have hf : (range (2 ^ t.bits)).filter (fun m => m >>> (t.bits - k) = j) =
        Ico (j * 2 ^ (t.bits - k)) (j * 2 ^ (t.bits - k) + 2 ^ (t.bits - k)) := by
      ext m
      rw [mem_filter, mem_range, mem_Ico, Nat.shiftRight_eq_div_pow]
      have hp : 0 < 2 ^ (t.bits - k) := by positivity
      have hsplit : 2 ^ t.bits = 2 ^ k * 2 ^ (t.bits - k) := by rw [← pow_add]; congr 1; omega
      rw [Nat.div_eq_iff hp]
      constructor
      · rintro ⟨-, h1, h2⟩; omega
      · rintro ⟨h1, h2⟩
        have : (j + 1) * 2 ^ (t.bits - k) ≤ 2 ^ k * 2 ^ (t.bits - k) := Nat.mul_le_mul_right _ hj
        rw [Nat.add_mul] at this
        refine ⟨by omega, h1, by omega⟩
    rw [hf, Nat.card_Ico, Nat.add_sub_cancel_left]
  intro j hj
  have hsum := binHits_sum s.nth n.toNat (2 ^ k) (by positivity)
  rw [sum_congr rfl (fun j hj => hhits j (mem_range.1 hj)), sum_const, card_range, smul_eq_mul] at hsum
  rw [hhits j hj, ← hsum]
  push_cast
  field_simp

/-- C79, non-vacuity: the byte counter's full period of 256 values. -/
example (cdf : ℝ → ℝ → ℝ) : ∃ st, uniformTest cdf 256#64 (⟨BitVec 8, "c", 0#8, fun x => (x, x + 1#8)⟩ : Stream (BitVec 8)) =
    .ok [⟨"", some st⟩] ∧ st.value = 0 :=
  C79_equidistributed cdf .u8 (by decide) 256#64 (by decide) (by decide) _ 1 (by decide +kernel)

/-! ### C80 -/

private theorem blocks_le (l : List Bool) : blocks l ≤ l.length := by
  unfold blocks
  exact le_trans List.countP_le_length (by simp)

private theorem cutoff_eq (hw : 0 < w) : BitVec.ofNat w ((2 ^ w - 1) / 2) = BitVec.intMax w := by
  apply BitVec.eq_of_toNat_eq
  have h : 2 ^ w = 2 * 2 ^ (w - 1) := by
    obtain ⟨v, rfl⟩ : ∃ v, w = v + 1 := ⟨w - 1, by omega⟩
    rw [Nat.add_sub_cancel, pow_succ]; ring
  have hp : 0 < 2 ^ (w - 1) := by positivity
  rw [BitVec.toNat_ofNat, BitVec.toNat_intMax]
  rw [show (2 ^ w - 1) / 2 = 2 ^ (w - 1) - 1 by omega, Nat.mod_eq_of_lt]
  omega

/-- The two sides of the cutoff are not degenerate exactly if the variance is not near zero. -/
private theorem runs_var (a b : Nat) :
    (isNearR ((a : ℝ) + b) 0 = true ∨
      isNearR ((2 * (a : ℝ) * b / (a + b) + 1 - 1) * (2 * (a : ℝ) * b / (a + b) + 1 - 2)) 0 = true) ↔
      (a = 0 ∨ b = 0 ∨ (a = 1 ∧ b = 1)) := by
  constructor
  · intro h
    by_contra hc
    push Not at hc
    obtain ⟨ha, hb, hab⟩ := hc
    have ha1 : (1 : ℝ) ≤ a := by exact_mod_cast Nat.pos_of_ne_zero ha
    have hb1 : (1 : ℝ) ≤ b := by exact_mod_cast Nat.pos_of_ne_zero hb
    rcases h with h | h
    · rw [isNearR_iff, sub_zero, abs_of_nonneg (by positivity)] at h
      norm_num at h
      linarith
    · have h4 : 4 / 3 ≤ 2 * (a : ℝ) * b / (a + b) := by
        rw [div_le_div_iff₀ (by norm_num) (by positivity)]
        have h3 : 2 ≤ a ∨ 2 ≤ b := by
          by_contra hh
          push Not at hh
          exact hab (by omega) (by omega)
        rcases h3 with h3 | h3
        · have : (2 : ℝ) ≤ a := by exact_mod_cast h3
          nlinarith [mul_nonneg (sub_nonneg.2 this) (sub_nonneg.2 hb1)]
        · have : (2 : ℝ) ≤ b := by exact_mod_cast h3
          nlinarith [mul_nonneg (sub_nonneg.2 this) (sub_nonneg.2 ha1)]
      rw [isNearR_iff, sub_zero] at h
      generalize 2 * (a : ℝ) * b / (a + b) = q at h h4
      have h5 := (le_abs_self _).trans h
      norm_num at h5
      nlinarith
  · rintro (rfl | rfl | ⟨rfl, rfl⟩)
    · right; rw [isNearR_iff]; simp
    · right; rw [isNearR_iff]; simp
    · right; rw [isNearR_iff]; norm_num

private theorem runs_stats (R A B : BitVec 64) :
    runsStats ⟨R, A, B⟩ = if A.toNat = 0 ∨ B.toNat = 0 ∨ (A.toNat = 1 ∧ B.toNat = 1) then none
        else
          let μ : ℝ := 2 * A.toNat * B.toNat / (A.toNat + B.toNat) + 1
          let z : ℝ := (R.toNat - μ) / Real.sqrt ((μ - 1) * (μ - 2) / (A.toNat + B.toNat))
          some ⟨.zScore, z, (gaussianReal 0 1).real {x | |z| ≤ |x|}, (A.toNat : ℝ) + B.toNat⟩ := by
  have hv := runs_var A.toNat B.toNat
  unfold runsStats zTest
  dsimp only
  by_cases hc : A.toNat = 0 ∨ B.toNat = 0 ∨ (A.toNat = 1 ∧ B.toNat = 1)
  · rw [if_pos hc]
    rcases hv.2 hc with h | h
    · rw [if_pos h]
    · rw [if_pos h]; split <;> rfl
  · rw [if_neg hc]
    have h1 := fun h => hc (hv.1 (Or.inl h))
    have h2 := fun h => hc (hv.1 (Or.inr h))
    rw [if_neg h1, if_neg h2, if_neg h1, C76_two_tailed]

/-- C80. For every stream the runs test reports one unnamed sub test.  The cutoff is `2^(w-1) - 1`: `a` is the number of values
among the first `n` with top bit one, `b` the number of those below the cutoff, and values equal to the cutoff are skipped.
There is no result exactly if `a = 0`, `b = 0` or `a = b = 1`.  Otherwise the result is the z-score of the number of runs `r`
with mean `μ = 2ab/(a+b) + 1` and variance `(μ-1)(μ-2)/(a+b)`, and its two-tailed normal probability. -/
theorem C80_runs (hw : 0 < w) (n : BitVec 64) (s : Stream (BitVec w)) :
    ∃ a b r : Nat,
      a = (s.take n.toNat).countP (fun v => v.msb) ∧
      b = (s.take n.toNat).countP (fun v => decide (v.toNat < 2 ^ (w - 1) - 1)) ∧
      (n ≠ 0#64 → r = blocks (signs (s.take n.toNat) (BitVec.intMax w)) +
        if signs (s.take n.toNat) (BitVec.intMax w) = [] ∨
          (s.nth 0 = BitVec.intMax w ∧ (signs (s.take n.toNat) (BitVec.intMax w)).head? = some true) then 1 else 0) ∧
      runsTest n s = .ok [⟨"", if a = 0 ∨ b = 0 ∨ (a = 1 ∧ b = 1) then none
        else
          let μ : ℝ := 2 * a * b / (a + b) + 1
          let z : ℝ := (r - μ) / Real.sqrt ((μ - 1) * (μ - 2) / (a + b))
          some ⟨.zScore, z, (gaussianReal 0 1).real {x | |z| ≤ |x|}, (a : ℝ) + b⟩⟩] := by
  have hbits : 2 ^ w = 2 * 2 ^ (w - 1) := by
    obtain ⟨v, rfl⟩ : ∃ v, w = v + 1 := ⟨w - 1, by omega⟩
    rw [Nat.add_sub_cancel, pow_succ]; ring
  have hp : 0 < 2 ^ (w - 1) := by positivity
  have hgt : ∀ v : BitVec w, decide (BitVec.intMax w < v) = v.msb := by
    intro v
    rw [BitVec.msb_eq_decide]
    apply decide_eq_decide.2
    rw [BitVec.lt_def, BitVec.toNat_intMax]
    omega
  have hlt : ∀ v : BitVec w, decide (v < BitVec.intMax w) = decide (v.toNat < 2 ^ (w - 1) - 1) := by
    intro v
    apply decide_eq_decide.2
    rw [BitVec.lt_def, BitVec.toNat_intMax]
  have hle : (s.take n.toNat).length < 2 ^ 64 := by rw [Stream.length_take]; exact n.isLt
  unfold runsTest mainSubTest
  rw [cutoff_eq hw]
  cases hl : s.take n.toNat with
  | nil =>
    refine ⟨0, 0, 0, rfl, rfl, ?_, ?_⟩
    · intro hn
      exfalso
      have := congrArg List.length hl
      rw [Stream.length_take, List.length_nil] at this
      exact hn (BitVec.eq_of_toNat_eq (by simpa using this))
    · rw [C49_empty, runs_stats]; simp
  | cons first rest =>
    have hfirst : s.nth 0 = first := by
      have h0 : n.toNat ≠ 0 := by
        intro h0
        have := congrArg List.length hl
        rw [Stream.length_take, h0] at this
        simp at this
      have h1 : (s.take n.toNat)[0]? = some first := by rw [hl]; rfl
      rw [Stream.take_eq_map, List.getElem?_map, List.getElem?_range (Nat.pos_of_ne_zero h0)] at h1
      exact Option.some.inj h1
    rw [hl] at hle
    rw [C49_runs, runs_stats]
    have hA : (first :: rest).countP (fun v => decide (BitVec.intMax w < v)) = (first :: rest).countP (fun v => v.msb) := by
      simp only [hgt]
    have hB : (first :: rest).countP (fun v => decide (v < BitVec.intMax w)) =
        (first :: rest).countP (fun v => decide (v.toNat < 2 ^ (w - 1) - 1)) := by
      simp only [hlt]
    rw [hA, hB, hfirst]
    have hmod : ∀ p : BitVec w → Bool, (first :: rest).countP p % 2 ^ 64 = (first :: rest).countP p :=
      fun p => Nat.mod_eq_of_lt (lt_of_le_of_lt List.countP_le_length hle)
    have hr : (blocks (signs (first :: rest) (BitVec.intMax w)) +
          (if signs (first :: rest) (BitVec.intMax w) = [] ∨ (first = BitVec.intMax w ∧
            (signs (first :: rest) (BitVec.intMax w)).head? = some true) then 1 else 0)) < 2 ^ 64 := by
      have hb := blocks_le (signs (first :: rest) (BitVec.intMax w))
      have hs : (signs (first :: rest) (BitVec.intMax w)).length ≤ (first :: rest).length := by
        unfold signs; rw [List.length_map]; exact List.length_filter_le _ _
      split
      · rename_i h
        rcases h with h | h
        · rw [h] at hb ⊢
          simp at hb
          rw [hb]; norm_num
        · have : (signs (first :: rest) (BitVec.intMax w)).length ≤ rest.length := by
            unfold signs
            rw [List.length_map, List.filter_cons_of_neg (by simp [h.1])]
            exact List.length_filter_le _ _
          rw [List.length_cons] at hle
          omega
      · omega
    simp only [BitVec.toNat_ofNat, hmod, Nat.mod_eq_of_lt hr]
    exact ⟨_, _, _, rfl, rfl, fun _ => rfl, rfl⟩

/-- C80, non-vacuity: the bytes 200, 3, 250, 7 have four runs of one value on each side: z-score 1/√(1/2). -/
example : runsTest 4#64 (⟨Nat, "c", 0, fun i => ([200#8, 3#8, 250#8, 7#8].getD i 0#8, i + 1)⟩ : Stream (BitVec 8)) =
    .ok [⟨"", some ⟨.zScore, 1 / Real.sqrt (1 / 2), (gaussianReal 0 1).real {x | |1 / Real.sqrt (1 / 2)| ≤ |x|}, 4⟩⟩] := by
  obtain ⟨a, b, r, ha, hb, hr, h⟩ := C80_runs (w := 8) (by norm_num) 4#64
    (⟨Nat, "c", 0, fun i => ([200#8, 3#8, 250#8, 7#8].getD i 0#8, i + 1)⟩ : Stream (BitVec 8))
  have ha : a = 2 := ha.trans (by decide +kernel)
  have hb : b = 2 := hb.trans (by decide +kernel)
  have hr : r = 4 := (hr (by decide)).trans (by decide +kernel)
  subst ha hb hr
  rw [h]
  norm_num

end TFR
