import Verif.Props.SelfCheckRuns
import Verif.Props.PowerLinear
import Verif.Props.PowerRank
import Verif.Props.SelfCheckDraws
/-
C129. What the self-check of `-inspect-test` prints about the binary rank test and the linear complexity test.
-/
namespace TFR
open Finset Spec
variable {w : Nat}

theorem counter_recurrence (j : Nat) (c : Bool) : LinearRecurrence (fun i => (i + 1).testBit j != c) (2 ^ j + 1) := by
  rw [linearRecurrence_iff]
  refine ⟨fun x => (if x = 0 then 1 else 0) + (if x = 1 then 1 else 0) + (if x = 2 ^ j then 1 else 0), fun i => ?_⟩
  have hp : 0 < 2 ^ j := by positivity
  simp only [add_mul, sum_add_distrib, ite_mul, one_mul, zero_mul, Finset.sum_ite_eq', mem_range]
  rw [if_pos (by omega), if_pos (by omega), if_pos (by omega)]
  have h1 : (i + (2 ^ j + 1) + 1).testBit j = !(i + 1 + 1).testBit j := by
    rw [show i + (2 ^ j + 1) + 1 = 2 ^ j + (i + 1 + 1) by ring, Nat.testBit_two_pow_add_eq]
  have h2 : (i + 2 ^ j + 1).testBit j = !(i + 1).testBit j := by
    rw [show i + 2 ^ j + 1 = 2 ^ j + (i + 1) by ring, Nat.testBit_two_pow_add_eq]
  rw [h1, h2, add_zero]
  generalize (i + 1 + 1).testBit j = a
  generalize (i + 1).testBit j = b
  cases a <;> cases b <;> cases c <;> decide

theorem constant_recurrence (b : Bool) : LinearRecurrence (fun _ => b) 1 := by
  rw [linearRecurrence_iff]
  exact ⟨fun _ => 1, fun i => by simp⟩

/-- The matrices of a bit of the counter are singular. -/
theorem counter_matrix (s : Stream (BitVec w)) (j : Nat) (c : Bool) (h : ∀ i, (s.nth i).getLsbD 0 = ((i + 1).testBit j != c)) (κ k : Nat) (hκ : 2 ≤ κ) :
    (bitMatrix s.nth 0 (2 ^ κ) k).rank ≠ 2 ^ κ := by
  have h4 : 2 ^ 2 ≤ 2 ^ κ := Nat.pow_le_pow_right (by norm_num) hκ
  by_cases hj : j < κ
  · refine recurrence_kernel s (2 ^ j + 1) _ k ?_ ?_
    · have : 2 ^ j ≤ 2 ^ (κ - 1) := Nat.pow_le_pow_right (by norm_num) (by omega)
      have : 2 ^ κ = 2 * 2 ^ (κ - 1) := by rw [← pow_succ']; congr 1; omega
      omega
    · have := counter_recurrence j c
      rwa [← funext h] at this
  · have hd : 2 ^ κ ∣ 2 ^ j := pow_dvd_pow 2 (by omega)
    generalize 2 ^ κ = m at h4 hd
    refine rank_ne_of_kernel _ (fun x => (if x = ⟨0, by omega⟩ then 1 else 0) + if x = ⟨1, by omega⟩ then 1 else 0) ?_ ?_
    · intro h0
      have := congrFun h0 ⟨0, by omega⟩
      simp at this
    · funext i
      rw [Matrix.mulVec, dotProduct]
      simp only [mul_add, sum_add_distrib, mul_ite, mul_one, mul_zero, Finset.sum_ite_eq', mem_univ, if_true]
      unfold bitMatrix
      dsimp only
      rw [h, h, add_zero]
      have e : (k * (m * m) + (i.val * m + 1) + 1).testBit j = (k * (m * m) + i.val * m + 1).testBit j := by
        by_contra hne
        rw [show k * (m * m) + (i.val * m + 1) + 1 = (k * (m * m) + i.val * m + 1) + 1 by ring] at hne
        have h1 := hd.trans ((testBit_succ_ne _ j).1 hne)
        have h2 : m ∣ 2 := (Nat.dvd_add_right (Dvd.dvd.add (Dvd.intro_left _ (mul_assoc k m m)) (Dvd.intro_left _ rfl))).1
          (by rwa [show k * (m * m) + i.val * m + 1 + 1 = k * (m * m) + i.val * m + 2 by ring] at h1)
        have := Nat.le_of_dvd (by norm_num) h2
        omega
      rw [e]
      have h2 : ∀ a : F2, a + a = 0 := by decide
      exact h2 _

theorem share_half (b : Nat) (hb63 : b < 2 ^ 63) (hb : 1 ≤ b) : (1 / 2 : ℝ) ≤ complexityShare b ((b + 1) / 2) := by
  unfold complexityShare
  rw [← C55_lfsr_probability b _ hb63 (by omega), lfsrLog2Probability_closed b _ hb63 (by omega), if_neg (by omega)]
  have : (1 / 2 : ℝ) = (2 : ℝ) ^ (-1 : ℤ) := by norm_num
  rw [this]
  split
  · exact zpow_le_zpow_right₀ (by norm_num) (by omega)
  · exact zpow_le_zpow_right₀ (by norm_num) (by omega)

/-- Blocks of a sequence that follows a high bit of the counter are mostly constant. -/
theorem constant_blocks (s : Stream (BitVec w)) (j : Nat) (c : Bool) (h : ∀ i, (s.nth i).getLsbD 0 = ((i + 1).testBit j != c)) (b N M : Nat)
    (hM : N * b < (M + 1) * 2 ^ j) (l : Nat) (hl : 2 ≤ l) :
    ((List.range N).countP fun k => @decide (IsLinearComplexity (bitBlock s.nth 0 b k) l) (Classical.propDecidable _)) ≤ M := by
  classical
  rw [countP_range]
  have hp : 0 < 2 ^ j := by positivity
  -- the change in a block
  have hchange : ∀ k, IsLinearComplexity (bitBlock s.nth 0 b k) l → ∃ m, 1 ≤ m ∧ k * b < m * 2 ^ j ∧ m * 2 ^ j < (k + 1) * b + 1 ∧ k * b + 1 < m * 2 ^ j := by
    intro k hk
    by_contra hno
    push Not at hno
    have hconst : ∀ i < b, ((k * b + i + 1).testBit j != c) = ((k * b + 1).testBit j != c) := by
      intro i
      induction i with
      | zero => intro _; rfl
      | succ i ih =>
        intro hi
        rw [← ih (by omega)]
        by_contra hne
        have hne2 : (k * b + (i + 1) + 1).testBit j ≠ (k * b + i + 1).testBit j := fun e => hne (by rw [e])
        rw [show k * b + (i + 1) + 1 = (k * b + i + 1) + 1 by ring] at hne2
        obtain ⟨m, hm⟩ := (testBit_succ_ne _ j).1 hne2
        have e : (k + 1) * b = k * b + b := by ring
        have := hno m (by
          rcases Nat.eq_zero_or_pos m with h0 | h0
          · rw [h0] at hm; omega
          · exact h0) (by rw [mul_comm m]; omega) (by rw [mul_comm m]; omega)
        rw [mul_comm m] at this
        omega
    have hgen := segment_generated (fun _ => ((k * b + 1).testBit j != c)) 1 (constant_recurrence _) 0 b
    have e : bitBlock s.nth 0 b k = (List.range b).map fun i => ((k * b + 1).testBit j != c) := by
      unfold bitBlock
      apply List.map_congr_left
      intro i hi
      rw [h, hconst i (List.mem_range.1 hi)]
    rw [← e] at hgen
    have := hk.2 1 hgen
    omega
  choose! f hf using hchange
  have hcard : #(Finset.Icc 1 M) = M := by simp
  rw [← hcard]
  apply Finset.card_le_card_of_injOn f
  · intro k hk
    simp only [coe_filter, mem_range, Set.mem_ofPred_eq] at hk
    obtain ⟨h1, h2, h3, -⟩ := hf k (of_decide_eq_true hk.2)
    simp only [coe_Icc, Set.mem_Icc]
    refine ⟨h1, ?_⟩
    by_contra hcon
    have h4 : (M + 1) * 2 ^ j ≤ f k * 2 ^ j := Nat.mul_le_mul_right _ (by omega)
    have h5 : (k + 1) * b ≤ N * b := Nat.mul_le_mul_right _ hk.1
    omega
  · intro a ha b' hb' hab
    simp only [coe_filter, mem_range, Set.mem_ofPred_eq] at ha hb'
    obtain ⟨-, h2, h3, h4⟩ := hf a (of_decide_eq_true ha.2)
    obtain ⟨-, g2, g3, g4⟩ := hf b' (of_decide_eq_true hb'.2)
    have hab : f a = f b' := hab
    rw [hab] at h2 h3 h4
    rcases Nat.lt_trichotomy a b' with hlt | heq | hlt
    · have : (a + 1) * b ≤ b' * b := Nat.mul_le_mul_right _ hlt
      omega
    · exact heq
    · have : (b' + 1) * b ≤ a * b := Nat.mul_le_mul_right _ hlt
      omega

theorem slower_upper (n' : BitVec 64) (h : (getTestDefinition .linearComplexity).limiter.limit (BitVec.ofNat 64 (2 ^ 19)) = some n') : n'.toNat ≤ 2 ^ 14 := by
  have hc := (C40_catalogue .linearComplexity (BitVec.ofNat 64 (2 ^ 19))).1
  rw [h, show (BitVec.ofNat 64 (2 ^ 19)).toNat = 2 ^ 19 from rfl] at hc
  have hup : ((2 ^ 19 : ℕ) : ℝ) ^ expSlower ≤ 2 ^ 14 := by
    have h1 : ((2 ^ 19 : ℕ) : ℝ) ^ expSlower ≤ ((2 ^ 19 : ℕ) : ℝ) ^ (14 / 19 : ℝ) :=
      Real.rpow_le_rpow_of_exponent_le (by norm_num) (by unfold expSlower; norm_num)
    refine h1.trans (le_of_eq ?_)
    have e : ((2 ^ 19 : ℕ) : ℝ) = (2 : ℝ) ^ (19 : ℝ) := by
      rw [show (19 : ℝ) = ((19 : ℕ) : ℝ) by norm_num, Real.rpow_natCast]; norm_num
    rw [e, ← Real.rpow_mul (by norm_num), show (19 : ℝ) * (14 / 19) = ((14 : ℕ) : ℝ) by norm_num, Real.rpow_natCast]
  have hfl : ⌊((2 ^ 19 : ℕ) : ℝ) ^ expSlower⌋₊ ≤ 2 ^ 14 := by
    have := Nat.floor_le_floor hup
    refine this.trans (le_of_eq ?_)
    rw [show (2 : ℝ) ^ 14 = ((2 ^ 14 : ℕ) : ℝ) by norm_num, Nat.floor_natCast]
  have hb : some n'.toNat = if 1024 ≤ ⌊((2 ^ 19 : ℕ) : ℝ) ^ expSlower⌋₊ then some ⌊((2 ^ 19 : ℕ) : ℝ) ^ expSlower⌋₊ else none := hc
  split at hb
  · rw [Option.some.inj hb]; exact hfl
  · cases hb

/-- The linear complexity test of few values rejects a high bit of the counter. -/
theorem linear_far (hw : 0 < w) (n : BitVec 64) (h1 : 8192 ≤ n.toNat) (h2 : n.toNat ≤ 2 ^ 14) (s : Stream (BitVec w)) (j : Nat) (hj : 7 ≤ j) (c : Bool)
    (h : ∀ i, (s.nth i).getLsbD 0 = ((i + 1).testBit j != c)) :
    ∃ st, linearComplexityTest chi2DistributionCdf n s = .ok [⟨toString (n.toNat / 1024) ++ ":bit(0)", some st⟩] ∧ st.pValue ≤ 1 / 10 ^ 9 := by
  obtain ⟨st, h3, h4⟩ := (C87_linear_complexity chi2DistributionCdf hw n s).2 h1
  refine ⟨st, h3, ?_⟩
  set b := n.toNat / 1024 with hb
  have hb8 : 8 ≤ b := by omega
  have hb16 : b ≤ 16 := by omega
  have hN1 : 1024 ≤ n.toNat / b := by
    rw [Nat.le_div_iff_mul_le (by omega)]; omega
  have hN1' : (1024 : ℝ) ≤ ((n.toNat / b : ℕ) : ℝ) := by exact_mod_cast hN1
  have hshare := share_half b (by omega) (by omega)
  have hM := constant_blocks s j c h b (n.toNat / b) 128 (by
    have : n.toNat / b * b ≤ n.toNat := Nat.div_mul_le_self _ _
    have : 2 ^ 7 ≤ 2 ^ j := Nat.pow_le_pow_right (by norm_num) hj
    omega) ((b + 1) / 2) (by omega)
  have hE : (512 : ℝ) ≤ complexityShare b ((b + 1) / 2) * ((n.toNat / b : ℕ) : ℝ) := by nlinarith
  refine (reject_of_cell _ 5 (by norm_num) ?_ st h4 _ (List.mem_map.2 ⟨(b + 1) / 2, List.mem_range.2 (by omega), rfl⟩) (by dsimp only; linarith) 128
    (by dsimp only; exact_mod_cast hM) ?_ ?_).1
  · unfold complexityCells
    rw [List.length_map, List.length_range]; omega
  · dsimp only; linarith
  · dsimp only
    generalize complexityShare b ((b + 1) / 2) * ((n.toNat / b : ℕ) : ℝ) = E at hE
    nlinarith

/-- C129. The self-check prints `PASS` for the binary rank test and for the linear complexity test. -/
theorem C129_self_check_linear (t : WT) (hw : BitVec 32) (analyse : Battery ℝ → List ResultAnalysis) (ha : Analyses analyse)
    (eval : TestRow → Stream (BitVec t.bits) → BitVec 64 → Battery ℝ) (h : SelfCheckRuns t hw eval) (sources : List (Stream (BitVec t.bits)))
    (hs : createFailSources t = .ok sources) (lines : List InspectLine) (hl : inspectTests t analyse eval sources false = .ok lines) :
    lines.filter (fun l => decide (lineTest l = "binary-rank")) = [.pass "binary-rank"] ∧
    lines.filter (fun l => decide (lineTest l = "linear-complexity")) = [.pass "linear-complexity"] := by
  have hth := defaultMaxThreads_pos hw
  have hw8 : 8 ≤ t.bits := by cases t <;> decide
  have hw64 : t.bits ≤ 64 := by cases t <;> decide
  -- the lowest bits of the sources
  have hlow : ∀ s ∈ createRrcSources t sources, (∃ j c, ∀ i, ((mixerStream s ⟨"identity", fun x => x⟩).nth i).getLsbD 0 = ((i + 1).testBit j != c)) ∨
      ∃ c, ∀ i, ((mixerStream s ⟨"identity", fun x => x⟩).nth i).getLsbD 0 = c := by
    intro s hmem
    obtain ⟨ty, rot, hrot, rfl | ⟨c, rfl⟩⟩ := fail_source_cases t sources hs s hmem
    · exact Or.inl ⟨_, _, fun i => view_bit t ty rot 0 i (by omega)⟩
    · exact Or.inr ⟨_, fun i => by rw [view_constant]⟩
  constructor
  · refine pass_of_none t hw analyse ha eval h sources lines hl ⟨.binaryRank, true, false, .slower, "binary-rank"⟩ (by decide) fun s hmem =>
      not_accepted _ 25 (by norm_num) le_rfl ?_
    rw [if_neg (by decide)] at hmem
    obtain ⟨n', h1, h2, h3⟩ := rank_budget 25 (by norm_num) 200000 (by norm_num) (by norm_num)
    have hov : n'.toNat * t.bits < 2 ^ 64 := by
      calc n'.toNat * t.bits ≤ 2 ^ 25 * 64 := Nat.mul_le_mul h3 hw64
        _ < 2 ^ 64 := by norm_num
    obtain ⟨κ, hκ1, hN, hmax, hr⟩ := C86_binary_rank chi2DistributionCdf hw8 hw64 n' (by omega) hov
    obtain ⟨st₁, st₂, g1, -, g3⟩ := hr (mixerStream s ⟨"identity", fun x => x⟩)
    have hκ : 3 ≤ κ := hmax 3 (by
      have : 200000 * 8 ≤ n'.toNat * t.bits := Nat.mul_le_mul h2 hw8
      omega)
    have hrej := rank_rejects (2 ^ κ) _ Nat.one_le_two_pow hN _ (fun k _ => ?_) st₂ g3
    · refine battery_rejects chi2DistributionCdf .binaryRank _ (inspectSetup (defaultMaxThreads hw) ⟨.binaryRank, true, false, .slower, "binary-rank"⟩ s)
        (by show 0 < defaultMaxThreads hw; omega) _ (h _ s 25 (by norm_num) le_rfl) List.mem_cons_self s List.mem_cons_self _ rfl
        [⟨toString (2 ^ κ), some st₁⟩, ⟨toString (2 ^ κ) ++ ":bit(0)", some st₂⟩] ?_ _ st₂ (List.mem_cons_of_mem _ List.mem_cons_self) hrej.1
      dsimp only
      rw [h1]
      exact congrArg some g1
    · rcases hlow s hmem with ⟨j, c, hj⟩ | ⟨c, hc⟩
      · exact counter_matrix _ j c hj κ k (by omega)
      · refine recurrence_kernel _ 1 _ k ?_ ?_
        · calc 1 < 2 ^ 3 := by norm_num
            _ ≤ 2 ^ κ := Nat.pow_le_pow_right (by norm_num) hκ
        · rw [funext hc]
          exact constant_recurrence c
  · refine pass_of_none t hw analyse ha eval h sources lines hl ⟨.linearComplexity, true, false, .slower, "linear-complexity"⟩ (by decide) fun s hmem => ?_
    rw [if_neg (by decide)] at hmem
    have hrec : ∀ L, L ≤ 65 → LinearRecurrence (fun i => ((mixerStream s ⟨"identity", fun x => x⟩).nth i).getLsbD 0) L →
        ¬ Accepted fun k => eval ⟨.linearComplexity, true, false, .slower, "linear-complexity"⟩ s (BitVec.ofNat 64 (2 ^ k)) := by
      intro L hL hr
      refine not_accepted _ 25 (by norm_num) le_rfl ?_
      refine C108_battery (by omega) 25 (by norm_num) L ?_ (inspectSetup (defaultMaxThreads hw) ⟨.linearComplexity, true, false, .slower, "linear-complexity"⟩ s)
        (by show 0 < defaultMaxThreads hw; omega) _ (h _ s 25 (by norm_num) le_rfl) List.mem_cons_self s List.mem_cons_self hr
      calc (1024 * (2 * L + 8)) ^ 7 ≤ (1024 * (2 * 65 + 8)) ^ 7 := Nat.pow_le_pow_left (by omega) 7
        _ ≤ 2 ^ (5 * 25) := by norm_num
    rcases hlow s hmem with ⟨j, c, hj⟩ | ⟨c, hc⟩
    · by_cases hj6 : j ≤ 6
      · refine hrec (2 ^ j + 1) ?_ ?_
        · have : 2 ^ j ≤ 2 ^ 6 := Nat.pow_le_pow_right (by norm_num) hj6
          omega
        · rw [funext hj]
          exact counter_recurrence j c
      · refine not_accepted _ 19 (by norm_num) (by norm_num) ?_
        obtain ⟨n', h1, h2⟩ := slower_budget 19 (by norm_num) 8192 (by norm_num) (by norm_num)
        obtain ⟨st, g1, g2⟩ := linear_far (by omega) n' h2 (slower_upper n' h1) _ j (by omega) c hj
        refine battery_rejects chi2DistributionCdf .linearComplexity _
          (inspectSetup (defaultMaxThreads hw) ⟨.linearComplexity, true, false, .slower, "linear-complexity"⟩ s)
          (by show 0 < defaultMaxThreads hw; omega) _ (h _ s 19 (by norm_num) (by norm_num)) List.mem_cons_self s List.mem_cons_self _ rfl
          [⟨toString (n'.toNat / 1024) ++ ":bit(0)", some st⟩] ?_ _ st List.mem_cons_self g2
        dsimp only
        rw [h1]
        exact congrArg some g1
    · refine hrec 1 (by norm_num) ?_
      rw [funext hc]
      exact constant_recurrence c

-- C129, non-vacuity: the sources exist for every size, and so do runs of the self-check on them.
example (t : WT) (hw : BitVec 32) (analyse : Battery ℝ → List ResultAnalysis) (ha : Analyses analyse) :
    ∃ sources eval lines, createFailSources t = .ok sources ∧ SelfCheckRuns t hw eval ∧ inspectTests t analyse eval sources false = .ok lines := by
  obtain ⟨c, s0, s1, s2, s3, hs, -⟩ := C97_fail_sources t
  choose f hf using fun (test : TestRow) (s : Stream (BitVec t.bits)) n =>
    C35_terminates (suiteDef chi2DistributionCdf) n (inspectSetup (defaultMaxThreads hw) test s)
  exact ⟨_, f, _, hs, fun test s k _ _ => hf test s _, (C97_inspect chi2DistributionCdf t hw analyse ha f (fun test s k _ _ => hf test s _) _).1⟩

end TFR
