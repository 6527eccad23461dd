import Verif.Lemmas.Mills
import Verif.Props.PowerBic
/-
C111: streams whose most significant bit changes too often or too seldom are rejected; subjects that fail with 2^10 values.
-/
namespace TFR
open Spec Finset ProbabilityTheory
variable {w : Nat}

/-! ### The runs test -/

/-- How often the most significant bit changes from one of the first `n` values to the next. -/
def Spec.topChanges (v : Nat → BitVec w) (n : Nat) : Nat := (List.range (n - 1)).countP fun i => (v (i + 1)).msb != (v i).msb

theorem blocks_map (v : Nat → Bool) (n : Nat) : blocks ((List.range (n + 1)).map v) = 1 + (List.range n).countP fun i => v (i + 1) != v i := by
  unfold blocks
  rw [List.length_map, List.length_range, List.range_succ_eq_map, List.countP_cons, List.countP_map]
  simp only [decide_true, Bool.true_or, if_true]
  rw [add_comm]
  congr 1
  apply List.countP_congr
  intro i hi
  have hi := List.mem_range.1 hi
  have e1 : ((0 :: List.map Nat.succ (List.range n)).map v)[i + 1]? = some (v (i + 1)) := by
    rw [← List.range_succ_eq_map]
    simp [hi]
  have e2 : ((0 :: List.map Nat.succ (List.range n)).map v)[i]? = some (v i) := by
    rw [← List.range_succ_eq_map]
    simp [show i < n + 1 by omega]
  simp only [Function.comp, Nat.succ_eq_add_one, Nat.add_sub_cancel, e1, e2]
  simp

theorem statPass_of_le (st : Statistic ℝ) (h : st.pValue ≤ 1 / 10 ^ 9) : statPass st = false := by
  have h1 : comparableP st ≤ 1 / 10 ^ 9 := (comparableP_le st).trans h
  rw [← Bool.not_eq_true, (C66_classes _ (h1.trans (by norm_num))).1, not_lt]
  exact h1

/-- C111. If none of the first `n` values is `2^(w-1)-1` (which the test skips), `a` of them have the top bit set and `b > 0` not, and the
number of changes of the top bit is off its mean `2ab/n` by at least 6.2 standard deviations, the runs test rejects. -/
theorem C111_runs (hw : 0 < w) (n : BitVec 64) (hn3 : 3 ≤ n.toNat) (s : Stream (BitVec w)) (hskip : ∀ i < n.toNat, s.nth i ≠ BitVec.intMax w)
    (a b : Nat) (ha : a = topBits s.nth n.toNat) (hab : a + b = n.toNat) (ha0 : 0 < a) (hb0 : 0 < b)
    (h : 6.2 ^ 2 * (2 * a * b * (2 * a * b - n.toNat) / (n.toNat : ℝ) ^ 3) ≤ ((topChanges s.nth n.toNat : ℝ) - 2 * a * b / n.toNat) ^ 2) :
    ∃ st, runsTest n s = .ok [⟨"", some st⟩] ∧ st.pValue ≤ 1 / 10 ^ 9 ∧ statPass st = false := by
  have hn0 : n ≠ 0#64 := by rintro rfl; simp at hn3
  obtain ⟨a', b', r, ha', hb', hr, hrun⟩ := C80_runs hw n s
  have hbits : 2 ^ w = 2 * 2 ^ (w - 1) := by
    obtain ⟨v, rfl⟩ : ∃ v, w = v + 1 := ⟨w - 1, by omega⟩
    rw [Nat.add_sub_cancel, pow_succ]; ring
  have hp2 : 0 < 2 ^ (w - 1) := by positivity
  have hmsb : ∀ v : BitVec w, v ≠ BitVec.intMax w → (v.toNat < 2 ^ (w - 1) - 1 ↔ v.msb = false) := by
    intro v hv
    have hne : v.toNat ≠ 2 ^ (w - 1) - 1 := fun h => hv (BitVec.eq_of_toNat_eq (by rw [BitVec.toNat_intMax]; exact h))
    rw [BitVec.msb_eq_decide, decide_eq_false_iff_not, not_le]
    omega
  have hgt : ∀ v : BitVec w, decide (BitVec.intMax w < v) = v.msb := by
    intro v
    rw [BitVec.msb_eq_decide]
    apply decide_eq_decide.2
    rw [BitVec.lt_def, BitVec.toNat_intMax]
    omega
  rw [Stream.take_eq_map] at ha' hb' hr
  have e1 : a' = a := by
    rw [ha', ha, List.countP_map]; rfl
  have e2 : b' = b := by
    have h1 : b' = (List.range n.toNat).countP fun i => ! (s.nth i).msb := by
      rw [hb', List.countP_map]
      apply List.countP_congr
      intro i hi
      have := hmsb (s.nth i) (hskip i (List.mem_range.1 hi))
      simp only [Function.comp, decide_eq_true_eq, this, Bool.not_eq_true']
    have h2 := List.length_eq_countP_add_countP (fun i => (s.nth i).msb) (l := List.range n.toNat)
    rw [List.length_range] at h2
    have h3 : ((List.range n.toNat).countP fun i => decide ¬ (s.nth i).msb = true) = b' := by
      rw [h1]; apply List.countP_congr; intro i _; simp
    have h4 : ((List.range n.toNat).countP fun i => (s.nth i).msb) = a := ha.symm
    omega
  have hsigns : signs ((List.range n.toNat).map s.nth) (BitVec.intMax w) = (List.range n.toNat).map fun i => (s.nth i).msb := by
    unfold signs
    rw [List.filter_eq_self.2 (by
      intro v hv
      obtain ⟨i, hi, rfl⟩ := List.mem_map.1 hv
      simpa using hskip i (List.mem_range.1 hi)), List.map_map]
    apply List.map_congr_left
    intro i _
    exact hgt _
  have hr := hr hn0
  obtain ⟨m, hm⟩ : ∃ m, n.toNat = m + 1 := ⟨n.toNat - 1, by omega⟩
  have hchg : r = 1 + topChanges s.nth n.toNat := by
    rw [hr, hsigns, hm, blocks_map, if_neg]
    · unfold topChanges; rfl
    · rintro (h | h)
      · have := congrArg List.length h; simp at this
      · exact hskip 0 (by omega) h.1
  subst e1 e2
  rw [if_neg (by omega)] at hrun
  refine ⟨_, hrun, ?_⟩
  rw [and_iff_left_of_imp (statPass_of_le _)]
  apply normal_reject
  have hn' : (0 : ℝ) < n.toNat := by exact_mod_cast (by omega : 0 < n.toNat)
  have hsum : (a' : ℝ) + b' = n.toNat := by exact_mod_cast hab
  have hA : (1 : ℝ) ≤ a' := by exact_mod_cast ha0
  have hB : (1 : ℝ) ≤ b' := by exact_mod_cast hb0
  have h3 : (3 : ℝ) ≤ n.toNat := by exact_mod_cast hn3
  rw [hsum, hchg]
  have hpos : (n.toNat : ℝ) < 2 * a' * b' := by nlinarith
  set N := (n.toNat : ℝ)
  set c := (topChanges s.nth n.toNat : ℝ) with hc
  have hvar : (2 * (a' : ℝ) * b' / N + 1 - 1) * (2 * a' * b' / N + 1 - 2) / N = 2 * a' * b' * (2 * a' * b' - N) / N ^ 3 := by
    field_simp; ring
  have hvpos : 0 < 2 * (a' : ℝ) * b' * (2 * a' * b' - N) / N ^ 3 := by
    have : 0 < 2 * (a' : ℝ) * b' - N := by linarith
    positivity
  rw [hvar]
  push_cast
  rw [show (1 + c - (2 * (a' : ℝ) * b' / N + 1)) = c - 2 * a' * b' / N by ring, abs_div, abs_of_nonneg (Real.sqrt_nonneg _),
    le_div_iff₀ (Real.sqrt_pos.2 hvpos)]
  rw [← Real.sqrt_sq_eq_abs]
  apply Real.le_sqrt_of_sq_le
  rw [mul_pow, Real.sq_sqrt hvpos.le]
  exact h

/-- C111. It suffices that the number of changes is off its mean `2ab/n` by `3.1 √n`. -/
theorem C111_changes (hw : 0 < w) (n : BitVec 64) (hn3 : 3 ≤ n.toNat) (s : Stream (BitVec w)) (hskip : ∀ i < n.toNat, s.nth i ≠ BitVec.intMax w)
    (a b : Nat) (ha : a = topBits s.nth n.toNat) (hab : a + b = n.toNat) (ha0 : 0 < a) (hb0 : 0 < b)
    (h : 3.1 * Real.sqrt n.toNat ≤ |(topChanges s.nth n.toNat : ℝ) - 2 * a * b / n.toNat|) :
    ∃ st, runsTest n s = .ok [⟨"", some st⟩] ∧ st.pValue ≤ 1 / 10 ^ 9 ∧ statPass st = false := by
  refine C111_runs hw n hn3 s hskip a b ha hab ha0 hb0 ?_
  have hn' : (0 : ℝ) < n.toNat := by exact_mod_cast (by omega : 0 < n.toNat)
  have hsum : (a : ℝ) + b = n.toNat := by exact_mod_cast hab
  have h2 : 3.1 ^ 2 * (n.toNat : ℝ) ≤ ((topChanges s.nth n.toNat : ℝ) - 2 * a * b / n.toNat) ^ 2 := by
    rw [← sq_abs (_ - _)]
    calc 3.1 ^ 2 * (n.toNat : ℝ) = (3.1 * Real.sqrt n.toNat) ^ 2 := by rw [mul_pow, Real.sq_sqrt hn'.le]
      _ ≤ _ := by gcongr
  refine le_trans ?_ h2
  set N := (n.toNat : ℝ)
  have hab4 : 4 * ((a : ℝ) * b) ≤ N ^ 2 := by rw [← hsum]; nlinarith [sq_nonneg ((a : ℝ) - b)]
  have h0 : 0 ≤ (a : ℝ) * b := by positivity
  have h4 : 2 * (a : ℝ) * b * (2 * a * b - N) / N ^ 3 ≤ N / 4 := by
    rw [div_le_iff₀ (by positivity)]
    nlinarith [mul_nonneg h0 hn'.le, mul_le_mul hab4 hab4 (by positivity) (by positivity)]
  nlinarith

/-- C111. A stream whose top bit alternates is rejected from 41 values on. -/
theorem C111_alternating (hw : 0 < w) (n : BitVec 64) (hn : 41 ≤ n.toNat) (s : Stream (BitVec w))
    (hskip : ∀ i < n.toNat, s.nth i ≠ BitVec.intMax w) (h : ∀ i, i + 1 < n.toNat → (s.nth (i + 1)).msb = !(s.nth i).msb) :
    ∃ st, runsTest n s = .ok [⟨"", some st⟩] ∧ st.pValue ≤ 1 / 10 ^ 9 ∧ statPass st = false := by
  have hle : topBits s.nth n.toNat ≤ n.toNat := by
    unfold topBits
    exact (List.countP_le_length).trans (by rw [List.length_range])
  have hpos : 0 < topBits s.nth n.toNat := by
    unfold topBits
    rw [List.countP_pos_iff]
    have h1 := h 0 (by omega)
    cases h0 : (s.nth 0).msb with
    | true => exact ⟨0, List.mem_range.2 (by omega), h0⟩
    | false => exact ⟨1, List.mem_range.2 (by omega), by rw [show (0 : Nat) + 1 = 1 from rfl, h0] at h1; exact h1⟩
  have hlt : topBits s.nth n.toNat < n.toNat := by
    rcases Nat.lt_or_eq_of_le hle with h' | h'
    · exact h'
    · exfalso
      unfold topBits at h'
      have h3 := List.countP_eq_length.1 (h'.trans (List.length_range (n := n.toNat)).symm)
      have h4 := h3 0 (List.mem_range.2 (by omega))
      have h5 := h3 1 (List.mem_range.2 (by omega))
      have h1 := h 0 (by omega)
      simp_all
  have hchg : topChanges s.nth n.toNat = n.toNat - 1 := by
    unfold topChanges
    rw [List.countP_eq_length.2, List.length_range]
    intro i hi
    have := h i (by have := List.mem_range.1 hi; omega)
    rw [this]; simp
  refine C111_runs hw n (by omega) s hskip _ (n.toNat - topBits s.nth n.toNat) rfl (by omega) hpos (by omega) ?_
  rw [hchg]
  set a := topBits s.nth n.toNat
  have hb : (((n.toNat - a : ℕ) : ℕ) : ℝ) = n.toNat - a := by rw [Nat.cast_sub hle]
  have h1 : (((n.toNat - 1 : ℕ) : ℕ) : ℝ) = n.toNat - 1 := by rw [Nat.cast_sub (by omega)]; simp
  rw [hb, h1]
  have hA : (a : ℝ) ≤ n.toNat := by exact_mod_cast hle
  have hN : (41 : ℝ) ≤ n.toNat := by exact_mod_cast hn
  set N := (n.toNat : ℝ)
  have hA0 : (0 : ℝ) ≤ a := by positivity
  set q := 2 * (a : ℝ) * (N - a) / N with hq
  have hq2 : q ≤ N / 2 := by
    rw [hq, div_le_iff₀ (by linarith)]
    nlinarith [sq_nonneg (N - 2 * a)]
  have e : 2 * (a : ℝ) * (N - a) * (2 * a * (N - a) - N) / N ^ 3 = q * (q - 1) / N := by
    rw [hq]; field_simp
  rw [e]
  have hq0 : 0 ≤ q := by
    have : 0 ≤ N - a := by linarith
    positivity
  have h5 : q * (q - 1) / N ≤ N / 4 - 1 / 2 := by
    rw [div_le_iff₀ (by linarith)]
    by_cases hq1 : q ≤ 1
    · nlinarith
    · nlinarith
  have h6 : (N / 2 - 1) ^ 2 ≤ (N - 1 - q) ^ 2 := pow_le_pow_left₀ (by linarith) (by linarith) 2
  norm_num
  nlinarith

/-! ### Subjects that fail with `2^10` values -/

/-- The first `n` values of a mixer fed with a counter whose bits are permuted. -/
def Spec.mixed (t : WT) (f : BitVec t.bits → BitVec t.bits) (ty : RrcType) (rot i : Nat) : BitVec t.bits :=
  f (permute t (BitVec.ofNat t.bits (i + 1)) rot ty)

theorem mixed_nth (t : WT) (m : Mixer t.bits) (ty : RrcType) (rot i : Nat) :
    (createStream (some m) (addRrc t (counterStream t.bits 1 0) rot ty)).nth i = mixed t m.mix ty rot i := by
  unfold createStream mixerStream addRrc mixed
  dsimp only
  rw [Stream.nth_mapS, Stream.nth_mapS]
  rw [counter_val _ (by cases t <;> decide)]
  congr 3
  simp [add_comm]

theorem addRrc_mem (t : WT) (ty : RrcType) (rot : Nat) (h : rot < t.bits) :
    addRrc t (counterStream t.bits 1 0) rot ty ∈ createSources t := by
  unfold createSources createRrcSources
  rw [List.mem_flatMap]
  refine ⟨_, List.mem_cons_self, List.mem_flatMap.2 ⟨ty, by cases ty <;> decide, List.mem_map.2 ⟨rot, List.mem_range.2 h, rfl⟩⟩⟩

/-- The first `n` values are an anomaly for the runs test: see `C111_runs`. -/
def Spec.RunsAnomaly (v : Nat → BitVec w) (n : Nat) : Prop :=
  (∀ i < n, v i ≠ BitVec.intMax w) ∧ ∃ a b : Nat, a = topBits v n ∧ a + b = n ∧ 0 < a ∧ 0 < b ∧
    6.2 ^ 2 * (2 * a * b * (2 * a * b - n) / (n : ℝ) ^ 3) ≤ ((topChanges v n : ℝ) - 2 * a * b / n) ^ 2

/-- A line that tells the truth about a battery with a failing result for `2^start` values. -/
theorem truthful_names (battery : Nat → Battery ℝ) (subject : String) (start stop : Nat) (row : ReportRow)
    (h : Truthful battery subject start stop row) (key : TestKey)
    (hf : key ∈ keys (battery start) ∧ ∃ r ∈ (battery start).get key, comparableP r.stats ≤ 1 / 10 ^ 9) :
    row.subject = subject ∧ row.passed = false ∧ row.power = start ∧ key.toStr ∈ row.failures := by
  obtain ⟨hk, r, hr, hle⟩ := hf
  have hnot : ¬ BatteryPasses (battery start) := fun hp => absurd ((hp key hk).1 r hr) (not_lt.2 hle)
  obtain ⟨h1, h2, h3, -⟩ := truthful_fails battery subject start stop start row h le_rfl (h.2.1.trans h.2.2.1) hnot
  have hp : row.power = start := le_antisymm h3 h.2.1
  obtain ⟨-, -, -, -, -, -, -, N, B, hN, -, hperm, -⟩ := h
  refine ⟨h1, h2, hp, ?_⟩
  rw [hN]
  refine List.mem_append_left _ (hperm.mem_iff.2 (List.mem_map.2 ⟨key, List.mem_filter.2 ⟨by rw [hp]; exact hk, ?_⟩, rfl⟩))
  rw [decide_eq_true_eq, hp]
  exact ⟨r, hr, hle⟩

theorem battery_runs (t : WT) (k : Nat) (hk2 : 2 ≤ k) (hk : k < 64) (setup : TestSetup t.bits) (hth : 0 < setup.maxThreads) (b : Battery ℝ)
    (hb : EvaluateOutcome (suiteDef chi2DistributionCdf) (BitVec.ofNat 64 (2 ^ k)) setup b) (htest : TestType.runs ∈ setup.tests)
    (s : Stream (BitVec t.bits)) (hs : s ∈ setup.sources) (h : RunsAnomaly (createStream setup.mix s).nth (2 ^ k)) :
    (⟨.runs, ""⟩ : TestKey) ∈ keys b ∧ ∃ r ∈ b.get ⟨.runs, ""⟩, comparableP r.stats ≤ 1 / 10 ^ 9 := by
  have hnat : (BitVec.ofNat 64 (2 ^ k)).toNat = 2 ^ k := by
    rw [BitVec.toNat_ofNat, Nat.mod_eq_of_lt (Nat.pow_lt_pow_right (by norm_num) hk)]
  obtain ⟨h1, a, b', h2, h3, h4, h5, h6⟩ := h
  rw [← hnat] at h1 h2 h3 h6
  obtain ⟨st, hst, hp, -⟩ := C111_runs (by cases t <;> decide) (BitVec.ofNat 64 (2 ^ k)) (by
    rw [hnat]; exact (show 3 ≤ 2 ^ 2 by norm_num).trans (Nat.pow_le_pow_right (by norm_num) hk2)) _ h1 a b' h2 h3 h4 h5 h6
  exact battery_failing chi2DistributionCdf .runs _ setup hth b hb htest s hs _ rfl _
    (by show some (runsTest (BitVec.ofNat 64 (2 ^ k)) (createStream setup.mix s)) = _; rw [hst]) "" st List.mem_cons_self hp

theorem battery_stuck (t : WT) (k : Nat) (hk2 : 8 ≤ k) (hk : k ≤ 45) (setup : TestSetup t.bits) (hth : 0 < setup.maxThreads) (b : Battery ℝ)
    (hb : EvaluateOutcome (suiteDef chi2DistributionCdf) (BitVec.ofNat 64 (2 ^ k)) setup b) (htest : TestType.uniform ∈ setup.tests)
    (s : Stream (BitVec t.bits)) (hs : s ∈ setup.sources) (bit : Bool) (h : ∀ i < 2 ^ k, ((createStream setup.mix s).nth i).msb = bit) :
    (⟨.uniform, ""⟩ : TestKey) ∈ keys b ∧ ∃ r ∈ b.get ⟨.uniform, ""⟩, comparableP r.stats ≤ 1 / 10 ^ 9 := by
  have hnat : (BitVec.ofNat 64 (2 ^ k)).toNat = 2 ^ k := by
    rw [BitVec.toNat_ofNat, Nat.mod_eq_of_lt (Nat.pow_lt_pow_right (by norm_num) (by omega))]
  obtain ⟨st, hst, hp, -⟩ := C107_stuck_top_bit t (BitVec.ofNat 64 (2 ^ k))
    (by rw [hnat]; exact (show 2 ^ 8 ≤ 2 ^ k from Nat.pow_le_pow_right (by norm_num) hk2))
    (by rw [hnat]; exact Nat.pow_le_pow_right (by norm_num) hk) (createStream setup.mix s) bit (by rw [hnat]; exact h)
  exact battery_failing chi2DistributionCdf .uniform _ setup hth _ hb htest s hs _ rfl _
    (by show some (uniformTest chi2DistributionCdf (BitVec.ofNat 64 (2 ^ k)) (createStream setup.mix s)) = _; rw [hst]) "" st
    List.mem_cons_self hp

theorem combiner_setup_mem (t : WT) (hw : BitVec 32) (s : Subjects t) (fuel : Nat)
    (setups : List (TestSetup t.bits)) (hs : testCommandSetups t (defaultMaxThreads hw) s fuel = some (.ok setups))
    (c : Combiner t.bits) (hc : c ∈ s.combiners) : ∃ sources, createCombinerSources t c = .ok sources ∧
      (defaultSetup (defaultMaxThreads hw) c.name sources defaultTestTypes none).range 10 25 ∈ setups := by
  have hmap : ∀ (l : List (Combiner t.bits)) (C : List (TestSetup t.bits)), c ∈ l →
      (l.mapM fun c => (do .ok ((← createCombinerTestSetup t (defaultMaxThreads hw) c).range 10 25) : R (TestSetup t.bits))) = .ok C →
      ∃ sources, createCombinerSources t c = .ok sources ∧
        (defaultSetup (defaultMaxThreads hw) c.name sources defaultTestTypes none).range 10 25 ∈ C := by
    intro l
    induction l with
    | nil => intro _ h; cases h
    | cons x l ih =>
      intro C hm h
      rw [List.mapM_cons] at h
      cases hx : createCombinerSources t x with
      | error e => unfold createCombinerTestSetup at h; rw [hx] at h; cases h
      | ok src =>
        unfold createCombinerTestSetup at h
        rw [hx] at h
        cases hl : (l.mapM fun c => (do .ok ((← createCombinerTestSetup t (defaultMaxThreads hw) c).range 10 25) : R (TestSetup t.bits))) with
        | error e =>
          unfold createCombinerTestSetup at hl
          have h : (List.mapM _ l >>= _) = Except.ok C := h
          rw [hl] at h; cases h
        | ok C' =>
          have hl' := hl
          unfold createCombinerTestSetup at hl'
          have h : (List.mapM _ l >>= _) = Except.ok C := h
          rw [hl'] at h
          obtain rfl : _ = C := by injection h
          rcases List.mem_cons.1 hm with rfl | hm
          · exact ⟨src, hx, List.mem_cons_self⟩
          · obtain ⟨src', h1, h2⟩ := ih C' hm hl
            exact ⟨src', h1, List.mem_cons_of_mem _ h2⟩
  unfold testCommandSetups at hs
  dsimp only at hs
  cases hp : s.prngs.mapM (fun p => createPrngTestSetup t (defaultMaxThreads hw) p fuel) with
  | none => rw [hp] at hs; cases hs
  | some rs =>
    rw [hp] at hs
    dsimp only at hs
    have hs := Option.some.inj hs
    cases hp2 : rs.mapM (fun r => (do .ok ((← r).range 10 25) : R (TestSetup t.bits))) with
    | error e => rw [hp2] at hs; cases hs
    | ok prngs =>
      rw [hp2] at hs
      generalize optionalData (defaultMaxThreads hw) s.trng ("file" ++ toString t.bits ++ "::" ++ "trng") 10 (min 25 22) = A at hs
      generalize optionalData (defaultMaxThreads hw) s.drng ("file" ++ toString t.bits ++ "::" ++ "drng") 10 (min 25 27) = B at hs
      generalize hC : (s.combiners.mapM fun c => (do .ok ((← createCombinerTestSetup t (defaultMaxThreads hw) c).range 10 25) :
        R (TestSetup t.bits))) = C at hs
      cases A with
      | error e => cases hs
      | ok A =>
        cases B with
        | error e => cases hs
        | ok B =>
          cases C with
          | error e => cases hs
          | ok C =>
            obtain ⟨src, h1, h2⟩ := hmap _ C hc hC
            obtain rfl : _ = setups := by injection hs
            refine ⟨src, h1, ?_⟩
            simp only [List.mem_append]
            exact .inr h2

/-- The lines of the report tell the truth about every subject. -/
theorem report_lines (analyse : Battery ℝ → List ResultAnalysis) (ha : Analyses analyse) (t : WT) (hw : BitVec 32)
    (s : Subjects t) (fuel : Nat) (hfuel : 2 ^ t.bits ≤ fuel) (h1 : s.trng ≠ some []) (h2 : s.drng ≠ some [])
    (setups : List (TestSetup t.bits)) (hs : testCommandSetups t (defaultMaxThreads hw) s fuel = some (.ok setups))
    (runs : List (EvalRun t.bits)) (hruns : runs.map Prod.fst = setups)
    (hout : ∀ run ∈ runs, ∀ k : Nat, 10 ≤ k → k ≤ 25 →
      EvaluateOutcome (suiteDef chi2DistributionCdf) (BitVec.ofNat 64 (2 ^ k)) run.1 (run.2 (BitVec.ofNat 64 (2 ^ k))))
    (config : Config) (fs : TextFiles) :
    ∃ (fs' : TextFiles) (rows : List ReportRow), testCommand false (config.testResultFilePath t) analyse runs fs = .ok fs' ∧
      fs' (config.testResultFilePath t) = some (reportIntro t.bits ++ String.join (rows.map ReportRow.text)) ∧
      ∀ setup ∈ setups, ∃ battery : Nat → Battery ℝ, (∀ k : Nat, 10 ≤ k → k ≤ 25 →
        EvaluateOutcome (suiteDef chi2DistributionCdf) (BitVec.ofNat 64 (2 ^ k)) setup (battery k)) ∧
        ∃ row ∈ rows, Truthful battery setup.subject 10 setup.stopPower.toNat row := by
  obtain ⟨fs', rows, r1, r2, -, -, r3⟩ := C96_test_command chi2DistributionCdf analyse ha t hw s fuel hfuel h1 h2 setups hs runs hruns hout config fs
  refine ⟨fs', rows, r1, r2, fun setup hx => ?_⟩
  rw [← hruns] at hx
  obtain ⟨run, hrun, rfl⟩ := List.mem_map.1 hx
  have hex : ∀ (l : List (EvalRun t.bits)) (rows : List ReportRow), List.Forall₂ (fun (run : EvalRun t.bits) row =>
      Truthful (fun k => run.2 (BitVec.ofNat 64 (2 ^ k))) run.1.subject 10 run.1.stopPower.toNat row) l rows → run ∈ l →
      ∃ row ∈ rows, Truthful (fun k => run.2 (BitVec.ofNat 64 (2 ^ k))) run.1.subject 10 run.1.stopPower.toNat row := by
    intro l rows h
    induction h with
    | nil => intro h; cases h
    | cons h _ ih =>
      intro hm
      rcases List.mem_cons.1 hm with rfl | hm
      · exact ⟨_, List.mem_cons_self, h⟩
      · obtain ⟨row, hr, ht⟩ := ih hm
        exact ⟨row, List.mem_cons_of_mem _ hr, ht⟩
  exact ⟨fun k => run.2 (BitVec.ofNat 64 (2 ^ k)), fun k hk hk2 => hout run hrun k hk hk2, hex runs rows r3 hrun⟩

/-- C111. The report of `-test`, for any data files, further subjects and schedules: a mixer whose outputs, for one of the permutations of the
counter, are an anomaly for the runs test within 1024 values has a line that says that it failed with `2^10` values and names `runs`; so has a
combiner if one of its streams is; and a combiner with a stream whose top bit is stuck for 1024 values has a line that names `uniform`. -/
theorem C111_report (analyse : Battery ℝ → List ResultAnalysis) (ha : Analyses analyse) (t : WT) (hw : BitVec 32)
    (s : Subjects t) (fuel : Nat) (hfuel : 2 ^ t.bits ≤ fuel) (h1 : s.trng ≠ some []) (h2 : s.drng ≠ some [])
    (setups : List (TestSetup t.bits)) (hs : testCommandSetups t (defaultMaxThreads hw) s fuel = some (.ok setups))
    (runs : List (EvalRun t.bits)) (hruns : runs.map Prod.fst = setups)
    (hout : ∀ run ∈ runs, ∀ k : Nat, 10 ≤ k → k ≤ 25 →
      EvaluateOutcome (suiteDef chi2DistributionCdf) (BitVec.ofNat 64 (2 ^ k)) run.1 (run.2 (BitVec.ofNat 64 (2 ^ k))))
    (config : Config) (fs : TextFiles) :
    ∃ (fs' : TextFiles) (rows : List ReportRow), testCommand false (config.testResultFilePath t) analyse runs fs = .ok fs' ∧
      fs' (config.testResultFilePath t) = some (reportIntro t.bits ++ String.join (rows.map ReportRow.text)) ∧
      (∀ m ∈ s.mixers, (∃ ty, ∃ rot < t.bits, RunsAnomaly (mixed t m.mix ty rot) (2 ^ 10)) →
        ∃ row ∈ rows, row.subject = m.name ∧ row.passed = false ∧ row.power = 10 ∧ "runs" ∈ row.failures) ∧
      (∀ c ∈ s.combiners, ∀ sources, createCombinerSources t c = .ok sources → ∀ src ∈ sources, RunsAnomaly src.nth (2 ^ 10) →
        ∃ row ∈ rows, row.subject = c.name ∧ row.passed = false ∧ row.power = 10 ∧ "runs" ∈ row.failures) ∧
      (∀ c ∈ s.combiners, ∀ sources, createCombinerSources t c = .ok sources → ∀ src ∈ sources, ∀ bit : Bool,
        (∀ i < 2 ^ 10, (src.nth i).msb = bit) →
        ∃ row ∈ rows, row.subject = c.name ∧ row.passed = false ∧ row.power = 10 ∧ "uniform" ∈ row.failures) := by
  obtain ⟨fs', rows, r1, r2, r3⟩ := report_lines analyse ha t hw s fuel hfuel h1 h2 setups hs runs hruns hout config fs
  have hth : 0 < defaultMaxThreads hw := lt_of_lt_of_le (by norm_num) (le_max_right _ 2)
  have hcomb : ∀ c ∈ s.combiners, ∀ sources, createCombinerSources t c = .ok sources →
      (defaultSetup (defaultMaxThreads hw) c.name sources defaultTestTypes none).range 10 25 ∈ setups := by
    intro c hc sources hsrc
    obtain ⟨src', g1, g2⟩ := combiner_setup_mem t hw s fuel setups hs c hc
    rw [hsrc] at g1
    injection g1 with g1
    rw [g1]; exact g2
  refine ⟨fs', rows, r1, r2, ?_, ?_, ?_⟩
  · rintro m hm ⟨ty, rot, hrot, hrun⟩
    obtain ⟨bat, hbat, row, hrow, htr⟩ := r3 _ (mixer_setup_mem t hw s fuel setups hs m hm)
    have hf := battery_runs t 10 (by norm_num) (by norm_num) _ (by exact hth) (bat 10) (hbat 10 le_rfl (by norm_num))
      (show TestType.runs ∈ defaultTestTypes by decide) _ (addRrc_mem t ty rot hrot) (by
        have : (createStream (some m) (addRrc t (counterStream t.bits 1 0) rot ty)).nth = mixed t m.mix ty rot := funext (mixed_nth t m ty rot)
        show RunsAnomaly (createStream (some m) (addRrc t (counterStream t.bits 1 0) rot ty)).nth (2 ^ 10)
        rw [this]; exact hrun)
    exact ⟨row, hrow, truthful_names bat _ 10 _ row htr _ hf⟩
  · intro c hc sources hsrc src hmem hrun
    obtain ⟨bat, hbat, row, hrow, htr⟩ := r3 _ (hcomb c hc sources hsrc)
    have hf := battery_runs t 10 (by norm_num) (by norm_num) _ (by exact hth) (bat 10) (hbat 10 le_rfl (by norm_num))
      (show TestType.runs ∈ defaultTestTypes by decide) src hmem hrun
    exact ⟨row, hrow, truthful_names bat _ 10 _ row htr _ hf⟩
  · intro c hc sources hsrc src hmem bit hstuck
    obtain ⟨bat, hbat, row, hrow, htr⟩ := r3 _ (hcomb c hc sources hsrc)
    have hf := battery_stuck t 10 (by norm_num) (by norm_num) _ (by exact hth) (bat 10) (hbat 10 le_rfl (by norm_num))
      (show TestType.uniform ∈ defaultTestTypes by decide) src hmem bit hstuck
    exact ⟨row, hrow, truthful_names bat _ 10 _ row htr _ hf⟩

/-! ### The catalogue -/

private theorem anomaly_of (v : Nat → BitVec w) (a b c : Nat) (h1 : ∀ i < 2 ^ 10, v i ≠ BitVec.intMax w) (h2 : topBits v (2 ^ 10) = a)
    (h3 : topChanges v (2 ^ 10) = c) (hab : a + b = 2 ^ 10) (ha : 0 < a) (hb : 0 < b)
    (h : (6.2 : ℝ) ^ 2 * (2 * a * b * (2 * a * b - 1024) / 1024 ^ 3) ≤ ((c : ℝ) - 2 * a * b / 1024) ^ 2) : RunsAnomaly v (2 ^ 10) := by
  refine ⟨h1, a, b, h2.symm, hab, ha, hb, ?_⟩
  rw [h3]
  push_cast
  norm_num at h ⊢
  exact h

set_option maxRecDepth 100000 in
/-- C111. The 64-bit mixers `mx1`, `moremur`, `murmur3`, `xxh3` and `fast_hash` are anomalies for the runs test within 1024 values. -/
theorem C111_mixers64 :
    RunsAnomaly (mixed .u64 mix64_mx1 .identity 12) (2 ^ 10) ∧
    RunsAnomaly (mixed .u64 mix64_moremur .reverse 4) (2 ^ 10) ∧
    RunsAnomaly (mixed .u64 mix64_murmur3 .complement 42) (2 ^ 10) ∧
    RunsAnomaly (mixed .u64 mix64_xxh3 .complement 24) (2 ^ 10) ∧
    RunsAnomaly (mixed .u64 mix64_fast_hash .complement 23) (2 ^ 10) :=
  ⟨anomaly_of _ 512 512 1017 (by decide +kernel) (by decide +kernel) (by decide +kernel) (by norm_num) (by norm_num) (by norm_num) (by norm_num),
   anomaly_of _ 497 527 614 (by decide +kernel) (by decide +kernel) (by decide +kernel) (by norm_num) (by norm_num) (by norm_num) (by norm_num),
   anomaly_of _ 509 515 399 (by decide +kernel) (by decide +kernel) (by decide +kernel) (by norm_num) (by norm_num) (by norm_num) (by norm_num),
   anomaly_of _ 513 511 985 (by decide +kernel) (by decide +kernel) (by decide +kernel) (by norm_num) (by norm_num) (by norm_num) (by norm_num),
   anomaly_of _ 505 519 13 (by decide +kernel) (by decide +kernel) (by decide +kernel) (by norm_num) (by norm_num) (by norm_num) (by norm_num)⟩

set_option maxRecDepth 100000 in
/-- C111. So are the 32-bit mixers `mx1`, `wang_1` and `jenkins`. -/
theorem C111_mixers32 :
    RunsAnomaly (mixed .u32 mix32_mx1 .identity 7) (2 ^ 10) ∧
    RunsAnomaly (mixed .u32 mix32_wang_1 .reverse 21) (2 ^ 10) ∧
    RunsAnomaly (mixed .u32 mix32_jenkins .complement 25) (2 ^ 10) :=
  ⟨anomaly_of _ 509 515 1015 (by decide +kernel) (by decide +kernel) (by decide +kernel) (by norm_num) (by norm_num) (by norm_num) (by norm_num),
   anomaly_of _ 509 515 643 (by decide +kernel) (by decide +kernel) (by decide +kernel) (by norm_num) (by norm_num) (by norm_num) (by norm_num),
   anomaly_of _ 510 514 689 (by decide +kernel) (by decide +kernel) (by decide +kernel) (by norm_num) (by norm_num) (by norm_num) (by norm_num)⟩

/-- The third stream of every combiner: a counter combined with zeros. -/
theorem combiner_counter (t : WT) (c : Combiner t.bits) (sources : List (Stream (BitVec t.bits))) (h : createCombinerSources t c = .ok sources) :
    ∃ src ∈ sources, ∀ i, src.nth i = c.combine (BitVec.ofNat t.bits (i + 1)) 0#t.bits := by
  refine ⟨combinedStream (counterStream t.bits 1 0) (constantStream 0#t.bits) c, ?_, fun i => ?_⟩
  · unfold createCombinerSources at h
    dsimp only at h
    split at h
    · injection h with h
      rw [← h]
      simp
    · cases h
  · rw [C31_combined, constantStream_nth, counter_val _ (by cases t <;> decide)]
    congr 2
    simp [add_comm]

set_option maxRecDepth 100000 in
/-- C111. The combiner `combine32::mx1` of a counter with zeros is an anomaly for the runs test, and the top bit of `combine32::boost` is stuck. -/
theorem C111_combiners32 :
    RunsAnomaly (fun i => combine32_mx1 (BitVec.ofNat 32 (i + 1)) 0#32) (2 ^ 10) ∧
    ∀ i < 2 ^ 10, (combine32_boost (BitVec.ofNat 32 (i + 1)) 0#32).msb = true :=
  ⟨anomaly_of _ 515 509 665 (by decide +kernel) (by decide +kernel) (by decide +kernel) (by norm_num) (by norm_num) (by norm_num) (by norm_num),
   by decide +kernel⟩

/-- C111. The report for 64-bit words, the mixers being those of the catalogue: `mix64::mx1`, `mix64::moremur`, `mix64::murmur3`, `mix64::xxh3`
and `mix64::fast_hash` failed with `2^10` values, and `runs` is among the failures: as in the published table `results/result_64.md`. -/
theorem C111_report_64 (analyse : Battery ℝ → List ResultAnalysis) (ha : Analyses analyse) (hw : BitVec 32)
    (s : Subjects .u64) (fuel : Nat) (hfuel : 2 ^ WT.u64.bits ≤ fuel) (h1 : s.trng ≠ some []) (h2 : s.drng ≠ some [])
    (setups : List (TestSetup WT.u64.bits)) (hs : testCommandSetups .u64 (defaultMaxThreads hw) s fuel = some (.ok setups))
    (runs : List (EvalRun WT.u64.bits)) (hruns : runs.map Prod.fst = setups)
    (hout : ∀ run ∈ runs, ∀ k : Nat, 10 ≤ k → k ≤ 25 →
      EvaluateOutcome (suiteDef chi2DistributionCdf) (BitVec.ofNat 64 (2 ^ k)) run.1 (run.2 (BitVec.ofNat 64 (2 ^ k))))
    (config : Config) (fs : TextFiles) (hmix : s.mixers = getMixers64) :
    ∃ (fs' : TextFiles) (rows : List ReportRow), testCommand false (config.testResultFilePath .u64) analyse runs fs = .ok fs' ∧
      fs' (config.testResultFilePath .u64) = some (reportIntro 64 ++ String.join (rows.map ReportRow.text)) ∧
      ∀ name ∈ ["mix64::mx1", "mix64::moremur", "mix64::murmur3", "mix64::xxh3", "mix64::fast_hash"],
        ∃ row ∈ rows, row.subject = name ∧ row.passed = false ∧ row.power = 10 ∧ "runs" ∈ row.failures := by
  obtain ⟨fs', rows, r1, r2, r3, -⟩ := C111_report analyse ha .u64 hw s fuel hfuel h1 h2 setups hs runs hruns hout config fs
  refine ⟨fs', rows, r1, r2, fun name hname => ?_⟩
  obtain ⟨m1, m2, m3, m4, m5⟩ := C111_mixers64
  simp only [List.mem_cons, List.not_mem_nil, or_false] at hname
  rcases hname with rfl | rfl | rfl | rfl | rfl
  · exact r3 ⟨"mix64::mx1", mix64_mx1⟩ (by rw [hmix]; unfold getMixers64; simp) ⟨_, 12, by decide, m1⟩
  · exact r3 ⟨"mix64::moremur", mix64_moremur⟩ (by rw [hmix]; unfold getMixers64; simp) ⟨_, 4, by decide, m2⟩
  · exact r3 ⟨"mix64::murmur3", mix64_murmur3⟩ (by rw [hmix]; unfold getMixers64; simp) ⟨_, 42, by decide, m3⟩
  · exact r3 ⟨"mix64::xxh3", mix64_xxh3⟩ (by rw [hmix]; unfold getMixers64; simp) ⟨_, 24, by decide, m4⟩
  · exact r3 ⟨"mix64::fast_hash", mix64_fast_hash⟩ (by rw [hmix]; unfold getMixers64; simp) ⟨_, 23, by decide, m5⟩

/-- C111. The report for 32-bit words, mixers and combiners being those of the catalogue: `mix32::mx1`, `mix32::wang_1`, `mix32::jenkins` and
`combine32::mx1` failed with `2^10` values and `runs` is among the failures, `combine32::boost` failed with `2^10` values and `uniform` is
among the failures: as in the published table `results/result_32.md`. -/
theorem C111_report_32 (analyse : Battery ℝ → List ResultAnalysis) (ha : Analyses analyse) (hw : BitVec 32)
    (s : Subjects .u32) (fuel : Nat) (hfuel : 2 ^ WT.u32.bits ≤ fuel) (h1 : s.trng ≠ some []) (h2 : s.drng ≠ some [])
    (setups : List (TestSetup WT.u32.bits)) (hs : testCommandSetups .u32 (defaultMaxThreads hw) s fuel = some (.ok setups))
    (runs : List (EvalRun WT.u32.bits)) (hruns : runs.map Prod.fst = setups)
    (hout : ∀ run ∈ runs, ∀ k : Nat, 10 ≤ k → k ≤ 25 →
      EvaluateOutcome (suiteDef chi2DistributionCdf) (BitVec.ofNat 64 (2 ^ k)) run.1 (run.2 (BitVec.ofNat 64 (2 ^ k))))
    (config : Config) (fs : TextFiles) (hmix : s.mixers = getMixers32) (hcomb : s.combiners = getCombiners32) :
    ∃ (fs' : TextFiles) (rows : List ReportRow), testCommand false (config.testResultFilePath .u32) analyse runs fs = .ok fs' ∧
      fs' (config.testResultFilePath .u32) = some (reportIntro 32 ++ String.join (rows.map ReportRow.text)) ∧
      (∀ name ∈ ["mix32::mx1", "mix32::wang_1", "mix32::jenkins", "combine32::mx1"],
        ∃ row ∈ rows, row.subject = name ∧ row.passed = false ∧ row.power = 10 ∧ "runs" ∈ row.failures) ∧
      ∃ row ∈ rows, row.subject = "combine32::boost" ∧ row.passed = false ∧ row.power = 10 ∧ "uniform" ∈ row.failures := by
  obtain ⟨fs', rows, r1, r2, r3, r4, r5⟩ := C111_report analyse ha .u32 hw s fuel hfuel h1 h2 setups hs runs hruns hout config fs
  obtain ⟨m1, m2, m3⟩ := C111_mixers32
  refine ⟨fs', rows, r1, r2, fun name hname => ?_, ?_⟩
  · simp only [List.mem_cons, List.not_mem_nil, or_false] at hname
    rcases hname with rfl | rfl | rfl | rfl
    · exact r3 ⟨"mix32::mx1", mix32_mx1⟩ (by rw [hmix]; unfold getMixers32; simp) ⟨_, 7, by decide, m1⟩
    · exact r3 ⟨"mix32::wang_1", mix32_wang_1⟩ (by rw [hmix]; unfold getMixers32; simp) ⟨_, 21, by decide, m2⟩
    · exact r3 ⟨"mix32::jenkins", mix32_jenkins⟩ (by rw [hmix]; unfold getMixers32; simp) ⟨_, 25, by decide, m3⟩
    · have hmem : (⟨"combine32::mx1", combine32_mx1⟩ : Combiner WT.u32.bits) ∈ s.combiners := by rw [hcomb]; unfold getCombiners32; simp
      obtain ⟨sources, hsrc, -⟩ := combiner_setup_mem .u32 hw s fuel setups hs _ hmem
      obtain ⟨src, g1, g2⟩ := combiner_counter .u32 _ sources hsrc
      exact r4 _ hmem sources hsrc src g1 (by rw [funext g2]; exact C111_combiners32.1)
  · have hmem : (⟨"combine32::boost", combine32_boost⟩ : Combiner WT.u32.bits) ∈ s.combiners := by rw [hcomb]; unfold getCombiners32; simp
    obtain ⟨sources, hsrc, -⟩ := combiner_setup_mem .u32 hw s fuel setups hs _ hmem
    obtain ⟨src, g1, g2⟩ := combiner_counter .u32 _ sources hsrc
    exact r5 _ hmem sources hsrc src g1 true (fun i hi => by rw [g2]; exact C111_combiners32.2 i hi)

-- C111, non-vacuity: an alternating stream, and the hypotheses of the theorems on reports.
example : ∃ st, runsTest 41#64 (⟨Bool, "alt", false, fun b => (if b then 255#8 else 0#8, !b)⟩ : Stream (BitVec 8)) = .ok [⟨"", some st⟩] ∧
    statPass st = false := by
  obtain ⟨st, h, -, h2⟩ := C111_alternating (by norm_num) 41#64 (by decide)
    (⟨Bool, "alt", false, fun b => (if b then 255#8 else 0#8, !b)⟩ : Stream (BitVec 8)) (by decide +kernel)
    (fun i hi => (by decide +kernel : ∀ i < 40, (((⟨Bool, "alt", false, fun b => (if b then 255#8 else 0#8, !b)⟩ : Stream (BitVec 8)).nth (i + 1)).msb =
      !((⟨Bool, "alt", false, fun b => (if b then 255#8 else 0#8, !b)⟩ : Stream (BitVec 8)).nth i).msb)) i (by
        have : (41#64 : BitVec 64).toNat = 41 := rfl
        omega))
  exact ⟨st, h, h2⟩
example : ¬ RunsAnomaly (fun i => if i / 2 % 2 = 0 then 0#8 else 255#8) 4 := by
  rintro ⟨-, a, b, ha, hab, -, -, h⟩
  have h2 : topBits (fun i => if i / 2 % 2 = 0 then 0#8 else 255#8) 4 = 2 := by decide +kernel
  have h3 : topChanges (fun i => if i / 2 % 2 = 0 then 0#8 else 255#8) 4 = 1 := by decide +kernel
  obtain rfl : a = 2 := ha.trans h2
  obtain rfl : b = 2 := by omega
  rw [h3] at h
  norm_num at h
example : ∃ (s : Subjects .u32) (analyse : Battery ℝ → List ResultAnalysis) (fuel : Nat) (setups : List (TestSetup WT.u32.bits))
    (runs : List (EvalRun WT.u32.bits)), s.mixers = getMixers32 ∧ s.combiners = getCombiners32 ∧ s.trng ≠ some [] ∧ s.drng ≠ some [] ∧
    Analyses analyse ∧ 2 ^ WT.u32.bits ≤ fuel ∧ testCommandSetups .u32 (defaultMaxThreads 8) s fuel = some (.ok setups) ∧
    runs.map Prod.fst = setups ∧ ∀ run ∈ runs, ∀ k : Nat, 10 ≤ k → k ≤ 25 →
      EvaluateOutcome (suiteDef chi2DistributionCdf) (BitVec.ofNat 64 (2 ^ k)) run.1 (run.2 (BitVec.ofNat 64 (2 ^ k))) := by
  obtain ⟨analyse, fuel, setups, runs, h⟩ := report_instance .u32 ⟨none, some [5, 6], getMixers32, [], getCombiners32⟩ (by simp) (by simp)
  exact ⟨_, analyse, fuel, setups, runs, rfl, rfl, by simp, by simp, h⟩

end TFR
