import Verif.Lemmas.CounterRuns
import Verif.Props.SelfCheck
import Verif.Props.FalseAlarmsRuns
import Verif.Props.MetaTest
/-
C126. What the self-check of `-inspect-test` prints about the runs test.
-/
namespace TFR
open Finset Spec ProbabilityTheory
variable {w : Nat}

/-- A stream whose top bit is bit `j` of the counter `1, 2, ...`, or its complement, and that shows the value the runs test skips whenever the
counter is `q` modulo `2^w`. -/
structure CounterView (s : Stream (BitVec w)) (j : Nat) (c : Bool) (q : Nat) : Prop where
  top : ∀ i, (s.nth i).msb = ((i + 1).testBit j != c)
  skip : ∀ i, s.nth i = BitVec.intMax w ↔ (i + 1) % 2 ^ w = q
  hj : j < w
  hq : q < 2 ^ w
  bit : ∀ l < w, l ≠ j → q.testBit l = !c

/-- The counter is skipped here. -/
def skips (w q i : Nat) : Bool := decide ((i + 1) % 2 ^ w = q)

theorem view_signs (s : Stream (BitVec w)) (j : Nat) (c : Bool) (q : Nat) (h : CounterView s j c q) (n : Nat) :
    signs (s.take n) (BitVec.intMax w) = ((List.range n).filter fun i => !skips w q i).map fun i => (i + 1).testBit j != c := by
  unfold signs
  rw [Stream.take_eq_map, List.filter_map, List.map_map]
  have h1 : ∀ i ∈ List.range n, ((fun v => decide (v ≠ BitVec.intMax w)) ∘ s.nth) i = !skips w q i := by
    intro i _
    unfold skips
    simp [h.skip i]
  rw [List.filter_congr h1]
  apply List.map_congr_left
  intro i _
  show decide (BitVec.intMax w < s.nth i) = _
  rw [← h.top i, BitVec.msb_eq_decide]
  apply decide_eq_decide.2
  rw [BitVec.lt_def, BitVec.toNat_intMax]
  have : 0 < 2 ^ (w - 1) := by positivity
  omega

/-- The skipped values have the top bit 0. -/
theorem view_skip_top (s : Stream (BitVec w)) (j : Nat) (c : Bool) (q : Nat) (h : CounterView s j c q) (i : Nat) (hi : (i + 1) % 2 ^ w = q) :
    ((i + 1).testBit j != c) = false := by
  rw [← h.top i, (h.skip i).2 hi]
  rw [BitVec.msb_eq_decide, BitVec.toNat_intMax]
  have : 0 < 2 ^ (w - 1) := by positivity
  simp

/-- The number of skipped values. -/
def skipped (w q k : Nat) : Nat := (List.range (2 ^ k)).countP (skips w q)

/-- The numbers the runs test sees. -/
theorem view_runs (hw : 0 < w) (s : Stream (BitVec w)) (j : Nat) (c : Bool) (q : Nat) (h : CounterView s j c q) (k : Nat) (hk : k < 64) :
    ∃ a b r : Nat, a = (List.range (2 ^ k)).countP (fun i => (i + 1).testBit j != c) ∧ a + b + skipped w q k = 2 ^ k ∧
      blocks (((List.range (2 ^ k)).filter fun i => !skips w q i).map fun i => (i + 1).testBit j != c) ≤ r ∧
      r ≤ blocks (((List.range (2 ^ k)).filter fun i => !skips w q i).map fun i => (i + 1).testBit j != c) + 1 ∧
      (r ≠ blocks (((List.range (2 ^ k)).filter fun i => !skips w q i).map fun i => (i + 1).testBit j != c) → 0 < a →
        s.nth 0 = BitVec.intMax w ∧ 
        (((List.range (2 ^ k)).filter fun i => !skips w q i).map fun i => (i + 1).testBit j != c).head? = some true) ∧
      runsTest (BitVec.ofNat 64 (2 ^ k)) s = .ok [⟨"", if a = 0 ∨ b = 0 ∨ (a = 1 ∧ b = 1) then none
        else
          let μ : ℝ := 2 * a * b / (a + b) + 1
          let z : ℝ := (r - μ) / Real.sqrt ((μ - 1) * (μ - 2) / (a + b))
          some ⟨.zScore, z, (gaussianReal 0 1).real {x | |z| ≤ |x|}, (a : ℝ) + b⟩⟩] := by
  have hnat : (BitVec.ofNat 64 (2 ^ k)).toNat = 2 ^ k := by
    rw [BitVec.toNat_ofNat, Nat.mod_eq_of_lt (Nat.pow_lt_pow_right (by norm_num) hk)]
  have hn0 : BitVec.ofNat 64 (2 ^ k) ≠ 0#64 := by
    intro e
    have := congrArg BitVec.toNat e
    rw [hnat] at this
    simp at this
  obtain ⟨a, b, r, ha, hb, hr, hrun⟩ := C80_runs hw (BitVec.ofNat 64 (2 ^ k)) s
  have hc := signs_counts hw (s.take (BitVec.ofNat 64 (2 ^ k)).toNat)
  have hr := hr hn0
  rw [hnat, view_signs s j c q h] at hc hr
  rw [hnat] at ha hb
  have hb' := hb.trans hc.2.symm
  have ha' := ha.trans hc.1.symm
  have ha2 : a = (List.range (2 ^ k)).countP (fun i => (i + 1).testBit j != c) := by
    rw [ha, Stream.take_eq_map, List.countP_map]
    apply List.countP_congr
    intro i _
    simp [h.top i]
  have hlen := count_signs (((List.range (2 ^ k)).filter fun i => !skips w q i).map fun i => (i + 1).testBit j != c)
  rw [← ha', ← hb', List.length_map, ← List.countP_eq_length_filter] at hlen
  have hall := List.length_eq_countP_add_countP (skips w q) (l := List.range (2 ^ k))
  rw [List.length_range] at hall
  have hall2 : (List.range (2 ^ k)).countP (fun i => !skips w q i) = (List.range (2 ^ k)).countP (fun i => decide ¬ skips w q i = true) := by
    apply List.countP_congr
    intro i _
    simp
  refine ⟨a, b, r, ha2, ?_, ?_, ?_, ?_, hrun⟩
  · unfold skipped; omega
  · rw [hr]; omega
  · rw [hr]; split <;> omega
  · intro hne ha0
    by_contra hcon
    apply hne
    rw [hr, if_neg, add_zero]
    rintro (he | he)
    · rw [he] at ha'
      simp at ha'
      omega
    · exact hcon he

theorem z_large (x V : ℝ) (hV : 0 < V) (h : 6.2 ^ 2 * V ≤ x ^ 2) : 6.2 ≤ |x / Real.sqrt V| := by
  have hs := Real.sqrt_pos.2 hV
  rw [abs_div, abs_of_pos hs, le_div_iff₀ hs]
  apply le_of_sq_le_sq _ (abs_nonneg x)
  rw [mul_pow, Real.sq_sqrt hV.le, sq_abs]; exact h

theorem z_small (x V : ℝ) (hV : 0 < V) (h : x ^ 2 ≤ 6 ^ 2 * V) : |x / Real.sqrt V| ≤ 6 := by
  have hs := Real.sqrt_pos.2 hV
  rw [abs_div, abs_of_pos hs, div_le_iff₀ hs]
  apply le_of_sq_le_sq _ (by positivity)
  rw [mul_pow, Real.sq_sqrt hV.le, sq_abs]; exact h

/-- The runs test rejects a stream with `n` values. -/
def RunsRejects (n : BitVec 64) (s : Stream (BitVec w)) : Prop := ∃ st, runsTest n s = .ok [⟨"", some st⟩] ∧ st.pValue ≤ 1 / 10 ^ 9

theorem skipped_le (w q k : Nat) (hq : q < 2 ^ w) : skipped w q k ≤ 2 ^ k / 2 ^ w + 1 ∧ (w ≤ k → skipped w q k = 2 ^ (k - w)) :=
  count_residue k w q hq

theorem skipped_real (w q k v : Nat) (hq : q < 2 ^ w) (hk : 1 ≤ k) (hv : v ≤ w) :
    ((skipped w q k : ℕ) : ℝ) ≤ 2 * ((2 ^ (k - 1) : ℕ) : ℝ) / 2 ^ v + 1 := by
  have h1 := (skipped_le w q k hq).1
  have h2 : 2 ^ k / 2 ^ w ≤ 2 ^ k / 2 ^ v := Nat.div_le_div_left (Nat.pow_le_pow_right (by norm_num) hv) (by positivity)
  have h3 : ((2 ^ k / 2 ^ v : ℕ) : ℝ) ≤ ((2 ^ k : ℕ) : ℝ) / ((2 ^ v : ℕ) : ℝ) := Nat.cast_div_le
  have h4 : ((skipped w q k : ℕ) : ℝ) ≤ ((2 ^ k / 2 ^ v + 1 : ℕ) : ℝ) := by exact_mod_cast h1.trans (Nat.add_le_add_right h2 1)
  have e : 2 ^ k = 2 * 2 ^ (k - 1) := by
    obtain ⟨k', rfl⟩ : ∃ k', k = k' + 1 := ⟨k - 1, by omega⟩
    rw [Nat.add_sub_cancel, pow_succ]; ring
  rw [e] at h3 h4
  push_cast at h3 h4 ⊢
  linarith

/-- The number of runs in the kept values. -/
def keptRuns (w j : Nat) (c : Bool) (q k : Nat) : Nat :=
  blocks (((List.range (2 ^ k)).filter fun i => !skips w q i).map fun i => (i + 1).testBit j != c)

theorem keptRuns_le (w j : Nat) (c : Bool) (q k : Nat) : keptRuns w j c q k ≤ 1 + 2 ^ k / 2 ^ j :=
  (blocks_sublist _ _ (List.filter_sublist.map _)).1.trans (blocks_counter j k c)

theorem keptRuns_ge_zero (w : Nat) (c : Bool) (q k : Nat) : 2 ^ k ≤ keptRuns w 0 c q k + 2 * skipped w q k := by
  have h := blocks_filter (fun i => (i + 1).testBit 0 != c) (fun i => !skips w q i) (List.range (2 ^ k))
  have e : blocks ((List.range (2 ^ k)).map fun i => (i + 1).testBit 0 != c) = 2 ^ k := by
    have e2 : ((List.range (2 ^ k)).map fun i => (i + 1).testBit 0 != c) = (List.range (2 ^ k)).map fun i => i.testBit 0 != !c := by
      apply List.map_congr_left
      intro i _
      have := (testBit_succ_ne i 0).2 (by simp)
      revert this
      generalize (i + 1).testBit 0 = x
      generalize i.testBit 0 = y
      cases x <;> cases y <;> cases c <;> simp
    rw [e2, blocks_alternating]
  rw [e] at h
  have e3 : (List.range (2 ^ k)).countP (fun i => !!skips w q i) = skipped w q k := by
    unfold skipped
    apply List.countP_congr
    intro i _
    simp
  rw [e3] at h
  exact h

/-- With bit 1 on top, only values of one parity are skipped, so every second value is kept. -/
theorem keptRuns_ge_one (w : Nat) (hw : 0 < w) (c : Bool) (q k : Nat) (hk : 1 ≤ k) (hq : q.testBit 0 = !c) : 2 ^ (k - 1) ≤ keptRuns w 1 c q k := by
  have e : 2 ^ k = 2 * 2 ^ (k - 1) := by
    obtain ⟨k', rfl⟩ : ∃ k', k = k' + 1 := ⟨k - 1, by omega⟩
    rw [Nat.add_sub_cancel, pow_succ]; ring
  -- the kept indices: `i` odd if not complemented, else even
  obtain ⟨o, ho, hoc⟩ : ∃ o < 2, ∀ u, (2 * u + o + 1).testBit 0 = c := by
    cases c
    · exact ⟨1, by norm_num, fun u => by rw [Nat.testBit_zero]; simp; omega⟩
    · exact ⟨0, by norm_num, fun u => by rw [Nat.testBit_zero]; simp⟩
  have hsub := sublist_parity (2 ^ (k - 1)) o ho
  rw [← e] at hsub
  have hsub2 := hsub.filter (fun i => !skips w q i)
  have hall : (((List.range (2 ^ (k - 1))).map fun u => 2 * u + o).filter fun i => !skips w q i) = (List.range (2 ^ (k - 1))).map fun u => 2 * u + o := by
    rw [List.filter_eq_self]
    intro i hi
    obtain ⟨u, -, rfl⟩ := List.mem_map.1 hi
    unfold skips
    simp only [Bool.not_eq_true', decide_eq_false_iff_not]
    intro h
    have h1 := hoc u
    have h2 : ((2 * u + o + 1) % 2 ^ w).testBit 0 = (2 * u + o + 1).testBit 0 := by
      rw [Nat.testBit_mod_two_pow]; simp [hw]
    rw [h, hq, h1] at h2
    cases c <;> simp at h2
  rw [hall] at hsub2
  have h := (blocks_sublist _ _ (hsub2.map fun i => (i + 1).testBit 1 != c)).1
  refine le_trans (le_of_eq ?_) h
  rw [List.map_map]
  obtain ⟨d, hd⟩ : ∃ d : Bool, ∀ u, ((2 * u + o + 1).testBit 1 != c) = (u.testBit 0 != d) := by
    rcases (by omega : o = 0 ∨ o = 1) with rfl | rfl
    · refine ⟨c, fun u => ?_⟩
      rw [Nat.testBit_eq_decide_div_mod_eq, Nat.testBit_eq_decide_div_mod_eq]
      have : (2 * u + 0 + 1) / 2 ^ 1 = u / 2 ^ 0 := by omega
      rw [this]
    · refine ⟨!c, fun u => ?_⟩
      rw [Nat.testBit_eq_decide_div_mod_eq, Nat.testBit_eq_decide_div_mod_eq]
      have : (2 * u + 1 + 1) / 2 ^ 1 = u / 2 ^ 0 + 1 := by omega
      rw [this]
      rcases Nat.mod_two_eq_zero_or_one (u / 2 ^ 0) with h | h
      · rw [Nat.add_mod, h]; cases c <;> simp
      · rw [Nat.add_mod, h]; cases c <;> simp
  have : ((fun i => (i + 1).testBit 1 != c) ∘ fun u => 2 * u + o) = fun u => u.testBit 0 != d := funext hd
  rw [this, blocks_alternating]

theorem half_pow (k : Nat) (hk : 1 ≤ k) : 2 ^ k = 2 * 2 ^ (k - 1) := by
  obtain ⟨k', rfl⟩ : ∃ k', k = k' + 1 := ⟨k - 1, by omega⟩
  rw [Nat.add_sub_cancel, pow_succ]; ring

/-- A result of the runs test with known numbers. -/
theorem view_half (hw : 8 ≤ w) (s : Stream (BitVec w)) (j : Nat) (c : Bool) (q : Nat) (h : CounterView s j c q) (k : Nat) (hk10 : 10 ≤ k) (hk : k < 64)
    (hjk : j < k) : ∃ (H m r : ℝ) (rn : Nat), H = ((2 ^ (k - 1) : ℕ) : ℝ) ∧ m = ((skipped w q k : ℕ) : ℝ) ∧ r = rn ∧ keptRuns w j c q k ≤ rn ∧
      rn ≤ keptRuns w j c q k + 1 ∧ 512 ≤ H ∧ 0 ≤ m ∧ m ≤ H / 64 ∧
      runsTest (BitVec.ofNat 64 (2 ^ k)) s = .ok [⟨"", 
          let μ : ℝ := 2 * H * (H - m) / (H + (H - m)) + 1
          let z : ℝ := (r - μ) / Real.sqrt ((μ - 1) * (μ - 2) / (H + (H - m)))
          some ⟨.zScore, z, (gaussianReal 0 1).real {x | |z| ≤ |x|}, H + (H - m)⟩⟩] := by
  obtain ⟨a, b, r, ha, hab, hr1, hr2, -, hrun⟩ := view_runs (by omega) s j c q h k hk
  rw [count_testBit k j hjk c] at ha
  have e := half_pow k (by omega)
  have h512 : 2 ^ 9 ≤ 2 ^ (k - 1) := Nat.pow_le_pow_right (by norm_num) (by omega)
  have hH : (512 : ℝ) ≤ ((2 ^ (k - 1) : ℕ) : ℝ) := by exact_mod_cast (show 512 ≤ 2 ^ (k - 1) by omega)
  have hm := skipped_real w q k 8 h.hq (by omega) hw
  have hm64 : ((skipped w q k : ℕ) : ℝ) ≤ ((2 ^ (k - 1) : ℕ) : ℝ) / 64 := by norm_num at hm ⊢; norm_num at hH; linarith
  have hb : (b : ℝ) = ((2 ^ (k - 1) : ℕ) : ℝ) - ((skipped w q k : ℕ) : ℝ) := by
    have : b + skipped w q k = 2 ^ (k - 1) := by omega
    have h2 : (b : ℝ) + ((skipped w q k : ℕ) : ℝ) = ((2 ^ (k - 1) : ℕ) : ℝ) := by exact_mod_cast this
    linarith
  have hbpos : (0 : ℝ) < b := by rw [hb]; linarith
  have hbn : 0 < b := by exact_mod_cast hbpos
  refine ⟨((2 ^ (k - 1) : ℕ) : ℝ), ((skipped w q k : ℕ) : ℝ), r, r, rfl, rfl, rfl, hr1, hr2, hH, by positivity, hm64, ?_⟩
  rw [hrun, if_neg (by omega), ← hb, ← ha]

theorem view_rejects (hw : 8 ≤ w) (s : Stream (BitVec w)) (j : Nat) (c : Bool) (q : Nat) (h : CounterView s j c q) (k : Nat) (hk10 : 10 ≤ k) (hk : k < 64)
    (hjk : j < k) (hj1 : j ≠ 1) : RunsRejects (BitVec.ofNat 64 (2 ^ k)) s := by
  obtain ⟨H, m, r, rn, hH, hm, hr, h1, h2, h512, hm0, hm64, hrun⟩ := view_half hw s j c q h k hk10 hk hjk
  refine ⟨_, hrun, normal_reject _ ?_⟩
  have hcase : r ≤ 2 + H / 2 ∨ 3 / 2 * H ≤ r := by
    have e := half_pow k (by omega)
    by_cases h0 : j = 0
    · right
      subst h0
      have h3 := keptRuns_ge_zero w c q k
      have h4 : ((2 ^ k : ℕ) : ℝ) ≤ rn + 2 * ((skipped w q k : ℕ) : ℝ) := by exact_mod_cast h3.trans (Nat.add_le_add_right h1 _)
      rw [e] at h4
      rw [← hm, Nat.cast_mul, ← hH, ← hr] at h4
      norm_num at h4
      linarith
    · left
      have h3 := keptRuns_le w j c q k
      have h4 : 2 ^ k / 2 ^ j ≤ 2 ^ k / 2 ^ 2 := Nat.div_le_div_left (Nat.pow_le_pow_right (by norm_num) (by omega)) (by norm_num)
      have h5 : 2 * (2 ^ k / 2 ^ 2) ≤ 2 ^ (k - 1) := by omega
      have h6 : rn ≤ 2 + 2 ^ k / 2 ^ 2 := by omega
      have h7 : (rn : ℝ) ≤ 2 + ((2 ^ k / 2 ^ 2 : ℕ) : ℝ) := by exact_mod_cast h6
      have h8 : 2 * ((2 ^ k / 2 ^ 2 : ℕ) : ℝ) ≤ H := by rw [hH]; exact_mod_cast h5
      rw [hr]; linarith
  obtain ⟨g1, g2⟩ := runs_num_reject H m r h512 hm0 hm64 hcase
  exact z_large _ _ g2 g1

theorem view_accepts (hw : 16 ≤ w) (s : Stream (BitVec w)) (c : Bool) (q : Nat) (h : CounterView s 1 c q) (k : Nat) (hk10 : 10 ≤ k) (hk : k ≤ 25) :
    ∃ z d : ℝ, |z| ≤ 6 ∧ runsTest (BitVec.ofNat 64 (2 ^ k)) s = .ok [⟨"", some ⟨.zScore, z, (gaussianReal 0 1).real {x | |z| ≤ |x|}, d⟩⟩] := by
  obtain ⟨H, m, r, rn, hH, hm, hr, h1, h2, h512, hm0, hm64, hrun⟩ := view_half (by omega) s 1 c q h k hk10 (by omega) (by omega)
  refine ⟨_, _, ?_, hrun⟩
  have hq0 := h.bit 0 (by omega) (by norm_num)
  have h3 := keptRuns_ge_one w (by omega) c q k (by omega) hq0
  have h4 := keptRuns_le w 1 c q k
  have e := half_pow k (by omega)
  have h5 : rn ≤ 2 + 2 ^ (k - 1) := by omega
  have h6 : 2 ^ (k - 1) ≤ rn := by omega
  have hmm := skipped_real w q k 16 h.hq (by omega) hw
  rw [← hH, ← hm] at hmm
  have hH2 : H ≤ 2 ^ 24 := by
    rw [hH]
    exact_mod_cast Nat.pow_le_pow_right (by norm_num) (by omega : k - 1 ≤ 24)
  obtain ⟨g1, g2⟩ := runs_num_accept H m r h512 hH2 hm0 (by norm_num at hmm ⊢; linarith) (by rw [hH, hr]; exact_mod_cast h6)
    (by rw [hH, hr]; exact_mod_cast h5)
  exact z_small _ _ g2 g1

theorem view_narrow (s : Stream (BitVec 8)) (c : Bool) (q : Nat) (h : CounterView s 1 c q) : RunsRejects (BitVec.ofNat 64 (2 ^ 25)) s := by
  obtain ⟨H, m, r, rn, hH, hm, hr, h1, h2, h512, hm0, hm64, hrun⟩ := view_half le_rfl s 1 c q h 25 (by norm_num) (by norm_num) (by norm_num)
  refine ⟨_, hrun, normal_reject _ ?_⟩
  have hq0 := h.bit 0 (by omega) (by norm_num)
  have h3 := keptRuns_ge_one 8 (by omega) c q 25 (by omega) hq0
  have h4 := (skipped_le 8 q 25 h.hq).2 (by norm_num)
  rw [h4] at hm
  obtain ⟨g1, g2⟩ := runs_num_narrow H m r (by rw [hH]; norm_num) (by rw [hm, hH]; norm_num) (by rw [hH, hr]; exact_mod_cast h3.trans h1)
  exact z_large _ _ g2 g1

theorem view_first (s : Stream (BitVec w)) (j : Nat) (c : Bool) (q : Nat) (h : CounterView s j c q) (hj2 : 2 ≤ j) : s.nth 0 ≠ BitVec.intMax w := by
  intro h0
  have hj := h.hj
  have h1 := (h.skip 0).1 h0
  rw [zero_add, Nat.mod_eq_of_lt (Nat.one_lt_two_pow (by omega))] at h1
  have h2 := h.bit 0 (by omega) (by omega)
  have h3 := h.bit 1 (by omega) (by omega)
  rw [← h1] at h2 h3
  cases c
  · revert h3; decide
  · revert h2; decide

/-- The runs test has no result. -/
def RunsSilent (n : BitVec 64) (s : Stream (BitVec w)) : Prop := runsTest n s = .ok [⟨"", none⟩]

theorem runs_num_lone (B r : ℝ) (hB : 1000 ≤ B) (hr : r ≤ 2) :
    let μ := 2 * B / (1 + B) + 1
    6.2 ^ 2 * ((μ - 1) * (μ - 2) / (1 + B)) ≤ (r - μ) ^ 2 ∧ 0 < (μ - 1) * (μ - 2) / (1 + B) := by
  intro μ
  have e : μ = 3 - 2 / (1 + B) := by
    show 2 * B / (1 + B) + 1 = _
    field_simp
    ring
  have hd : 2 / (1 + B) ≤ 1 / 500 := by
    rw [div_le_div_iff₀ (by linarith) (by norm_num)]; linarith
  have hd0 : 0 < 2 / (1 + B) := by positivity
  clear_value μ
  have hv : (μ - 1) * (μ - 2) / (1 + B) = (μ - 1) * (μ - 2) * (2 / (1 + B)) / 2 := by ring
  rw [hv]
  generalize 2 / (1 + B) = d at *
  subst e
  constructor
  · have h1 : (99 / 100 : ℝ) ^ 2 ≤ (r - (3 - d)) ^ 2 := by
      rw [sq_le_sq, abs_of_nonneg (by norm_num), abs_of_nonpos (by linarith)]
      linarith
    have h2 : (3 - d - 1) * (3 - d - 2) ≤ 2 := by nlinarith
    have h3 : (3 - d - 1) * (3 - d - 2) * d ≤ 2 * (1 / 500) := mul_le_mul h2 hd hd0.le (by norm_num)
    norm_num at h1 ⊢
    linarith
  · have : 0 < (3 - d - 1) * (3 - d - 2) := mul_pos (by linarith) (by linarith)
    positivity

theorem view_far (hw : 8 ≤ w) (s : Stream (BitVec w)) (j : Nat) (c : Bool) (q : Nat) (h : CounterView s j c q) (hj : 25 ≤ j) :
    RunsRejects (BitVec.ofNat 64 (2 ^ 25)) s ∨ RunsSilent (BitVec.ofNat 64 (2 ^ 25)) s := by
  obtain ⟨a, b, r, ha, hab, hr1, hr2, hr3, hrun⟩ := view_runs (by omega) s j c q h 25 (by norm_num)
  -- only the last value can have this bit
  have hbit : ∀ i ∈ List.range (2 ^ 25), (i + 1).testBit j = true → decide (i = 2 ^ 25 - 1) = true := by
    intro i hi hb
    rw [List.mem_range] at hi
    rw [decide_eq_true_eq]
    by_contra hne
    have hlt : i + 1 < 2 ^ j := lt_of_lt_of_le (by omega : i + 1 < 2 ^ 25) (Nat.pow_le_pow_right (by norm_num) hj)
    rw [Nat.testBit_lt_two_pow hlt] at hb
    cases hb
  have hone : (List.range (2 ^ 25)).countP (fun i => (i + 1).testBit j) ≤ 1 := by
    refine (List.countP_mono_left hbit).trans ?_
    have h2 := List.nodup_iff_count_le_one.1 (List.nodup_range (n := 2 ^ 25)) (2 ^ 25 - 1)
    rw [List.count] at h2
    refine le_trans (le_of_eq ?_) h2
    apply List.countP_congr
    intro i _
    simp
  have hm := (skipped_le w q 25 h.hq).1
  have hw25 : 25 < w := by have := h.hj; omega
  have hdiv : 2 ^ 25 / 2 ^ w = 0 := Nat.div_eq_of_lt (Nat.pow_lt_pow_right (by norm_num) hw25)
  rw [hdiv] at hm
  have hblocks := keptRuns_le w j c q 25
  have hdiv2 : 2 ^ 25 / 2 ^ j ≤ 1 := by
    calc 2 ^ 25 / 2 ^ j ≤ 2 ^ 25 / 2 ^ 25 := Nat.div_le_div_left (Nat.pow_le_pow_right (by norm_num) hj) (by positivity)
      _ = 1 := Nat.div_self (by positivity)
  by_cases hnone : a = 0 ∨ b = 0 ∨ (a = 1 ∧ b = 1)
  · right
    rw [if_pos hnone] at hrun
    exact hrun
  · left
    rw [if_neg hnone] at hrun
    refine ⟨_, hrun, normal_reject _ ?_⟩
    have hreq : r = keptRuns w j c q 25 := by
      by_contra hne
      exact view_first s j c q h (by omega) (hr3 hne (by omega)).1
    have hr : (r : ℝ) ≤ 2 := by exact_mod_cast (by omega : r ≤ 2)
    have hcase : (a = 1 ∧ 1000 ≤ b) ∨ (b = 1 ∧ 1000 ≤ a) := by
      cases c
      · left
        have : (List.range (2 ^ 25)).countP (fun i => (i + 1).testBit j != false) = (List.range (2 ^ 25)).countP (fun i => (i + 1).testBit j) :=
          List.countP_congr fun i _ => by simp
        omega
      · right
        have h2 := List.length_eq_countP_add_countP (fun i => (i + 1).testBit j) (l := List.range (2 ^ 25))
        have : (List.range (2 ^ 25)).countP (fun i => (i + 1).testBit j != true) =
            (List.range (2 ^ 25)).countP (fun i => decide ¬ (i + 1).testBit j = true) :=
          List.countP_congr fun i _ => by simp
        rw [List.length_range] at h2
        omega
    rcases hcase with ⟨h1, h2⟩ | ⟨h1, h2⟩
    · obtain ⟨g1, g2⟩ := runs_num_lone b r (by exact_mod_cast h2) hr
      rw [h1]
      push_cast
      rw [mul_one]
      exact z_large _ _ g2 g1
    · obtain ⟨g1, g2⟩ := runs_num_lone a r (by exact_mod_cast h2) hr
      rw [h1]
      push_cast
      rw [mul_one, add_comm (a : ℝ) 1]
      exact z_large _ _ g2 g1

/-- A stream whose top bit never changes has no runs to count. -/
theorem stuck_silent (hw : 0 < w) (n : BitVec 64) (s : Stream (BitVec w)) (bit : Bool) (h : ∀ i, (s.nth i).msb = bit) : RunsSilent n s := by
  obtain ⟨a, b, r, ha, hb, -, hrun⟩ := C80_runs hw n s
  unfold RunsSilent
  rw [hrun, if_pos]
  cases bit
  · left
    rw [ha, List.countP_eq_zero]
    intro v hv
    rw [Stream.take_eq_map] at hv
    obtain ⟨i, -, rfl⟩ := List.mem_map.1 hv
    rw [h i]; simp
  · right; left
    rw [hb, List.countP_eq_zero]
    intro v hv
    rw [Stream.take_eq_map] at hv
    obtain ⟨i, -, rfl⟩ := List.mem_map.1 hv
    have := h i
    rw [BitVec.msb_eq_decide, decide_eq_true_eq] at this
    simp only [decide_eq_true_eq]
    omega

/-! ### The sources -/

/-- The bit of a value that a rotation, reversal or complement puts on place `p`. -/
def fromBit (w rot : Nat) : RrcType → Nat → Nat
  | .identity, p => (p + rot) % w
  | .complement, p => (p + rot) % w
  | .reverse, p => w - 1 - (p + rot) % w
  | .reverseComplement, p => w - 1 - (p + rot) % w

def complements : RrcType → Bool
  | .identity => false
  | .reverse => false
  | .complement => true
  | .reverseComplement => true

theorem permute_bit (t : WT) (x : BitVec t.bits) (rot : Nat) (ty : RrcType) (p : Nat) (hp : p < t.bits) :
    (permute t x rot ty).getLsbD p = (x.getLsbD (fromBit t.bits rot ty p) != complements ty) := by
  obtain ⟨h1, h2, h3, h4⟩ := C10_permute_bit t x rot p hp
  cases ty <;> simp [fromBit, complements, h1, h2, h3, h4]

theorem fromBit_lt (w rot : Nat) (hw : 0 < w) (ty : RrcType) (p : Nat) : fromBit w rot ty p < w := by
  have := Nat.mod_lt (p + rot) hw
  cases ty <;> simp only [fromBit] <;> omega

theorem fromBit_onto (w rot : Nat) (hrot : rot < w) (ty : RrcType) (l : Nat) (hl : l < w) : ∃ p < w, fromBit w rot ty p = l := by
  have gen : ∀ l < w, ∃ p < w, (p + rot) % w = l := by
    intro l hl
    by_cases h : rot ≤ l
    · exact ⟨l - rot, by omega, by rw [Nat.sub_add_cancel h, Nat.mod_eq_of_lt hl]⟩
    · refine ⟨l + w - rot, by omega, ?_⟩
      rw [show l + w - rot + rot = l + w by omega, Nat.add_mod_right, Nat.mod_eq_of_lt hl]
  cases ty <;> simp only [fromBit]
  · exact gen l hl
  · obtain ⟨p, h1, h2⟩ := gen (w - 1 - l) (by omega)
    exact ⟨p, h1, by omega⟩
  · exact gen l hl
  · obtain ⟨p, h1, h2⟩ := gen (w - 1 - l) (by omega)
    exact ⟨p, h1, by omega⟩

theorem counter_view (t : WT) (ty : RrcType) (rot : Nat) (hrot : rot < t.bits) :
    ∃ q, CounterView (mixerStream (addRrc t (counterStream t.bits 1 0) rot ty) ⟨"identity", fun x => x⟩)
      (fromBit t.bits rot ty (t.bits - 1)) (complements ty) q := by
  have hw8 : 8 ≤ t.bits := by cases t <;> decide
  have hnth : ∀ i, (mixerStream (addRrc t (counterStream t.bits 1 0) rot ty) ⟨"identity", fun x => x⟩).nth i =
      permute t (BitVec.ofNat t.bits (i + 1)) rot ty := fun i => mixed_nth t ⟨"identity", fun x => x⟩ ty rot i
  obtain ⟨hinj, hsurj⟩ := C10_permute_bijective t rot ty
  obtain ⟨x, hx⟩ := hsurj (BitVec.intMax t.bits)
  have hx : permute t x rot ty = BitVec.intMax t.bits := hx
  have hmaxbit : ∀ p < t.bits, (BitVec.intMax t.bits).getLsbD p = decide (p ≠ t.bits - 1) := by
    intro p hp
    unfold BitVec.getLsbD
    rw [BitVec.toNat_intMax, Nat.testBit_two_pow_sub_one]
    apply decide_eq_decide.2
    omega
  refine ⟨x.toNat, fun i => ?_, fun i => ?_, fromBit_lt _ _ (by omega) _ _, x.isLt, fun l hl hne => ?_⟩
  · rw [hnth i, BitVec.msb_eq_getLsbD_last, permute_bit t _ rot ty _ (by omega), BitVec.getLsbD_ofNat]
    simp [fromBit_lt t.bits rot (by omega) ty (t.bits - 1)]
  · rw [hnth i, ← hx]
    constructor
    · intro h
      have := hinj h
      rw [← this, BitVec.toNat_ofNat]
    · intro h
      apply congrArg fun v => permute t v rot ty
      apply BitVec.eq_of_toNat_eq
      rw [BitVec.toNat_ofNat, h]
  · obtain ⟨p, hp, rfl⟩ := fromBit_onto t.bits rot hrot ty l hl
    have h1 := permute_bit t x rot ty p hp
    rw [hx, hmaxbit p hp] at h1
    have hpne : p ≠ t.bits - 1 := fun e => hne (by rw [e])
    show x.getLsbD _ = _
    rw [decide_eq_true hpne] at h1
    revert h1
    generalize x.getLsbD (fromBit t.bits rot ty p) = y
    generalize complements ty = c
    cases y <;> cases c <;> simp

/-! ### The batteries -/

theorem runs_not_accepted (t : WT) (hw : BitVec 32) (eval : TestRow → Stream (BitVec t.bits) → BitVec 64 → Battery ℝ) (h : SelfCheckRuns t hw eval)
    (s : Stream (BitVec t.bits))
    (hs : (∃ k, 10 ≤ k ∧ k ≤ 25 ∧ RunsRejects (BitVec.ofNat 64 (2 ^ k)) (mixerStream s ⟨"identity", fun x => x⟩)) ∨
      RunsSilent (BitVec.ofNat 64 (2 ^ 25)) (mixerStream s ⟨"identity", fun x => x⟩)) :
    ¬ Accepted fun k => eval ⟨.runs, true, false, .none, "runs"⟩ s (BitVec.ofNat 64 (2 ^ k)) := by
  have hth := defaultMaxThreads_pos hw
  rcases hs with ⟨k, h1, h2, st, hst, hp⟩ | hs
  · refine not_accepted _ k h1 h2 ?_
    obtain ⟨g1, r, g2, g3⟩ := battery_failing chi2DistributionCdf .runs _ (inspectSetup (defaultMaxThreads hw) ⟨.runs, true, false, .none, "runs"⟩ s)
      (by show 0 < defaultMaxThreads hw; omega) _ (h _ s k h1 h2) List.mem_cons_self s List.mem_cons_self _ rfl [⟨"", some st⟩]
      (by show some (runsTest (BitVec.ofNat 64 (2 ^ k)) (mixerStream s ⟨"identity", fun x => x⟩)) = _; rw [hst]) "" st List.mem_cons_self hp
    exact fun hb => absurd ((hb _ g1).1 r g2) (not_lt.2 g3)
  · rintro ⟨-, hne⟩
    apply hne
    refine keys_nil_of hw _ s _ _ (h _ s 25 (by norm_num) le_rfl) ?_ ?_
    · intro f hf x hx
      obtain rfl := Option.some.inj hf
      have e : x ∈ TestRun.value (some (runsTest (BitVec.ofNat 64 (2 ^ 25)) (mixerStream s ⟨"identity", fun x => x⟩))) := hx
      rw [hs] at e
      rw [List.mem_singleton.1 e]
    · intro f hf; cases hf

/-- A battery of the runs test with its one result. -/
theorem runs_battery (t : WT) (hw : BitVec 32) (s : Stream (BitVec t.bits)) (n : BitVec 64) (b : Battery ℝ)
    (hb : EvaluateOutcome (suiteDef chi2DistributionCdf) n (inspectSetup (defaultMaxThreads hw) ⟨.runs, true, false, .none, "runs"⟩ s) b)
    (z d : ℝ) (hz : |z| ≤ 6) (hrun : runsTest n (mixerStream s ⟨"identity", fun x => x⟩) =
      .ok [⟨"", some ⟨.zScore, z, (gaussianReal 0 1).real {x | |z| ≤ |x|}, d⟩⟩]) : keys b ≠ [] ∧ BatteryPasses b := by
  have hth := defaultMaxThreads_pos hw
  obtain ⟨-, -, -, -, hp⟩ := C35_schedule_independent _ n _ (by show 0 < defaultMaxThreads hw; omega) b hb
  have hwf := evaluate_wf _ _ _ _ hb
  set st : Statistic ℝ := ⟨.zScore, z, (gaussianReal 0 1).real {x | |z| ≤ |x|}, d⟩ with hst
  have hex : expectedResults (suiteDef chi2DistributionCdf) n (inspectSetup (defaultMaxThreads hw) ⟨.runs, true, false, .none, "runs"⟩ s) =
      [⟨(mixerStream s ⟨"identity", fun x => x⟩).name, "runs", n, ⟨.runs, ""⟩, st⟩] := by
    have e : expectedResults (suiteDef chi2DistributionCdf) n (inspectSetup (defaultMaxThreads hw) ⟨.runs, true, false, .none, "runs"⟩ s) =
      (TestRun.value (some (runsTest n (mixerStream s ⟨"identity", fun x => x⟩)))).filterMap fun sub => sub.stats.map fun stat =>
          (⟨(mixerStream s ⟨"identity", fun x => x⟩).name, "runs", n, ⟨.runs, sub.name⟩, stat⟩ : TestResult ℝ) := by
      unfold expectedResults inspectSetup defaultSetup
      simp only [List.flatMap_cons, List.flatMap_nil, List.append_nil]
      rfl
    rw [e, hrun]
    rfl
  rw [hex] at hp
  have hp01 : 0 ≤ st.pValue ∧ st.pValue ≤ 1 := ⟨MeasureTheory.measureReal_nonneg, MeasureTheory.measureReal_le_one⟩
  constructor
  · intro h
    have h1 : (⟨.runs, ""⟩ : TestKey) ∈ keys b := by
      rw [mem_keys b hwf]
      intro h2
      have := hp ⟨.runs, ""⟩
      rw [h2] at this
      simpa using this.length_eq
    rw [h] at h1; cases h1
  · intro key hkey
    have hne := (mem_keys b hwf key).1 hkey
    have hpk := hp key
    have hstats : ∀ r ∈ b.get key, r.stats = st := by
      intro r hr
      have := (List.mem_filter.1 (hpk.mem_iff.1 hr)).1
      rw [List.mem_singleton.1 this]
    have hlen : (b.get key).length ≤ 1 := by
      rw [hpk.length_eq]
      exact (List.length_filter_le _ _).trans (by simp)
    have hc : comparableP st = (gaussianReal 0 1).real {x | |z| ≤ |x|} := rfl
    refine ⟨fun r hr => ?_, ?_⟩
    · rw [hstats r hr, hc]; exact normal_accept z hz
    · have h5 := C113_few ((b.get key).map fun r => r.stats.pValue) (by simpa using hne) (by
        intro d hd
        obtain ⟨r, hr, rfl⟩ := List.mem_map.1 hd
        rw [hstats r hr]; exact hp01) (by rw [List.length_map]; omega)
      have h6 := (C66_classes (metaStat (b.get key)) ((min_le_left _ _).trans (clamp01_mem _).2)).1.1 h5
      exact h6

/-! ### C126 -/

/-- The rotation after which bit 1 of a value is its top bit. -/
def Spec.secondBitOnTop (w : Nat) : RrcType → Nat
  | .identity => 2
  | .complement => 2
  | .reverse => w - 1
  | .reverseComplement => w - 1

theorem fromBit_one (w rot : Nat) (hw : 8 ≤ w) (hrot : rot < w) (ty : RrcType) : fromBit w rot ty (w - 1) = 1 ↔ rot = secondBitOnTop w ty := by
  have e : (w - 1 + rot) % w = if rot = 0 then w - 1 else rot - 1 := by
    split
    · subst_vars; rw [add_zero, Nat.mod_eq_of_lt (by omega)]
    · rw [show w - 1 + rot = rot - 1 + w by omega, Nat.add_mod_right, Nat.mod_eq_of_lt (by omega)]
  cases ty <;> simp only [fromBit, secondBitOnTop, e] <;> split <;> omega

/-- Of the constants and the counter, with bits rotated, reversed and complemented, the runs test accepts exactly the four in which bit 1
of the counter is on top (`0, 0, 1, 1, 0, 0, ...` has about as many runs as random bits have).  With bytes it rejects them too, because there
the skipped value is common. -/
theorem runs_accepts (t : WT) (hw : BitVec 32) (eval : TestRow → Stream (BitVec t.bits) → BitVec 64 → Battery ℝ) (h : SelfCheckRuns t hw eval) :
    (∀ ty rot, rot < t.bits → ((Accepted fun k => eval ⟨.runs, true, false, .none, "runs"⟩ (addRrc t (counterStream t.bits 1 0) rot ty)
      (BitVec.ofNat 64 (2 ^ k))) ↔ t ≠ .u8 ∧ rot = secondBitOnTop t.bits ty)) ∧
    ∀ ty rot c, rot < t.bits → ¬ Accepted fun k => eval ⟨.runs, true, false, .none, "runs"⟩ (addRrc t (constantStream c) rot ty)
      (BitVec.ofNat 64 (2 ^ k)) := by
  have hw8 : 8 ≤ t.bits := by cases t <;> decide
  constructor
  · intro ty rot hrot
    obtain ⟨q, hv⟩ := counter_view t ty rot hrot
    have hone := fromBit_one t.bits rot hw8 hrot ty
    generalize fromBit t.bits rot ty (t.bits - 1) = j at hv hone
    generalize complements ty = c at hv
    constructor
    · intro hacc
      by_cases hj : j = 1
      · refine ⟨fun ht => ?_, hone.1 hj⟩
        subst ht
        subst hj
        exact runs_not_accepted .u8 hw eval h _ (Or.inl ⟨25, by norm_num, le_rfl, view_narrow _ c q hv⟩) hacc
      · exfalso
        by_cases hj25 : 25 ≤ j
        · rcases view_far hw8 _ j c q hv hj25 with hr | hr
          · exact runs_not_accepted t hw eval h _ (Or.inl ⟨25, by norm_num, le_rfl, hr⟩) hacc
          · exact runs_not_accepted t hw eval h _ (Or.inr hr) hacc
        · exact runs_not_accepted t hw eval h _ (Or.inl ⟨25, by norm_num, le_rfl, view_rejects hw8 _ j c q hv 25 (by norm_num) (by norm_num) (by omega) hj⟩)
            hacc
    · rintro ⟨ht, hrot2⟩
      have hj := hone.2 hrot2
      subst hj
      have hw16 : 16 ≤ t.bits := by
        cases t
        · exact absurd rfl ht
        all_goals decide
      have hb : ∀ k, 10 ≤ k → k ≤ 25 → keys (eval ⟨.runs, true, false, .none, "runs"⟩ (addRrc t (counterStream t.bits 1 0) rot ty)
          (BitVec.ofNat 64 (2 ^ k))) ≠ [] ∧ BatteryPasses (eval ⟨.runs, true, false, .none, "runs"⟩ (addRrc t (counterStream t.bits 1 0) rot ty)
          (BitVec.ofNat 64 (2 ^ k))) := fun k h1 h2 => by
        obtain ⟨z, d, hz, hrun⟩ := view_accepts hw16 _ c q hv k h1 h2
        exact runs_battery t hw _ _ _ (h _ (addRrc t (counterStream t.bits 1 0) rot ty) k h1 h2) z d hz hrun
      exact ⟨fun k h1 h2 => (hb k h1 h2).2, (hb 25 (by norm_num) le_rfl).1⟩
  · intro ty rot c hrot
    refine runs_not_accepted t hw eval h _ (Or.inr (stuck_silent (by omega) _ _ (permute t c rot ty).msb fun i => ?_))
    rw [C31_mixer]
    unfold addRrc
    rw [Stream.nth_mapS, constantStream_nth]

theorem filter_range_map {α : Type 1} (n r0 : Nat) (h0 : r0 < n) (f : Nat → α) (p : α → Bool) (hp : ∀ r < n, (p (f r) = true ↔ r = r0)) :
    ((List.range n).map f).filter p = [f r0] := by
  rw [List.filter_map]
  have h1 : (List.range n).filter (p ∘ f) = (List.range n).filter (fun r => decide (r = r0)) := by
    apply List.filter_congr
    intro r hr
    rw [Bool.eq_iff_iff]
    simpa using hp r (List.mem_range.1 hr)
  have h2 : (List.range n).filter (fun r => decide (r = r0)) = [r0] := by
    have h3 := List.filter_eq (l := List.range n) r0
    rw [List.count_eq_one_of_mem List.nodup_range (List.mem_range.2 h0)] at h3
    refine Eq.trans ?_ h3
    apply List.filter_congr
    intro r _
    simp [eq_comm]
  rw [h1, h2]; rfl

open Classical in
/-- C126. The sources of the self-check that the runs test accepts, in their order: one of each kind, or none with bytes. -/
theorem C126_runs_accepted (t : WT) (hw : BitVec 32) (eval : TestRow → Stream (BitVec t.bits) → BitVec 64 → Battery ℝ) (h : SelfCheckRuns t hw eval)
    (sources : List (Stream (BitVec t.bits))) (hs : createFailSources t = .ok sources) :
    (createRrcSources t sources).filter (fun s => decide (Accepted fun k => eval ⟨.runs, true, false, .none, "runs"⟩ s (BitVec.ofNat 64 (2 ^ k)))) =
      if t = .u8 then []
      else [addRrc t (counterStream t.bits 1 0) 2 .identity, addRrc t (counterStream t.bits 1 0) (t.bits - 1) .reverse,
        addRrc t (counterStream t.bits 1 0) 2 .complement, addRrc t (counterStream t.bits 1 0) (t.bits - 1) .reverseComplement] := by
  have hw8 : 8 ≤ t.bits := by cases t <;> decide
  obtain ⟨h1, h2⟩ := runs_accepts t hw eval h
  obtain ⟨c, hc⟩ : ∃ c, sources = [constantStream (BitVec.ofNat t.bits 0), constantStream (BitVec.ofNat t.bits 1), constantStream c,
      counterStream t.bits 1 0] := by
    unfold createFailSources at hs
    split at hs
    · cases hs
    · exact ⟨_, (Except.ok.inj hs).symm⟩
  set p : Stream (BitVec t.bits) → Bool :=
    fun s => decide (Accepted fun k => eval ⟨.runs, true, false, .none, "runs"⟩ s (BitVec.ofNat 64 (2 ^ k))) with hp
  have hconst : ∀ c, (rrcTypes.flatMap fun ty => (List.range t.bits).map fun rot => addRrc t (constantStream c) rot ty).filter p = [] := by
    intro c
    rw [List.filter_eq_nil_iff]
    intro s hs
    obtain ⟨ty, -, hs⟩ := List.mem_flatMap.1 hs
    obtain ⟨rot, hrot, rfl⟩ := List.mem_map.1 hs
    rw [hp]
    simpa using h2 ty rot c (List.mem_range.1 hrot)
  have e : (createRrcSources t sources).filter p =
      (rrcTypes.flatMap fun ty => (List.range t.bits).map fun rot => addRrc t (counterStream t.bits 1 0) rot ty).filter p := by
    unfold createRrcSources
    rw [hc, List.flatMap_cons, List.flatMap_cons, List.flatMap_cons, List.flatMap_cons, List.flatMap_nil, List.append_nil, List.filter_append,
      List.filter_append, List.filter_append, hconst, hconst, hconst]
    rfl
  rw [e]
  by_cases ht : t = .u8
  · rw [if_pos ht, List.filter_eq_nil_iff]
    intro s hs
    obtain ⟨ty, -, hs⟩ := List.mem_flatMap.1 hs
    obtain ⟨rot, hrot, rfl⟩ := List.mem_map.1 hs
    rw [hp]
    simp only [decide_eq_true_eq]
    exact fun hacc => ((h1 ty rot (List.mem_range.1 hrot)).1 hacc).1 ht
  · rw [if_neg ht]
    have hty : ∀ ty, ((List.range t.bits).map fun rot => addRrc t (counterStream t.bits 1 0) rot ty).filter p =
        [addRrc t (counterStream t.bits 1 0) (secondBitOnTop t.bits ty) ty] := by
      intro ty
      refine filter_range_map t.bits (secondBitOnTop t.bits ty) (by cases ty <;> simp only [secondBitOnTop] <;> omega)
        (fun rot => addRrc t (counterStream t.bits 1 0) rot ty) p fun r hr => ?_
      rw [hp]
      simp only [decide_eq_true_eq]
      rw [h1 ty r hr]
      exact ⟨fun h => h.2, fun h => ⟨ht, h⟩⟩
    unfold rrcTypes
    rw [List.flatMap_cons, List.flatMap_cons, List.flatMap_cons, List.flatMap_cons, List.flatMap_nil, List.append_nil, List.filter_append,
      List.filter_append, List.filter_append, hty, hty, hty, hty]
    rfl

/-- C126. So the self-check prints `PASS` for the runs test: the four accepted sources are the four it allows. -/
theorem C126_runs (t : WT) (hw : BitVec 32) (analyse : Battery ℝ → List ResultAnalysis) (ha : Analyses analyse)
    (eval : TestRow → Stream (BitVec t.bits) → BitVec 64 → Battery ℝ) (h : SelfCheckRuns t hw eval) (sources : List (Stream (BitVec t.bits)))
    (hs : createFailSources t = .ok sources) (lines : List InspectLine) (hl : inspectTests t analyse eval sources false = .ok lines) :
    lines.filter (fun l => decide (lineTest l = "runs")) = [.pass "runs"] := by
  refine (lines_about t hw analyse ha eval h sources lines hl ⟨.runs, true, false, .none, "runs"⟩ (by decide)).trans ?_
  have e := C126_runs_accepted t hw eval h sources hs
  unfold shouldFailLines
  dsimp only
  rw [if_neg (by decide : ¬ TestType.runs = TestType.mean)]
  generalize hA : List.filter _ _ = A
  have hA2 : A.length = 0 ∨ A.length = 4 := by
    have e2 := hA.symm.trans e
    rw [e2]
    split
    · left; rfl
    · right; rfl
  rw [if_pos]
  rcases hA2 with h | h
  · exact Or.inl h
  · exact Or.inr ⟨rfl, h⟩

-- C126, non-vacuity: the sources exist for every size, and so do runs of the self-check on them.
example (t : WT) (hw : BitVec 32) (analyse : Battery ℝ → List ResultAnalysis) (ha : Analyses analyse) :
    ∃ sources eval lines, createFailSources t = .ok sources ∧ SelfCheckRuns t hw eval ∧ inspectTests t analyse eval sources false = .ok lines := by
  obtain ⟨c, s0, s1, s2, s3, hs, -⟩ := C97_fail_sources t
  choose f hf using fun (test : TestRow) (s : Stream (BitVec t.bits)) n =>
    C35_terminates (suiteDef chi2DistributionCdf) n (inspectSetup (defaultMaxThreads hw) test s)
  exact ⟨_, f, _, hs, fun test s k _ _ => hf test s _, (C97_inspect chi2DistributionCdf t hw analyse ha f (fun test s k _ _ => hf test s _) _).1⟩

end TFR
