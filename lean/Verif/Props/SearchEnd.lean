import Verif.Props.SearchScore
/-
C125: the end of the mixer search, tool/src/search/search_command.h:72-75.  The mixer found is evaluated once more and one battery is
printed; what is printed agrees with the score the search ended with.
-/
namespace TFR
open Spec

/-- Whether a battery passes depends neither on the schedule nor on the number of threads. -/
theorem batteryPasses_congr {w : Nat} (defs : TestType → TestDef w ℝ) (n : BitVec 64) (setup : TestSetup w) (t1 t2 : Nat) (h1 : 0 < t1)
    (h2 : 0 < t2) (b1 b2 : Battery ℝ) (hb1 : EvaluateOutcome defs n { setup with maxThreads := t1 } b1)
    (hb2 : EvaluateOutcome defs n { setup with maxThreads := t2 } b2) : BatteryPasses b1 ↔ BatteryPasses b2 := by
  have hperm := C35_thread_count_independent defs n setup t1 t2 h1 h2 b1 b2 hb1 hb2
  have hkeys := keys_eq_of_perm (evaluate_wf _ _ _ _ hb1) (evaluate_wf _ _ _ _ hb2) hperm
  unfold BatteryPasses
  rw [hkeys]
  refine forall_congr' fun k => imp_congr_right fun _ => and_congr ?_ ?_
  · exact forall_congr' fun r => by rw [(hperm k).mem_iff]
  · rw [show metaStat (b1.get k) = metaStat (b2.get k) from C60_order _ _ ((hperm k).map _)]

/-- The last evaluation of the search runs as `evaluate_multi_pass` can, with its own schedules and number of threads. -/
def Spec.PossibleLastRun {t : WT} (defs : TestType → TestDef t.bits ℝ) (threads : Nat) (eval : Mixer t.bits → BitVec 64 → Battery ℝ) : Prop :=
  0 < threads ∧ ∀ m, ∀ k : Nat, 10 ≤ k → k ≤ 25 →
    EvaluateOutcome defs (BitVec.ofNat 64 (2 ^ k)) (createMixerTestSetup t threads m) (eval m (BitVec.ofNat 64 (2 ^ k)))

/-- C125. After the search, for every result it can have and every run of the last evaluation, exactly one battery is printed: that of the mixer
found, at the first size `2^k`, `k = 10 .. 25`, at which it does not pass, or at `2^25`.  It agrees with the score of the search: the score is
between `25 - k` and `27 - k`, and it is exactly the score of the printed battery when one test is worse than all others. -/
theorem C125_search (t : WT) (ht : t ≠ .u16) (defs : TestType → TestDef t.bits ℝ) (analyse : Battery ℝ → List ResultAnalysis)
    (ha : Analyses analyse) (threads : Nat) (hth : 0 < threads) (eval : Mixer t.bits → BitVec 64 → Battery ℝ)
    (hposs : PossibleSearch defs threads eval) (draws : List (Nat → BitVec 64)) (hne : draws ≠ []) (tries : List BitVector)
    (htries : List.Forall₂ (fun d v => Sffs.randomBitVector (xm2xConfigBits t) d = .ok v) draws tries)
    (r : Sffs.SffsState ℝ) (hr : SearchCommand t threads analyse eval tries r)
    (threads' : Nat) (last : Mixer t.bits → BitVec 64 → Battery ℝ) (hlast : PossibleLastRun defs threads' last) :
    ∃ (m : Mixer t.bits) (k : Nat) (b : Battery ℝ), createXm2xMixer t r.data = .ok m ∧ 10 ≤ k ∧ k ≤ 25 ∧
      b = last m (BitVec.ofNat 64 (2 ^ k)) ∧ searchLastEvaluation t threads' analyse last r = .ok [b] ∧
      b.n = BitVec.ofNat 64 (2 ^ k) ∧ b.subject = "xm2x" ∧
      (∀ j, 10 ≤ j → j < k → BatteryPasses (last m (BitVec.ofNat 64 (2 ^ j)))) ∧ (k = 25 ∨ ¬ BatteryPasses b) ∧
      25 - (k : ℝ) ≤ r.score ∧ r.score ≤ 27 - (k : ℝ) ∧
      ((∀ a c, WorstKey b a → WorstKey b c → a = c) → getScore analyse b 25 = .ok r.score) := by
  obtain ⟨⟨m, hm, hs⟩, _, _⟩ := (C106_search t ht defs analyse ha threads hth eval hposs draws hne tries htries).2 r hr
  obtain ⟨hp, hu⟩ := hposs m
  obtain ⟨k, s, g1, g2, g3, g4, g5, g6, g7, g8⟩ := C105_fitness defs analyse ha (mixerFitnessSetup t threads m, eval m) hp hu
  obtain rfl : s = r.score := Except.ok.inj (g5.symm.trans hs)
  have g1' : 10 ≤ k := by have : (10 : ℤ) ≤ k := g1; exact_mod_cast this
  have g2' : k ≤ 25 := by have : (k : ℤ) ≤ 25 := g2; exact_mod_cast this
  obtain ⟨hth', hout'⟩ := hlast
  have hout : ∀ j : Nat, 10 ≤ j → j ≤ 25 → EvaluateOutcome defs (BitVec.ofNat 64 (2 ^ j))
      { mixerFitnessSetup t threads m with maxThreads := threads } (eval m (BitVec.ofNat 64 (2 ^ j))) := fun j h1 h2 =>
    (hp.2.2.2.2 j (by show (10 : ℤ) ≤ j; exact_mod_cast h1) (by show (j : ℤ) ≤ 25; exact_mod_cast h2)).1
  have hval : ∀ j : Nat, 10 ≤ j → j ≤ 25 → ∀ r ∈ expectedResults defs (BitVec.ofNat 64 (2 ^ j)) (mixerFitnessSetup t threads m),
      comparableP r.stats ≤ 1 := fun j h1 h2 =>
    (hp.2.2.2.2 j (by show (10 : ℤ) ≤ j; exact_mod_cast h1) (by show (j : ℤ) ≤ 25; exact_mod_cast h2)).2
  have houtL : ∀ j : Nat, 10 ≤ j → j ≤ 25 → EvaluateOutcome defs (BitVec.ofNat 64 (2 ^ j))
      { mixerFitnessSetup t threads m with maxThreads := threads' } (last m (BitVec.ofNat 64 (2 ^ j))) := fun j h1 h2 => hout' m j h1 h2
  have hsame : ∀ j : Nat, 10 ≤ j → j ≤ 25 →
      (BatteryPasses (eval m (BitVec.ofNat 64 (2 ^ j))) ↔ BatteryPasses (last m (BitVec.ofNat 64 (2 ^ j)))) := fun j h1 h2 =>
    batteryPasses_congr defs _ _ threads threads' hth hth' _ _ (hout j h1 h2) (houtL j h1 h2)
  have hpossL : PossibleRun defs ((createMixerTestSetup t threads' m, last m) : EvalRun t.bits) := by
    refine ⟨hth', by show (0 : ℤ) ≤ 10; norm_num, by show (10 : ℤ) ≤ 25; norm_num, by show (25 : ℤ) ≤ 63; norm_num, ?_⟩
    intro j h1 h2
    have h1' : 10 ≤ j := by have : (10 : ℤ) ≤ j := h1; exact_mod_cast this
    have h2' : j ≤ 25 := by have : (j : ℤ) ≤ 25 := h2; exact_mod_cast this
    exact ⟨hout' m j h1' h2', hval j h1' h2'⟩
  have hpass : ∀ j : Nat, 10 ≤ j → j ≤ 25 → (passes (worstPass analyse) (last m (BitVec.ofNat 64 (2 ^ j))) = true ↔
      BatteryPasses (last m (BitVec.ofNat 64 (2 ^ j)))) := by
    intro j h1 h2
    have := possible_valid hpossL j (by show (10 : ℤ) ≤ j; exact_mod_cast h1) (by show (j : ℤ) ≤ 25; exact_mod_cast h2)
    exact (worstPass_spec analyse ha _ this.1 this.2.1).2
  obtain ⟨i, hi, hb, hstop, he⟩ := C37_reported_once (last m) (worstPass analyse) false false emptyBattery 10 25 (by norm_num) (by norm_num)
  have hb' : ∀ j, 10 ≤ j → j < 10 + i → BatteryPasses (last m (BitVec.ofNat 64 (2 ^ j))) := by
    intro j h1 h2
    have h := hb (j - 10) (by omega)
    have e : 10 + (j - 10) = j := by omega
    simp only [e] at h
    exact (hpass j h1 (by omega)).1 h
  have hstop' : 10 + i = 25 ∨ ¬ BatteryPasses (last m (BitVec.ofNat 64 (2 ^ (10 + i)))) := by
    rcases hstop with h | h
    · exact Or.inl h
    · right
      intro hc
      have h' : passes (worstPass analyse) (last m (BitVec.ofNat 64 (2 ^ (10 + i)))) = false := h
      rw [(hpass (10 + i) (by omega) hi).2 hc] at h'
      cases h'
  have hki : k = 10 + i := by
    rcases lt_trichotomy k (10 + i) with h | h | h
    · exfalso
      rcases g4 with h' | h'
      · have : (k : ℤ) = 25 := h'
        omega
      · exact h' ((hsame k g1' g2').2 (hb' k g1' h))
    · exact h
    · exfalso
      rcases hstop' with h' | h'
      · omega
      · exact h' ((hsame (10 + i) (by omega) hi).1 (g3 (10 + i) (by show (10 : ℤ) ≤ ((10 + i : Nat) : ℤ); push_cast; omega) h))
  have hind := C35_schedule_independent defs _ (createMixerTestSetup t threads' m) hth' _ (hout' m k g1' g2')
  have hname : m.name = "xm2x" := by
    unfold createXm2xMixer at hm
    cases hc : toXm2x t r.data with
    | error f => rw [hc] at hm; cases hm
    | ok c =>
      rw [hc] at hm
      simp only [bind, Except.bind] at hm
      split at hm
      · rw [← Except.ok.inj hm]
      · cases hm
  have g7' : ((25 - k : Int) : ℝ) ≤ r.score := g7
  have g8' : r.score ≤ ((25 - k : Int) : ℝ) + 2 := g8
  push_cast at g7' g8'
  refine ⟨m, k, _, hm, g1', g2', rfl, ?_, hind.2.1, hind.1.trans hname, fun j h1 h2 => hb' j h1 (by omega), ?_, g7', by linarith, ?_⟩
  · unfold searchLastEvaluation
    rw [hm]
    show ((evaluateMultiPass (last m) (resultCallback (worstPass analyse) false false) emptyBattery 10 25 ⟨[], []⟩) >>= _) = _
    have he' : evaluateMultiPass (last m) (resultCallback (worstPass analyse) false false) emptyBattery 10 25 ⟨[], []⟩ = _ := he
    rw [he', hki]
    rfl
  · rcases hstop' with h | h
    · left; omega
    · right; rw [hki]; exact h
  · intro huniq
    exact (C105_schedule_independent defs analyse ha k (by omega) (mixerFitnessSetup t threads m) threads' threads hth' hth (hu k) _ _
      (houtL k g1' g2') (hout k g1' g2') huniq 25).trans g6

/-- C125, non-vacuity: with a test that always reports p = 1/2 all assumptions hold together for 32-bit words and any numbers of threads. -/
theorem search_assumptions (threads threads' : Nat) (hth : 0 < threads) (hth' : 0 < threads') :
    ∃ (defs : TestType → TestDef WT.u32.bits ℝ) (eval last : Mixer WT.u32.bits → BitVec 64 → Battery ℝ)
      (analyse : Battery ℝ → List ResultAnalysis) (v : BitVector) (r : Sffs.SffsState ℝ),
      Analyses analyse ∧ PossibleSearch defs threads eval ∧ PossibleLastRun defs threads' last ∧
      List.Forall₂ (fun d v => Sffs.randomBitVector (xm2xConfigBits .u32) d = .ok v) [fun i => BitVec.ofNat 64 (i / 3)] [v] ∧
      SearchCommand .u32 threads analyse eval [v] r := by
  classical
  let defs : TestType → TestDef WT.u32.bits ℝ := fun t => ⟨t, some fun _ _ => [⟨"", some ⟨.chi2, 0, 1 / 2, 1⟩⟩], none⟩
  have hex : ∀ n setup, ∀ r ∈ expectedResults defs n setup, r.stats = ⟨.chi2, 0, 1 / 2, 1⟩ := by
    intro n setup r hr
    obtain ⟨t, _, hr⟩ := List.mem_flatMap.1 hr
    obtain ⟨s, _, hr⟩ := List.mem_flatMap.1 hr
    rcases hm : setup.mix with _ | m
    · rw [hm] at hr
      have hr : r ∈ [(⟨s.name, setup.subject, n, ⟨t, ""⟩, ⟨.chi2, 0, 1 / 2, 1⟩⟩ : TestResult ℝ)] := hr
      rw [List.mem_singleton.1 hr]
    · rw [hm] at hr
      have hr : r ∈ [(⟨(mixerStream s m).name, setup.subject, n, ⟨t, ""⟩, ⟨.chi2, 0, 1 / 2, 1⟩⟩ : TestResult ℝ)] := hr
      rw [List.mem_singleton.1 hr]
  have hanalyse : ∃ analyse : Battery ℝ → List ResultAnalysis, Analyses analyse :=
    ⟨fun b => if h : WellFormed b then (C67_analysis b h).1.choose else [], fun b h => by
      simp only [dif_pos h]; exact (C67_analysis b h).1.choose_spec⟩
  obtain ⟨analyse, ha⟩ := hanalyse
  obtain ⟨v, hv, _⟩ := Sffs.C71_random_vector (xm2xConfigBits .u32) (fun i => BitVec.ofNat 64 (i / 3))
  let eval : Mixer WT.u32.bits → BitVec 64 → Battery ℝ := fun m n => (C35_terminates defs n (mixerFitnessSetup .u32 threads m)).choose
  have hposs : PossibleSearch defs threads eval := by
    intro m
    refine ⟨⟨hth, by show (0 : ℤ) ≤ 10; norm_num, by show (10 : ℤ) ≤ 25; norm_num, by show (25 : ℤ) ≤ 63; norm_num, ?_⟩, ?_⟩
    · intro k _ _
      refine ⟨(C35_terminates defs _ (mixerFitnessSetup .u32 threads m)).choose_spec, ?_⟩
      intro r hr
      rw [hex _ _ r hr]
      unfold comparableP; norm_num
    · intro k r hr
      rw [hex _ _ r hr]
      norm_num
  obtain ⟨⟨r, hr⟩, _⟩ := C106_search .u32 (by decide) defs analyse ha threads hth eval hposs _ (by simp) [v] (List.Forall₂.cons hv .nil)
  exact ⟨defs, eval, fun m n => (C35_terminates defs n (createMixerTestSetup .u32 threads' m)).choose, analyse, v, r, ha, hposs,
    ⟨hth', fun m k _ _ => (C35_terminates defs _ (createMixerTestSetup .u32 threads' m)).choose_spec⟩, List.Forall₂.cons hv .nil, hr⟩

end TFR
