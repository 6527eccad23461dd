import Verif.Model.Score
import Verif.Props.TestCommand
import Verif.Props.Kolmogorov
import Verif.Props.Budget
import Verif.Props.Sffs
import Verif.Props.Construct
/-
C105: the score of the mixer search.  C106: the search command.
-/
namespace TFR
open Spec
variable {w : Nat}

/-- Specification: `d` is the Kolmogorov distance of the p-values from the uniform law on [0,1]. -/
def Spec.KsDistance (ps : List ℝ) (d : ℝ) : Prop :=
  IsLUB {y | ∃ x, 0 ≤ x ∧ x ≤ 1 ∧ y = |Spec.empiricalCdf ps x - x|} d

/-- Specification: the p-values of the results filed under one test key. -/
def Spec.pValues (b : Battery ℝ) (k : TestKey) : List ℝ := (b.get k).map fun r => r.stats.pValue

/-- Specification: all p-values of a battery. -/
def Spec.allPValues (b : Battery ℝ) : List ℝ := (keys b).flatMap (pValues b)

/-- Specification: `p` is the strongest evidence a key gives: the least comparable p-value of its results and of its meta analysis. -/
def Spec.Evidence (b : Battery ℝ) (k : TestKey) (p : ℝ) : Prop :=
  IsLeast ({p | ∃ r ∈ b.get k, p = comparableP r.stats} ∪ {comparableP (metaStat (b.get k))}) p

/-- Specification: no key gives stronger evidence than `k`. -/
def Spec.WorstKey (b : Battery ℝ) (k : TestKey) : Prop :=
  k ∈ keys b ∧ ∀ k' ∈ keys b, ∀ p p', Evidence b k p → Evidence b k' p' → p ≤ p'

/-- The p-values are probabilities. -/
def Spec.UnitP (b : Battery ℝ) : Prop := ∀ k, ∀ r ∈ b.get k, 0 ≤ r.stats.pValue ∧ r.stats.pValue ≤ 1

theorem get_of_mem_results {b : Battery ℝ} (hwf : WellFormed b) {e : TestKey × List (TestResult ℝ)} (he : e ∈ b.results) :
    b.get e.1 = e.2 := by
  unfold Battery.get
  rw [mapFind_of_mem b.results hwf.1 e he]; rfl

theorem ksDistance_le_one {ps : List ℝ} {d : ℝ} (h : KsDistance ps d) : 0 ≤ d ∧ d ≤ 1 := by
  constructor
  · exact (abs_nonneg _).trans (h.1 ⟨0, le_rfl, zero_le_one, rfl⟩)
  · apply h.2
    rintro y ⟨x, h0, h1, rfl⟩
    have hF0 : 0 ≤ Spec.empiricalCdf ps x := by unfold Spec.empiricalCdf; positivity
    have hF1 : Spec.empiricalCdf ps x ≤ 1 := by
      unfold Spec.empiricalCdf
      apply div_le_one_of_le₀ _ (by positivity)
      exact_mod_cast List.countP_le_length
    rw [abs_le]; constructor <;> linarith

theorem ksDistance_unique {ps ps' : List ℝ} (hp : ps.Perm ps') {d d' : ℝ} (h : KsDistance ps d) (h' : KsDistance ps' d') : d = d' := by
  have : KsDistance ps' d := by
    unfold KsDistance at *
    have he : ∀ x, Spec.empiricalCdf ps x = Spec.empiricalCdf ps' x := by
      intro x; unfold Spec.empiricalCdf; rw [hp.countP_eq, hp.length_eq]
    simpa only [he] using h
  exact this.unique h'

theorem allPValues_eq {b : Battery ℝ} (hwf : WellFormed b) :
    b.results.foldl (fun (ps : List ℝ) tr => ps ++ tr.2.map fun r => r.stats.pValue) [] = allPValues b := by
  have key : ∀ (m : ResultMap ℝ) (acc : List ℝ), m.foldl (fun (ps : List ℝ) tr => ps ++ tr.2.map fun r => r.stats.pValue) acc
      = acc ++ m.flatMap fun tr => tr.2.map fun r => r.stats.pValue := by
    intro m
    induction m with
    | nil => intro acc; simp
    | cons e m ih => intro acc; rw [List.foldl_cons, ih, List.flatMap_cons, List.append_assoc]
  rw [key, List.nil_append]
  unfold allPValues keys
  rw [List.flatMap_map]
  apply List.flatMap_congr
  intro e he
  unfold pValues
  rw [get_of_mem_results hwf he]

theorem evidence_exists {b : Battery ℝ} (k : TestKey) : ∃ p, Evidence b k p := by
  have hf : ({p | ∃ r ∈ b.get k, p = comparableP r.stats} ∪ {comparableP (metaStat (b.get k))} : Set ℝ).Finite := by
    apply Set.Finite.union _ (Set.finite_singleton _)
    have : {p | ∃ r ∈ b.get k, p = comparableP r.stats} = (fun r : TestResult ℝ => comparableP r.stats) '' {r | r ∈ b.get k} := by
      ext p; simp [eq_comm]
    rw [this]
    exact (List.finite_toSet _).image _
  obtain ⟨p, hp, hm⟩ := Set.exists_min_image _ id hf ⟨_, Or.inr rfl⟩
  exact ⟨p, hp, fun q hq => hm q hq⟩

theorem keys_eq_of_perm {b b' : Battery ℝ} (hwf : WellFormed b) (hwf' : WellFormed b') (hperm : ∀ k, (b.get k).Perm (b'.get k)) :
    keys b = keys b' := by
  have hkey : ∀ (b : Battery ℝ), WellFormed b → ∀ k, k ∈ keys b ↔ b.get k ≠ [] := by
    intro b hwf k
    constructor
    · intro hk
      obtain ⟨e, he, rfl⟩ := List.mem_map.1 hk
      rw [get_of_mem_results hwf he]; exact hwf.2 e he
    · intro hne
      by_contra hk
      apply hne
      unfold Battery.get
      have hnone : ∀ m : ResultMap ℝ, (∀ e ∈ m, e.1 ≠ k) → mapFind k m = none := by
        intro m
        induction m with
        | nil => intro _; rfl
        | cons e m ih =>
          intro hm
          rw [mapFind]
          split
          · exact ih fun x hx => hm x (List.mem_cons_of_mem _ hx)
          · split
            · rfl
            · rename_i h1 h2
              exact absurd (C38_strict_total_order.2.2 _ _ (by simpa using h1) (by simpa using h2)) (hm e List.mem_cons_self)
      rw [hnone b.results fun e he hek => hk (List.mem_map.2 ⟨e, he, hek⟩)]
      rfl
  have hsorted : ∀ (b : Battery ℝ), WellFormed b → (keys b).Pairwise fun x y => x.lt y = true := by
    intro b hwf
    exact List.pairwise_map.2 hwf.1
  have hnd : ∀ (b : Battery ℝ), WellFormed b → (keys b).Nodup := by
    intro b hwf
    rw [List.nodup_iff_pairwise_ne]
    exact (hsorted b hwf).imp fun {x y} h heq => by rw [heq, C38_strict_total_order.1] at h; cases h
  apply List.Perm.eq_of_pairwise (le := fun x y => x.lt y = true) _ (hsorted b hwf) (hsorted b' hwf')
  · rw [List.perm_ext_iff_of_nodup (hnd b hwf) (hnd b' hwf')]
    intro k
    rw [hkey b hwf, hkey b' hwf', ne_eq, ne_eq, not_iff_not]
    constructor
    · intro h; have := hperm k; rw [h] at this; exact List.nil_perm.1 this
    · intro h; have := hperm k; rw [h] at this; exact List.perm_nil.1 this
  · intro x y _ _ h1 h2
    have := C38_strict_total_order.2.1 x y x h1 h2
    rw [C38_strict_total_order.1] at this; cases this

/-- What the first entry of the analysis carries. -/
theorem analysis_head (analyse : Battery ℝ → List ResultAnalysis) (ha : Analyses analyse) (b : Battery ℝ) (hwf : WellFormed b)
    (hne : keys b ≠ []) : ∃ x rest, analyse b = x :: rest ∧ x.results = b.get x.key ∧ WorstKey b x.key := by
  obtain ⟨hlen, hsort, hent, hkey⟩ := (C67_analysis b hwf).2 _ (ha b hwf)
  rcases hA : analyse b with _ | ⟨x, rest⟩
  · rw [hA] at hlen
    exfalso; apply hne
    have : b.results = [] := List.length_eq_zero_iff.1 (by simpa using hlen.symm)
    unfold keys; rw [this]; rfl
  · rw [hA] at hsort hent hkey
    obtain ⟨e, he, hxe⟩ := hkey x List.mem_cons_self
    have hmem : ∀ (y : ResultAnalysis), y ∈ x :: rest → ∀ e ∈ b.results, y.key = e.1 → y.results = e.2 ∧
        ((∃ r ∈ e.2, y.stat = r.stats) ∨ y.stat = metaStat e.2) := by
      intro y hy e he hye
      obtain ⟨⟨s, hs1, hs2, _, r, hr, _, hs3⟩, m, hm1, hm2, hm3⟩ := hent e he
      rcases hty : y.type with _ | _
      · have : y ∈ (x :: rest).filter (fun r => decide (r.key = e.1 ∧ r.type = .sample)) :=
          List.mem_filter.2 ⟨hy, by simp [hye, hty]⟩
        rw [hs1, List.mem_singleton] at this
        subst this
        exact ⟨hs2, Or.inl ⟨r, hr, hs3⟩⟩
      · have : y ∈ (x :: rest).filter (fun r => decide (r.key = e.1 ∧ r.type = .metaOf)) :=
          List.mem_filter.2 ⟨hy, by simp [hye, hty]⟩
        rw [hm1, List.mem_singleton] at this
        subst this
        exact ⟨hm2, Or.inr hm3⟩
    have hhead : ∀ y ∈ x :: rest, comparableP x.stat ≤ comparableP y.stat := by
      intro y hy
      rcases List.mem_cons.1 hy with rfl | hy
      · exact le_rfl
      · exact (List.pairwise_cons.1 hsort).1 y hy
    obtain ⟨hres, hstat⟩ := hmem x List.mem_cons_self e he hxe
    refine ⟨x, rest, rfl, ?_, ?_, ?_⟩
    · rw [hres, hxe, get_of_mem_results hwf he]
    · rw [hxe]; exact List.mem_map.2 ⟨e, he, rfl⟩
    · intro k' hk' p p' hp hp'
      obtain ⟨e', he', rfl⟩ := List.mem_map.1 hk'
      have h1 : p ≤ comparableP x.stat := by
        apply hp.2
        rw [hxe, get_of_mem_results hwf he]
        rcases hstat with ⟨r, hr, h⟩ | h
        · exact Or.inl ⟨r, hr, by rw [h]⟩
        · exact Or.inr (by rw [h]; rfl)
      refine h1.trans ?_
      obtain ⟨⟨s, hs1, hs2, ⟨_, hs4⟩, _⟩, m, hm1, hm2, hm3⟩ := hent e' he'
      have hsm : s ∈ x :: rest := List.mem_of_mem_filter (hs1 ▸ List.mem_singleton_self s)
      have hmm : m ∈ x :: rest := List.mem_of_mem_filter (hm1 ▸ List.mem_singleton_self m)
      have hcase := hp'.1
      rw [get_of_mem_results hwf he'] at hcase
      rcases hcase with ⟨r, hr, rfl⟩ | h
      · exact (hhead s hsm).trans (hs4 r hr)
      · rw [Set.mem_singleton_iff.1 h, ← hm3]; exact hhead m hmm

/-- C105. The score of an evaluation that ended with `2^p` values: the number of powers of two that were left, plus the Kolmogorov distance
of all p-values from the uniform law, plus that of the p-values of (one of) the worst test(s).  Smaller is better. -/
theorem C105_score (analyse : Battery ℝ → List ResultAnalysis) (ha : Analyses analyse) (b : Battery ℝ) (hwf : WellFormed b)
    (hp : UnitP b) (hne : keys b ≠ []) (p : Nat) (hp64 : p < 64) (hn : b.n = BitVec.ofNat 64 (2 ^ p)) (maxPower : Int) :
    ∃ worst d₁ d₂, WorstKey b worst ∧ KsDistance (allPValues b) d₁ ∧ KsDistance (pValues b worst) d₂ ∧
      getScore analyse b maxPower = .ok (((maxPower - p : Int) : ℝ) + d₁ + d₂) := by
  obtain ⟨x, rest, hA, hres, hw⟩ := analysis_head analyse ha b hwf hne
  have hget : ∀ k ∈ keys b, b.get k ≠ [] := by
    intro k hk
    obtain ⟨e, he, rfl⟩ := List.mem_map.1 hk
    rw [get_of_mem_results hwf he]; exact hwf.2 e he
  have hks1 := (C60_ks (allPValues b) (by
    obtain ⟨k, l, hk⟩ := List.exists_cons_of_ne_nil hne
    have := hget k (by rw [hk]; exact List.mem_cons_self)
    unfold allPValues pValues; rw [hk, List.flatMap_cons]; simp [this]) (by
    intro d hd
    obtain ⟨k, _, hd⟩ := List.mem_flatMap.1 hd
    obtain ⟨r, hr, rfl⟩ := List.mem_map.1 hd
    exact hp k r hr)).1
  have hks2 := (C60_ks (pValues b x.key) (by
    have := hget _ hw.1
    unfold pValues; simp [this]) (by
    intro d hd
    obtain ⟨r, hr, rfl⟩ := List.mem_map.1 hd
    exact hp _ r hr)).1
  refine ⟨x.key, _, _, hw, hks1, hks2, ?_⟩
  unfold getScore
  rw [hn, (C40_power_of_two b.n).2.1 p hp64, allPValues_eq hwf, hA]
  show Except.ok (((maxPower - p : Int) : ℝ) + (kolmogorovSmirnovStats (allPValues b)).value +
    (kolmogorovSmirnovStats (x.results.map fun r => r.stats.pValue)).value) = _
  rw [hres]; rfl

/-- C105. An evaluation without any result scores the powers left. -/
theorem C105_no_results (analyse : Battery ℝ → List ResultAnalysis) (ha : Analyses analyse) (b : Battery ℝ) (h : b.results = [])
    (p : Nat) (hp64 : p < 64) (hn : b.n = BitVec.ofNat 64 (2 ^ p)) (maxPower : Int) :
    getScore analyse b maxPower = .ok ((maxPower - p : Int) : ℝ) := by
  have hwf : WellFormed b := by unfold WellFormed; rw [h]; simp
  have hlen := ((C67_analysis b hwf).2 _ (ha b hwf)).1
  rw [h] at hlen
  have hA : analyse b = [] := List.length_eq_zero_iff.1 (by simpa using hlen)
  unfold getScore
  rw [hn, (C40_power_of_two b.n).2.1 p hp64, hA, h]
  have : (kolmogorovSmirnovStats []).value = 0 := by
    simp [kolmogorovSmirnovStats, ksDistance, sortReals]
  show Except.ok (((maxPower - p : Int) : ℝ) + (kolmogorovSmirnovStats []).value + 0) = _
  rw [this]; simp

/-- C105. The score lies within two of the number of powers left. -/
theorem C105_range (analyse : Battery ℝ → List ResultAnalysis) (ha : Analyses analyse) (b : Battery ℝ) (hwf : WellFormed b)
    (hp : UnitP b) (p : Nat) (hp64 : p < 64) (hn : b.n = BitVec.ofNat 64 (2 ^ p)) (maxPower : Int) :
    ∃ s, getScore analyse b maxPower = .ok s ∧ ((maxPower - p : Int) : ℝ) ≤ s ∧ s ≤ ((maxPower - p : Int) : ℝ) + 2 := by
  by_cases hne : keys b = []
  · have hr : b.results = [] := List.map_eq_nil_iff.1 hne
    exact ⟨_, C105_no_results analyse ha b hr p hp64 hn maxPower, le_rfl, by linarith⟩
  · obtain ⟨k, d₁, d₂, _, h1, h2, he⟩ := C105_score analyse ha b hwf hp hne p hp64 hn maxPower
    have := ksDistance_le_one h1
    have := ksDistance_le_one h2
    exact ⟨_, he, by linarith, by linarith⟩

/-- C105. A mixer that survives three more doublings is always preferred by the search. -/
theorem C105_three_powers (analyse : Battery ℝ → List ResultAnalysis) (ha : Analyses analyse) (b b' : Battery ℝ) (hwf : WellFormed b)
    (hwf' : WellFormed b') (hp : UnitP b) (hp' : UnitP b') (p p' : Nat) (hp64 : p < 64) (hp64' : p' < 64)
    (hn : b.n = BitVec.ofNat 64 (2 ^ p)) (hn' : b'.n = BitVec.ofNat 64 (2 ^ p')) (h : p + 3 ≤ p') (maxPower : Int) :
    ∃ s s', getScore analyse b maxPower = .ok s ∧ getScore analyse b' maxPower = .ok s' ∧ s' < s := by
  obtain ⟨s, h1, h2, _⟩ := C105_range analyse ha b hwf hp p hp64 hn maxPower
  obtain ⟨s', h1', _, h3'⟩ := C105_range analyse ha b' hwf' hp' p' hp64' hn' maxPower
  refine ⟨s, s', h1, h1', ?_⟩
  have : ((maxPower - p' : Int) : ℝ) + 3 ≤ ((maxPower - p : Int) : ℝ) := by
    have : (p : ℝ) + 3 ≤ p' := by exact_mod_cast h
    push_cast; linarith
  linarith

/-- C105. The score depends neither on the schedule of the worker threads nor on their number, provided one test is worse than all others
(otherwise it may depend on how the sort breaks the tie). -/
theorem C105_schedule_independent (defs : TestType → TestDef w ℝ) (analyse : Battery ℝ → List ResultAnalysis) (ha : Analyses analyse)
    (p : Nat) (hp64 : p < 64) (setup : TestSetup w) (t1 t2 : Nat) (h1 : 0 < t1) (h2 : 0 < t2)
    (hv : ∀ r ∈ expectedResults defs (BitVec.ofNat 64 (2 ^ p)) setup, 0 ≤ r.stats.pValue ∧ r.stats.pValue ≤ 1) (b1 b2 : Battery ℝ)
    (hb1 : EvaluateOutcome defs (BitVec.ofNat 64 (2 ^ p)) { setup with maxThreads := t1 } b1)
    (hb2 : EvaluateOutcome defs (BitVec.ofNat 64 (2 ^ p)) { setup with maxThreads := t2 } b2)
    (huniq : ∀ k k', WorstKey b1 k → WorstKey b1 k' → k = k') (maxPower : Int) :
    getScore analyse b1 maxPower = getScore analyse b2 maxPower := by
  have hs1 := C35_schedule_independent defs _ _ h1 b1 hb1
  have hs2 := C35_schedule_independent defs _ _ h2 b2 hb2
  have hperm := C35_thread_count_independent defs _ setup t1 t2 h1 h2 b1 b2 hb1 hb2
  have hwf1 := evaluate_wf _ _ _ _ hb1
  have hwf2 := evaluate_wf _ _ _ _ hb2
  have hkeys := keys_eq_of_perm hwf1 hwf2 hperm
  have hu1 : UnitP b1 := fun k r hr => hv r (List.mem_of_mem_filter ((hs1.2.2.2.2 k).mem_iff.1 hr))
  have hu2 : UnitP b2 := fun k r hr => hv r (List.mem_of_mem_filter ((hs2.2.2.2.2 k).mem_iff.1 hr))
  by_cases hne : keys b1 = []
  · rw [C105_no_results analyse ha b1 (List.map_eq_nil_iff.1 hne) p hp64 hs1.2.1,
      C105_no_results analyse ha b2 (List.map_eq_nil_iff.1 (hkeys ▸ hne)) p hp64 hs2.2.1]
  obtain ⟨k, d₁, d₂, hk, hd1, hd2, he⟩ := C105_score analyse ha b1 hwf1 hu1 hne p hp64 hs1.2.1 maxPower
  obtain ⟨k', d₁', d₂', hk', hd1', hd2', he'⟩ := C105_score analyse ha b2 hwf2 hu2 (hkeys ▸ hne) p hp64 hs2.2.1 maxPower
  have hev : ∀ k p, Evidence b1 k p ↔ Evidence b2 k p := by
    intro k p
    unfold Evidence
    have hm : metaStat (b1.get k) = metaStat (b2.get k) := C60_order _ _ ((hperm k).map _)
    have hset : {p | ∃ r ∈ b1.get k, p = comparableP r.stats} = {p | ∃ r ∈ b2.get k, p = comparableP r.stats} := by
      ext q; simp only [Set.mem_setOf_eq, (hperm k).mem_iff]
    rw [hm, hset]
  have hk1 : WorstKey b1 k' := by
    refine ⟨hkeys ▸ hk'.1, fun k₂ hk₂ p p' hp hp' => hk'.2 k₂ (hkeys ▸ hk₂) p p' ((hev _ _).1 hp) ((hev _ _).1 hp')⟩
  have hkk := huniq k k' hk hk1
  subst hkk
  have e2 : d₂ = d₂' := ksDistance_unique ((hperm k).map _) hd2 hd2'
  have e1 : d₁ = d₁' := by
    apply ksDistance_unique _ hd1 hd1'
    unfold allPValues
    rw [hkeys]
    exact List.Perm.flatMap_left _ fun k _ => (hperm k).map _
  rw [he, he', e1, e2]

/-- C105. The fitness of a mixer: the evaluation goes on as long as the batteries pass, the score is that of the first battery that
does not pass, or of the last one; it is between 0 and the number of doublings plus two. -/
theorem C105_fitness (defs : TestType → TestDef w ℝ) (analyse : Battery ℝ → List ResultAnalysis) (ha : Analyses analyse) (run : EvalRun w)
    (h : PossibleRun defs run)
    (hu : ∀ k : Nat, ∀ r ∈ expectedResults defs (BitVec.ofNat 64 (2 ^ k)) run.1, 0 ≤ r.stats.pValue ∧ r.stats.pValue ≤ 1) :
    ∃ (k : Nat) (s : ℝ), run.1.startPower ≤ k ∧ k ≤ run.1.stopPower ∧
      (∀ j : Nat, run.1.startPower ≤ j → j < k → BatteryPasses (run.2 (BitVec.ofNat 64 (2 ^ j)))) ∧
      (k = run.1.stopPower ∨ ¬ BatteryPasses (run.2 (BitVec.ofNat 64 (2 ^ k)))) ∧
      sffsFitnessTest analyse run = .ok s ∧ getScore analyse (run.2 (BitVec.ofNat 64 (2 ^ k))) run.1.stopPower = .ok s ∧
      ((run.1.stopPower - k : Int) : ℝ) ≤ s ∧ s ≤ ((run.1.stopPower - k : Int) : ℝ) + 2 := by
  obtain ⟨hth, h0, h1, h2, hruns⟩ := id h
  obtain ⟨a, ha'⟩ := Int.eq_ofNat_of_zero_le h0
  obtain ⟨z, hz⟩ := Int.eq_ofNat_of_zero_le (h0.trans h1)
  rw [ha', hz] at h1
  rw [hz] at h2
  obtain ⟨k, hk, he, hj, hlast⟩ := C36_passes run.2 (fitnessCallback (worstPass analyse)) emptyBattery a z (by exact_mod_cast h1)
    (by exact_mod_cast h2) ()
  have hans : ∀ j, answer run.2 (fitnessCallback (worstPass analyse)) a z () j
      = passes (worstPass analyse) (run.2 (BitVec.ofNat 64 (2 ^ (a + j)))) := by
    intro j
    unfold answer fitnessCallback passes
    cases worstPass analyse (run.2 (BitVec.ofNat 64 (2 ^ (a + j)))) <;> rfl
  have hpv : ∀ j, a + j ≤ z → (passes (worstPass analyse) (run.2 (BitVec.ofNat 64 (2 ^ (a + j)))) = true ↔
      BatteryPasses (run.2 (BitVec.ofNat 64 (2 ^ (a + j))))) := by
    intro j hjz
    have := possible_valid h (a + j) (by rw [ha']; push_cast; omega) (by rw [hz]; exact_mod_cast hjz)
    exact (worstPass_spec analyse ha _ this.1 this.2.1).2
  have hv := possible_valid h (a + k) (by rw [ha']; push_cast; omega) (by rw [hz]; exact_mod_cast hk)
  have hout := (hruns (a + k) (by rw [ha']; push_cast; omega) (by rw [hz]; exact_mod_cast hk)).1
  have hun : UnitP (run.2 (BitVec.ofNat 64 (2 ^ (a + k)))) := fun key r hr =>
    hu _ r (List.mem_of_mem_filter (((C35_schedule_independent defs _ _ hth _ hout).2.2.2.2 key).mem_iff.1 hr))
  obtain ⟨s, hs1, hs2, hs3⟩ := C105_range analyse ha _ hv.1 hun (a + k) (by omega) hv.2.2.2 run.1.stopPower
  refine ⟨a + k, s, by rw [ha']; push_cast; omega, by rw [hz]; exact_mod_cast hk, ?_, ?_, ?_, hs1, hs2, hs3⟩
  · intro j hj1 hj2
    rw [ha'] at hj1
    have hj1 : a ≤ j := by exact_mod_cast hj1
    have := hj (j - a) (by omega)
    rw [hans, hpv _ (by omega), show a + (j - a) = j by omega] at this
    exact this
  · rcases hlast with h' | h'
    · left; rw [hz]; exact_mod_cast h'
    · right
      rw [hans] at h'
      intro hc
      rw [(hpv k hk).2 hc] at h'; cases h'
  · unfold sffsFitnessTest
    rw [ha', hz, he, ← hz]
    exact hs1

/-- A battery of one test with the given p-values (of chi-square statistics), after `n` values. -/
def Spec.oneTest (n : BitVec 64) (ps : List ℝ) : Battery ℝ :=
  ⟨"m", n, ps.length, 32, [(⟨.uniform, ""⟩, ps.map fun p => ⟨"s", "m", n, ⟨.uniform, ""⟩, ⟨.chi2, 0, p, 1⟩⟩)]⟩

theorem oneTest_facts (n : BitVec 64) (ps : List ℝ) (hne : ps ≠ []) (h01 : ∀ p ∈ ps, 0 ≤ p ∧ p ≤ 1) :
    WellFormed (oneTest n ps) ∧ UnitP (oneTest n ps) ∧ keys (oneTest n ps) = [⟨.uniform, ""⟩] ∧
    pValues (oneTest n ps) ⟨.uniform, ""⟩ = ps ∧ allPValues (oneTest n ps) = ps := by
  have hwf : WellFormed (oneTest n ps) := ⟨List.pairwise_singleton _ _, by
    intro e he
    rw [List.mem_singleton.1 (show e ∈ [_] from he)]
    simpa using hne⟩
  have hk : keys (oneTest n ps) = [⟨.uniform, ""⟩] := rfl
  have hget : (oneTest n ps).get ⟨.uniform, ""⟩ = ps.map fun p => ⟨"s", "m", n, ⟨.uniform, ""⟩, ⟨.chi2, 0, p, 1⟩⟩ :=
    get_of_mem_results hwf (e := (⟨.uniform, ""⟩, _)) List.mem_cons_self
  have hp : pValues (oneTest n ps) ⟨.uniform, ""⟩ = ps := by
    unfold pValues
    rw [hget, List.map_map]
    exact List.map_id _
  refine ⟨hwf, ?_, hk, hp, ?_⟩
  · intro k r hr
    have : ∀ r ∈ ps.map fun p => (⟨"s", "m", n, ⟨.uniform, ""⟩, ⟨.chi2, 0, p, 1⟩⟩ : TestResult ℝ), 0 ≤ r.stats.pValue ∧ r.stats.pValue ≤ 1 := by
      intro r hr
      obtain ⟨p, hp, rfl⟩ := List.mem_map.1 hr
      exact h01 p hp
    apply this
    unfold Battery.get oneTest mapFind at hr
    split at hr
    · simp [mapFind] at hr
    · split at hr
      · simp at hr
      · simpa using hr
  · unfold allPValues
    rw [hk, List.flatMap_cons, hp]; simp

theorem oneTest_score (analyse : Battery ℝ → List ResultAnalysis) (ha : Analyses analyse) (p : Nat) (hp64 : p < 64) (ps : List ℝ)
    (hne : ps ≠ []) (h01 : ∀ p ∈ ps, 0 ≤ p ∧ p ≤ 1) (maxPower : Int) (d : ℝ) (hd : KsDistance ps d) :
    getScore analyse (oneTest (BitVec.ofNat 64 (2 ^ p)) ps) maxPower = .ok (((maxPower - p : Int) : ℝ) + d + d) := by
  obtain ⟨hwf, hu, hk, hpv, hall⟩ := oneTest_facts (BitVec.ofNat 64 (2 ^ p)) ps hne h01
  obtain ⟨k, d₁, d₂, hw, h1, h2, he⟩ := C105_score analyse ha _ hwf hu (by rw [hk]; simp) p hp64 rfl maxPower
  have hkk : k = ⟨.uniform, ""⟩ := by have := hw.1; rw [hk] at this; simpa using this
  rw [hkk, hpv] at h2
  rw [hall] at h1
  rw [he, h1.unique hd, h2.unique hd]

theorem ks_value (ps : List ℝ) (hne : ps ≠ []) (h01 : ∀ p ∈ ps, 0 ≤ p ∧ p ≤ 1) (hs : ps.Pairwise (· ≤ ·)) :
    KsDistance ps (ksDistance ps) := by
  have := (C60_ks ps hne h01).1
  have he : sortReals ps = ps := List.mergeSort_of_pairwise (hs.imp fun h => by simpa using h)
  unfold kolmogorovSmirnovStats at this
  rw [he] at this
  exact this

/-- C105. The search does not rank by the number of values a mixer survives: the battery of a mixer that fails at `2^10` can have a
better (smaller) score than that of a mixer that fails only at `2^11`. -/
theorem C105_not_by_power (analyse : Battery ℝ → List ResultAnalysis) (ha : Analyses analyse) :
    ∃ (b b' : Battery ℝ) (s s' : ℝ), WellFormed b ∧ WellFormed b' ∧ UnitP b ∧ UnitP b' ∧ b.n = 1024#64 ∧ b'.n = 2048#64 ∧
      ¬ BatteryPasses b ∧ ¬ BatteryPasses b' ∧
      getScore analyse b 25 = .ok s ∧ getScore analyse b' 25 = .ok s' ∧ s < s' := by
  have hA : ∀ p ∈ [0, 1 / 2, (1 : ℝ)], 0 ≤ p ∧ p ≤ 1 := by
    intro p hp
    simp only [List.mem_cons, List.not_mem_nil, or_false] at hp
    rcases hp with rfl | rfl | rfl <;> norm_num
  have hB : ∀ p ∈ [(0 : ℝ)], 0 ≤ p ∧ p ≤ 1 := by simp
  have h1 := ks_value [0, 1 / 2, (1 : ℝ)] (by simp) hA (by simp; norm_num)
  have h2 := ks_value [(0 : ℝ)] (by simp) hB (by simp)
  have e1 : ksDistance [0, 1 / 2, (1 : ℝ)] = 1 / 3 := by
    unfold ksDistance
    norm_num [List.zipIdx, abs_of_nonneg, abs_of_nonpos, max_def]
  have e2 : ksDistance [(0 : ℝ)] = 1 := by
    unfold ksDistance
    norm_num [List.zipIdx]
  rw [e1] at h1
  rw [e2] at h2
  have f1 := oneTest_facts (BitVec.ofNat 64 (2 ^ 10)) [0, 1 / 2, (1 : ℝ)] (by simp) hA
  have f2 := oneTest_facts (BitVec.ofNat 64 (2 ^ 11)) [(0 : ℝ)] (by simp) hB
  have hfail : ∀ n (ps : List ℝ), ps ≠ [] → (∀ p ∈ ps, 0 ≤ p ∧ p ≤ 1) → 0 ∈ ps → ¬ BatteryPasses (oneTest n ps) := by
    intro n ps hne h01 h0 hpass
    have f := oneTest_facts n ps hne h01
    have := (hpass ⟨.uniform, ""⟩ (by rw [f.2.2.1]; simp)).1 ⟨"s", "m", n, ⟨.uniform, ""⟩, ⟨.chi2, 0, 0, 1⟩⟩ (by
      rw [get_of_mem_results f.1 (e := (⟨.uniform, ""⟩, _)) List.mem_cons_self]
      exact List.mem_map.2 ⟨0, h0, rfl⟩)
    have hc : comparableP (⟨.chi2, 0, 0, 1⟩ : Statistic ℝ) = 0 := by unfold comparableP; simp
    rw [hc] at this
    norm_num at this
  refine ⟨_, _, _, _, f1.1, f2.1, f1.2.1, f2.2.1, rfl, rfl, hfail _ _ (by simp) hA (by simp), hfail _ _ (by simp) hB (by simp),
    oneTest_score analyse ha 10 (by norm_num) _ (by simp) hA 25 _ h1, oneTest_score analyse ha 11 (by norm_num) _ (by simp) hB 25 _ h2, ?_⟩
  norm_num

/-! ### C106 -/

theorem createXm2xMixer_ok (t : WT) (ht : t ≠ .u16) (v : BitVector) (j : Nat) (h : Sffs.HasCount (xm2xConfigBits t) j v) :
    ∃ m, createXm2xMixer t v = .ok m := by
  obtain ⟨l, hr, hl, _⟩ := h
  obtain ⟨c, hc, h1, h2, h3, _⟩ := C16_xm2x_decode t v l hr.holds hl
  obtain ⟨f, hf, _⟩ := C17_xm2x t c h1 h2 h3 (fun h => absurd h ht)
  unfold createXm2xMixer
  rw [hc]
  have hex : ∃ f : BitVec t.bits → BitVec t.bits, ∀ x, xm2xMix c x = .ok (f x) := ⟨f, hf⟩
  exact ⟨_, dif_pos hex⟩

/-- The assumption of C106: for every mixer the evaluation runs as `evaluate_multi_pass` can, with p-values in [0,1]. -/
def Spec.PossibleSearch {t : WT} (defs : TestType → TestDef t.bits ℝ) (threads : Nat) (eval : Mixer t.bits → BitVec 64 → Battery ℝ) : Prop :=
  ∀ m, PossibleRun defs (mixerFitnessSetup t threads m, eval m) ∧
    ∀ k : Nat, ∀ r ∈ expectedResults defs (BitVec.ofNat 64 (2 ^ k)) (mixerFitnessSetup t threads m),
      0 ≤ r.stats.pValue ∧ r.stats.pValue ≤ 1

/-- C106. The fitness of every bit vector of the right size is defined: its mixer can be built and evaluated, and the score is between
0 and 17 (15 doublings and two distances). -/
theorem C106_fitness (t : WT) (ht : t ≠ .u16) (defs : TestType → TestDef t.bits ℝ) (analyse : Battery ℝ → List ResultAnalysis)
    (ha : Analyses analyse) (threads : Nat) (eval : Mixer t.bits → BitVec 64 → Battery ℝ) (hposs : PossibleSearch defs threads eval)
    (v : BitVector) (j : Nat) (h : Sffs.HasCount (xm2xConfigBits t) j v) :
    ∃ m s, createXm2xMixer t v = .ok m ∧ sffsFitnessTest analyse (mixerFitnessSetup t threads m, eval m) = .ok s ∧
      xm2xFitness t threads analyse eval v = .ok s ∧ (xm2xConfig t threads analyse eval).fitness v = s ∧ 0 ≤ s ∧ s ≤ 17 := by
  obtain ⟨m, hm⟩ := createXm2xMixer_ok t ht v j h
  obtain ⟨k, s, h1, h2, _, _, h5, _, h7, h8⟩ := C105_fitness defs analyse ha (mixerFitnessSetup t threads m, eval m) (hposs m).1 (hposs m).2
  have hx : xm2xFitness t threads analyse eval v = .ok s := by
    unfold xm2xFitness
    rw [hm]; exact h5
  have h1' : (10 : ℤ) ≤ k := h1
  have h2' : (k : ℤ) ≤ 25 := h2
  have e : (mixerFitnessSetup t threads m).stopPower = 25 := rfl
  rw [show ((mixerFitnessSetup t threads m, eval m) : EvalRun t.bits).1.stopPower = 25 from rfl] at h7 h8
  have hk1 : (10 : ℝ) ≤ k := by exact_mod_cast h1'
  have hk2 : (k : ℝ) ≤ 25 := by exact_mod_cast h2'
  push_cast at h7 h8
  refine ⟨m, s, hm, h5, hx, ?_, by linarith, by linarith⟩
  show (match xm2xFitness t threads analyse eval v with | .ok s => s | .error _ => 0) = s
  rw [hx]

theorem fitness_lt_max (t : WT) (defs : TestType → TestDef t.bits ℝ) (analyse : Battery ℝ → List ResultAnalysis)
    (ha : Analyses analyse) (threads : Nat) (eval : Mixer t.bits → BitVec 64 → Battery ℝ) (hposs : PossibleSearch defs threads eval)
    (v : BitVector) : (xm2xConfig t threads analyse eval).fitness v < doubleMax := by
  have hbig : (17 : ℝ) < doubleMax := by
    unfold doubleMax
    have h1 : (1 : ℝ) ≤ 2 - 1 / 2 ^ 52 := by norm_num
    have h2 : (2 : ℝ) ^ 5 ≤ 2 ^ 1023 := pow_le_pow_right₀ (by norm_num) (by norm_num)
    calc (17 : ℝ) < 1 * 2 ^ 5 := by norm_num
      _ ≤ _ := mul_le_mul h1 h2 (by norm_num) (by linarith)
  show (match xm2xFitness t threads analyse eval v with | .ok s => s | .error _ => 0) < doubleMax
  cases hx : xm2xFitness t threads analyse eval v with
  | error f => simp only; linarith
  | ok s =>
    simp only
    unfold xm2xFitness at hx
    cases hm : createXm2xMixer t v with
    | error f => rw [hm] at hx; cases hx
    | ok m =>
      rw [hm] at hx
      obtain ⟨k, s', h1, h2, _, _, h5, _, h7, h8⟩ := C105_fitness defs analyse ha (mixerFitnessSetup t threads m, eval m) (hposs m).1 (hposs m).2
      have : s = s' := by
        have : (Except.ok s : R ℝ) = .ok s' := hx.symm.trans h5
        cases this; rfl
      have h1' : (10 : ℤ) ≤ k := h1
      rw [show ((mixerFitnessSetup t threads m, eval m) : EvalRun t.bits).1.stopPower = 25 from rfl] at h8
      have hk1 : (10 : ℝ) ≤ k := by exact_mod_cast h1'
      push_cast at h8
      rw [this]; linarith

theorem tries_hasCount (bits : Nat) (draws : List (Nat → BitVec 64)) (tries : List BitVector)
    (htries : List.Forall₂ (fun d v => Sffs.randomBitVector bits d = .ok v) draws tries) (v : BitVector) (hv : v ∈ tries) :
    ∃ j, Sffs.HasCount bits j v := by
  have hex : ∃ d, Sffs.randomBitVector bits d = .ok v := by
    induction htries with
    | nil => cases hv
    | cons h _ ih =>
      rcases List.mem_cons.1 hv with rfl | hv
      · exact ⟨_, h⟩
      · exact ih hv
  obtain ⟨d, hd⟩ := hex
  obtain ⟨u, hu, hr⟩ := Sffs.C71_random_vector bits d
  rw [hd] at hu
  cases hu
  exact ⟨_, _, hr, by simp, rfl⟩

/-- C106. The mixer search, for every word type but 16 bits: it has a result, and for every result (whatever the schedules of the worker
threads in the evaluations of the neighbours) the mixer can be built from it, the score is that mixer's fitness, and it is at least as good as
every one of the random vectors tried for the seed. -/
theorem C106_search (t : WT) (ht : t ≠ .u16) (defs : TestType → TestDef t.bits ℝ) (analyse : Battery ℝ → List ResultAnalysis)
    (ha : Analyses analyse) (threads : Nat) (hth : 0 < threads) (eval : Mixer t.bits → BitVec 64 → Battery ℝ)
    (hposs : PossibleSearch defs threads eval) (draws : List (Nat → BitVec 64)) (hne : draws ≠ []) (tries : List BitVector)
    (htries : List.Forall₂ (fun d v => Sffs.randomBitVector (xm2xConfigBits t) d = .ok v) draws tries) :
    (∃ r, SearchCommand t threads analyse eval tries r) ∧
    ∀ r, SearchCommand t threads analyse eval tries r →
      (∃ m, createXm2xMixer t r.data = .ok m ∧ sffsFitnessTest analyse (mixerFitnessSetup t threads m, eval m) = .ok r.score) ∧
      0 ≤ r.score ∧ ∀ v ∈ tries, ∃ s, xm2xFitness t threads analyse eval v = .ok s ∧ r.score ≤ s := by
  have hmax := fitness_lt_max t defs analyse ha threads eval hposs
  set cfg := xm2xConfig t threads analyse eval with hcfg
  have hbits : cfg.bits = xm2xConfigBits t := rfl
  have hne' : tries ≠ [] := by
    intro h; rw [h] at htries; cases htries; exact hne rfl
  obtain ⟨hmem, hbest⟩ := (Sffs.C71_find_seed doubleMax cfg.bits cfg.fitness hmax tries).2 hne'
  set seed := Sffs.findSeed doubleMax cfg.bits cfg.fitness tries with hseed
  set cfg' : Sffs.Config ℝ := { cfg with seed := some seed } with hcfg'
  have hcount := tries_hasCount (xm2xConfigBits t) draws tries htries
  have hok : Sffs.SeedOk cfg' := by
    intro s hs
    have : seed = s := Option.some.inj hs
    rw [← this]
    exact hcount seed hmem
  have hsize : ¬ (cfg'.seed.any fun s => s.size != cfg'.bits) = true := by
    obtain ⟨j, l, hr, hl, _⟩ := hcount seed hmem
    have hsz : seed.size = xm2xConfigBits t := by
      have := hr.1
      unfold BitVector.size
      rw [this, hl]
    show ¬ ((seed.size != xm2xConfigBits t) = true)
    simp [hsz]
  have hiff : ∀ r, SearchCommand t threads analyse eval tries r ↔
      ∃ c₀ n c, Sffs.start doubleMax cfg' = .ok c₀ ∧ Sffs.Reach threads doubleMax cfg' c₀ n c ∧ c.pc = .returned r := by
    intro r
    show StartSearch threads cfg' r ↔ _
    unfold StartSearch
    rw [if_neg hsize]
  obtain ⟨c₀, hs0, hres⟩ := Sffs.C71_result threads hth doubleMax cfg' hmax hok
  constructor
  · obtain ⟨c₁, hs1, hret⟩ := Sffs.C71_returns threads hth doubleMax cfg' hmax hok
    obtain ⟨m, c', r, hr, hp⟩ := hret 0 _ .start
    exact ⟨r, (hiff r).2 ⟨c₁, _, c', hs1, hr, hp⟩⟩
  · intro r hr
    obtain ⟨c₁, n, c, hs1, hreach, hpc⟩ := (hiff r).1 hr
    obtain rfl := Except.ok.inj (hs0.symm.trans hs1)
    obtain ⟨⟨j, hj⟩, hsc, hle, _⟩ := hres n c r hreach hpc
    obtain ⟨m, s, h1, h2, _, h4, h5, _⟩ := C106_fitness t ht defs analyse ha threads eval hposs r.data j hj
    have hscore : r.score = s := hsc.trans h4
    refine ⟨⟨m, h1, by rw [hscore]; exact h2⟩, by rw [hscore]; exact h5, ?_⟩
    intro v hv
    obtain ⟨j', hj'⟩ := hcount v hv
    obtain ⟨m', s', _, _, g3, g4, _⟩ := C106_fitness t ht defs analyse ha threads eval hposs v j' hj'
    refine ⟨s', g3, ?_⟩
    have hfirst : Sffs.firstVector cfg' = seed := rfl
    rw [hfirst] at hle
    exact hle.trans ((hbest v hv).trans_eq g4)

/-- C106. A seed of the wrong size is refused: the result is the empty vector, from which no mixer can be built. -/
theorem C106_wrong_seed (t : WT) (threads : Nat) (cfg : Sffs.Config ℝ) (seed : BitVector) (hs : cfg.seed = some seed)
    (hsize : seed.size ≠ cfg.bits) (r : Sffs.SffsState ℝ) (h : StartSearch threads cfg r) :
    r.data = BitVector.empty ∧ ∃ f, createXm2xMixer t r.data = .error f := by
  unfold StartSearch at h
  rw [hs, if_pos (by simpa using hsize)] at h
  subst h
  refine ⟨rfl, ?_⟩
  unfold createXm2xMixer
  have : ∃ f, toXm2x t BitVector.empty = .error f := by cases t <;> exact ⟨_, rfl⟩
  obtain ⟨f, hf⟩ := this
  exact ⟨f, by show (toXm2x t BitVector.empty >>= _) = _; rw [hf]; rfl⟩

/-- C105, C106, non-vacuity: with a test that always reports p = 1/2 the assumptions of the search hold for 32-bit words and any number of
threads, and an order of the analyses exists. -/
example (threads : Nat) (hth : 0 < threads) : ∃ (defs : TestType → TestDef WT.u32.bits ℝ) (eval : Mixer WT.u32.bits → BitVec 64 → Battery ℝ)
    (analyse : Battery ℝ → List ResultAnalysis) (v : BitVector), Analyses analyse ∧ PossibleSearch defs threads eval ∧
    (∀ m, expectedResults defs 1024#64 (mixerFitnessSetup .u32 threads m) ≠ []) ∧
    List.Forall₂ (fun d v => Sffs.randomBitVector (xm2xConfigBits .u32) d = .ok v) [fun i => BitVec.ofNat 64 (i / 3)] [v] := by
  classical
  let defs : TestType → TestDef WT.u32.bits ℝ := fun t => ⟨t, some fun _ _ => [⟨"", some ⟨.chi2, 0, 1 / 2, 1⟩⟩], none⟩
  have hex : ∀ n setup, ∀ r ∈ expectedResults defs n setup, r.stats = ⟨.chi2, 0, 1 / 2, 1⟩ := by
    intro n setup r hr
    obtain ⟨t, _, hr⟩ := List.mem_flatMap.1 hr
    obtain ⟨s, _, hr⟩ := List.mem_flatMap.1 hr
    rcases hm : setup.mix with _ | m
    · rw [hm] at hr
      have hr : r ∈ [(⟨s.name, setup.subject, n, ⟨t, ""⟩, ⟨.chi2, 0, 1 / 2, 1⟩⟩ : TestResult ℝ)] := hr
      rw [List.mem_singleton.1 hr]
    · rw [hm] at hr
      have hr : r ∈ [(⟨(mixerStream s m).name, setup.subject, n, ⟨t, ""⟩, ⟨.chi2, 0, 1 / 2, 1⟩⟩ : TestResult ℝ)] := hr
      rw [List.mem_singleton.1 hr]
  have hanalyse : ∃ analyse : Battery ℝ → List ResultAnalysis, Analyses analyse :=
    ⟨fun b => if h : WellFormed b then (C67_analysis b h).1.choose else [], fun b h => by
      simp only [dif_pos h]; exact (C67_analysis b h).1.choose_spec⟩
  obtain ⟨analyse, ha⟩ := hanalyse
  obtain ⟨v, hv, _⟩ := Sffs.C71_random_vector (xm2xConfigBits .u32) (fun i => BitVec.ofNat 64 (i / 3))
  refine ⟨defs, fun m n => (C35_terminates defs n (mixerFitnessSetup .u32 threads m)).choose, analyse, v, ha, ?_, ?_,
    List.Forall₂.cons hv .nil⟩
  · intro m
    refine ⟨⟨hth, by show (0 : ℤ) ≤ 10; norm_num, by show (10 : ℤ) ≤ 25; norm_num, by show (25 : ℤ) ≤ 63; norm_num, ?_⟩, ?_⟩
    · intro k _ _
      refine ⟨(C35_terminates defs _ (mixerFitnessSetup .u32 threads m)).choose_spec, ?_⟩
      intro r hr
      rw [hex _ _ r hr]
      unfold comparableP; norm_num
    · intro k r hr
      rw [hex _ _ r hr]
      norm_num
  · intro m h
    have hlen : (expectedResults defs 1024#64 (mixerFitnessSetup .u32 threads m)).length ≠ 0 := by
      unfold expectedResults
      rw [List.length_flatMap]
      have ht : (mixerFitnessSetup .u32 threads m).tests = .mean :: (mixerFitnessSetup .u32 threads m).tests.tail := rfl
      rw [ht, List.map_cons, List.sum_cons, List.length_flatMap]
      have hs : (mixerFitnessSetup .u32 threads m).sources = createSources .u32 := rfl
      have hl : 0 < (createSources .u32).length := by decide +kernel
      rw [hs]
      obtain ⟨s, l, hsl⟩ := List.exists_cons_of_length_pos hl
      rw [hsl, List.map_cons, List.sum_cons]
      show ((([] : List (TestResult ℝ)) ++ [(⟨(mixerStream s m).name, m.name, 1024#64, ⟨.mean, ""⟩, ⟨.chi2, 0, 1 / 2, 1⟩⟩ : TestResult ℝ)]).length + _) + _ ≠ 0
      rw [List.length_append, List.length_singleton]
      omega
    rw [h] at hlen; exact hlen rfl

end TFR
