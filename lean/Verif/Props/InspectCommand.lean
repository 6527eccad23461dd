import Verif.Props.TestCommand
/-
C97: the checks of `-inspect-test`.  C98: its tables.  C99: `-exhaust` and the command line.
-/
namespace TFR
open Spec
variable {w : Nat}

private theorem hbind {α β : Type} (x : α) (f : α → R β) : ((Except.ok x : R α) >>= f) = f x := rfl

/-! ### C97 -/

/-- A source is accepted by a test: with 2^10, .., 2^25 values the test passes, and the last time it has a result. -/
def Spec.Accepted (battery : Nat → Battery ℝ) : Prop :=
  (∀ k, 10 ≤ k → k ≤ 25 → BatteryPasses (battery k)) ∧ keys (battery 25) ≠ []

/-- A source is rejected by a test: it fails with some number of values from 2^10 to 2^25. -/
def Spec.Rejected (battery : Nat → Battery ℝ) : Prop := ∃ k, 10 ≤ k ∧ k ≤ 25 ∧ ¬ BatteryPasses (battery k)

/-- The batteries of a source can arise: well formed, with p-values as the statistics produce them. -/
def Spec.GoodBatteries (eval : BitVec 64 → Battery ℝ) : Prop :=
  ∀ k : Nat, 10 ≤ k → k ≤ 25 → WellFormed (eval (BitVec.ofNat 64 (2 ^ k))) ∧ ValidP (eval (BitVec.ofNat 64 (2 ^ k)))

theorem inspect_one (analyse : Battery ℝ → List ResultAnalysis) (ha : Analyses analyse) (eval : BitVec 64 → Battery ℝ)
    (hg : GoodBatteries eval) :
    ∃ br, evaluateMultiPass eval (inspectCallback (worstPass analyse)) emptyBattery 10 25 () = .ok (br, ()) ∧
      (worstPass analyse br = some true ↔ Accepted fun k => eval (BitVec.ofNat 64 (2 ^ k))) ∧
      (worstPass analyse br = some false ↔ Rejected fun k => eval (BitVec.ofNat 64 (2 ^ k))) := by
  obtain ⟨k, hk, he, hj, hlast⟩ := C36_passes eval (inspectCallback (worstPass analyse)) emptyBattery 10 25 (by norm_num) (by norm_num) ()
  have hans : ∀ j, answer eval (inspectCallback (worstPass analyse)) 10 25 () j
      = passes (worstPass analyse) (eval (BitVec.ofNat 64 (2 ^ (10 + j)))) := by
    intro j
    unfold answer inspectCallback passes
    cases worstPass analyse (eval (BitVec.ofNat 64 (2 ^ (10 + j)))) <;> rfl
  have hpass : ∀ j, 10 + j ≤ 25 → (passes (worstPass analyse) (eval (BitVec.ofNat 64 (2 ^ (10 + j)))) = true ↔
      BatteryPasses (eval (BitVec.ofNat 64 (2 ^ (10 + j))))) := by
    intro j hj
    obtain ⟨h1, h2⟩ := hg (10 + j) (by omega) hj
    exact (worstPass_spec analyse ha _ h1 h2).2
  have hnone : ∀ j, 10 + j ≤ 25 → (worstPass analyse (eval (BitVec.ofNat 64 (2 ^ (10 + j)))) = none ↔
      keys (eval (BitVec.ofNat 64 (2 ^ (10 + j)))) = []) := by
    intro j hj
    obtain ⟨h1, h2⟩ := hg (10 + j) (by omega) hj
    exact (worstPass_spec analyse ha _ h1 h2).1
  refine ⟨_, he, ?_, ?_⟩
  · constructor
    · intro hw
      have hp : passes (worstPass analyse) (eval (BitVec.ofNat 64 (2 ^ (10 + k)))) = true := by unfold passes; rw [hw]; rfl
      have hk25 : 10 + k = 25 := by
        rcases hlast with h | h
        · exact h
        · rw [hans, hp] at h; cases h
      refine ⟨fun j h1 h2 => ?_, ?_⟩
      · rcases Nat.lt_or_ge (j - 10) k with h | h
        · have := hj (j - 10) h
          rw [hans, hpass _ (by omega), show 10 + (j - 10) = j by omega] at this
          exact this
        · have : j = 10 + k := by omega
          subst this
          exact (hpass k hk).1 hp
      · intro h
        show False
        rw [← hk25] at h
        have := (hnone k hk).2 h
        rw [hw] at this; cases this
    · rintro ⟨h1, h2⟩
      have hp : passes (worstPass analyse) (eval (BitVec.ofNat 64 (2 ^ (10 + k)))) = true := (hpass k hk).2 (h1 _ (by omega) hk)
      have hk25 : 10 + k = 25 := by
        rcases hlast with h | h
        · exact h
        · rw [hans, hp] at h; cases h
      cases hw : worstPass analyse (eval (BitVec.ofNat 64 (2 ^ (10 + k)))) with
      | none => exact absurd ((hnone k hk).1 hw) (by rw [hk25]; exact h2)
      | some b =>
        unfold passes at hp
        rw [hw] at hp
        rw [show b = true from hp]
  · constructor
    · intro hw
      refine ⟨10 + k, by omega, hk, fun h => ?_⟩
      have := (hpass k hk).2 h
      unfold passes at this
      rw [hw] at this; cases this
    · rintro ⟨j, h1, h2, h3⟩
      have hf : passes (worstPass analyse) (eval (BitVec.ofNat 64 (2 ^ (10 + k)))) = false := by
        by_contra hc
        rw [Bool.not_eq_false] at hc
        have hk25 : 10 + k = 25 := by
          rcases hlast with h | h
          · exact h
          · rw [hans, hc] at h; cases h
        rcases Nat.lt_or_ge (j - 10) k with h | h
        · have := hj (j - 10) h
          rw [hans, hpass _ (by omega), show 10 + (j - 10) = j by omega] at this
          exact h3 this
        · have : j = 10 + k := by omega
          subst this
          exact h3 ((hpass k hk).1 hc)
      unfold passes at hf
      cases hw : worstPass analyse (eval (BitVec.ofNat 64 (2 ^ (10 + k)))) with
      | none => rw [hw] at hf; cases hf
      | some b => rw [hw] at hf; rw [show b = false from hf]

open Classical in
/-- C97. The verdict on each source: accepted, rejected, or neither (no result for 2^25 values and no failure before), in the
order of the sources. -/
theorem C97_partition (analyse : Battery ℝ → List ResultAnalysis) (ha : Analyses analyse)
    (eval : Stream (BitVec w) → BitVec 64 → Battery ℝ) (sources : List (Stream (BitVec w))) (hg : ∀ s ∈ sources, GoodBatteries (eval s)) :
    inspectTest analyse eval sources =
      .ok (sources.filter (fun s => decide (Accepted fun k => eval s (BitVec.ofNat 64 (2 ^ k)))),
        sources.filter (fun s => decide (Rejected fun k => eval s (BitVec.ofNat 64 (2 ^ k))))) := by
  have gen : ∀ (l : List (Stream (BitVec w))), (∀ s ∈ l, GoodBatteries (eval s)) → ∀ acc : List (Stream (BitVec w)) × List (Stream (BitVec w)),
      l.foldlM (fun (result : List (Stream (BitVec w)) × List (Stream (BitVec w))) source => do
        match evaluateMultiPass (eval source) (inspectCallback (worstPass analyse)) emptyBattery 10 25 () with
        | .error f => .error f
        | .ok br =>
          match worstPass analyse br.1 with
          | some true => .ok (result.1 ++ [source], result.2)
          | some false => .ok (result.1, result.2 ++ [source])
          | none => .ok result) acc =
      (.ok (acc.1 ++ l.filter (fun s => decide (Accepted fun k => eval s (BitVec.ofNat 64 (2 ^ k)))),
        acc.2 ++ l.filter (fun s => decide (Rejected fun k => eval s (BitVec.ofNat 64 (2 ^ k))))) : R _) := by
    intro l
    induction l with
    | nil => intro _ acc; simp; rfl
    | cons s l ih =>
      intro hg acc
      obtain ⟨br, e1, e2, e3⟩ := inspect_one analyse ha (eval s) (hg s List.mem_cons_self)
      have ih := ih fun x hx => hg x (List.mem_cons_of_mem _ hx)
      rw [List.foldlM_cons, e1]
      dsimp only
      rw [List.filter_cons, List.filter_cons]
      cases hw : worstPass analyse br with
      | none =>
        have n1 : ¬ Accepted fun k => eval s (BitVec.ofNat 64 (2 ^ k)) := fun h => by rw [e2.2 h] at hw; cases hw
        have n2 : ¬ Rejected fun k => eval s (BitVec.ofNat 64 (2 ^ k)) := fun h => by rw [e3.2 h] at hw; cases hw
        rw [if_neg (by simpa using n1), if_neg (by simpa using n2)]
        exact ih acc
      | some b =>
        cases b with
        | true =>
          have n1 := e2.1 hw
          have n2 : ¬ Rejected fun k => eval s (BitVec.ofNat 64 (2 ^ k)) := fun h => by rw [e3.2 h] at hw; cases hw
          rw [if_pos (by simpa using n1), if_neg (by simpa using n2)]
          refine (ih _).trans ?_
          simp
        | false =>
          have n1 : ¬ Accepted fun k => eval s (BitVec.ofNat 64 (2 ^ k)) := fun h => by rw [e2.2 h] at hw; cases hw
          have n2 := e3.1 hw
          rw [if_neg (by simpa using n1), if_pos (by simpa using n2)]
          refine (ih _).trans ?_
          simp
  unfold inspectTest
  refine (gen sources hg ([], [])).trans ?_
  simp

open Classical in
/-- What the check of one test prints when all sources should fail it: `PASS` if none is accepted - for the runs test also if exactly
four are -, else a line for each accepted source.  The mean test is shown the sources themselves, every other test all their
rotations, reversals and complements. -/
noncomputable def Spec.shouldFailLines (t : WT) (battery : TestRow → Stream (BitVec t.bits) → Nat → Battery ℝ)
    (sources : List (Stream (BitVec t.bits))) (test : TestRow) : List InspectLine :=
  let shown := if test.type = .mean then sources else createRrcSources t sources
  let accepted := shown.filter fun s => decide (Accepted (battery test s))
  if accepted.length = 0 ∨ (test.type = .runs ∧ accepted.length = 4) then [.pass test.name]
  else accepted.map fun s => .fail test.name s.name

open Classical in
/-- What the check of one test prints when no source should fail it: nothing for the tests of mixers, `PASS` if none is rejected, else
a line for each rejected source. -/
noncomputable def Spec.shouldPassLines (t : WT) (battery : TestRow → Stream (BitVec t.bits) → Nat → Battery ℝ)
    (sources : List (Stream (BitVec t.bits))) (test : TestRow) : List InspectLine :=
  let shown := if test.type = .mean then sources else createRrcSources t sources
  let rejected := shown.filter fun s => decide (Rejected (battery test s))
  if test.type = .sac ∨ test.type = .bic then []
  else if rejected = [] then [.pass test.name]
  else rejected.map fun s => .fail test.name s.name

theorem isOk_false (test : TestRow) (n : Nat) : inspectIsOk test n false = decide (n = 0 ∨ (test.type = .runs ∧ n = 4)) := by
  unfold inspectIsOk
  by_cases h0 : n = 0
  · simp [h0]
  · by_cases h1 : test.type = .runs
    · simp [h0, h1]
    · simp [h0, h1]

theorem isOk_true (test : TestRow) (n : Nat) : inspectIsOk test n true = decide (n = 0) := by
  unfold inspectIsOk
  by_cases h0 : n = 0 <;> simp [h0]

/-- C97. The lines printed by the two checks. -/
theorem C97_lines (t : WT) (analyse : Battery ℝ → List ResultAnalysis) (ha : Analyses analyse)
    (eval : TestRow → Stream (BitVec t.bits) → BitVec 64 → Battery ℝ) (sources : List (Stream (BitVec t.bits)))
    (hg : ∀ test s, GoodBatteries (eval test s)) :
    inspectTests t analyse eval sources false =
      .ok (getTests.flatMap (shouldFailLines t (fun test s k => eval test s (BitVec.ofNat 64 (2 ^ k))) sources)) ∧
    inspectTests t analyse eval sources true =
      .ok (getTests.flatMap (shouldPassLines t (fun test s k => eval test s (BitVec.ofNat 64 (2 ^ k))) sources)) := by
  classical
  have gen : ∀ (all : Bool) (lines : TestRow → List InspectLine) (tests : List TestRow),
      (∀ test ∈ tests, ∀ acc : List InspectLine, (if all ∧ test.hasMixer then (.ok acc : R (List InspectLine))
        else
          let testSources := if test.type = .mean then sources else createRrcSources t sources
          match inspectTest analyse (eval test) testSources with
          | .error f => .error f
          | .ok result =>
            let failSources := if all then result.2 else result.1
            if inspectIsOk test failSources.length all then .ok (acc ++ [.pass test.name])
            else .ok (acc ++ failSources.map fun s => .fail test.name s.name)) = .ok (acc ++ lines test)) →
      ∀ acc, tests.foldlM (fun lines test =>
        if all ∧ test.hasMixer then (.ok lines : R (List InspectLine))
        else
          let testSources := if test.type = .mean then sources else createRrcSources t sources
          match inspectTest analyse (eval test) testSources with
          | .error f => .error f
          | .ok result =>
            let failSources := if all then result.2 else result.1
            if inspectIsOk test failSources.length all then .ok (lines ++ [.pass test.name])
            else .ok (lines ++ failSources.map fun s => .fail test.name s.name)) acc = .ok (acc ++ tests.flatMap lines) := by
    intro all lines tests
    induction tests with
    | nil => intro _ acc; simp; rfl
    | cons test tests ih =>
      intro h acc
      rw [List.foldlM_cons, h test List.mem_cons_self acc, hbind, ih fun x hx => h x (List.mem_cons_of_mem _ hx)]
      simp
  have hmix : ∀ test ∈ getTests, (test.hasMixer = true ↔ test.type = .sac ∨ test.type = .bic) := by decide
  constructor
  · unfold inspectTests
    refine (gen false (shouldFailLines t (fun test s k => eval test s (BitVec.ofNat 64 (2 ^ k))) sources) getTests ?_ []).trans (by rw [List.nil_append])
    intro test _ acc
    rw [if_neg (by simp)]
    dsimp only
    rw [C97_partition analyse ha (eval test) _ fun s _ => hg test s]
    unfold shouldFailLines
    dsimp only
    simp only [Bool.false_eq_true, if_false]
    generalize List.filter _ _ = A
    rw [isOk_false]
    by_cases hc : A.length = 0 ∨ (test.type = .runs ∧ A.length = 4)
    · rw [if_pos (decide_eq_true hc), if_pos hc]
    · rw [if_neg (by simpa using hc), if_neg hc]
  · unfold inspectTests
    refine (gen true (shouldPassLines t (fun test s k => eval test s (BitVec.ofNat 64 (2 ^ k))) sources) getTests ?_ []).trans (by rw [List.nil_append])
    intro test htest acc
    unfold shouldPassLines
    dsimp only
    by_cases hm : test.hasMixer = true
    · rw [if_pos ⟨rfl, hm⟩, if_pos ((hmix test htest).1 hm)]; simp
    · rw [if_neg (by simp [hm]), if_neg (fun h => hm ((hmix test htest).2 h))]
      rw [C97_partition analyse ha (eval test) _ fun s _ => hg test s]
      dsimp only
      simp only [if_true]
      generalize List.filter _ _ = A
      rw [isOk_true]
      by_cases hc : A = []
      · rw [if_pos (by simp [hc]), if_pos hc]
      · rw [if_neg (by simpa using hc), if_neg hc]

/-- The hypothesis of the two theorems holds for every run of the catalogue of tests. -/
theorem inspect_good (cdf : ℝ → ℝ → ℝ) (t : WT) (hw : BitVec 32) (test : TestRow) (s : Stream (BitVec t.bits)) (eval : BitVec 64 → Battery ℝ)
    (h : ∀ k : Nat, 10 ≤ k → k ≤ 25 → EvaluateOutcome (suiteDef cdf) (BitVec.ofNat 64 (2 ^ k))
      (inspectSetup (defaultMaxThreads hw) test s) (eval (BitVec.ofNat 64 (2 ^ k)))) : GoodBatteries eval := by
  have hposs : PossibleRun (suiteDef cdf) (inspectSetup (defaultMaxThreads hw) test s, eval) := by
    have hth := defaultMaxThreads_pos hw
    refine ⟨by show 0 < defaultMaxThreads hw; omega, by show (0 : Int) ≤ 10; norm_num, by show (10 : Int) ≤ 25; norm_num,
      by show (25 : Int) ≤ 63; norm_num, fun k hk1 hk2 => ?_⟩
    have hk : 10 ≤ k ∧ k ≤ 25 := by
      have a : (10 : Int) ≤ k := hk1
      have b : (k : Int) ≤ 25 := hk2
      omega
    have hval : (BitVec.ofNat 64 (2 ^ k)).toNat = 2 ^ k := by
      rw [BitVec.toNat_ofNat, Nat.mod_eq_of_lt (Nat.pow_lt_pow_right (by norm_num) (by omega))]
    refine ⟨h k hk.1 hk.2, suite_valid cdf t _ ?_ ?_ _⟩
    · intro h
      have := congrArg BitVec.toNat h
      rw [hval] at this
      have : 0 < 2 ^ k := by positivity
      simp_all
    · rw [hval]
      calc 2 ^ k * t.bits ≤ 2 ^ 25 * 64 := Nat.mul_le_mul (Nat.pow_le_pow_right (by norm_num) hk.2) (by cases t <;> decide)
        _ < 2 ^ 64 := by norm_num
  intro k hk1 hk2
  have := possible_valid hposs k (by show (10 : Int) ≤ k; omega) (by show (k : Int) ≤ 25; omega)
  exact ⟨this.1, this.2.1⟩

/-- C97. The two checks with the catalogue of tests, for any schedule of the threads. -/
theorem C97_inspect (cdf : ℝ → ℝ → ℝ) (t : WT) (hw : BitVec 32) (analyse : Battery ℝ → List ResultAnalysis) (ha : Analyses analyse)
    (eval : TestRow → Stream (BitVec t.bits) → BitVec 64 → Battery ℝ)
    (h : ∀ test s, ∀ k : Nat, 10 ≤ k → k ≤ 25 → EvaluateOutcome (suiteDef cdf) (BitVec.ofNat 64 (2 ^ k))
      (inspectSetup (defaultMaxThreads hw) test s) (eval test s (BitVec.ofNat 64 (2 ^ k))))
    (sources : List (Stream (BitVec t.bits))) :
    inspectTests t analyse eval sources false =
      .ok (getTests.flatMap (shouldFailLines t (fun test s k => eval test s (BitVec.ofNat 64 (2 ^ k))) sources)) ∧
    inspectTests t analyse eval sources true =
      .ok (getTests.flatMap (shouldPassLines t (fun test s k => eval test s (BitVec.ofNat 64 (2 ^ k))) sources)) :=
  C97_lines t analyse ha eval sources fun test s => inspect_good cdf t hw test s _ (h test s)

/-- C97. What the batteries contain: exactly the statistics of the sub tests of the inspected test, applied to the source itself (passed
through the identity). -/
theorem C97_battery (cdf : ℝ → ℝ → ℝ) (hw : BitVec 32) (test : TestRow) (s : Stream (BitVec w)) (n : BitVec 64) (b : Battery ℝ)
    (hb : EvaluateOutcome (suiteDef cdf) n (inspectSetup (defaultMaxThreads hw) test s) b) (key : TestKey) (st : Statistic ℝ) :
    (∀ k, (mixerStream s ⟨"identity", fun x => x⟩).nth k = s.nth k) ∧
    ((∃ r ∈ b.get key, r.stats = st) ↔ key.type = test.type ∧
      ((∃ f, suiteStream cdf test.type = some f ∧ ⟨key.sub, some st⟩ ∈ (f n (mixerStream s ⟨"identity", fun x => x⟩)).value) ∨
       (∃ f, suiteMixer cdf test.type = some f ∧ ⟨key.sub, some st⟩ ∈ (f n s ⟨"identity", fun x => x⟩).value))) := by
  refine ⟨fun k => C31_mixer s ⟨"identity", fun x => x⟩ k, ?_⟩
  have hth := defaultMaxThreads_pos hw
  obtain ⟨-, -, -, -, hp⟩ := C35_schedule_independent _ n _ (by show 0 < defaultMaxThreads hw; omega) b hb
  have hty : (suiteDef cdf test.type : TestDef w ℝ).type = test.type := (C89_kind (w := w) cdf test.type).2.2.2
  have hex : expectedResults (suiteDef cdf) n (inspectSetup (defaultMaxThreads hw) test s) =
      (match suiteMixer (w := w) cdf test.type with
       | some f => ((f n s ⟨"identity", fun x => x⟩).value).filterMap fun sub => sub.stats.map fun stat =>
          (⟨s.name, test.name, n, ⟨test.type, sub.name⟩, stat⟩ : TestResult ℝ)
       | none => []) ++
      (match suiteStream (w := w) cdf test.type with
       | some f => ((f n (mixerStream s ⟨"identity", fun x => x⟩)).value).filterMap fun sub => sub.stats.map fun stat =>
          (⟨(mixerStream s ⟨"identity", fun x => x⟩).name, test.name, n, ⟨test.type, sub.name⟩, stat⟩ : TestResult ℝ)
       | none => []) := by
    unfold expectedResults inspectSetup defaultSetup
    simp only [List.flatMap_cons, List.flatMap_nil, List.append_nil, hty]
    congr 1
    · unfold suiteDef
      cases suiteMixer (w := w) cdf test.type <;> rfl
    · unfold suiteDef
      cases suiteStream (w := w) cdf test.type <;> rfl
  have hmem : ∀ (l : List (SubTest ℝ)) (nm : String), (∃ r ∈ l.filterMap (fun sub => sub.stats.map fun stat =>
      (⟨nm, test.name, n, ⟨test.type, sub.name⟩, stat⟩ : TestResult ℝ)), r.key = key ∧ r.stats = st) ↔
      key.type = test.type ∧ ⟨key.sub, some st⟩ ∈ l := by
    intro l nm
    constructor
    · rintro ⟨r, hr, rfl, rfl⟩
      obtain ⟨⟨sn, so⟩, hsub, h⟩ := List.mem_filterMap.1 hr
      obtain ⟨stat, h1, rfl⟩ := Option.map_eq_some_iff.1 h
      cases h1
      exact ⟨rfl, hsub⟩
    · rintro ⟨h1, h2⟩
      refine ⟨⟨nm, test.name, n, ⟨test.type, key.sub⟩, st⟩, List.mem_filterMap.2 ⟨_, h2, rfl⟩, ?_, rfl⟩
      rw [← h1]
  constructor
  · rintro ⟨r, hr, rfl⟩
    have h1 := (hp key).mem_iff.1 hr
    rw [List.mem_filter, hex, List.mem_append] at h1
    obtain ⟨h1, h2⟩ := h1
    have h2 : r.key = key := by simpa using h2
    rcases h1 with h1 | h1
    · cases hf : suiteMixer (w := w) cdf test.type with
      | none => rw [hf] at h1; simp at h1
      | some f =>
        rw [hf] at h1
        obtain ⟨h3, h4⟩ := (hmem _ _).1 ⟨r, h1, h2, rfl⟩
        exact ⟨h3, Or.inr ⟨f, rfl, h4⟩⟩
    · cases hf : suiteStream (w := w) cdf test.type with
      | none => rw [hf] at h1; simp at h1
      | some f =>
        rw [hf] at h1
        obtain ⟨h3, h4⟩ := (hmem _ _).1 ⟨r, h1, h2, rfl⟩
        exact ⟨h3, Or.inl ⟨f, rfl, h4⟩⟩
  · rintro ⟨h3, ⟨f, hf, h4⟩ | ⟨f, hf, h4⟩⟩
    · obtain ⟨r, h1, h2, h5⟩ := (hmem _ (mixerStream s ⟨"identity", fun x => x⟩).name).2 ⟨h3, h4⟩
      refine ⟨r, (hp key).mem_iff.2 ?_, h5⟩
      rw [List.mem_filter, hex, List.mem_append, hf]
      exact ⟨Or.inr h1, by simpa using h2⟩
    · obtain ⟨r, h1, h2, h5⟩ := (hmem _ s.name).2 ⟨h3, h4⟩
      refine ⟨r, (hp key).mem_iff.2 ?_, h5⟩
      rw [List.mem_filter, hex, List.mem_append, hf]
      exact ⟨Or.inl h1, by simpa using h2⟩

/-- C97. The sources that should fail: three constant ones and the numbers 1, 2, 3, ... -/
theorem C97_fail_sources (t : WT) : ∃ c s0 s1 s2 s3, createFailSources t = .ok [s0, s1, s2, s3] ∧
    defaultMix t (BitVec.ofNat t.bits 123) = .ok c ∧
    ∀ k, s0.nth k = 0 ∧ s1.nth k = BitVec.ofNat t.bits 1 ∧ s2.nth k = c ∧ s3.nth k = BitVec.ofNat t.bits (k + 1) := by
  obtain ⟨f, _, hmix⟩ := defaultMix_bijective t
  have hconst : ∀ (c : BitVec t.bits) k, (constantStream c).nth k = c := by
    intro c k
    rw [Stream.nth_eq]; rfl
  refine ⟨f (BitVec.ofNat t.bits 123), constantStream (BitVec.ofNat t.bits 0), constantStream (BitVec.ofNat t.bits 1),
    constantStream (f (BitVec.ofNat t.bits 123)), counterStream t.bits 1 0, by unfold createFailSources; rw [hmix], hmix _, fun k =>
    ⟨hconst _ k, hconst _ k, hconst _ k, ?_⟩⟩
  have hw : t.bits ≤ 64 := by cases t <;> decide
  apply BitVec.eq_of_toNat_eq
  rw [C26_counter _ _ _ hw, Nat.mod_mod_of_dvd _ (Nat.pow_dvd_pow 2 hw), BitVec.toNat_ofNat]
  simp

-- Runs as in the hypothesis exist.
example (cdf : ℝ → ℝ → ℝ) (t : WT) (hw : BitVec 32) : ∃ eval : TestRow → Stream (BitVec t.bits) → BitVec 64 → Battery ℝ,
    ∀ test s, ∀ k : Nat, 10 ≤ k → k ≤ 25 → EvaluateOutcome (suiteDef cdf) (BitVec.ofNat 64 (2 ^ k))
      (inspectSetup (defaultMaxThreads hw) test s) (eval test s (BitVec.ofNat 64 (2 ^ k))) := by
  choose f hf using fun (test : TestRow) (s : Stream (BitVec t.bits)) n =>
    C35_terminates (suiteDef cdf) n (inspectSetup (defaultMaxThreads hw) test s)
  exact ⟨f, fun test s k _ _ => hf test s _⟩
-- A source whose batteries have no results is neither accepted nor rejected.
example : ¬ Accepted (fun _ => ⟨"", 0, 0, 0, []⟩) ∧ ¬ Rejected (fun _ => ⟨"", 0, 0, 0, []⟩) :=
  ⟨fun h => h.2 rfl, fun ⟨_, _, _, h⟩ => h fun k hk => by cases hk⟩

/-! ### C98 -/

private theorem strMapUpdate_spec {V : Type} (k : String) (f : Option V → V) (m : List (String × V))
    (h : m.Pairwise fun x y => strLt x.1.toList y.1.toList = true) :
    (strMapUpdate k f m).Pairwise (fun x y => strLt x.1.toList y.1.toList = true) ∧
    (∀ s, s ∈ (strMapUpdate k f m).map Prod.fst ↔ s = k ∨ s ∈ m.map Prod.fst) ∧
    ∀ q, strMapFind q (strMapUpdate k f m) = if q = k then some (f (strMapFind k m)) else strMapFind q m := by
  induction m with
  | nil =>
    refine ⟨by simp [strMapUpdate], by simp [strMapUpdate], fun q => ?_⟩
    simp only [strMapUpdate, strMapFind]
    by_cases hq : q = k
    · subst hq; simp [strLt_irrefl]
    · rw [if_neg hq]
      by_cases h1 : strLt k.toList q.toList = true
      · simp [h1]
      · by_cases h2 : strLt q.toList k.toList = true
        · simp [h1, h2]
        · exact absurd (String.toList_inj.1 (strLt_total (by simpa using h2) (by simpa using h1))) hq
  | cons e m ih =>
    obtain ⟨k', v⟩ := e
    obtain ⟨h1, h2⟩ := List.pairwise_cons.1 h
    obtain ⟨i1, i2, i3⟩ := ih h2
    by_cases c1 : strLt k'.toList k.toList = true
    · have e1 : strMapUpdate k f ((k', v) :: m) = (k', v) :: strMapUpdate k f m := by rw [strMapUpdate, if_pos c1]
      have hkk : k ≠ k' := fun h => by rw [h, strLt_irrefl] at c1; cases c1
      rw [e1]
      refine ⟨List.pairwise_cons.2 ⟨fun x hx => ?_, i1⟩, fun s => ?_, fun q => ?_⟩
      · have : x.1 ∈ (strMapUpdate k f m).map Prod.fst := List.mem_map_of_mem hx
        rcases (i2 x.1).1 this with h | h
        · rw [h]; exact c1
        · obtain ⟨y, hy, hyx⟩ := List.mem_map.1 h
          rw [← hyx]; exact h1 y hy
      · simp only [List.map_cons, List.mem_cons, i2]; tauto
      · simp only [strMapFind]
        rw [i3, if_pos c1]
        by_cases hq : q = k
        · rw [if_pos hq, hq, if_pos c1, if_pos rfl]
        · simp only [if_neg hq]
    · by_cases c2 : strLt k.toList k'.toList = true
      · have e1 : strMapUpdate k f ((k', v) :: m) = (k, f none) :: (k', v) :: m := by rw [strMapUpdate, if_neg c1, if_pos c2]
        rw [e1]
        refine ⟨List.pairwise_cons.2 ⟨fun x hx => ?_, h⟩, fun s => ?_, fun q => ?_⟩
        · rcases List.mem_cons.1 hx with rfl | hx
          · exact c2
          · exact strLt_trans c2 (h1 x hx)
        · simp only [List.map_cons, List.mem_cons]
        · have hnone : strMapFind k ((k', v) :: m) = none := by simp [strMapFind, c1, c2]
          rw [hnone]
          by_cases hq : q = k
          · subst hq; simp [strMapFind, strLt_irrefl]
          · rw [if_neg hq]
            by_cases d1 : strLt k.toList q.toList = true
            · simp [strMapFind, d1]
            · have d2 : strLt q.toList k.toList = true := by
                by_contra hc
                exact hq (String.toList_inj.1 (strLt_total (by simpa using hc) (by simpa using d1)))
              have d3 : strLt q.toList k'.toList = true := strLt_trans d2 c2
              have d4 : strLt k'.toList q.toList = false := by
                by_contra hc
                rw [Bool.not_eq_false] at hc
                have := strLt_trans hc d3
                rw [strLt_irrefl] at this; cases this
              simp [strMapFind, d1, d2, d3, d4]
      · have hkk : k' = k := String.toList_inj.1 (strLt_total (by simpa using c1) (by simpa using c2))
        subst hkk
        have e1 : strMapUpdate k' f ((k', v) :: m) = (k', f (some v)) :: m := by rw [strMapUpdate, if_neg c1, if_neg c1]
        rw [e1]
        refine ⟨List.pairwise_cons.2 ⟨h1, h2⟩, fun s => ?_, fun q => ?_⟩
        · simp only [List.map_cons, List.mem_cons]; tauto
        · have hs : strMapFind k' ((k', v) :: m) = some v := by simp [strMapFind, strLt_irrefl]
          rw [hs]
          by_cases hq : q = k'
          · subst hq; simp [strMapFind, strLt_irrefl]
          · rw [if_neg hq]
            simp only [strMapFind]
            by_cases d1 : strLt k'.toList q.toList = true
            · simp [d1]
            · by_cases d2 : strLt q.toList k'.toList = true
              · simp [d1, d2]
              · exact absurd (String.toList_inj.1 (strLt_total (by simpa using d2) (by simpa using d1))) hq

/-- What the last of the assignments to a cell wrote, if there was one. -/
def Spec.lastValue (ops : List (String × String × String)) (subject test : String) : Option String :=
  (ops.reverse.find? fun o => o.1 = subject ∧ o.2.1 = test).map fun o => o.2.2

private theorem strMapFind_mem {V : Type} (m : List (String × V)) (h : m.Pairwise fun x y => strLt x.1.toList y.1.toList = true) (e : String × V)
    (he : e ∈ m) : strMapFind e.1 m = some e.2 := by
  induction m with
  | nil => cases he
  | cons a m ih =>
    obtain ⟨k, v⟩ := a
    obtain ⟨h1, h2⟩ := List.pairwise_cons.1 h
    rcases List.mem_cons.1 he with rfl | he
    · simp [strMapFind, strLt_irrefl]
    · simp only [strMapFind]
      rw [if_pos (h1 e he), ih h2 he]

private theorem foldl_text {α : Type} (f : α → String) (l : List α) (acc : String) :
    l.foldl (fun ss x => ss ++ f x) acc = acc ++ String.join (l.map f) := by
  induction l generalizing acc with
  | nil => simp [String.join]
  | cons x l ih => rw [List.foldl_cons, ih, List.map_cons, String.join_cons, String.append_assoc]

/-- The names of the tests, as columns. -/
def Spec.testColumns : List String := ["mean", "uniform", "runs", "serial-avalanche", "gap", "coupon", "divisibility", "permutation",
  "binary-rank", "linear-complexity", "sac", "bic"]

/-- C98. The table after any history of assignments: a header with the names of the tests, then one row for each subject that was
ever assigned to, in alphabetical order, with the value last written in each column, nothing where none was. -/
theorem C98_table (ops : List (String × String × String)) :
    ∃ subjects : List String, subjects.Pairwise (fun x y => strLt x.toList y.toList = true) ∧
      (∀ s, s ∈ subjects ↔ ∃ o ∈ ops, o.1 = s) ∧
      perTestText (ops.foldl (fun r o => r.assign o.1 o.2.1 o.2.2) []) =
        "name|mean|uniform|runs|serial-avalanche|gap|coupon|divisibility|permutation|binary-rank|linear-complexity|sac|bic|\n-|-|-|-|-|-|-|-|-|-|-|-|-\n" ++
        String.join (subjects.map fun s => s ++ "|" ++
          String.join (testColumns.map fun c => (lastValue ops s c).getD "" ++ "|") ++ "\n") := by
  have inv : ∀ ops : List (String × String × String),
      let r := ops.foldl (fun (r : PerTestResult) o => r.assign o.1 o.2.1 o.2.2) []
      r.Pairwise (fun x y => strLt x.1.toList y.1.toList = true) ∧
      (∀ e ∈ r, e.2.Pairwise fun x y => strLt x.1.toList y.1.toList = true) ∧
      (∀ s, s ∈ r.map Prod.fst ↔ ∃ o ∈ ops, o.1 = s) ∧
      ∀ s c, ((strMapFind s r).getD []).Pairwise (fun x y => strLt x.1.toList y.1.toList = true) ∧
        strMapFind c ((strMapFind s r).getD []) = lastValue ops s c := by
    intro ops
    induction ops using List.reverseRecOn with
    | nil => refine ⟨List.Pairwise.nil, by simp, by simp, fun s c => ⟨by simp [strMapFind], by simp [strMapFind, lastValue]⟩⟩
    | append_singleton ops o ih =>
      dsimp only at ih ⊢
      rw [List.foldl_append, List.foldl_cons, List.foldl_nil]
      set r := ops.foldl (fun (r : PerTestResult) o => r.assign o.1 o.2.1 o.2.2) [] with hr
      obtain ⟨i1, i2, i3, i4⟩ := ih
      obtain ⟨u1, u2, u3⟩ := strMapUpdate_spec o.1 (fun row => strMapUpdate o.2.1 (fun _ => o.2.2) (row.getD [])) r i1
      have hrow := strMapUpdate_spec o.2.1 (fun _ => o.2.2) ((strMapFind o.1 r).getD []) (i4 o.1 "").1
      have hfind : ∀ s c, ((strMapFind s (r.assign o.1 o.2.1 o.2.2)).getD []).Pairwise (fun x y => strLt x.1.toList y.1.toList = true) ∧
        strMapFind c ((strMapFind s (r.assign o.1 o.2.1 o.2.2)).getD []) = lastValue (ops ++ [o]) s c := by
        intro s c
        have : strMapFind s (r.assign o.1 o.2.1 o.2.2) = _ := u3 s
        rw [this]
        unfold lastValue
        rw [List.reverse_append, List.reverse_singleton, List.singleton_append, List.find?_cons]
        by_cases hs : s = o.1
        · subst hs
          rw [if_pos rfl, Option.getD_some]
          refine ⟨hrow.1, ?_⟩
          rw [hrow.2.2]
          by_cases hc : c = o.2.1
          · subst hc; simp
          · rw [if_neg hc, (i4 o.1 c).2]
            unfold lastValue
            have : decide (o.1 = o.1 ∧ o.2.1 = c) = false := by simp [Ne.symm hc]
            rw [this]
        · rw [if_neg hs]
          refine ⟨(i4 s c).1, ?_⟩
          rw [(i4 s c).2]
          unfold lastValue
          have : decide (o.1 = s ∧ o.2.1 = c) = false := by simp [Ne.symm hs]
          rw [this]
      refine ⟨u1, fun e he => ?_, fun s => ?_, hfind⟩
      · have h1 : strMapFind e.1 (r.assign o.1 o.2.1 o.2.2) = some e.2 := strMapFind_mem _ u1 e he
        have := (hfind e.1 "").1
        rw [h1] at this
        exact this
      · refine (u2 s).trans ?_
        rw [i3]
        simp only [List.mem_append, List.mem_singleton]
        constructor
        · rintro (h | ⟨x, hx, h⟩)
          · exact ⟨o, Or.inr rfl, h.symm⟩
          · exact ⟨x, Or.inl hx, h⟩
        · rintro ⟨x, hx | rfl, h⟩
          · exact Or.inr ⟨x, hx, h⟩
          · exact Or.inl h.symm
  obtain ⟨i1, i2, i3, i4⟩ := inv ops
  set r := ops.foldl (fun (r : PerTestResult) o => r.assign o.1 o.2.1 o.2.2) [] with hr
  refine ⟨r.map Prod.fst, List.pairwise_map.2 i1, i3, ?_⟩
  unfold perTestText
  have hhead : getTests.foldl (fun ss _ => ss ++ "-|") (getTests.foldl (fun ss test => ss ++ test.name ++ "|") "name|" ++ "\n") ++ "-\n" =
      "name|mean|uniform|runs|serial-avalanche|gap|coupon|divisibility|permutation|binary-rank|linear-complexity|sac|bic|\n-|-|-|-|-|-|-|-|-|-|-|-|-\n" := by
    decide +kernel
  dsimp only
  rw [hhead]
  have hrow : ∀ e ∈ r, ∀ ss : String,
      getTests.foldl (fun ss test =>
        (match strMapFind test.name e.2 with
          | some v => ss ++ v
          | none => ss) ++ "|") (ss ++ e.1 ++ "|") ++ "\n" =
      ss ++ (e.1 ++ "|" ++ String.join (testColumns.map fun c => (lastValue ops e.1 c).getD "" ++ "|") ++ "\n") := by
    intro e he ss
    have hf : (fun (ss : String) (test : TestRow) => (match strMapFind test.name e.2 with
          | some v => ss ++ v
          | none => ss) ++ "|") = fun ss test => ss ++ ((strMapFind test.name e.2).getD "" ++ "|") := by
      funext ss test
      cases strMapFind test.name e.2 with
      | none => simp
      | some v => simp [String.append_assoc]
    rw [hf, foldl_text]
    have hcols : getTests.map (fun test => (strMapFind test.name e.2).getD "" ++ "|") =
        testColumns.map fun c => (lastValue ops e.1 c).getD "" ++ "|" := by
      have h1 : testColumns = getTests.map TestRow.name := by decide
      rw [h1, List.map_map]
      refine List.map_congr_left fun test _ => ?_
      have h2 := (i4 e.1 test.name).2
      rw [strMapFind_mem r i1 e he] at h2
      simp only [Option.getD_some] at h2
      simp only [Function.comp]
      rw [h2]
    rw [hcols]
    simp only [String.append_assoc]
  have gen : ∀ (l : PerTestResult), (∀ e ∈ l, e ∈ r) → ∀ acc : String,
      l.foldl (fun ss e => getTests.foldl (fun ss test =>
        (match strMapFind test.name e.2 with
          | some v => ss ++ v
          | none => ss) ++ "|") (ss ++ e.1 ++ "|") ++ "\n") acc =
      acc ++ String.join ((l.map Prod.fst).map fun s => s ++ "|" ++
          String.join (testColumns.map fun c => (lastValue ops s c).getD "" ++ "|") ++ "\n") := by
    intro l
    induction l with
    | nil => intro _ acc; simp [String.join]
    | cons e l ih =>
      intro hl acc
      rw [List.foldl_cons, hrow e (hl e List.mem_cons_self), ih fun x hx => hl x (List.mem_cons_of_mem _ hx),
        List.map_cons, List.map_cons, String.join_cons]
      simp only [String.append_assoc]
  exact gen r (fun _ h => h) _

end TFR
