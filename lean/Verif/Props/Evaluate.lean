import Verif.Model.Evaluate
import Verif.Props.Jobs
import Verif.Props.Results
/-
C35, C36, C37.
-/
namespace TFR
variable {w : Nat} {K : Type}

/-! ### C35 -/

namespace Spec
/-- The results a setup asks for: for every requested test and every source, the sub-tests of the mixer test (if the test
has one and a mixer is given) and of the stream test (if it has one, on the source passed through the mixer if one is
given); sub-tests without a statistic are left out. -/
def expectedResults (defs : TestType → TestDef w K) (n : BitVec 64) (setup : TestSetup w) : List (TestResult K) :=
  setup.tests.flatMap fun t => setup.sources.flatMap fun s =>
    (match (defs t).testMixer, setup.mix with
     | some test, some m => (test n s m).filterMap fun sub => sub.stats.map fun stat =>
        ⟨s.name, setup.subject, n, ⟨(defs t).type, sub.name⟩, stat⟩
     | _, _ => []) ++
    (match (defs t).testStream, setup.mix with
     | some test, some m => (test n (mixerStream s m)).filterMap fun sub => sub.stats.map fun stat =>
        ⟨(mixerStream s m).name, setup.subject, n, ⟨(defs t).type, sub.name⟩, stat⟩
     | some test, none => (test n s).filterMap fun sub => sub.stats.map fun stat =>
        ⟨s.name, setup.subject, n, ⟨(defs t).type, sub.name⟩, stat⟩
     | none, _ => [])
end Spec
open Spec

theorem collectSubTests_eq (a b : String) (n : BitVec 64) (t : TestType) (l : List (SubTest K)) :
    collectSubTests a b n t l = l.filterMap fun sub => sub.stats.map fun stat => ⟨a, b, n, ⟨t, sub.name⟩, stat⟩ := by
  induction l with
  | nil => rfl
  | cons s l ih =>
    rcases hs : s.stats with _ | st
    · rw [collectSubTests, List.filterMap_cons]; simp [hs, ih]
    · rw [collectSubTests, List.filterMap_cons]; simp [hs, ih]

theorem foldl_append {α β : Type*} (f : α → List β) (l : List α) (acc : List β) :
    l.foldl (fun acc x => acc ++ f x) acc = acc ++ l.flatMap f := by
  induction l generalizing acc with
  | nil => simp
  | cons x l ih => rw [List.foldl_cons, ih, List.flatMap_cons, List.append_assoc]

theorem createTestJobs_eq (defs : TestType → TestDef w K) (n : BitVec 64) (setup : TestSetup w) :
    createTestJobs defs n setup = setup.tests.flatMap fun t => setup.sources.flatMap fun s => jobsFor n setup (defs t) s := by
  unfold createTestJobs
  have : (fun (jobs : List (TestJob K)) test => setup.sources.foldl (fun jobs source => jobs ++ jobsFor n setup (defs test) source) jobs)
      = fun jobs test => jobs ++ setup.sources.flatMap fun s => jobsFor n setup (defs test) s := by
    funext jobs t
    exact foldl_append (fun s => jobsFor n setup (defs t) s) setup.sources jobs
  rw [this, foldl_append]; simp

theorem jobs_results (defs : TestType → TestDef w K) (n : BitVec 64) (setup : TestSetup w) :
    (createTestJobs defs n setup).flatMap (fun j => j ()) = expectedResults defs n setup := by
  rw [createTestJobs_eq, List.flatMap_assoc]
  unfold expectedResults
  congr 1; funext t
  rw [List.flatMap_assoc]
  congr 1; funext s
  unfold jobsFor createStream
  rcases hm : (defs t).testMixer with _ | mt <;> rcases hs : (defs t).testStream with _ | st <;> rcases hx : setup.mix with _ | m <;>
    simp [createMixerJob, createStreamJob, collectSubTests_eq]

/-- Every outcome of `evaluate` with at least one thread, under every schedule: the header is the setup's, and for every
test key the recorded results are, up to order, exactly the expected ones - none lost, none duplicated. -/
theorem C35_schedule_independent (defs : TestType → TestDef w K) (n : BitVec 64) (setup : TestSetup w)
    (h : 0 < setup.maxThreads) (b : Battery K) (hb : EvaluateOutcome defs n setup b) :
    b.subject = setup.subject ∧ b.n = n ∧ b.samples = setup.sources.length ∧ b.bits = w ∧
    ∀ key, (b.get key).Perm ((expectedResults defs n setup).filter fun r => r.key = key) := by
  obtain ⟨k, c, hr, hret, rfl⟩ := hb
  have hp := (Jobs.C33_exactly_once _ _ _ h k c hr hret).2.1
  rw [jobs_results] at hp
  have hh : ∀ (rs : List (TestResult K)) (b : Battery K), (rs.foldl Battery.add b).subject = b.subject ∧
      (rs.foldl Battery.add b).n = b.n ∧ (rs.foldl Battery.add b).samples = b.samples ∧ (rs.foldl Battery.add b).bits = b.bits := by
    intro rs
    induction rs with
    | nil => intro b; exact ⟨rfl, rfl, rfl, rfl⟩
    | cons r rs ih => intro b; exact ih (b.add r)
  obtain ⟨h1, h2, h3, h4⟩ := hh c.collected ⟨setup.subject, n, setup.sources.length, w, []⟩
  refine ⟨h1, h2, h3, h4, fun key => ?_⟩
  rw [C38_lookup]
  exact hp.filter _

/-- Hence any two runs, with any positive thread counts, agree on the multiset of results of every key. -/
theorem C35_thread_count_independent (defs : TestType → TestDef w K) (n : BitVec 64) (setup : TestSetup w) (t1 t2 : Nat)
    (h1 : 0 < t1) (h2 : 0 < t2) (b1 b2 : Battery K)
    (hb1 : EvaluateOutcome defs n { setup with maxThreads := t1 } b1)
    (hb2 : EvaluateOutcome defs n { setup with maxThreads := t2 } b2) (key : TestKey) : (b1.get key).Perm (b2.get key) :=
  ((C35_schedule_independent defs n _ h1 b1 hb1).2.2.2.2 key).trans
    ((C35_schedule_independent defs n _ h2 b2 hb2).2.2.2.2 key).symm

/-- `evaluate` always has an outcome. -/
theorem C35_terminates (defs : TestType → TestDef w K) (n : BitVec 64) (setup : TestSetup w) :
    ∃ b : Battery K, EvaluateOutcome defs n setup b := by
  obtain ⟨m, c, h, hr⟩ := Jobs.C34_returns (fun j : TestJob K => j ())
    (Jobs.threadCount (createTestJobs defs n setup) setup.maxThreads) (createTestJobs defs n setup) 0 _ .start
  exact ⟨_, _, c, h, hr, rfl⟩

/-- With `max_threads = 0` the battery is empty: no test is run and the report is inconclusive. -/
theorem C35_zero_threads (defs : TestType → TestDef w K) (n : BitVec 64) (setup : TestSetup w) (h : setup.maxThreads = 0)
    (b : Battery K) (hb : EvaluateOutcome defs n setup b) : b.results = [] := by
  obtain ⟨k, c, hr, hret, rfl⟩ := hb
  rw [h] at hr
  rw [(Jobs.C34_zero_threads _ _ k c hr).2.2.1]; rfl

/-- Non-vacuity: two sources, a stream test with one sub-test: two results under one key. -/
example : (expectedResults (K := Nat) (fun t => ⟨t, some (fun n s => [⟨s.name, some ⟨.chi2, n.toNat, 0, 1⟩⟩, ⟨"skipped", none⟩]), none⟩)
    8#64 ⟨"subject", [counterStream 8 1#64 0#64, counterStream 8 2#64 0#64], [.gap, .mean], none, 3, 10, 11⟩).map
      (fun r => r.key) = [⟨.gap, "counter-1"⟩, ⟨.gap, "counter-2"⟩, ⟨.mean, "counter-1"⟩, ⟨.mean, "counter-2"⟩] := by
  decide +kernel

/-! ### C36 -/

section
variable {S Res : Type}

/-- The callback's state after it has been shown the powers `start .. start+k-1`. -/
def Spec.stateAfter (eval : BitVec 64 → Res) (callback : S → Res → Bool → Bool × S) (start stop : Nat) (s : S) : Nat → S
  | 0 => s
  | k + 1 => (callback (stateAfter eval callback start stop s k) (eval (BitVec.ofNat 64 (2 ^ (start + k))))
      (start + k == stop)).2

/-- The callback's answer for power `start + k`. -/
def Spec.answer (eval : BitVec 64 → Res) (callback : S → Res → Bool → Bool × S) (start stop : Nat) (s : S) (k : Nat) : Bool :=
  (callback (stateAfter eval callback start stop s k) (eval (BitVec.ofNat 64 (2 ^ (start + k)))) (start + k == stop)).1

theorem one_shl (p : Nat) : (1#64 <<< p) = BitVec.ofNat 64 (2 ^ p) := by
  apply BitVec.eq_of_toNat_eq
  simp [Nat.shiftLeft_eq]

/-- For `0 <= start <= stop <= 63`: the passes are `n = 2^start, 2^(start+1), ..., 2^(start+k)` for some `k`, one callback
each, `last` being true exactly for `stop`; all answers before the last pass are `true`; the last pass is the one at
`stop` or the first answered `false`; the returned battery is that of the last pass. -/
theorem C36_passes (eval : BitVec 64 → Res) (callback : S → Res → Bool → Bool × S) (empty : Res) (start stop : Nat)
    (h1 : start ≤ stop) (h2 : stop ≤ 63) (s : S) :
    ∃ k, start + k ≤ stop ∧
      evaluateMultiPass eval callback empty start stop s =
        .ok (eval (BitVec.ofNat 64 (2 ^ (start + k))), stateAfter eval callback start stop s (k + 1)) ∧
      (∀ j < k, answer eval callback start stop s j = true) ∧
      (start + k = stop ∨ answer eval callback start stop s k = false) := by
  have key : ∀ m k, start + k + m = stop → ∀ r, (∀ j < k, answer eval callback start stop s j = true) →
      ∃ k', start + k' ≤ stop ∧
        multiPassLoop eval callback stop (m + 1) (start + k : Int) r (stateAfter eval callback start stop s k) =
          .ok (eval (BitVec.ofNat 64 (2 ^ (start + k'))), stateAfter eval callback start stop s (k' + 1)) ∧
        (∀ j < k', answer eval callback start stop s j = true) ∧
        (start + k' = stop ∨ answer eval callback start stop s k' = false) := by
    intro m
    induction m with
    | zero =>
      intro k hk r hpre
      refine ⟨k, by omega, ?_, hpre, Or.inl (by omega)⟩
      rw [multiPassLoop, if_pos (by omega), if_pos (by omega)]
      rw [show ((start : Int) + (k : Int)).toNat = start + k by omega, one_shl,
        show ((start : Int) + (k : Int) == (stop : Int)) = (start + k == stop) by rw [Bool.eq_iff_iff]; simp; omega]
      simp only [multiPassLoop]
      split <;> rfl
    | succ m ih =>
      intro k hk r hpre
      rw [multiPassLoop, if_pos (by omega), if_pos (by omega)]
      rw [show ((start : Int) + (k : Int)).toNat = start + k by omega, one_shl,
        show ((start : Int) + (k : Int) == (stop : Int)) = (start + k == stop) by rw [Bool.eq_iff_iff]; simp; omega]
      by_cases ha : answer eval callback start stop s k = true
      · simp only []
        rw [if_neg (by unfold answer at ha; simp [ha])]
        have := ih (k + 1) (by omega) (eval (BitVec.ofNat 64 (2 ^ (start + k)))) (by
          intro j hj
          rcases Nat.lt_succ_iff_lt_or_eq.1 hj with h | h
          · exact hpre j h
          · rw [h]; exact ha)
        rw [show ((start : Int) + (k : Int) + 1) = (start : Int) + ((k + 1 : Nat) : Int) by omega]
        exact this
      · refine ⟨k, by omega, ?_, hpre, Or.inr (by simpa using ha)⟩
        simp only []
        rw [if_pos (by unfold answer at ha; simpa using ha)]
        rfl
  obtain ⟨k, a, b, c, d⟩ := key (stop - start) 0 (by omega) empty (by simp)
  refine ⟨k, a, ?_, c, d⟩
  unfold evaluateMultiPass
  rw [show ((stop : Int) - (start : Int) + 1).toNat = stop - start + 1 by omega]
  have hb := b
  simp only [Nat.cast_zero, Int.add_zero] at hb
  exact hb

/-- With `start > stop` nothing is evaluated, the callback is never called and the empty battery is returned. -/
theorem C36_empty_range (eval : BitVec 64 → Res) (callback : S → Res → Bool → Bool × S) (empty : Res) (start stop : Int)
    (h : stop < start) (s : S) : evaluateMultiPass eval callback empty start stop s = .ok (empty, s) := by
  unfold evaluateMultiPass
  rcases hm : (stop - start + 1).toNat with _ | m
  · rfl
  · rw [multiPassLoop, if_neg (by omega)]

/-- If the range reaches a power outside 0..63 before the callback stops the loop, the shift is undefined. -/
theorem C36_out_of_range (eval : BitVec 64 → Res) (callback : S → Res → Bool → Bool × S) (empty : Res) (start stop : Int)
    (h : start ≤ stop) (h' : start < 0 ∨ 64 ≤ start) (s : S) :
    evaluateMultiPass eval callback empty start stop s = .error .shiftTooLarge := by
  unfold evaluateMultiPass
  rw [show (stop - start + 1).toNat = (stop - start).toNat + 1 by omega, multiPassLoop, if_pos h, if_neg (by omega)]

/-- A range that ends beyond 63: the passes are as if it ended there, except that `last` is never true up to `2^63`; the loop ends at the first
answer `false`, and the shift is undefined if there is none. -/
theorem C36_beyond (eval : BitVec 64 → Res) (callback : S → Res → Bool → Bool × S) (empty : Res) (start stop : Nat)
    (h1 : start ≤ 63) (h2 : 64 ≤ stop) (s : S) :
    (∃ k, start + k ≤ 63 ∧
      evaluateMultiPass eval callback empty start stop s =
        .ok (eval (BitVec.ofNat 64 (2 ^ (start + k))), stateAfter eval callback start stop s (k + 1)) ∧
      (∀ j < k, answer eval callback start stop s j = true) ∧ answer eval callback start stop s k = false) ∨
    ((∀ j, start + j ≤ 63 → answer eval callback start stop s j = true) ∧
      evaluateMultiPass eval callback empty start stop s = .error .shiftTooLarge) := by
  have key : ∀ m k, start + k + m = 64 → ∀ fuel, m < fuel → ∀ r, (∀ j < k, answer eval callback start stop s j = true) →
      (∃ k', start + k' ≤ 63 ∧
        multiPassLoop eval callback stop fuel (start + k : Int) r (stateAfter eval callback start stop s k) =
          .ok (eval (BitVec.ofNat 64 (2 ^ (start + k'))), stateAfter eval callback start stop s (k' + 1)) ∧
        (∀ j < k', answer eval callback start stop s j = true) ∧ answer eval callback start stop s k' = false) ∨
      ((∀ j, start + j ≤ 63 → answer eval callback start stop s j = true) ∧
        multiPassLoop eval callback stop fuel (start + k : Int) r (stateAfter eval callback start stop s k) = .error .shiftTooLarge) := by
    intro m
    induction m with
    | zero =>
      intro k hk fuel hf r hpre
      obtain ⟨fuel, rfl⟩ : ∃ f, fuel = f + 1 := ⟨fuel - 1, by omega⟩
      right
      refine ⟨fun j hj => hpre j (by omega), ?_⟩
      rw [multiPassLoop, if_pos (by omega), if_neg (by omega)]
    | succ m ih =>
      intro k hk fuel hf r hpre
      obtain ⟨fuel, rfl⟩ : ∃ f, fuel = f + 1 := ⟨fuel - 1, by omega⟩
      rw [multiPassLoop, if_pos (by omega), if_pos (by omega)]
      rw [show ((start : Int) + (k : Int)).toNat = start + k by omega, one_shl,
        show ((start : Int) + (k : Int) == (stop : Int)) = (start + k == stop) by rw [Bool.eq_iff_iff]; simp; omega]
      by_cases ha : answer eval callback start stop s k = true
      · simp only []
        rw [if_neg (by unfold answer at ha; simp [ha])]
        have := ih (k + 1) (by omega) fuel (by omega) (eval (BitVec.ofNat 64 (2 ^ (start + k)))) (by
          intro j hj
          rcases Nat.lt_succ_iff_lt_or_eq.1 hj with h | h
          · exact hpre j h
          · rw [h]; exact ha)
        rw [show ((start : Int) + (k : Int) + 1) = (start : Int) + ((k + 1 : Nat) : Int) by omega]
        exact this
      · left
        refine ⟨k, by omega, ?_, hpre, by simpa using ha⟩
        simp only []
        rw [if_pos (by unfold answer at ha; simpa using ha)]
        rfl
  have := key (64 - start) 0 (by omega) (stop - start + 1) (by omega) empty (by simp)
  simp only [Nat.cast_zero, Int.add_zero] at this
  unfold evaluateMultiPass
  rw [show ((stop : Int) - (start : Int) + 1).toNat = stop - start + 1 by omega]
  exact this

-- Both cases occur.
example : (evaluateMultiPass (fun n => n.toNat) (fun (s : List Nat) r _ => (decide (r < 2 ^ 63), s)) 0 62 70 []).toOption = some (2 ^ 63, []) := by
  decide +kernel
example : (evaluateMultiPass (fun n => n.toNat) (fun (s : List Nat) _ _ => (true, s)) 0 62 70 []).toOption = none := by decide +kernel

/-- Non-vacuity: the callback stops at `2^12`. -/
example : (evaluateMultiPass (fun n => n.toNat) (fun (s : List Nat) r last => (decide (r < 4096), s ++ [r + if last then 1 else 0]))
    0 10 14 []).toOption = some (4096, [1024, 2048, 4096]) := by decide +kernel

/-! ### C37 -/

/-- Whether a battery lets the tool go on: it passes or has no results at all. -/
def Spec.passes (worst : Res → Option Bool) (b : Res) : Bool := (worst b).getD true

theorem resultCallback_eq (worst : Res → Option Bool) (p d : Bool) (s : CallbackLog Res) (b : Res) (last : Bool) :
    resultCallback worst p d s b last =
      (!last && passes worst b,
       ⟨s.printed ++ (if p || last || !passes worst b then [b] else []),
        s.done ++ (if d && (last || !passes worst b) then [(b, passes worst b)] else [])⟩) := by
  unfold resultCallback passes
  rcases worst b with _ | a
  · cases last <;> cases p <;> cases d <;> simp
  · cases last <;> cases a <;> cases p <;> cases d <;> simp

/-- Driving the passes `2^start .. 2^stop` with the tool's callback: `on_done` is called exactly once (if given), with
the battery of the first pass that fails, or of the last pass if none fails before it, and the flag says whether that
battery passes.  That battery is also what is returned, no later pass is run, and it is always printed; earlier ones are
printed iff intermediate results are wanted. -/
theorem C37_reported_once (eval : BitVec 64 → Res) (worst : Res → Option Bool) (printIntermediate hasDone : Bool) (empty : Res)
    (start stop : Nat) (h1 : start ≤ stop) (h2 : stop ≤ 63) :
    let battery := fun k => eval (BitVec.ofNat 64 (2 ^ (start + k)))
    ∃ k, start + k ≤ stop ∧ (∀ j < k, passes worst (battery j) = true) ∧
      (start + k = stop ∨ passes worst (battery k) = false) ∧
      evaluateMultiPass eval (resultCallback worst printIntermediate hasDone) empty start stop ⟨[], []⟩ =
        .ok (battery k, ⟨(if printIntermediate then (List.range k).map battery else []) ++ [battery k],
          if hasDone then [(battery k, passes worst (battery k))] else []⟩) := by
  intro battery
  obtain ⟨k, hk, he, hj, hlast⟩ := C36_passes eval (resultCallback worst printIntermediate hasDone) empty start stop h1 h2 ⟨[], []⟩
  have hans : ∀ j, answer eval (resultCallback worst printIntermediate hasDone) start stop ⟨[], []⟩ j
      = (!(start + j == stop) && passes worst (battery j)) := by
    intro j; rw [answer, resultCallback_eq]
  have hst : ∀ j ≤ k, stateAfter eval (resultCallback worst printIntermediate hasDone) start stop ⟨[], []⟩ j
      = ⟨if printIntermediate then (List.range j).map battery else [], []⟩ := by
    intro j
    induction j with
    | zero => intro _; simp [stateAfter]
    | succ j ih =>
      intro hjk
      have ha := hj j (by omega)
      rw [hans, Bool.and_eq_true] at ha
      have hne : (start + j == stop) = false := by simpa using ha.1
      rw [stateAfter, resultCallback_eq, ih (by omega), hne]
      show (⟨_ ++ (if printIntermediate || false || !passes worst (battery j) then [battery j] else []), _ ++ _⟩ : CallbackLog Res) = _
      have hpass : passes worst (eval (BitVec.ofNat 64 (2 ^ (start + j)))) = true := ha.2
      simp only [ha.2, hpass, Bool.or_false, Bool.not_true, Bool.and_false]
      cases printIntermediate
      · simp
      · simp [List.range_succ]
  refine ⟨k, hk, fun j hjk => ?_, ?_, ?_⟩
  · have := hj j hjk
    rw [hans, Bool.and_eq_true] at this; exact this.2
  · rcases hlast with h | h
    · exact Or.inl h
    · rw [hans, Bool.and_eq_false_iff] at h
      rcases h with h | h
      · left; simpa using h
      · exact Or.inr h
  · rw [he, stateAfter, resultCallback_eq, hst k le_rfl]
    show Except.ok (battery k, (⟨_ ++ (if printIntermediate || (start + k == stop) || !passes worst (battery k) then [battery k] else []),
      [] ++ (if hasDone && ((start + k == stop) || !passes worst (battery k)) then [(battery k, passes worst (battery k))] else [])⟩ : CallbackLog Res)) = _
    have hfin : ((start + k == stop) || !passes worst (battery k)) = true := by
      rcases hlast with h | h
      · simp [h]
      · rw [hans, Bool.and_eq_false_iff] at h
        rcases h with h | h
        · have : start + k = stop := by simpa using h
          simp [this]
        · simp [h]
    rw [Bool.or_assoc, hfin]
    simp

/-- Non-vacuity: passes at 1024 and 2048, fails at 4096. -/
example : (evaluateMultiPass (fun n => n.toNat) (resultCallback (fun r => some (decide (r < 4096))) false true) 0 10 14 ⟨[], []⟩).toOption.map
    (fun r => (r.1, r.2.printed, r.2.done)) = some (4096, [4096], [(4096, false)]) := by decide +kernel
end

end TFR
