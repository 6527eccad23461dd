import Verif.Model.Threads
import Verif.Props.Jobs
import Verif.Props.Evaluate
import Verif.Props.TestCommand
import Mathlib.Tactic.IntervalCases
/-
C140: how many jobs a battery has and how many threads run them.
-/
namespace TFR
open Spec
variable {w : Nat}

/-! ### the default number of threads -/

/-- The number of threads asked for by default on a machine that reports `cores` threads: four are left alone, but two are used in any
case - except that with fewer than four the unsigned difference wraps around to more than four thousand million. -/
def Spec.defaultThreads (cores : Nat) : Nat :=
  if cores < 4 then 2 ^ 32 - 4 + cores else if cores < 6 then 2 else cores - 4

/-- C140. -/
theorem C140_default (hw : BitVec 32) : defaultMaxThreads hw = defaultThreads hw.toNat := by
  have hlt := hw.isLt
  unfold defaultMaxThreads defaultThreads
  rw [BitVec.toNat_sub]
  rw [show (4 : BitVec 32).toNat = 4 from rfl]
  norm_num at hlt ⊢
  split_ifs <;> omega

example : defaultMaxThreads 16 = 12 ∧ defaultMaxThreads 4 = 2 ∧ defaultMaxThreads 5 = 2 ∧ defaultMaxThreads 3 = 4294967295 ∧
    defaultMaxThreads 0 = 4294967292 := by decide +kernel

/-! ### workers -/

namespace Jobs
variable {J A : Type}

/-- C140. At no time of any schedule are there more than `min(num_threads, jobs)` workers, and when `run_jobs` returns exactly that
many have been started and all of them have finished. -/
theorem C140_workers (run : J → List A) (jobs : List J) (numThreads : Nat) (k : Nat) (c : Conf J A)
    (h : Reach run (threadCount jobs numThreads) (init jobs) k c) :
    c.threads.length ≤ min numThreads jobs.length ∧
    (Returned (threadCount jobs numThreads) c →
      c.threads.length = min numThreads jobs.length ∧ ∀ x ∈ c.threads, x = .done) := by
  have hi := inv_reach h
  refine ⟨hi.len, fun hr => ?_⟩
  have hlen : c.threads.length = min numThreads jobs.length := by
    apply Nat.le_antisymm hi.len
    by_contra hlt
    have hlt' : ¬ min numThreads jobs.length ≤ c.threads.length := hlt
    have hlt : c.threads.length < min numThreads jobs.length := by omega
    have hd := hi.joinedDone c.threads.length (by rw [hr]; exact hlt)
    simp at hd
  refine ⟨hlen, fun x hx => ?_⟩
  obtain ⟨i, hi', rfl⟩ := List.getElem_of_mem hx
  have hd := hi.joinedDone i (by rw [hr]; show i < min numThreads jobs.length; omega)
  rw [List.getElem?_eq_getElem hi'] at hd
  exact Option.some.inj hd

/-- C140. All of them can be busy at the same time: there is a schedule in which every worker runs a job, worker `i` the `i`-th from the
end, and the rest is still in the queue. -/
theorem C140_parallel (run : J → List A) (jobs : List J) (numThreads : Nat) :
    ∃ k c, Reach run (threadCount jobs numThreads) (init jobs) k c ∧
      c.threads = (jobs.reverse.take (min numThreads jobs.length)).map .running ∧
      c.queue = jobs.take (jobs.length - min numThreads jobs.length) := by
  have hT : threadCount jobs numThreads ≤ jobs.length := Nat.min_le_right _ _
  have key : ∀ m, m ≤ threadCount jobs numThreads → ∃ k c, Reach run (threadCount jobs numThreads) (init jobs) k c ∧
      c.threads = (jobs.reverse.take m).map .running ∧ c.queue = jobs.take (jobs.length - m) ∧ c.qlock = none := by
    intro m
    induction m with
    | zero => exact fun _ => ⟨0, _, .start, by simp [init], by simp [init], rfl⟩
    | succ m ih =>
      intro hm
      obtain ⟨k, c, hr, ht, hq, hl⟩ := ih (by omega)
      have hlen : c.threads.length = m := by rw [ht]; simp; omega
      have hlast : c.queue.getLast? = some (jobs[jobs.length - m - 1]'(by omega)) := by
        rw [hq, List.getLast?_eq_getElem?, List.length_take, Nat.min_eq_left (by omega),
          List.getElem?_take_of_lt (by omega), List.getElem?_eq_getElem]
      generalize hj : jobs[jobs.length - m - 1]'(by omega) = j at hlast
      have h1 := Reach.step hr (.spawn c (by omega))
      have h2 := Reach.step h1 (.lockQueue _ c.threads [] rfl hl)
      have h3 := Reach.step h2 (.back _ c.threads [] j rfl hlast)
      have h4 := Reach.step h3 (.pop _ c.threads [] j rfl)
      have h5 := Reach.step h4 (.take _ c.threads [] j rfl)
      refine ⟨_, _, h5, ?_, ?_, rfl⟩
      · show c.threads ++ [.running j] = _
        rw [ht, List.take_add_one, List.map_append, List.getElem?_reverse (by omega),
          List.getElem?_eq_getElem (by omega)]
        have e : jobs.length - 1 - m = jobs.length - m - 1 := by omega
        simp only [e, hj, Option.toList_some, List.map_cons, List.map_nil]
      · show c.queue.dropLast = _
        rw [hq, List.dropLast_eq_take, List.take_take, List.length_take]
        congr 1; omega
  obtain ⟨k, c, h1, h2, h3, _⟩ := key _ le_rfl
  exact ⟨k, c, h1, h2, h3⟩

example : ∃ k c, Reach (fun j : Nat => [j]) (threadCount [1, 2, 3] 2) (init [1, 2, 3]) k c ∧
    c.threads = [.running 3, .running 2] ∧ c.queue = [1] := C140_parallel (fun j : Nat => [j]) [1, 2, 3] 2

/-- C140. For fewer than 2^32 jobs the conversion of the number of jobs to `unsigned int` changes nothing. -/
theorem C140_exact (jobs : List J) (numThreads : BitVec 32) (h : jobs.length < 2 ^ 32) :
    threadCount32 jobs numThreads = threadCount jobs numThreads.toNat := by
  unfold threadCount32 threadCount
  rw [BitVec.toNat_ofNat, Nat.mod_eq_of_lt h]

example : threadCount32 [1, 2, 3] 2 = 2 ∧ threadCount32 [1, 2, 3] 7 = 3 := by decide

/-- C140. But a list whose length is a multiple of 2^32 is not run at all: no thread is started, and `run_jobs` returns at once. -/
theorem C140_wrap (run : J → List A) (jobs : List J) (numThreads : BitVec 32) (h : 2 ^ 32 ∣ jobs.length) (k : Nat) (c : Conf J A)
    (hc : Reach run (threadCount32 jobs numThreads) (init jobs) k c) :
    Returned (threadCount32 jobs numThreads) c ∧ c.executed = [] ∧ c.collected = [] ∧ k = 0 := by
  have e : threadCount32 jobs numThreads = threadCount jobs 0 := by
    unfold threadCount32 threadCount
    rw [BitVec.toNat_ofNat, Nat.mod_eq_zero_of_dvd h, Nat.min_zero, Nat.zero_min]
  rw [e] at hc ⊢
  exact C34_zero_threads run jobs k c hc

example : threadCount32 (List.replicate (2 ^ 32) ()) 8 = 0 ∧ (List.replicate (2 ^ 32) ()) ≠ [] := by
  constructor
  · unfold threadCount32; rw [List.length_replicate]; rfl
  · rw [Ne, List.replicate_eq_nil_iff]; norm_num

end Jobs

/-! ### jobs of a battery -/

private theorem foldl_len {α : Type*} {β : Type} (f : List β → α → List β) (c : α → Nat) (hf : ∀ l a, (f l a).length = l.length + c a)
    (xs : List α) (l : List β) : (xs.foldl f l).length = l.length + (xs.map c).sum := by
  induction xs generalizing l with
  | nil => simp
  | cons a xs ih => rw [List.foldl_cons, ih, hf, List.map_cons, List.sum_cons]; omega

/-- C140. A battery of all twelve tests has ten jobs for every source, and two more for every source if the subject is a mixer. -/
theorem C140_jobs (cdf : ℝ → ℝ → ℝ) (n : BitVec 64) (setup : TestSetup w) (h : setup.tests = defaultTestTypes) :
    (createTestJobs (suiteDef cdf) n setup).length = setup.sources.length * (if setup.mix.isSome then 12 else 10) := by
  have hone : ∀ (test : TestType) (source : Stream (BitVec w)), (jobsFor n setup (suiteDef cdf test) source).length =
      if test = .sac ∨ test = .bic then (if setup.mix.isSome then 1 else 0) else 1 := by
    intro test source
    cases hm : setup.mix <;> cases test <;> simp [jobsFor, suiteDef, suiteStream, suiteMixer, rawStreamTest, rawMixerTest, hm]
  unfold createTestJobs
  rw [foldl_len (fun jobs test => setup.sources.foldl (fun jobs source => jobs ++ jobsFor n setup (suiteDef cdf test) source) jobs)
    (fun test => setup.sources.length * (if test = .sac ∨ test = .bic then (if setup.mix.isSome then 1 else 0) else 1))]
  · rw [h]
    have : defaultTestTypes = [.mean, .uniform, .runs, .serialAvalanche, .gap, .coupon, .divisibility, .permutation, .binaryRank,
        .linearComplexity, .sac, .bic] := by decide
    rw [this]
    cases setup.mix <;> simp <;> ring
  · intro l test
    rw [foldl_len (fun jobs source => jobs ++ jobsFor n setup (suiteDef cdf test) source) (fun _ => if test = .sac ∨ test = .bic then (if setup.mix.isSome then 1 else 0) else 1)]
    · rw [List.map_const', List.sum_replicate]; rfl
    · intro l s; rw [List.length_append, hone]

private theorem mapM_all {α : Type*} {β : Type 1} (f : α → R β) (P : β → Prop) (l : List α) (r : List β) (hP : ∀ a ∈ l, ∀ b, f a = .ok b → P b)
    (h : l.mapM f = .ok r) : ∀ b ∈ r, P b := by
  induction l generalizing r with
  | nil =>
    obtain rfl : [] = r := Except.ok.inj h
    simp
  | cons a l ih =>
    intro b hb
    rw [List.mapM_cons] at h
    cases ha : f a with
    | error e => rw [ha] at h; cases h
    | ok v =>
      cases hl : l.mapM f with
      | error e => rw [ha, hl] at h; cases h
      | ok vs =>
        rw [ha, hl] at h
        obtain rfl : v :: vs = r := Except.ok.inj h
        rcases List.mem_cons.1 hb with rfl | hb
        · exact hP _ List.mem_cons_self _ ha
        · exact ih vs (fun a h => hP a (List.mem_cons_of_mem _ h)) hl b hb

private theorem mapMO_all {α β : Type 1} (f : α → Option β) (P : β → Prop) (l : List α) (r : List β) (hP : ∀ a ∈ l, ∀ b, f a = some b → P b)
    (h : l.mapM f = some r) : ∀ b ∈ r, P b := by
  induction l generalizing r with
  | nil =>
    obtain rfl : [] = r := Option.some.inj h
    simp
  | cons a l ih =>
    intro b hb
    rw [List.mapM_cons] at h
    cases ha : f a with
    | none => rw [ha] at h; cases h
    | some v =>
      cases hl : l.mapM f with
      | none => rw [ha, hl] at h; cases h
      | some vs =>
        rw [ha, hl] at h
        obtain rfl : v :: vs = r := Option.some.inj h
        rcases List.mem_cons.1 hb with rfl | hb
        · exact hP _ List.mem_cons_self _ ha
        · exact ih vs (fun a h => hP a (List.mem_cons_of_mem _ h)) hl b hb

private theorem asked (t : WT) (mt : Nat) (s : Subjects t) (fuel : Nat) (setups : List (TestSetup t.bits))
    (h : testCommandSetups t mt s fuel = some (.ok setups)) : ∀ x ∈ setups, x.maxThreads = mt := by
  have hdata : ∀ (d : Option (List (BitVec t.bits))) (name : String) (stop : Int) (l : List (TestSetup t.bits)),
      optionalData mt d name 10 stop = .ok l → ∀ x ∈ l, x.maxThreads = mt := by
    intro d name stop l hl x hx
    cases d with
    | none => obtain rfl : [] = l := Except.ok.inj hl; simp at hx
    | some data =>
      unfold optionalData createDataTestSetup at hl
      dsimp only at hl
      by_cases hd : data = []
      · rw [if_pos hd] at hl; cases hl
      · rw [if_neg hd] at hl
        cases hs : createEvenlySeededStream name data 128 with
        | error e => rw [hs] at hl; cases hl
        | ok ss =>
          rw [hs] at hl
          obtain rfl := Except.ok.inj hl
          rw [List.mem_singleton] at hx
          subst hx; rfl
  unfold testCommandSetups at h
  dsimp only at h
  cases hp : s.prngs.mapM (fun p => createPrngTestSetup t mt p fuel) with
  | none => rw [hp] at h; cases h
  | some rs =>
    rw [hp] at h
    dsimp only at h
    have hrs : ∀ r ∈ rs, ∀ u, r = .ok u → u.maxThreads = mt := by
      refine mapMO_all _ (fun r => ∀ u, r = .ok u → u.maxThreads = mt) s.prngs rs ?_ hp
      intro p _ r hr u hu
      unfold createPrngTestSetup at hr
      rw [Option.map_eq_some_iff] at hr
      obtain ⟨r', _, hr'⟩ := hr
      subst hu
      cases r' with
      | error e => cases hr'
      | ok ss => obtain rfl := Except.ok.inj hr'; rfl
    have h := Option.some.inj h
    cases hq : (rs.mapM fun r => (do .ok ((← r).range 10 25) : R (TestSetup t.bits))) with
    | error e => rw [hq] at h; cases h
    | ok ps =>
      have hps : ∀ x ∈ ps, x.maxThreads = mt := by
        refine mapM_all _ (fun x => x.maxThreads = mt) rs ps ?_ hq
        intro r hr b hb
        cases r with
        | error e => cases hb
        | ok u => obtain rfl := Except.ok.inj hb; exact hrs _ hr u rfl
      rw [hq] at h
      generalize e1 : optionalData mt s.trng ("file" ++ toString t.bits ++ "::" ++ "trng") 10 (min 25 22) = o1 at h
      generalize e2 : optionalData mt s.drng ("file" ++ toString t.bits ++ "::" ++ "drng") 10 (min 25 27) = o2 at h
      generalize e3 : (s.combiners.mapM fun c => (do .ok ((← createCombinerTestSetup t mt c).range 10 25) : R (TestSetup t.bits))) = o3 at h
      cases o1 with
      | error e => cases h
      | ok l1 =>
        cases o2 with
        | error e => cases h
        | ok l2 =>
          cases o3 with
          | error e => cases h
          | ok l3 =>
            obtain rfl := Except.ok.inj h
            intro x hx
            simp only [List.mem_append, List.mem_map] at hx
            rcases hx with (((hx | hx) | ⟨m, _, rfl⟩) | hx) | hx
            · exact hdata _ _ _ _ e1 x hx
            · exact hdata _ _ _ _ e2 x hx
            · rfl
            · exact hps x hx
            · refine mapM_all _ (fun x => x.maxThreads = mt) s.combiners l3 ?_ e3 x hx
              intro c _ b hb
              obtain ⟨sources, hs, _⟩ := C77_combiner_sources t c
              unfold createCombinerTestSetup at hb
              rw [hs] at hb
              obtain rfl := Except.ok.inj hb; rfl

/-- The number of jobs of one battery of `-test`: for a data file, a mixer, a generator and a combiner of width `w`. -/
def Spec.jobCounts (w : Nat) : List Nat := [1280, 48 * w, 40 * w, 30 + 120 * w]

/-- C140. The threads of a `-test` run.  Every battery has one of the four numbers of jobs above (so never more than 7710, and the
conversion in `run_jobs` is exact); every schedule of it starts as many threads as the default says but no more than there are jobs; and
all of them may run a job at the same time.  So on a machine which reports fewer than four threads (or does not know, zero), every job
gets a thread of its own. -/
theorem C140_test_command (cdf : ℝ → ℝ → ℝ) (t : WT) (hw : BitVec 32) (s : Subjects t) (fuel : Nat) (hfuel : 2 ^ t.bits ≤ fuel)
    (h1 : s.trng ≠ some []) (h2 : s.drng ≠ some []) (setups : List (TestSetup t.bits))
    (hs : testCommandSetups t (defaultMaxThreads hw) s fuel = some (.ok setups)) (x : TestSetup t.bits) (hx : x ∈ setups) (n : BitVec 64) :
    ∃ jobs threads : Nat, (createTestJobs (suiteDef cdf) n x).length = jobs ∧ jobs ∈ jobCounts t.bits ∧ jobs ≤ 7710 ∧
      threads = min (defaultThreads hw.toNat) jobs ∧ (hw.toNat < 4 → threads = jobs) ∧ (4 ≤ hw.toNat → threads ≤ max 2 (hw.toNat - 4)) ∧
      Jobs.threadCount32 (createTestJobs (suiteDef cdf) n x) (BitVec.ofNat 32 x.maxThreads) = threads ∧
      Jobs.threadCount (createTestJobs (suiteDef cdf) n x) x.maxThreads = threads ∧
      (∀ k c, Jobs.Reach (fun j : TestJob ℝ => j ()) threads (Jobs.init (createTestJobs (suiteDef cdf) n x)) k c →
        c.threads.length ≤ threads ∧ (Jobs.Returned threads c → c.threads.length = threads)) ∧
      ∃ k c, Jobs.Reach (fun j : TestJob ℝ => j ()) threads (Jobs.init (createTestJobs (suiteDef cdf) n x)) k c ∧
        c.threads.length = threads ∧ ∀ y ∈ c.threads, ∃ j, y = .running j := by
  have hmt := asked t _ s fuel setups hs x hx
  obtain ⟨setups', e1, e2, e3⟩ := C96_subjects t hw s fuel hfuel h1 h2
  rw [hs] at e1
  obtain rfl := Except.ok.inj (Option.some.inj e1)
  have htests : x.tests = defaultTestTypes := by rw [(e3 x hx).1]; decide
  have hjobs := C140_jobs cdf n x htests
  have hsum : summaryOf x ∈ setups.map summaryOf := List.mem_map_of_mem hx
  have hmem : (createTestJobs (suiteDef cdf) n x).length ∈ jobCounts t.bits := by
    rw [hjobs]
    rw [e2] at hsum
    simp only [List.mem_append, List.mem_map] at hsum
    have hsrc : ∀ y : SetupSummary, y = summaryOf x → x.sources.length = y.sources ∧ x.mix.isSome = y.mixerTests := by
      rintro y rfl; exact ⟨rfl, rfl⟩
    have jc : ∀ v, 128 * 10 ∈ jobCounts v ∧ 4 * v * 12 ∈ jobCounts v ∧ 4 * v * 10 ∈ jobCounts v ∧ (3 + 12 * v) * 10 ∈ jobCounts v := by
      intro v
      simp only [jobCounts, List.mem_cons, List.not_mem_nil, or_false]
      exact ⟨.inl trivial, .inr (.inl (by ring)), .inr (.inr (.inl (by ring))), .inr (.inr (.inr (by ring)))⟩
    rcases hsum with (((⟨_, _, hsum⟩ | ⟨_, _, hsum⟩) | ⟨_, _, hsum⟩) | ⟨_, _, hsum⟩) | ⟨_, _, hsum⟩
    all_goals
      obtain ⟨a, b⟩ := hsrc _ hsum
      rw [a, b]
    · exact (jc _).1
    · exact (jc _).1
    · exact (jc _).2.1
    · exact (jc _).2.2.1
    · exact (jc _).2.2.2
  have hle : (createTestJobs (suiteDef cdf) n x).length ≤ 7710 := by
    generalize (createTestJobs (suiteDef cdf) n x).length = m at hmem
    revert hmem
    cases t <;> simp only [jobCounts, WT.bits, List.mem_cons, List.not_mem_nil, or_false] <;> omega
  generalize hjs : createTestJobs (suiteDef cdf) n x = js at *
  have hlt := hw.isLt
  have hdt : defaultThreads hw.toNat < 2 ^ 32 := by unfold defaultThreads; split_ifs <;> omega
  have hcount : Jobs.threadCount js x.maxThreads = min (defaultThreads hw.toNat) js.length := by
    rw [hmt, C140_default]; rfl
  have hcount32 : Jobs.threadCount32 js (BitVec.ofNat 32 x.maxThreads) = min (defaultThreads hw.toNat) js.length := by
    rw [Jobs.C140_exact _ _ (by omega), BitVec.toNat_ofNat, hmt, C140_default, Nat.mod_eq_of_lt hdt]; rfl
  refine ⟨js.length, min (defaultThreads hw.toNat) js.length, rfl, hmem, hle, rfl, ?_, ?_, hcount32, hcount, ?_, ?_⟩
  · intro h; unfold defaultThreads; rw [if_pos h]; omega
  · intro h; unfold defaultThreads; split_ifs <;> omega
  · intro k c hc
    have := Jobs.C140_workers (fun j : TestJob ℝ => j ()) js (defaultThreads hw.toNat) k c hc
    exact ⟨this.1, fun hr => (this.2 hr).1⟩
  · obtain ⟨k, c, hc, ht, _⟩ := Jobs.C140_parallel (fun j : TestJob ℝ => j ()) js (defaultThreads hw.toNat)
    refine ⟨k, c, hc, by rw [ht]; simp, ?_⟩
    intro y hy
    rw [ht, List.mem_map] at hy
    obtain ⟨j, _, rfl⟩ := hy
    exact ⟨j, rfl⟩

/-- Non-vacuity: one 64-bit mixer on a machine with two threads: 3072 jobs, and as many threads. -/
example : ∃ setups x, testCommandSetups .u64 (defaultMaxThreads 2) ⟨none, none, [⟨"id", fun x => x⟩], [], []⟩ (2 ^ 64) = some (.ok setups) ∧
    x ∈ setups ∧ (createTestJobs (suiteDef fun _ _ => 0) 1024 x).length = 3072 ∧
    Jobs.threadCount (createTestJobs (suiteDef fun _ _ => 0) 1024 x) x.maxThreads = 3072 := by
  refine ⟨_, (createMixerTestSetup .u64 (defaultMaxThreads 2) ⟨"id", fun x => x⟩).range 10 25, rfl, List.mem_cons_self, ?_⟩
  generalize hx : (createMixerTestSetup .u64 (defaultMaxThreads 2) ⟨"id", fun x => x⟩).range 10 25 = x
  have hsrc : x.sources.length = 256 := by rw [← hx]; exact (C77_sources .u64).1
  have hmix : x.mix.isSome = true := by rw [← hx]; rfl
  have hth : x.maxThreads = 4294967294 := by rw [← hx]; exact C140_default 2
  have hj := C140_jobs (fun _ _ => 0) 1024 x (by rw [← hx]; rfl)
  rw [hsrc, hmix] at hj
  exact ⟨hj, by unfold Jobs.threadCount; rw [hj, hth]; rfl⟩

end TFR
