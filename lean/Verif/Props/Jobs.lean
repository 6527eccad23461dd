import Verif.Lemmas.Jobs
/-
C33, C34: `run_jobs`.
-/
namespace TFR.Jobs
variable {J A : Type}

/-- When `run_jobs` returns, with any positive number of threads and after any schedule: no thread is left running,
the executed jobs are exactly the submitted ones (as a multiset), and the results handed to the collector are exactly
the results of these jobs. -/
theorem C33_exactly_once (run : J → List A) (jobs : List J) (numThreads : Nat) (hn : 0 < numThreads) (k : Nat)
    (c : Conf J A) (h : Reach run (threadCount jobs numThreads) (init jobs) k c)
    (hret : Returned (threadCount jobs numThreads) c) :
    c.executed.Perm jobs ∧ c.collected.Perm (jobs.flatMap run) ∧ c.queue = [] ∧ (∀ x ∈ c.threads, x = .done) ∧
    c.qlock = none ∧ c.clock = none := by
  have hi := inv_reach h
  have hd := all_done hi hret
  have hq : c.queue = [] := by
    by_cases hj : jobs = []
    · have := hi.jobs_eq
      rw [hj] at this
      have h2 : ((([] : List J)) : Multiset J).card = _ := congrArg Multiset.card this
      simp at h2
      exact List.eq_nil_of_length_eq_zero (by omega)
    · apply hi.exited
      have hT : 0 < threadCount jobs numThreads := by
        have := List.length_pos_iff.2 hj; unfold threadCount; omega
      refine ⟨0, Or.inl (hi.joinedDone 0 ?_)⟩
      rw [hret]; exact hT
  have hh := total_done Worker.held c.threads hd rfl
  have ho := total_done Worker.owes c.threads hd rfl
  have he : c.executed.Perm jobs := by
    have := hi.jobs_eq
    rw [hq, hh] at this
    simp at this
    exact this.symm
  have hlock : ∀ (p : Worker J A → Bool) lock, LockOk p lock c.threads → p .done = false → lock = none := by
    intro p lock hl hp
    rcases lock with _ | i
    · rfl
    · obtain ⟨x, hx, hpx⟩ := (hl i).1 rfl
      rw [hd x (List.mem_of_getElem? hx), hp] at hpx; cases hpx
  refine ⟨he, ?_, hq, hd, hlock _ _ hi.q rfl, hlock _ _ hi.cl rfl⟩
  have := hi.results_eq
  rw [ho, add_zero] at this
  have h2 : (c.executed.flatMap run).Perm c.collected := Multiset.coe_eq_coe.1 this
  exact h2.symm.trans (List.Perm.flatMap_right run he)

/-- At no time, under no schedule, has a job been run more often than it was submitted, nor a result been collected that
no executed job produced. -/
theorem C33_never_twice (run : J → List A) (T : Nat) (jobs : List J) (k : Nat) (c : Conf J A)
    (h : Reach run T (init jobs) k c) : c.executed.Subperm jobs ∧ c.collected.Subperm (c.executed.flatMap run) := by
  have hi := inv_reach h
  constructor
  · rw [← Multiset.coe_le, hi.jobs_eq]
    exact Multiset.le_add_left _ _
  · rw [← Multiset.coe_le]
    have := hi.results_eq
    unfold execd at this
    rw [this]
    exact Multiset.le_add_right _ _

/-- Mutual exclusion: two different threads are never inside the queue section at the same time, nor inside the
collector. -/
theorem C33_mutual_exclusion (run : J → List A) (T : Nat) (jobs : List J) (k : Nat) (c : Conf J A)
    (h : Reach run T (init jobs) k c) (i j : Nat) (x y : Worker J A) (hx : c.threads[i]? = some x)
    (hy : c.threads[j]? = some y) :
    ((∃ rs, x = .inCollect rs) → (∃ rs, y = .inCollect rs) → i = j) ∧
    ((x = .inQueue ∨ ∃ job, x = .copied job) → (y = .inQueue ∨ ∃ job, y = .copied job) → i = j) := by
  have hi := inv_reach h
  constructor
  · rintro ⟨rs, rfl⟩ ⟨rs', rfl⟩
    have h1 := (hi.cl i).2 ⟨_, hx, rfl⟩
    have h2 := (hi.cl j).2 ⟨_, hy, rfl⟩
    rw [h1] at h2; exact Option.some.inj h2
  · intro h1 h2
    apply hi.unique_q hx hy
    · rcases h1 with rfl | ⟨_, rfl⟩ <;> rfl
    · rcases h2 with rfl | ⟨_, rfl⟩ <;> rfl

/-- No deadlock: as long as `run_jobs` has not returned, some step is possible. -/
theorem C34_no_deadlock (run : J → List A) (T : Nat) (jobs : List J) (k : Nat) (c : Conf J A)
    (h : Reach run T (init jobs) k c) (hnot : ¬ Returned T c) : ∃ c', Step run T c c' :=
  progress (inv_reach h) hnot

/-- Termination: no execution, whatever the schedule, is longer than 7 steps per job plus one per result plus 6 per
thread. -/
theorem C34_bounded (run : J → List A) (jobs : List J) (numThreads : Nat) (k : Nat) (c : Conf J A)
    (h : Reach run (threadCount jobs numThreads) (init jobs) k c) :
    k ≤ 7 * jobs.length + (jobs.flatMap run).length + 6 * min numThreads jobs.length := by
  have key : ∀ k c, Reach run (threadCount jobs numThreads) (init jobs) k c →
      k + budget run (threadCount jobs numThreads) c ≤ budget run (threadCount jobs numThreads) (init jobs : Conf J A) := by
    intro k c h
    induction h with
    | start => simp
    | step h' hs ih => have := budget_step (inv_reach h') hs; omega
  have h0 : budget run (threadCount jobs numThreads) (init jobs : Conf J A)
      = 7 * jobs.length + (jobs.flatMap run).length + 6 * min numThreads jobs.length := by
    have hs : ∀ l : List J, (l.map (fun j => (run j).length + 7)).sum = 7 * l.length + (l.flatMap run).length := by
      intro l
      induction l with
      | nil => rfl
      | cons a l ih => simp only [List.map_cons, List.sum_cons, ih, List.length_cons, List.flatMap_cons, List.length_append]; omega
    simp only [budget, init, hs, total, threadCount, List.map_nil, List.sum_nil, List.length_nil]
    omega
  have := key k c h
  omega

/-- Every execution can be continued to one that returns, so the hypothesis of `C33_exactly_once` is met for every job
list, thread count and initial part of a schedule. -/
theorem C34_returns (run : J → List A) (T : Nat) (jobs : List J) (k : Nat) (c : Conf J A)
    (h : Reach run T (init jobs) k c) : ∃ m c', Reach run T (init jobs) (k + m) c' ∧ Returned T c' := by
  have key : ∀ b k c, Reach run T (init jobs) k c → budget run T c ≤ b →
      ∃ m c', Reach run T (init jobs) (k + m) c' ∧ Returned T c' := by
    intro b
    induction b with
    | zero =>
      intro k c h hb
      by_cases hr : Returned T c
      · exact ⟨0, c, h, hr⟩
      · obtain ⟨c', hs⟩ := progress (inv_reach h) hr
        have := budget_step (inv_reach h) hs
        omega
    | succ b ih =>
      intro k c h hb
      by_cases hr : Returned T c
      · exact ⟨0, c, h, hr⟩
      · obtain ⟨c', hs⟩ := progress (inv_reach h) hr
        have := budget_step (inv_reach h) hs
        obtain ⟨m, c'', h1, h2⟩ := ih (k + 1) c' (.step h hs) (by omega)
        exact ⟨m + 1, c'', by rwa [show k + (m + 1) = k + 1 + m by omega], h2⟩
  exact key _ k c h le_rfl

/-- With `num_threads = 0` the call returns at once without running anything - silently, whatever the job list. -/
theorem C34_zero_threads (run : J → List A) (jobs : List J) (k : Nat) (c : Conf J A)
    (h : Reach run (threadCount jobs 0) (init jobs) k c) :
    Returned (threadCount jobs 0) c ∧ c.executed = [] ∧ c.collected = [] ∧ k = 0 := by
  have hk := C34_bounded run jobs 0 k c h
  have ht : threadCount jobs 0 = 0 := by simp [threadCount]
  rw [ht] at h ⊢
  clear hk
  induction h with
  | start => exact ⟨rfl, rfl, rfl, rfl⟩
  | step h' hs ih =>
    exfalso
    obtain ⟨h1, h2, h3, h4⟩ := ih
    subst h4
    cases h'
    cases hs with
    | spawn hlt => simp [init] at hlt
    | join hT hd => simp [init] at hd
    | lockQueue pre post ht _ => simp [init] at ht
    | empty pre post ht _ => simp [init] at ht
    | back pre post j ht _ => simp [init] at ht
    | pop pre post j ht => simp [init] at ht
    | finish pre post ht => simp [init] at ht
    | take pre post j ht => simp [init] at ht
    | runEmpty pre post j ht _ => simp [init] at ht
    | run pre post j ht _ => simp [init] at ht
    | lockCollect pre post rs ht _ => simp [init] at ht
    | add pre post r rs ht => simp [init] at ht
    | unlockCollect pre post ht => simp [init] at ht

/-- Non-vacuity: three jobs on two threads; a returning execution exists, and every one collects these values. -/
example : ∃ k c, Reach (fun j : Nat => [j, j + 10]) (threadCount [1, 2, 3] 2) (init [1, 2, 3]) k c ∧
    Returned (threadCount [1, 2, 3] 2) c ∧ c.collected.Perm [1, 11, 2, 12, 3, 13] := by
  obtain ⟨m, c, h, hr⟩ := C34_returns (fun j : Nat => [j, j + 10]) (threadCount [1, 2, 3] 2) [1, 2, 3] 0 _ .start
  exact ⟨_, c, h, hr, (C33_exactly_once _ _ 2 (by decide) _ c h hr).2.1⟩

end TFR.Jobs
