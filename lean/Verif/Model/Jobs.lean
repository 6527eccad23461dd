/-
core/src/util/jobs.h: `run_jobs`, together with the collector of core/src/evaluate.h:100-110.

Small-step model.  One configuration holds the shared `jobs` vector, the two mutexes, the list the collector
appends to, and the control point of every worker thread; `main` spawns the threads one after the other and then
joins them in order.  Any enabled step may happen next, so the reachable configurations are those of every
schedule.  Not modelled: memory model (sequential consistency is assumed - all shared data is accessed under a
mutex, which the invariants prove), `std::system_error` from thread creation, exceptions thrown by a job (they
call `std::terminate`).
-/
namespace TFR.Jobs

/-- Where a worker thread is.  jobs.h:23-32 (queue lambda) and 37-41 (worker loop), evaluate.h:101-109. -/
inductive Worker (J A : Type) where
  /-- about to lock the queue mutex, jobs.h:38 -> 25 -/
  | wantQueue
  /-- holds the queue mutex, before `jobs.empty()`, jobs.h:26 -/
  | inQueue
  /-- has copied `jobs.back()`, before `pop_back`, jobs.h:29-30 -/
  | copied (j : J)
  /-- about to leave the queue lambda with this value, jobs.h:27, 31 -/
  | leaving (o : Option J)
  /-- running the job, jobs.h:39 -/
  | running (j : J)
  /-- in the collector with a non-empty result, about to lock its mutex, evaluate.h:104 -/
  | wantCollect (rs : List A)
  /-- holds the collector mutex, these results are still to be added, evaluate.h:105-107 -/
  | inCollect (rs : List A)
  /-- the thread function has returned -/
  | done

/-- A configuration. -/
structure Conf (J A : Type) where
  /-- the `jobs` vector -/
  queue : List J
  /-- holder of the queue mutex -/
  qlock : Option Nat
  /-- holder of the collector mutex -/
  clock : Option Nat
  /-- what the collector has added so far, oldest first -/
  collected : List A
  /-- (ghost) jobs that have been run, oldest first -/
  executed : List J
  /-- the spawned threads -/
  threads : List (Worker J A)
  /-- how many threads `main` has joined -/
  joined : Nat

/-- `num_threads = std::min(num_threads, jobs.size())`, jobs.h:34. -/
def threadCount {J : Type} (jobs : List J) (numThreads : Nat) : Nat := min numThreads jobs.length

/-- The configuration after jobs.h:20-35. -/
def init {J A : Type} (jobs : List J) : Conf J A := ⟨jobs, none, none, [], [], [], 0⟩

/-- One step of `main` or of a worker.  `run j` are the results a job returns (jobs are closed over copies of
everything they use, so they are values); `T` is the number of threads to start. -/
inductive Step {J A : Type} (run : J → List A) (T : Nat) : Conf J A → Conf J A → Prop where
  /-- `threads.emplace_back`, jobs.h:36-37 -/
  | spawn (c : Conf J A) (h : c.threads.length < T) :
      Step run T c { c with threads := c.threads ++ [.wantQueue] }
  /-- `t.join()`, jobs.h:44-46 -/
  | join (c : Conf J A) (h : c.threads.length = T) (h' : c.threads[c.joined]? = some .done) :
      Step run T c { c with joined := c.joined + 1 }
  /-- `std::lock_guard lg(m)`, jobs.h:25 -/
  | lockQueue (c : Conf J A) (pre post) (h : c.threads = pre ++ .wantQueue :: post) (h' : c.qlock = none) :
      Step run T c { c with qlock := some pre.length, threads := pre ++ .inQueue :: post }
  /-- `if (jobs.empty()) return {}`, jobs.h:26-28 -/
  | empty (c : Conf J A) (pre post) (h : c.threads = pre ++ .inQueue :: post) (h' : c.queue = []) :
      Step run T c { c with threads := pre ++ .leaving none :: post }
  /-- `auto j = jobs.back()`, jobs.h:29 -/
  | back (c : Conf J A) (pre post j) (h : c.threads = pre ++ .inQueue :: post) (h' : c.queue.getLast? = some j) :
      Step run T c { c with threads := pre ++ .copied j :: post }
  /-- `jobs.pop_back()`, jobs.h:30 -/
  | pop (c : Conf J A) (pre post j) (h : c.threads = pre ++ .copied j :: post) :
      Step run T c { c with queue := c.queue.dropLast, threads := pre ++ .leaving (some j) :: post }
  /-- end of the queue lambda (unlock) with no job: the loop ends, jobs.h:27, 38 -/
  | finish (c : Conf J A) (pre post) (h : c.threads = pre ++ .leaving none :: post) :
      Step run T c { c with qlock := none, threads := pre ++ .done :: post }
  /-- end of the queue lambda (unlock) with a job, jobs.h:31, 38 -/
  | take (c : Conf J A) (pre post j) (h : c.threads = pre ++ .leaving (some j) :: post) :
      Step run T c { c with qlock := none, threads := pre ++ .running j :: post }
  /-- `(*job)()` returns an empty list: the collector does nothing, jobs.h:39, evaluate.h:102 -/
  | runEmpty (c : Conf J A) (pre post j) (h : c.threads = pre ++ .running j :: post) (h' : run j = []) :
      Step run T c { c with executed := c.executed ++ [j], threads := pre ++ .wantQueue :: post }
  /-- `(*job)()` returns results, jobs.h:39 -/
  | run (c : Conf J A) (pre post j) (h : c.threads = pre ++ .running j :: post) (h' : run j ≠ []) :
      Step run T c { c with executed := c.executed ++ [j], threads := pre ++ .wantCollect (run j) :: post }
  /-- `std::lock_guard lg(m)`, evaluate.h:104 -/
  | lockCollect (c : Conf J A) (pre post rs) (h : c.threads = pre ++ .wantCollect rs :: post) (h' : c.clock = none) :
      Step run T c { c with clock := some pre.length, threads := pre ++ .inCollect rs :: post }
  /-- `test_result.add(r)`, evaluate.h:105-107 -/
  | add (c : Conf J A) (pre post r rs) (h : c.threads = pre ++ .inCollect (r :: rs) :: post) :
      Step run T c { c with collected := c.collected ++ [r], threads := pre ++ .inCollect rs :: post }
  /-- end of the collector (unlock), back to the loop condition, evaluate.h:108, jobs.h:38 -/
  | unlockCollect (c : Conf J A) (pre post) (h : c.threads = pre ++ .inCollect [] :: post) :
      Step run T c { c with clock := none, threads := pre ++ .wantQueue :: post }

/-- Reachable in exactly this many steps. -/
inductive Reach {J A : Type} (run : J → List A) (T : Nat) (c₀ : Conf J A) : Nat → Conf J A → Prop where
  | start : Reach run T c₀ 0 c₀
  | step {k c c'} : Reach run T c₀ k c → Step run T c c' → Reach run T c₀ (k + 1) c'

/-- `run_jobs` has returned: for an empty job list at once (jobs.h:20-22), otherwise when all threads are
joined. -/
def Returned {J A : Type} (T : Nat) (c : Conf J A) : Prop := c.joined = T

end TFR.Jobs
