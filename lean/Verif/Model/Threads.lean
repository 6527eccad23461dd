import Verif.Model.Commands
/-
How many worker threads `run_jobs` (core/src/util/jobs.h) starts, with the 32-bit types of the code.
-/
namespace TFR.Jobs

/-- `num_threads = std::min(num_threads, static_cast<unsigned int>(jobs.size()))`, jobs.h:34: both sides are 32 bits wide, and
the conversion of the size drops its upper half.  (`threadCount` has no such bound.) -/
def threadCount32 {J : Type} (jobs : List J) (numThreads : BitVec 32) : Nat :=
  min numThreads.toNat (BitVec.ofNat 32 jobs.length).toNat

end TFR.Jobs
