import Verif.Model.BitVector
import Verif.Model.Jobs
import Mathlib.Order.Defs.LinearOrder
/-
tool/src/util/sffs.h (the floating search) and `find_seed` of tool/src/search/search_command.h.

Scores are values of an arbitrary linear order `K` (doubles that are not NaN); `maxK` stands for
`std::numeric_limits<double>::max()`.  The evaluation of the neighbours goes through `run_jobs`, so its outcome is a
relation: any result that some schedule of the worker threads (Model/Jobs.lean) can produce.
Not modelled: what the callback prints (see Model/SearchText), exceptions thrown by the fitness function.
-/
namespace TFR.Sffs

variable {K : Type} [LinearOrder K]

/-- `struct sffs_state`, sffs.h:10-13. -/
structure SffsState (K : Type) where
  data : BitVector
  score : K

/-- `struct sffs_config`, sffs_types.h:10-18.  Simplification: `min` is not negative (with a negative `min` the code
would index an empty vector); `to_string`, `to_arr_str` only print. -/
structure Config (K : Type) where
  bits : Nat
  fitness : BitVector → K
  seed : Option BitVector
  min : Nat
  max : Nat

/-- A default constructed `sffs_state`, sffs.h:10-13. -/
def blank (maxK : K) : SffsState K := ⟨BitVector.empty, maxK⟩

/-- The vectors put into the jobs by `get_state`, sffs.h:20-23: every bit that differs from `is_forward`, set to
`is_forward`. -/
def candidates (bits : Nat) (current : BitVector) (isForward : Bool) : R (List BitVector) :=
  (List.range bits).foldlM (fun js i => do
    if (← current.getBit i) == isForward then .ok js
    else
      let test ← current.setBit i isForward
      .ok (js ++ [test])) []

/-- The job built for one vector, sffs.h:24-29 (the assertion only prints). -/
def job (fitness : BitVector → K) (test : BitVector) : List (SffsState K) := [⟨test, fitness test⟩]

/-- The body of the collector, sffs.h:36-38 (it runs under a mutex, like the collector of Model/Jobs.lean). -/
def keepBest (best result : SffsState K) : SffsState K := if result.score < best.score then result else best

/-- `get_state`, sffs.h:17-42: `r` is a possible return value when the candidates are `tests` and `run_jobs` uses up to
`threads` threads (`default_max_threads()`, types.h:237-239, is at least 2). -/
def GetState (threads : Nat) (maxK : K) (fitness : BitVector → K) (tests : List BitVector) (r : SffsState K) : Prop :=
  ∃ n c, Jobs.Reach (job fitness) (Jobs.threadCount tests threads) (Jobs.init tests) n c ∧
    Jobs.Returned (Jobs.threadCount tests threads) c ∧ r = c.collected.foldl keepBest (blank maxK)

/-- Control points of `run_sffs`. -/
inductive Pc (K : Type) where
  /-- before `while (k < max)`, sffs.h:65 -/
  | outer
  /-- before `while (k > min)`, sffs.h:66 -/
  | inner
  /-- before the forward block, sffs.h:79 -/
  | forward
  /-- after `return best`, sffs.h:97 -/
  | returned (best : SffsState K)
  /-- undefined behaviour -/
  | fault (f : Fault)

/-- A configuration of `run_sffs`.  `ks` is the map; a missing key reads as a blank state (`operator[]` inserts one). -/
structure Conf (K : Type) where
  ks : Nat → SffsState K
  k : Nat
  pc : Pc K
  /-- (ghost) every vector whose fitness has been computed -/
  evaluated : List BitVector

/-- `std::map` assignment. -/
def setKey (ks : Nat → SffsState K) (i : Nat) (s : SffsState K) : Nat → SffsState K :=
  fun j => if j = i then s else ks j

/-- The final loop, sffs.h:91-97, in ascending key order.  Simplification: it runs over all keys `0 ..= bits`; a key
that is not in the map has a blank state, whose score is never chosen. -/
def selectBest (maxK : K) (bits : Nat) (ks : Nat → SffsState K) : SffsState K :=
  (List.range (bits + 1)).foldl (fun best i => if (ks i).score < best.score then ks i else best) (blank maxK)

/-- sffs.h:53-63: the state in which the loops start. -/
def start (maxK : K) (cfg : Config K) : R (Conf K) := do
  let init := match cfg.seed with
    | some s => s
    | none => BitVector.ofSize cfg.bits
  let k ← init.count
  .ok ⟨setKey (fun _ => blank maxK) k ⟨init, cfg.fitness init⟩, k, .outer, [init]⟩

/-- One step of `run_sffs`, sffs.h:65-98. -/
inductive Step (threads : Nat) (maxK : K) (cfg : Config K) : Conf K → Conf K → Prop where
  /-- `while (k < max)` with `max = std::min(config.bits, config.max)`, sffs.h:59, 65 -/
  | enter (c : Conf K) (h : c.pc = .outer) (hk : c.k < min cfg.bits cfg.max) :
      Step threads maxK cfg c { c with pc := .inner }
  /-- the outer loop ends, sffs.h:91-97 -/
  | ret (c : Conf K) (h : c.pc = .outer) (hk : ¬ c.k < min cfg.bits cfg.max) :
      Step threads maxK cfg c { c with pc := .returned (selectBest maxK cfg.bits c.ks) }
  /-- the inner loop condition fails, sffs.h:66 -/
  | leave (c : Conf K) (h : c.pc = .inner) (hk : ¬ c.k > cfg.min) :
      Step threads maxK cfg c { c with pc := .forward }
  /-- a backward step is taken, sffs.h:67-75 -/
  | backward (c : Conf K) (h : c.pc = .inner) (hk : c.k > cfg.min) (tests new)
      (ht : candidates cfg.bits (c.ks c.k).data false = .ok tests)
      (hn : GetState threads maxK cfg.fitness tests new)
      (hb : (c.ks (c.k - 1)).data.size = 0 ∨ new.score < (c.ks (c.k - 1)).score) :
      Step threads maxK cfg c ⟨setKey c.ks (c.k - 1) new, c.k - 1, .inner, c.evaluated ++ tests⟩
  /-- no backward improvement: `break`, sffs.h:76 -/
  | noBackward (c : Conf K) (h : c.pc = .inner) (hk : c.k > cfg.min) (tests new)
      (ht : candidates cfg.bits (c.ks c.k).data false = .ok tests)
      (hn : GetState threads maxK cfg.fitness tests new)
      (hb : ¬ ((c.ks (c.k - 1)).data.size = 0 ∨ new.score < (c.ks (c.k - 1)).score)) :
      Step threads maxK cfg c { c with pc := .forward, evaluated := c.evaluated ++ tests }
  /-- the forward block, sffs.h:79-88 -/
  | forward (c : Conf K) (h : c.pc = .forward) (tests new)
      (ht : candidates cfg.bits (c.ks c.k).data true = .ok tests)
      (hn : GetState threads maxK cfg.fitness tests new) :
      Step threads maxK cfg c
        ⟨if (c.ks (c.k + 1)).data.size = 0 ∨ new.score < (c.ks (c.k + 1)).score then setKey c.ks (c.k + 1) new
          else c.ks, c.k + 1, .outer, c.evaluated ++ tests⟩
  /-- reading a bit outside the data while building the candidates -/
  | crashBackward (c : Conf K) (h : c.pc = .inner) (hk : c.k > cfg.min) (f)
      (ht : candidates cfg.bits (c.ks c.k).data false = .error f) :
      Step threads maxK cfg c { c with pc := .fault f }
  | crashForward (c : Conf K) (h : c.pc = .forward) (f)
      (ht : candidates cfg.bits (c.ks c.k).data true = .error f) :
      Step threads maxK cfg c { c with pc := .fault f }

/-- Reachable in exactly `n` steps. -/
inductive Reach (threads : Nat) (maxK : K) (cfg : Config K) (c₀ : Conf K) : Nat → Conf K → Prop where
  | start : Reach threads maxK cfg c₀ 0 c₀
  | step {n c c'} : Reach threads maxK cfg c₀ n c → Step threads maxK cfg c c' → Reach threads maxK cfg c₀ (n + 1) c'

/-- `find_seed`, search_command.h:20-32; `r` are the random vectors drawn (`random_bit_vector`, 11-18), one per try. -/
def findSeed (maxK : K) (bits : Nat) (fitness : BitVector → K) (r : List BitVector) : BitVector :=
  (r.foldl (fun (best : BitVector × K) v => if fitness v < best.2 then (v, fitness v) else best)
    (BitVector.ofSize bits, maxK)).1

/-- `random_bit_vector`, search_command.h:11-18; `draws` are the values of the generator. -/
def randomBitVector (bits : Nat) (draws : Nat → BitVec 64) : R BitVector :=
  (List.range bits).foldlM (fun bv b => bv.setBit b ((draws b) &&& 1#64 != 0#64)) (BitVector.ofSize bits)

end TFR.Sffs
