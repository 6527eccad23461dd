import Verif.Model.Score
import Verif.Model.Console
/-
The console output of the mixer search: tool/src/util/sffsutils.h (to_string, create_sffs_printer), the calls of the callback in
tool/src/util/sffs.h, the texts of tool/src/search/search_configs.h and start_search of tool/src/search/search_command.h.
Numbers are exact; their text is that of `std::ostream` (Model/Console).
-/
namespace TFR

/-- `to_string(const bit_vector&)`, bitvector.h:75-81. -/
def bitVectorText (v : BitVector) : R (List Char) :=
  (List.range v.size).foldlM (fun s i => do
    let b ← v.getBit i
    .ok (s ++ [if b then '1' else '0'])) []

/-- `ss << c` for a constant of type `T`: `uint8_t` is a character type, so the character with this code is written. -/
def constantText (t : WT) (c : BitVec t.bits) : List Char :=
  match t with
  | .u8 => [Char.ofNat c.toNat]
  | _ => Nat.toDigits 10 c.toNat

/-- `"    x ^= x >> " << c << ";\n"` of search_configs.h. -/
def shiftLine (t : WT) (c : BitVec t.bits) : List Char := "    x ^= x >> ".toList ++ constantText t c ++ ";\n".toList
/-- `"    x *= " << c << suffix` of search_configs.h. -/
def multiplyLine (t : WT) (m : BitVec t.bits) (suffix : String) : List Char := "    x *= ".toList ++ constantText t m ++ suffix.toList

/-- `to_str` of `get_xmx_config`, search_configs.h:11-18. -/
def xmxText (t : WT) (bits : BitVector) : R (List Char) := do
  let c ← toXmx t bits
  .ok (shiftLine t c.c1 ++ multiplyLine t c.m1 "ull;\n" ++ shiftLine t c.c2)
/-- `to_arr_str` of `get_xmx_config`, search_configs.h:20-25. -/
def xmxArrayText (t : WT) (bits : BitVector) : R (List Char) := do
  let c ← toXmx t bits
  .ok (constantText t c.c1 ++ ", ".toList ++ constantText t c.c2 ++ ", ".toList ++ constantText t c.m1)
/-- `to_str` of `get_xm2x_config`, search_configs.h:39-48. -/
def xm2xText (t : WT) (bits : BitVector) : R (List Char) := do
  let c ← toXm2x t bits
  .ok (shiftLine t c.c1 ++ multiplyLine t c.m1 ";\n" ++ shiftLine t c.c2 ++ multiplyLine t c.m1 ";\n" ++ shiftLine t c.c3)
/-- `to_arr_str` of `get_xm2x_config`, search_configs.h:50-55. -/
def xm2xArrayText (t : WT) (bits : BitVector) : R (List Char) := do
  let c ← toXm2x t bits
  .ok (constantText t c.c1 ++ ", ".toList ++ constantText t c.c2 ++ ", ".toList ++ constantText t c.c3 ++ ", ".toList ++ constantText t c.m1)
/-- `to_str` of `get_xm3x_config`, search_configs.h:71-82. -/
def xm3xText (t : WT) (bits : BitVector) : R (List Char) := do
  let c ← toXm3x t bits
  .ok (shiftLine t c.c1 ++ multiplyLine t c.m1 "ull;\n" ++ shiftLine t c.c2 ++ multiplyLine t c.m1 "ull;\n" ++ shiftLine t c.c3 ++
    multiplyLine t c.m1 "ull;\n" ++ shiftLine t c.c4)
/-- `to_arr_str` of `get_xm3x_config`, search_configs.h:84-89. -/
def xm3xArrayText (t : WT) (bits : BitVector) : R (List Char) := do
  let c ← toXm3x t bits
  .ok (constantText t c.c1 ++ ", ".toList ++ constantText t c.c2 ++ ", ".toList ++ constantText t c.c3 ++ ", ".toList ++ constantText t c.c4 ++
    ", ".toList ++ constantText t c.m1)

namespace Sffs

section
variable {K : Type} [LinearOrder K]

/-- One call of the callback: `k`, the new state and the old state. -/
structure Report (K : Type) where
  k : Nat
  new : SffsState K
  old : SffsState K

/-- One step of `run_sffs` together with the call of the callback it makes, if any (sffs.h:72-74 and 85-87).  The steps without a call are
those that leave `k` as it is; the two steps with a call are `Step.backward` and `Step.forward`. -/
inductive ReportStep (threads : Nat) (maxK : K) (cfg : Config K) : Conf K → Option (Report K) → Conf K → Prop where
  | silent (c c' : Conf K) (h : Step threads maxK cfg c c') (hk : c'.k = c.k) : ReportStep threads maxK cfg c none c'
  | backward (c : Conf K) (h : c.pc = .inner) (hk : c.k > cfg.min) (tests new)
      (ht : candidates cfg.bits (c.ks c.k).data false = .ok tests)
      (hn : GetState threads maxK cfg.fitness tests new)
      (hb : (c.ks (c.k - 1)).data.size = 0 ∨ new.score < (c.ks (c.k - 1)).score) :
      ReportStep threads maxK cfg c (some ⟨c.k - 1, new, c.ks (c.k - 1)⟩) ⟨setKey c.ks (c.k - 1) new, c.k - 1, .inner, c.evaluated ++ tests⟩
  | forward (c : Conf K) (h : c.pc = .forward) (tests new)
      (ht : candidates cfg.bits (c.ks c.k).data true = .ok tests)
      (hn : GetState threads maxK cfg.fitness tests new) :
      ReportStep threads maxK cfg c (some ⟨c.k + 1, new, c.ks (c.k + 1)⟩)
        ⟨if (c.ks (c.k + 1)).data.size = 0 ∨ new.score < (c.ks (c.k + 1)).score then setKey c.ks (c.k + 1) new
          else c.ks, c.k + 1, .outer, c.evaluated ++ tests⟩

/-- A run with the calls of the callback it made, in order. -/
inductive Reported (threads : Nat) (maxK : K) (cfg : Config K) (c₀ : Conf K) : List (Report K) → Conf K → Prop where
  | start : Reported threads maxK cfg c₀ [] c₀
  | step {log c o c'} : Reported threads maxK cfg c₀ log c → ReportStep threads maxK cfg c o c' →
      Reported threads maxK cfg c₀ (log ++ o.toList) c'

end

/-- `to_string(const sffs_state&, to_arr_str)`, sffsutils.h:10-18; all configurations have a `to_arr_str`. -/
noncomputable def stateText (arr : BitVector → R (List Char)) (s : SffsState ℝ) : R (List Char) := do
  let b ← bitVectorText s.data
  let a ← arr s.data
  .ok (b ++ " [ ".toList ++ a ++ " ]".toList ++ " : ".toList ++ formatDouble s.score)

/-- The callback of `create_sffs_printer`, sffsutils.h:20-25. -/
noncomputable def reportText (arr : BitVector → R (List Char)) (r : Report ℝ) : R (List Char) := do
  let s ← stateText arr r.new
  .ok ("k: ".toList ++ Nat.toDigits 10 r.k ++ ": ".toList ++ s ++ " vs ".toList ++ formatDouble r.old.score ++ "\n".toList)

end Sffs

/-- The rule of `start_search`, search_command.h:39, 41. -/
def searchRule : List Char := List.replicate 27 '=' ++ ['\n']

/-- The output of `start_search` before the search, search_command.h:39-49, for a seed of the right size. -/
noncomputable def searchHeading (name : String) (cfg : Sffs.Config ℝ) (code : BitVector → R (List Char)) : R (List Char) := do
  let seed ← match cfg.seed with
    | some s => do
      let c ← code s
      .ok (c ++ "\n".toList ++ "Seed fitness: ".toList ++ formatDouble (cfg.fitness s) ++ "\n".toList)
    | none => .ok []
  .ok (searchRule ++ name.toList ++ " ".toList ++ Nat.toDigits 10 cfg.bits ++ " bits\n".toList ++ searchRule ++ seed)

/-- `start_search`, search_command.h:34-57, with its output: `r` and `text` are a possible result and what was written to the console.
`code` and `arr` are `to_string` and `to_arr_str` of the configuration. -/
def SearchPrints (threads : Nat) (name : String) (cfg : Sffs.Config ℝ) (code arr : BitVector → R (List Char)) (r : Sffs.SffsState ℝ)
    (text : R (List Char)) : Prop :=
  match cfg.seed.filter fun s => s.size != cfg.bits with
  | some s => r = Sffs.blank doubleMax ∧ text = .ok (searchRule ++ name.toList ++ " ".toList ++ Nat.toDigits 10 cfg.bits ++ " bits\n".toList ++ searchRule ++
      "Seed size is not correct, expected ".toList ++ Nat.toDigits 10 cfg.bits ++ " but seed is ".toList ++ Nat.toDigits 10 s.size ++ ".\n".toList)
  | none => ∃ c₀ log c, Sffs.start doubleMax cfg = .ok c₀ ∧ Sffs.Reported threads doubleMax cfg c₀ log c ∧ c.pc = .returned r ∧
      text = (do
        let heading ← searchHeading name cfg code
        let lines ← log.mapM (Sffs.reportText arr)
        let result ← Sffs.stateText arr r
        let mixer ← code r.data
        .ok (heading ++ lines.flatten ++ result ++ "\n".toList ++ mixer))

end TFR
